import Verif.Model.Jax
import Mathlib.Data.List.Basic
import Mathlib.Data.List.GetD

/-! # Facts about the array primitives -/

namespace Verif

theorem filter_range_lower (p : ℕ → Bool) (N : ℕ) (h : ∀ i j, i ≤ j → j < N → p j = true → p i = true) :
    ∀ i < N, (i < ((List.range N).filter p).length ↔ p i = true) := by
  induction N with
  | zero => intro i hi; omega
  | succ N ih =>
    have ih' := ih (fun i j hij hj => h i j hij (by omega))
    intro i hi
    rw [List.range_succ, List.filter_append, List.length_append]
    have hle : ((List.range N).filter p).length ≤ N := by
      simpa using List.length_filter_le p (List.range N)
    by_cases hN : p N = true
    · have hall : ∀ j < N, p j = true := fun j hj => h j N (by omega) (by omega) hN
      have : (List.range N).filter p = List.range N := by
        rw [List.filter_eq_self]; intro a ha; exact hall a (List.mem_range.1 ha)
      rw [this]
      simp only [List.length_range, List.filter_cons, hN, if_true, List.filter_nil, List.length_singleton]
      constructor
      · intro _; exact h i N (by omega) (by omega) hN
      · intro _; omega
    · have e : (List.filter p [N]).length = 0 := by simp [hN]
      rw [e, Nat.add_zero]
      by_cases hiN : i < N
      · exact ih' i hiN
      · have : i = N := by omega
        subst this
        constructor
        · intro h'; omega
        · intro h'; exact absurd h' hN

/-- the array is non-decreasing -/
def Sorted (t : Arr ℝ) : Prop := ∀ i j, i ≤ j → j < t.len → t.get i ≤ t.get j

theorem searchsorted_lt_iff {t : Arr ℝ} (ht : Sorted t) (x : ℝ) {i : ℕ} (hi : i < t.len) :
    i < searchsortedRight t x ↔ t.get i ≤ x := by
  unfold searchsortedRight
  rw [filter_range_lower _ _ _ i hi]
  · simp
  · intro i j hij hj h
    simp only [decide_eq_true_eq] at h ⊢
    exact (ht i j hij hj).trans h

theorem searchsorted_le {t : Arr ℝ} (x : ℝ) : searchsortedRight t x ≤ t.len := by
  unfold searchsortedRight
  simpa using List.length_filter_le _ (List.range t.len)

theorem nonzeroSize_all (N : ℕ) (mask : ℕ → Bool) (h : ∀ i, mask i = true) {i : ℕ} (hi : i < N) :
    (nonzeroSize N mask N).get i = i := by
  simp only [nonzeroSize]
  have : (List.range N).filter mask = List.range N := by
    rw [List.filter_eq_self]; intro a _; exact h a
  rw [this]
  simp [List.getD_eq_getElem?_getD, hi]

theorem argsort_sorted (a : Arr ℕ) (h : ∀ i j, i ≤ j → j < a.len → a.get i ≤ a.get j) {i : ℕ} (hi : i < a.len) :
    (argsort a).get i = i := by
  simp only [argsort, Arr.ofList]
  have : (List.range a.len).mergeSort (fun i j => decide (a.get i ≤ a.get j)) = List.range a.len := by
    apply List.mergeSort_of_pairwise
    rw [List.pairwise_iff_getElem]
    intro i j hi hj hij
    simp only [List.getElem_range, decide_eq_true_eq]
    simp only [List.length_range] at hj
    exact h i j hij.le hj
  rw [this]
  simp [List.getD_eq_getElem?_getD, hi]

theorem argsort_len (a : Arr ℕ) : (argsort a).len = a.len := by
  simp [argsort, Arr.ofList]

end Verif
