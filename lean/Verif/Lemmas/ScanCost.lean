import Verif.Model.Jax
import Verif.Spec.Cost

/-!
# Depth and work of `jax.lax.associative_scan`
-/

namespace Verif
open Spec

theorem assocScanGet_small {α : Type*} (f : α → α → α) {n : ℕ} (h : n < 2) (e : ℕ → α) : assocScanGet f n e = e := by
  rw [assocScanGet, dif_pos h]

theorem assocScanGet_even {α : Type*} (f : α → α → α) {n : ℕ} (h : ¬ n < 2) (e : ℕ → α) {j : ℕ} (hj : j % 2 = 0) :
    assocScanGet f n e j = if j / 2 = 0 then e 0 else
      f (assocScanGet f (n / 2) (fun i => f (e (2 * i)) (e (2 * i + 1))) (j / 2 - 1)) (e (2 * (j / 2))) := by
  rw [assocScanGet, dif_neg h]
  simp only [if_pos hj]

theorem assocScanGet_odd {α : Type*} (f : α → α → α) {n : ℕ} (h : ¬ n < 2) (e : ℕ → α) {j : ℕ} (hj : ¬ j % 2 = 0) :
    assocScanGet f n e j = assocScanGet f (n / 2) (fun i => f (e (2 * i)) (e (2 * i + 1))) (j / 2) := by
  rw [assocScanGet, dif_neg h]
  simp only [if_neg hj]

/-- the calculations done by the scan of `n` inputs -/
def scanPlan (n : ℕ) : ℕ → Calc := assocScanGet Calc.combine n Calc.input

theorem eval_scan {α : Type*} (f : α → α → α) (e : ℕ → α) : ∀ (n : ℕ) (E : ℕ → Calc) (j : ℕ),
    (assocScanGet Calc.combine n E j).eval f e = assocScanGet f n (fun i => (E i).eval f e) j := by
  intro n
  induction n using Nat.strong_induction_on with
  | _ n ih =>
    intro E j
    by_cases hn : n < 2
    · rw [assocScanGet_small _ hn, assocScanGet_small _ hn]
    · have := ih (n / 2) (by omega) (fun i => Calc.combine (E (2 * i)) (E (2 * i + 1)))
      by_cases hj : j % 2 = 0
      · rw [assocScanGet_even _ hn _ hj, assocScanGet_even _ hn _ hj]
        split_ifs
        · rfl
        · exact congrArg (fun z => f z _) (this _)
      · rw [assocScanGet_odd _ hn _ hj, assocScanGet_odd _ hn _ hj]
        exact this _

theorem depth_scan (d : ℕ) : ∀ (n : ℕ) (E : ℕ → Calc), (∀ i < n, (E i).depth ≤ d) → ∀ j < n,
    (assocScanGet Calc.combine n E j).depth ≤ d + 2 * Nat.log 2 n := by
  intro n
  induction n using Nat.strong_induction_on generalizing d with
  | _ n ih =>
    intro E hE j hj
    by_cases hn : n < 2
    · rw [assocScanGet_small _ hn]
      exact (hE j hj).trans (Nat.le_add_right _ _)
    · have hlog : Nat.log 2 n = Nat.log 2 (n / 2) + 1 := Nat.log_of_one_lt_of_le one_lt_two (by omega)
      have h := ih (n / 2) (by omega) (d + 1) (fun i => Calc.combine (E (2 * i)) (E (2 * i + 1))) fun i hi => by
        show max _ _ + 1 ≤ d + 1
        have := hE (2 * i) (by omega)
        have := hE (2 * i + 1) (by omega)
        omega
      by_cases hj2 : j % 2 = 0
      · rw [assocScanGet_even _ hn _ hj2]
        split_ifs with h0
        · exact (hE 0 (by omega)).trans (Nat.le_add_right _ _)
        · have h1 := h (j / 2 - 1) (by omega)
          have h2 := hE (2 * (j / 2)) (by omega)
          show max _ _ + 1 ≤ _
          omega
      · rw [assocScanGet_odd _ hn _ hj2]
        have := h (j / 2) (by omega)
        omega

theorem work_scan : ∀ (n : ℕ) (E : ℕ → Calc), 0 < n → ∃ S : Set Calc, S.encard ≤ (2 * n - 2 : ℕ) ∧ ∀ j < n,
    (assocScanGet Calc.combine n E j).steps ⊆ S ∪ ⋃ i ∈ Set.Iio n, (E i).steps := by
  intro n
  induction n using Nat.strong_induction_on with
  | _ n ih =>
    intro E hn0
    by_cases hn : n < 2
    · refine ⟨∅, by simp, fun j hj => ?_⟩
      rw [assocScanGet_small _ hn]
      exact fun x hx => .inr (Set.mem_biUnion (Set.mem_Iio.2 hj) hx)
    · set F : ℕ → Calc := fun i => Calc.combine (E (2 * i)) (E (2 * i + 1)) with hF
      obtain ⟨S, hS, hsub⟩ := ih (n / 2) (by omega) F (by omega)
      set G : ℕ → Calc := fun i => Calc.combine (assocScanGet Calc.combine (n / 2) F i) (E (2 * (i + 1))) with hG
      set W := S ∪ (F '' Set.Iio (n / 2) ∪ G '' Set.Iio ((n - 1) / 2)) with hW
      have hodd : ∀ i < n / 2, (assocScanGet Calc.combine (n / 2) F i).steps ⊆ W ∪ ⋃ i ∈ Set.Iio n, (E i).steps := by
        intro i hi x hx
        rcases hsub i hi hx with h | h
        · exact .inl (.inl h)
        · obtain ⟨a, ha, h⟩ := Set.mem_iUnion₂.1 h
          have ha : a < n / 2 := ha
          rcases h with h | h | h
          · exact .inl (.inr (.inl ⟨a, ha, h.symm⟩))
          · exact .inr (Set.mem_biUnion (x := 2 * a) (Set.mem_Iio.2 (by omega)) h)
          · exact .inr (Set.mem_biUnion (x := 2 * a + 1) (Set.mem_Iio.2 (by omega)) h)
      refine ⟨W, ?_, fun j hj => ?_⟩
      · have hc : ∀ (g : ℕ → Calc) (a : ℕ), (g '' Set.Iio a).encard ≤ (a : ℕ∞) := fun g a => by
          refine (Set.encard_image_le g _).trans (le_of_eq ?_)
          rw [← Finset.coe_range, Set.encard_coe_eq_coe_finsetCard, Finset.card_range]
        calc W.encard ≤ S.encard + ((F '' Set.Iio (n / 2)).encard + (G '' Set.Iio ((n - 1) / 2)).encard) :=
              (Set.encard_union_le _ _).trans (add_le_add le_rfl (Set.encard_union_le _ _))
          _ ≤ (2 * (n / 2) - 2 : ℕ) + ((n / 2 : ℕ) + ((n - 1) / 2 : ℕ)) := add_le_add hS (add_le_add (hc _ _) (hc _ _))
          _ = ((2 * (n / 2) - 2 + (n / 2 + (n - 1) / 2) : ℕ) : ℕ∞) := by push_cast; rfl
          _ ≤ (2 * n - 2 : ℕ) := Nat.cast_le.2 (by omega)
      · by_cases hj2 : j % 2 = 0
        · rw [assocScanGet_even _ hn _ hj2]
          split_ifs with h0
          · exact fun x hx => .inr (Set.mem_biUnion (x := 0) (Set.mem_Iio.2 (by omega)) hx)
          · rintro x (hx | hx | hx)
            · refine .inl (.inr (.inr ⟨j / 2 - 1, Set.mem_Iio.2 (by omega), ?_⟩))
              rw [hx, hG]
              simp only
              rw [show j / 2 - 1 + 1 = j / 2 by omega]
            · exact hodd _ (by omega) hx
            · exact .inr (Set.mem_biUnion (x := 2 * (j / 2)) (Set.mem_Iio.2 (by omega)) hx)
        · rw [assocScanGet_odd _ hn _ hj2]
          exact hodd _ (by omega)

theorem inputs_scan : ∀ (n : ℕ) (E : ℕ → Calc) (j : ℕ), j < n →
    (assocScanGet Calc.combine n E j).inputs = (List.range (j + 1)).flatMap fun i => (E i).inputs := by
  intro n
  induction n using Nat.strong_induction_on with
  | _ n ih =>
    intro E j hj
    by_cases hn : n < 2
    · obtain rfl : j = 0 := by omega
      rw [assocScanGet_small _ hn]
      simp
    · have h2 : ∀ k, ((List.range k).flatMap fun i => (Calc.combine (E (2 * i)) (E (2 * i + 1))).inputs) =
          (List.range (2 * k)).flatMap fun i => (E i).inputs := by
        intro k
        induction k with
        | zero => rfl
        | succ k ihk =>
          rw [List.range_succ, List.flatMap_append, ihk, show 2 * (k + 1) = 2 * k + 1 + 1 by ring, List.range_succ, List.range_succ]
          simp [Calc.inputs]
      have h := fun i hi => (ih (n / 2) (by omega) (fun i => Calc.combine (E (2 * i)) (E (2 * i + 1))) i hi).trans (h2 (i + 1))
      by_cases hj2 : j % 2 = 0
      · rw [assocScanGet_even _ hn _ hj2]
        split_ifs with h0
        · obtain rfl : j = 0 := by omega
          simp
        · rw [Calc.inputs, h _ (by omega), show 2 * (j / 2 - 1 + 1) = j by omega, show 2 * (j / 2) = j by omega, List.range_succ]
          simp
      · rw [assocScanGet_odd _ hn _ hj2, h _ (by omega), show 2 * (j / 2 + 1) = j + 1 by omega]

/-- the plan of the scan: correct for every operation, logarithmic depth, linear work, every prefix in its order -/
theorem scanPlan_spec (n : ℕ) :
    (∀ {α : Type*} (f : α → α → α) (e : ℕ → α) (j : ℕ), assocScanGet f n e j = (scanPlan n j).eval f e) ∧
    (∀ j < n, (scanPlan n j).depth ≤ 2 * Nat.log 2 n) ∧ work n (scanPlan n) ≤ (2 * n : ℕ) ∧
    ∀ j < n, (scanPlan n j).inputs = List.range (j + 1) := by
  refine ⟨fun f e j => (eval_scan f e n Calc.input j).symm, fun j hj => ?_, ?_, fun j hj => ?_⟩
  · have := depth_scan 0 n Calc.input (fun _ _ => le_refl _) j hj
    rwa [Nat.zero_add] at this
  · rcases Nat.eq_zero_or_pos n with rfl | hn
    · simp [work]
    · obtain ⟨S, hS, hsub⟩ := work_scan n Calc.input hn
      refine (Set.encard_le_encard (t := S) fun x hx => ?_).trans (hS.trans (Nat.cast_le.2 (Nat.sub_le _ _)))
      obtain ⟨j, hj, hx⟩ := Set.mem_iUnion₂.1 hx
      rcases hsub j hj hx with h | h
      · exact h
      · simp [Calc.steps] at h
  · rw [scanPlan, inputs_scan n _ j hj]
    simp [Calc.inputs]

end Verif
