import Verif.Model.GPCore

/-!
# Values of `_compute_log_prob`
-/

namespace Verif
open Matrix

theorem nanSum_some (f : ℕ → Flt) (g : ℕ → ℝ) (N : ℕ) (h : ∀ k < N, f k = some (g k)) :
    nanSum f N = some (∑ k ∈ Finset.range N, g k) := by
  induction N with
  | zero => simp [nanSum]
  | succ N ih =>
    rw [nanSum, ih (fun k hk => h k (by omega)), h N (by omega), Finset.sum_range_succ]
    rfl

theorem nanSum_none (f : ℕ → Flt) (N k : ℕ) (hk : k < N) (h : f k = none) : nanSum f N = none := by
  induction N with
  | zero => omega
  | succ N ih =>
    rcases Nat.lt_succ_iff_lt_or_eq.1 hk with h1 | h1
    · rw [nanSum, ih h1]; rfl
    · subst h1
      rw [nanSum, h]
      cases nanSum f k <;> rfl

theorem computeLogProb_of_pos (v : Arr (Fin 1 → ℝ)) (S : Arr (Matrix (Fin 1) (Fin 1) ℝ))
    (hS : ∀ i < v.len, 0 < (S.get i) 0 0) : computeLogProb v S = ((-(1 / 2) * ∑ i ∈ Finset.range v.len,
      (((v.get i) 0 / Real.sqrt ((S.get i) 0 0)) ^ 2 + 2 * Real.log (Real.sqrt ((S.get i) 0 0)) +
      1 * Real.log (2 * Real.pi)) : ℝ) : EReal) := by
  unfold computeLogProb
  rw [nanSum_some _ (fun i => (((v.get i) 0 / Real.sqrt ((S.get i) 0 0)) ^ 2 + 2 * Real.log (Real.sqrt ((S.get i) 0 0)) +
      1 * Real.log (2 * Real.pi)))]
  · rfl
  · intro k hk
    rw [logProbTerm, cholesky1, if_pos (hS k hk)]
    rfl

theorem computeLogProb_eq (v : Arr (Fin 1 → ℝ)) (S : Arr (Matrix (Fin 1) (Fin 1) ℝ))
    (hS : ∀ i < v.len, 0 < (S.get i) 0 0) : computeLogProb v S = ((-(1 / 2) * ∑ i : Fin v.len,
      (((v.get i) 0 / Real.sqrt ((S.get i) 0 0)) ^ 2 + 2 * Real.log (Real.sqrt ((S.get i) 0 0)) +
      1 * Real.log (2 * Real.pi)) : ℝ) : EReal) := by
  rw [computeLogProb_of_pos v S hS, ← Fin.sum_univ_eq_sum_range (fun i =>
    ((v.get i) 0 / Real.sqrt ((S.get i) 0 0)) ^ 2 + 2 * Real.log (Real.sqrt ((S.get i) 0 0)) + 1 * Real.log (2 * Real.pi))]

theorem computeLogProb_of_not_pos (v : Arr (Fin 1 → ℝ)) (S : Arr (Matrix (Fin 1) (Fin 1) ℝ))
    (hS : ¬ ∀ i < v.len, 0 < (S.get i) 0 0) : computeLogProb v S = ⊥ := by
  push Not at hS
  obtain ⟨i, hi, h⟩ := hS
  unfold computeLogProb
  rw [nanSum_none _ _ i hi (by rw [logProbTerm, cholesky1, if_neg (not_lt.2 h)]; rfl)]
  rfl

end Verif
