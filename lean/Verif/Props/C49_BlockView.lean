import Verif.Model.BlockView
import Mathlib.Tactic.Ring

/-!
# C49: `block_view`
-/

namespace Verif

/-- **C49, failure.** On an array with two axes `block_view` succeeds exactly if `b` is positive and divides both lengths. -/
theorem C49_fails_iff {α : Type} (A : NDArray α) (N M b : ℕ) (hA : A.shape = [N, M]) :
    (∃ B, blockView A b = .ok B) ↔ 0 < b ∧ b ∣ N ∧ b ∣ M := by
  unfold blockView
  rw [hA]
  simp only
  rcases Nat.eq_zero_or_pos b with h0 | h0
  · rw [if_pos h0]
    constructor
    · rintro ⟨B, h⟩
      exact absurd h (by simp)
    · rintro ⟨h, _⟩
      omega
  · rw [if_neg (by omega)]
    by_cases hd : N % b = 0 ∧ M % b = 0
    · rw [if_pos hd]
      refine ⟨fun _ => ⟨h0, Nat.dvd_of_mod_eq_zero hd.1, Nat.dvd_of_mod_eq_zero hd.2⟩, fun _ => ?_⟩
      have hN := Nat.div_mul_cancel (Nat.dvd_of_mod_eq_zero hd.1)
      have hM := Nat.div_mul_cancel (Nat.dvd_of_mod_eq_zero hd.2)
      have hp : A.shape.prod = [N / b, b, M / b, b].prod := by
        rw [hA]
        simp only [List.prod_cons, List.prod_nil, mul_one]
        rw [← mul_assoc, hN, hM]
      unfold NDArray.reshape
      rw [if_pos hp]
      exact ⟨_, rfl⟩
    · rw [if_neg hd]
      constructor
      · rintro ⟨B, h⟩
        exact absurd h (by simp)
      · rintro ⟨_, h1, h2⟩
        exact absurd ⟨Nat.mod_eq_zero_of_dvd h1, Nat.mod_eq_zero_of_dvd h2⟩ hd

/-- and on an array with another number of axes it raises -/
theorem C49_two_axes {α : Type} (A : NDArray α) (b : ℕ) (h : A.shape.length ≠ 2) : blockView A b = .error .valueError := by
  unfold blockView
  split
  · rename_i h'
    rw [h'] at h
    exact absurd rfl h
  · rfl

/-- **C49.** The result of `block_view(A, b)` for an `N b` by `M b` array is an `N` by `M` by `b` by `b` array, whose entry
`[i, j, p, q]` is the entry `(p, q)` of the block in block-row `i` and block-column `j` of `A`. -/
theorem C49_block_view {α : Type} (A : NDArray α) (N M b : ℕ) (hb : 0 < b) (hA : A.shape = [N * b, M * b]) :
    ∃ B, blockView A b = .ok B ∧ B.shape = [N, M, b, b] ∧
      ∀ i j p q, i < N → j < M → p < b → q < b → B.get [i, j, p, q] = A.get [i * b + p, j * b + q] := by
  have hN : N * b / b = N := Nat.mul_div_cancel _ hb
  have hM : M * b / b = M := Nat.mul_div_cancel _ hb
  have hp : A.shape.prod = [N, b, M, b].prod := by
    rw [hA]
    simp only [List.prod_cons, List.prod_nil, mul_one]
    ring
  refine ⟨⟨[N, M, b, b], fun r => match unravel [N, M, b, b] r with
      | [i, j, k, l] => NDArray.get ⟨[N, b, M, b], A.entry⟩ [i, k, j, l]
      | _ => A.entry r⟩, ?_, rfl, ?_⟩
  · unfold blockView
    rw [hA]
    simp only
    rw [if_neg (by omega), if_pos ⟨Nat.mul_mod_left _ _, Nat.mul_mod_left _ _⟩, hN, hM]
    unfold NDArray.reshape
    rw [if_pos hp]
    rfl
  · intro i j p q hi hj hp' hq
    have hr : unravel [N, M, b, b] (ravel [N, M, b, b] [i, j, p, q]) = [i, j, p, q] := by
      have e : ravel [N, M, b, b] [i, j, p, q] = i * (M * (b * b)) + (j * (b * b) + (p * b + q)) := by
        simp [ravel]
      have h1 : p * b + q < b * b := by nlinarith
      have h2 : j * (b * b) + (p * b + q) < M * (b * b) := by nlinarith [Nat.mul_le_mul_right (b * b) (Nat.succ_le_of_lt hj)]
      have hM0 : 0 < M := by omega
      have d1 : (i * (M * (b * b)) + (j * (b * b) + (p * b + q))) / (M * (b * b)) = i := by
        rw [add_comm, Nat.add_mul_div_right _ _ (by positivity), Nat.div_eq_of_lt h2, zero_add]
      have m1 : (i * (M * (b * b)) + (j * (b * b) + (p * b + q))) % (M * (b * b)) = j * (b * b) + (p * b + q) := by
        rw [add_comm, Nat.add_mul_mod_self_right, Nat.mod_eq_of_lt h2]
      have d2 : (j * (b * b) + (p * b + q)) / (b * b) = j := by
        rw [add_comm, Nat.add_mul_div_right _ _ (by positivity), Nat.div_eq_of_lt h1, zero_add]
      have m2 : (j * (b * b) + (p * b + q)) % (b * b) = p * b + q := by
        rw [add_comm, Nat.add_mul_mod_self_right, Nat.mod_eq_of_lt h1]
      have d3 : (p * b + q) / b = p := by
        rw [add_comm, Nat.add_mul_div_right _ _ hb, Nat.div_eq_of_lt hq, zero_add]
      have m3 : (p * b + q) % b = q := by
        rw [add_comm, Nat.add_mul_mod_self_right, Nat.mod_eq_of_lt hq]
      rw [e]
      simp only [unravel, List.prod_cons, List.prod_nil, mul_one, d1, m1, d2, m2, d3, m3, Nat.div_one]
    unfold NDArray.get
    simp only [hr]
    rw [hA]
    congr 1
    simp [ravel]
    ring

section examples
/-- a 4 by 6 array in 2 by 2 blocks: the block `[1, 2]` is in the lower right corner -/
example : ∃ B, blockView (⟨[4, 6], fun p => p⟩ : NDArray ℕ) 2 = .ok B ∧ B.get [1, 2, 1, 1] = 23 := by
  obtain ⟨B, h1, _, h2⟩ := C49_block_view (⟨[4, 6], fun p => p⟩ : NDArray ℕ) 2 3 2 two_pos rfl
  exact ⟨B, h1, by rw [h2 1 2 1 1 (by norm_num) (by norm_num) (by norm_num) (by norm_num)]; rfl⟩
/-- a 4 by 6 array has no 4 by 4 blocks -/
example : ¬ ∃ B, blockView (⟨[4, 6], fun p => p⟩ : NDArray ℕ) 4 = .ok B := by
  rw [C49_fails_iff _ 4 6 4 rfl]
  norm_num
end examples

end Verif
