import Verif.Lemmas.NoisySmooth

/-! # Errors of the process noise of sums and products -/

set_option linter.unusedSectionVars false

namespace Verif
open Matrix Spec Kronecker

theorem psd_entry {n : Type*} [Fintype n] [DecidableEq n] {M : Matrix n n ℝ} (h : M.PosSemidef) {p : ℝ} (hp : ∀ a, M a a ≤ p) (a b : n) :
    |M a b| ≤ p := by
  have h1 := psd_cauchy h (Pi.single a 1) (Pi.single b 1)
  simp only [mulVec_single_one, single_one_dotProduct, col_apply] at h1
  have h0 : ∀ a, 0 ≤ M a a := fun a => by
    have := ((psd_iff M).1 h).2 (Pi.single a 1)
    simpa using this
  refine abs_le_of_sq_le_sq (h1.trans ?_) ((h0 a).trans (hp a))
  rw [sq]
  exact mul_le_mul (hp a) (hp b) (h0 b) ((h0 a).trans (hp a))

namespace SSM
variable {k k1 k2 : SSM} {ε ε1 ε2 p1 p2 c1 c2 : ℝ}

theorem Proper.within (h : k.Proper) : k.NoiseWithin 0 where
  zero := by
    rw [h.Q_eq 0 le_rfl, h.A_zero]
    simp
  symm s hs := psd_symm (h.Q_psd s hs)
  near s hs a b := by
    rw [h.Q_eq s hs, sub_self]
    simp

theorem NoiseWithin.mono (h : k.NoiseWithin ε) {ε' : ℝ} (hle : ε ≤ ε') : k.NoiseWithin ε' :=
  ⟨h.zero, h.symm, fun s hs a b => (h.near s hs a b).trans hle⟩

theorem NoiseWithin.sum (h1 : k1.NoiseWithin ε1) (h2 : k2.NoiseWithin ε2) (he1 : 0 ≤ ε1) : (k1.sum k2).NoiseWithin (max ε1 ε2) where
  zero := by
    show blockDiag (k1.Qt 0 0) (k2.Qt 0 0) = 0
    rw [h1.zero, h2.zero]
    exact blockDiag_zero
  symm s hs := by
    show (blockDiag (k1.Qt 0 s) (k2.Qt 0 s))ᵀ = blockDiag (k1.Qt 0 s) (k2.Qt 0 s)
    rw [blockDiag_transpose, h1.symm s hs, h2.symm s hs]
  near s hs := by
    have e : (k1.sum k2).Qt 0 s - ((k1.sum k2).Pinf - (k1.sum k2).At 0 s * (k1.sum k2).Pinf * ((k1.sum k2).At 0 s)ᵀ) =
        blockDiag (k1.Qt 0 s - (k1.Pinf - k1.At 0 s * k1.Pinf * (k1.At 0 s)ᵀ)) (k2.Qt 0 s - (k2.Pinf - k2.At 0 s * k2.Pinf * (k2.At 0 s)ᵀ)) := by
      show blockDiag (k1.Qt 0 s) (k2.Qt 0 s) - (blockDiag k1.Pinf k2.Pinf -
        blockDiag (k1.At 0 s) (k2.At 0 s) * blockDiag k1.Pinf k2.Pinf * (blockDiag (k1.At 0 s) (k2.At 0 s))ᵀ) = _
      rw [blockDiag_transpose, blockDiag_mul, blockDiag_mul, blockDiag_sub, blockDiag_sub]
    rw [e]
    have hz : (0 : ℝ) ≤ max ε1 ε2 := he1.trans (le_max_left _ _)
    rintro (a | a) (b | b)
    · exact (h1.near s hs a b).trans (le_max_left _ _)
    · show |(0 : ℝ)| ≤ _; rw [abs_zero]; exact hz
    · show |(0 : ℝ)| ≤ _; rw [abs_zero]; exact hz
    · exact (h2.near s hs a b).trans (le_max_right _ _)

theorem NoiseWithin.prod {G1 : Matrix k1.n k1.n ℝ} {G2 : Matrix k2.n k2.n ℝ} (hG1 : k1.CovModel G1) (hG2 : k2.CovModel G2)
    (h1 : k1.NoiseWithin ε1) (h2 : k2.NoiseWithin ε2) (he1 : 0 ≤ ε1) (hp1 : ∀ a, k1.Pinf a a ≤ p1) (hp2 : ∀ a, k2.Pinf a a ≤ p2)
    (hp1' : 0 ≤ p1) : (k1.prod k2).NoiseWithin (p1 * ε2 + ε1 * p2 + ε1 * ε2) where
  zero := by
    show k1.Pinf ⊗ₖ k2.Qt 0 0 + k1.Qt 0 0 ⊗ₖ k2.Pinf - k1.Qt 0 0 ⊗ₖ k2.Qt 0 0 = 0
    rw [h1.zero, h2.zero]
    simp
  symm s hs := by
    show (k1.Pinf ⊗ₖ k2.Qt 0 s + k1.Qt 0 s ⊗ₖ k2.Pinf - k1.Qt 0 s ⊗ₖ k2.Qt 0 s)ᵀ = k1.Pinf ⊗ₖ k2.Qt 0 s + k1.Qt 0 s ⊗ₖ k2.Pinf - k1.Qt 0 s ⊗ₖ k2.Qt 0 s
    have kt : ∀ (A : Matrix k1.n k1.n ℝ) (B : Matrix k2.n k2.n ℝ), (A ⊗ₖ B)ᵀ = Aᵀ ⊗ₖ Bᵀ := fun A B => (kroneckerMap_transpose _ _ _)
    rw [transpose_sub, transpose_add, kt, kt, kt, h1.symm s hs, h2.symm s hs, psd_symm hG1.P_psd, psd_symm hG2.P_psd]
  near s hs := by
    set M1 := k1.At 0 s * k1.Pinf * (k1.At 0 s)ᵀ with hM1
    set M2 := k2.At 0 s * k2.Pinf * (k2.At 0 s)ᵀ with hM2
    have m1 : ∀ a b, |M1 a b| ≤ p1 := psd_entry (psd_conj hG1.P_psd _) fun a => by
      have := (psd_iff _).1 (hG1.incr hs) |>.2 (Pi.single a 1)
      simp only [mulVec_single_one, single_one_dotProduct, col_apply, Matrix.sub_apply] at this
      linarith [hp1 a]
    have m2 : ∀ a b, |M2 a b| ≤ p2 := psd_entry (psd_conj hG2.P_psd _) fun a => by
      have := (psd_iff _).1 (hG2.incr hs) |>.2 (Pi.single a 1)
      simp only [mulVec_single_one, single_one_dotProduct, col_apply, Matrix.sub_apply] at this
      linarith [hp2 a]
    have e : (k1.prod k2).Qt 0 s - ((k1.prod k2).Pinf - (k1.prod k2).At 0 s * (k1.prod k2).Pinf * ((k1.prod k2).At 0 s)ᵀ) =
        M1 ⊗ₖ (k2.Qt 0 s - (k2.Pinf - M2)) + (k1.Qt 0 s - (k1.Pinf - M1)) ⊗ₖ M2 -
          (k1.Qt 0 s - (k1.Pinf - M1)) ⊗ₖ (k2.Qt 0 s - (k2.Pinf - M2)) := by
      have ek := kron_conj (k1.At 0 s) (k2.At 0 s) k1.Pinf k2.Pinf
      show (k1.Pinf ⊗ₖ k2.Qt 0 s + k1.Qt 0 s ⊗ₖ k2.Pinf - k1.Qt 0 s ⊗ₖ k2.Qt 0 s) - (k1.Pinf ⊗ₖ k2.Pinf -
        (k1.At 0 s ⊗ₖ k2.At 0 s) * (k1.Pinf ⊗ₖ k2.Pinf) * (k1.At 0 s ⊗ₖ k2.At 0 s)ᵀ) = _
      rw [ek, ← hM1, ← hM2]
      simp only [kron_sub_left, kron_sub_right]
      abel
    rw [e]
    rintro ⟨a1, a2⟩ ⟨b1, b2⟩
    show |M1 a1 b1 * (k2.Qt 0 s - (k2.Pinf - M2)) a2 b2 + (k1.Qt 0 s - (k1.Pinf - M1)) a1 b1 * M2 a2 b2 -
          (k1.Qt 0 s - (k1.Pinf - M1)) a1 b1 * (k2.Qt 0 s - (k2.Pinf - M2)) a2 b2| ≤ _
    have d1 := h1.near s hs a1 b1
    have d2 := h2.near s hs a2 b2
    refine (abs_sub _ _).trans (add_le_add ((abs_add_le _ _).trans (add_le_add ?_ ?_)) ?_) <;> rw [abs_mul]
    · exact mul_le_mul (m1 _ _) d2 (abs_nonneg _) hp1'
    · exact mul_le_mul d1 (m2 _ _) (abs_nonneg _) he1
    · exact mul_le_mul d1 d2 (abs_nonneg _) he1

end SSM

/-- `M` is bounded below by `c` -/
def LowerBound {n : Type*} [Fintype n] (c : ℝ) (M : Matrix n n ℝ) : Prop := ∀ v : n → ℝ, c * (v ⬝ᵥ v) ≤ v ⬝ᵥ M *ᵥ v

section
variable {n n' : Type} [Fintype n] [DecidableEq n] [Fintype n'] [DecidableEq n'] {c c' : ℝ}

theorem lowerBound_iff {M : Matrix n n ℝ} (hM : Mᵀ = M) : LowerBound c M ↔ (M - c • (1 : Matrix n n ℝ)).PosSemidef := by
  rw [psd_iff]
  have : ∀ v : n → ℝ, v ⬝ᵥ (M - c • (1 : Matrix n n ℝ)) *ᵥ v = v ⬝ᵥ M *ᵥ v - c * (v ⬝ᵥ v) := fun v => by
    rw [sub_mulVec, dotProduct_sub, smul_mulVec, one_mulVec, dotProduct_smul, smul_eq_mul]
  constructor
  · intro h
    exact ⟨by rw [transpose_sub, transpose_smul, transpose_one, hM], fun v => by rw [this]; linarith [h v]⟩
  · intro h v
    have := this v ▸ h.2 v
    linarith

theorem LowerBound.blockDiag {M : Matrix n n ℝ} {M' : Matrix n' n' ℝ} (h : LowerBound c M)
    (h' : LowerBound c' M') : LowerBound (min c c') (Verif.blockDiag M M') := by
  intro v
  have h1 := h (fun a => v (.inl a))
  have h2 := h' (fun a => v (.inr a))
  have e1 : v ⬝ᵥ v = (fun a => v (.inl a)) ⬝ᵥ (fun a => v (.inl a)) + (fun a => v (.inr a)) ⬝ᵥ (fun a => v (.inr a)) := by
    simp [dotProduct, Fintype.sum_sum_type]
  have e2 : v ⬝ᵥ Verif.blockDiag M M' *ᵥ v = (fun a => v (.inl a)) ⬝ᵥ M *ᵥ (fun a => v (.inl a)) +
      (fun a => v (.inr a)) ⬝ᵥ M' *ᵥ (fun a => v (.inr a)) := by
    simp [dotProduct, mulVec, Fintype.sum_sum_type, Verif.blockDiag]
  have p1 : 0 ≤ (fun a => v (.inl a)) ⬝ᵥ (fun a => v (.inl a)) := by simpa using dotProduct_star_self_nonneg fun a => v (.inl a)
  have p2 : 0 ≤ (fun a => v (.inr a)) ⬝ᵥ (fun a => v (.inr a)) := by simpa using dotProduct_star_self_nonneg fun a => v (.inr a)
  rw [e1, e2, mul_add]
  exact add_le_add ((mul_le_mul_of_nonneg_right (min_le_left _ _) p1).trans h1) ((mul_le_mul_of_nonneg_right (min_le_right _ _) p2).trans h2)

theorem LowerBound.kron {M : Matrix n n ℝ} {M' : Matrix n' n' ℝ} (hM : Mᵀ = M) (hM' : M'.PosSemidef) (hc : 0 ≤ c) (h : LowerBound c M)
    (h' : LowerBound c' M') : LowerBound (c * c') (M ⊗ₖ M') := by
  have hs : (M ⊗ₖ M')ᵀ = M ⊗ₖ M' := by
    rw [show (M ⊗ₖ M')ᵀ = Mᵀ ⊗ₖ M'ᵀ from (kroneckerMap_transpose _ _ _), hM, psd_symm hM']
  rw [lowerBound_iff hs]
  have h1 := (lowerBound_iff hM).1 h
  have h2 := (lowerBound_iff (psd_symm hM')).1 h'
  have e : M ⊗ₖ M' - (c * c') • (1 : Matrix (n × n') (n × n') ℝ) =
      (M - c • (1 : Matrix n n ℝ)) ⊗ₖ M' + c • ((1 : Matrix n n ℝ) ⊗ₖ (M' - c' • (1 : Matrix n' n' ℝ))) := by
    rw [kron_sub_left, kron_sub_right, smul_kronecker, kronecker_smul, ← one_kronecker_one]
    module
  rw [e]
  exact (h1.kronecker hM').add ((Matrix.PosSemidef.one.kronecker h2).smul hc)

end

end Verif
