import Mathlib.Analysis.Matrix.Order
import Mathlib.Analysis.Matrix.PosDef
import Verif.Model.Kalman
import Mathlib.Algebra.QuadraticDiscriminant

/-! # Positive (semi)definite matrices and the algebra of one Kalman update -/

set_option linter.unusedSectionVars false
set_option linter.unusedSimpArgs false

namespace Verif
open Matrix

variable {n m : Type*} [Fintype n] [Fintype m]

theorem psd_iff (M : Matrix n n ℝ) :
    M.PosSemidef ↔ Mᵀ = M ∧ ∀ x : n → ℝ, 0 ≤ x ⬝ᵥ M *ᵥ x := by
  rw [Matrix.posSemidef_iff_dotProduct_mulVec]
  simp [Matrix.IsHermitian, conjTranspose_eq_transpose_of_trivial]

theorem pd_iff (M : Matrix n n ℝ) :
    M.PosDef ↔ Mᵀ = M ∧ ∀ x : n → ℝ, x ≠ 0 → 0 < x ⬝ᵥ M *ᵥ x := by
  rw [Matrix.posDef_iff_dotProduct_mulVec]
  simp [Matrix.IsHermitian, conjTranspose_eq_transpose_of_trivial]

theorem psd_symm {M : Matrix n n ℝ} (h : M.PosSemidef) : Mᵀ = M := ((psd_iff M).1 h).1

theorem psd_conj {M : Matrix n n ℝ} (h : M.PosSemidef) (A : Matrix m n ℝ) :
    (A * M * Aᵀ).PosSemidef := by
  have := h.mul_mul_conjTranspose_same A
  rwa [conjTranspose_eq_transpose_of_trivial] at this

theorem pd_conj {M : Matrix n n ℝ} [DecidableEq n] (h : M.PosDef) {A : Matrix n n ℝ} (hA : IsUnit A.det) :
    (A * M * Aᵀ).PosDef := by
  have := h.mul_mul_conjTranspose_same (B := A) (Matrix.vecMul_injective_of_isUnit
    ((Matrix.isUnit_iff_isUnit_det _).2 hA))
  rwa [conjTranspose_eq_transpose_of_trivial] at this

theorem pd_det {M : Matrix n n ℝ} [DecidableEq n] (h : M.PosDef) : IsUnit M.det :=
  (Matrix.isUnit_iff_isUnit_det _).1 h.isUnit

theorem symm_dot {M : Matrix n n ℝ} (h : Mᵀ = M) (x z : n → ℝ) : x ⬝ᵥ M *ᵥ z = z ⬝ᵥ M *ᵥ x := by
  rw [dotProduct_mulVec, dotProduct_comm, ← mulVec_transpose, h]

/-- Cauchy-Schwarz for a positive semidefinite matrix -/
theorem psd_cauchy {M : Matrix n n ℝ} (h : M.PosSemidef) (x z : n → ℝ) :
    (x ⬝ᵥ M *ᵥ z) ^ 2 ≤ (x ⬝ᵥ M *ᵥ x) * (z ⬝ᵥ M *ᵥ z) := by
  obtain ⟨hs, hp⟩ := (psd_iff M).1 h
  have hq : ∀ s : ℝ, 0 ≤ (z ⬝ᵥ M *ᵥ z) * (s * s) + 2 * (x ⬝ᵥ M *ᵥ z) * s + x ⬝ᵥ M *ᵥ x := by
    intro s
    have := hp (x + s • z)
    simp only [mulVec_add, mulVec_smul, dotProduct_add, add_dotProduct, smul_dotProduct, dotProduct_smul,
      smul_eq_mul] at this
    rw [symm_dot hs z x] at this
    nlinarith [this]
  have := discrim_le_zero hq
  unfold discrim at this
  nlinarith [this]

theorem mul_row_apply (H : Matrix (Fin 1) n ℝ) (P : Matrix n n ℝ) :
    (H * P * Hᵀ) 0 0 = (H 0) ⬝ᵥ P *ᵥ (H 0) := by
  rw [Matrix.mul_assoc, Matrix.mul_apply]
  simp only [dotProduct, mulVec, Matrix.mul_apply, transpose_apply]

theorem mul_col_apply (H : Matrix (Fin 1) n ℝ) (P : Matrix n n ℝ) (a : n) :
    (P * Hᵀ) a 0 = (P *ᵥ (H 0)) a := by
  simp only [dotProduct, mulVec, Matrix.mul_apply, transpose_apply]

section update
variable {n : Type} [Fintype n] [DecidableEq n] (H : Matrix (Fin 1) n ℝ) (R y : ℝ) (mPred : n → ℝ)
  (PPred : Matrix n n ℝ)

/-- the gain of the code -/
noncomputable def gain : Matrix n (Fin 1) ℝ :=
  (solve (kalmanUpdate H R y mPred PPred).Sᵀ (PPred * Hᵀ)ᵀ)ᵀ

theorem update_S : (kalmanUpdate H R y mPred PPred).S 0 0 = (H * PPred * Hᵀ) 0 0 + R := rfl

theorem update_v : (kalmanUpdate H R y mPred PPred).v 0 = y - (H *ᵥ mPred) 0 := rfl

theorem gain_apply (a : n) (hS : (H * PPred * Hᵀ) 0 0 + R ≠ 0) :
    gain H R y mPred PPred a 0 * ((H * PPred * Hᵀ) 0 0 + R) = (PPred * Hᵀ) a 0 := by
  set S := (kalmanUpdate H R y mPred PPred).S with hSd
  have hS00 : S 0 0 = (H * PPred * Hᵀ) 0 0 + R := rfl
  have hdet : IsUnit S.det := by
    rw [Matrix.det_fin_one, hS00]; exact isUnit_iff_ne_zero.2 hS
  have : gain H R y mPred PPred * S = PPred * Hᵀ := by
    unfold gain solve
    rw [← hSd, transpose_mul, transpose_transpose, transpose_nonsing_inv, transpose_transpose,
      Matrix.mul_assoc, Matrix.nonsing_inv_mul _ hdet, Matrix.mul_one]
  rw [← this, ← hS00, Matrix.mul_apply (M := gain H R y mPred PPred), Fin.sum_univ_one]

theorem update_m : (kalmanUpdate H R y mPred PPred).m =
    fun a => mPred a + gain H R y mPred PPred a 0 * (y - (H *ᵥ mPred) 0) := by
  funext a
  simp only [kalmanUpdate, gain, Pi.add_apply]
  simp [mulVec, dotProduct]

theorem update_P : (kalmanUpdate H R y mPred PPred).P =
    fun a b => PPred a b - gain H R y mPred PPred a 0 * ((H * PPred * Hᵀ) 0 0 + R) *
      gain H R y mPred PPred b 0 := by
  funext a b
  have : (kalmanUpdate H R y mPred PPred).P = PPred - gain H R y mPred PPred *
    (kalmanUpdate H R y mPred PPred).S * (gain H R y mPred PPred)ᵀ := rfl
  rw [this, Matrix.sub_apply, Matrix.mul_apply, Fin.sum_univ_one, Matrix.mul_apply, Fin.sum_univ_one]
  rfl

variable {H R y mPred PPred}

theorem innovation_pos (hP : PPred.PosSemidef) (hR : 0 < R) : 0 < (H * PPred * Hᵀ) 0 0 + R := by
  rw [mul_row_apply]
  have := ((psd_iff PPred).1 hP).2 (H 0)
  linarith

/-- quadratic form of the updated covariance -/
theorem update_quad (hS : (H * PPred * Hᵀ) 0 0 + R ≠ 0) (x : n → ℝ) :
    x ⬝ᵥ (kalmanUpdate H R y mPred PPred).P *ᵥ x =
      x ⬝ᵥ PPred *ᵥ x - (x ⬝ᵥ PPred *ᵥ (H 0)) ^ 2 / ((H * PPred * Hᵀ) 0 0 + R) := by
  set s := (H * PPred * Hᵀ) 0 0 + R with hs'
  have hg : ∀ a, gain H R y mPred PPred a 0 = (PPred *ᵥ (H 0)) a / s := by
    intro a
    rw [eq_div_iff hS, gain_apply _ _ _ _ _ _ hS, mul_col_apply]
  rw [update_P]
  have e1 : (fun a b => PPred a b - gain H R y mPred PPred a 0 * s * gain H R y mPred PPred b 0)
      = PPred - s⁻¹ • vecMulVec (PPred *ᵥ (H 0)) (PPred *ᵥ (H 0)) := by
    ext a b
    rw [Matrix.sub_apply, Matrix.smul_apply, vecMulVec_apply, hg, hg, smul_eq_mul]
    field_simp
  rw [e1, sub_mulVec, dotProduct_sub, smul_mulVec, dotProduct_smul, vecMulVec_mulVec]
  rw [op_smul_eq_smul, dotProduct_smul, dotProduct_comm (PPred *ᵥ H 0) x]
  simp only [smul_eq_mul]
  field_simp

theorem update_symm (hs : PPredᵀ = PPred) :
    ((kalmanUpdate H R y mPred PPred).P)ᵀ = (kalmanUpdate H R y mPred PPred).P := by
  rw [update_P]
  ext a b
  show PPred b a - gain H R y mPred PPred b 0 * _ * gain H R y mPred PPred a 0 = PPred a b - _
  have : PPred b a = PPred a b := by conv_lhs => rw [← hs, transpose_apply]
  simp only [this]
  ring

theorem update_psd (hP : PPred.PosSemidef) (hR : 0 < R) :
    (kalmanUpdate H R y mPred PPred).P.PosSemidef := by
  have hS := innovation_pos (H := H) hP hR
  rw [psd_iff]
  refine ⟨update_symm (psd_symm hP), fun x => ?_⟩
  rw [update_quad hS.ne']
  have hc := psd_cauchy hP x (H 0)
  have hx := ((psd_iff PPred).1 hP).2 x
  rw [sub_nonneg, div_le_iff₀ hS]
  rw [mul_row_apply] at hS ⊢
  nlinarith [mul_nonneg hx hR.le]

theorem update_pd (hP : PPred.PosDef) (hR : 0 < R) :
    (kalmanUpdate H R y mPred PPred).P.PosDef := by
  have hS := innovation_pos (H := H) hP.posSemidef hR
  rw [pd_iff]
  refine ⟨update_symm (psd_symm hP.posSemidef), fun x hx0 => ?_⟩
  rw [update_quad hS.ne']
  have hc := psd_cauchy hP.posSemidef x (H 0)
  have hx := ((pd_iff PPred).1 hP).2 x hx0
  rw [sub_pos, div_lt_iff₀ hS]
  rw [mul_row_apply] at hS ⊢
  nlinarith [mul_pos hx hR]

end update

end Verif
