import Verif.Lemmas.Perturb
import Verif.Lemmas.PosDefFn
import Mathlib.Analysis.SpecialFunctions.Log.Basic

/-! # Weights of the data in a prediction, and bounds of the Gaussian log density -/

set_option linter.unusedSectionVars false

namespace Verif
open Matrix Spec

variable {ι : Type*} [Fintype ι] [DecidableEq ι]

theorem noisyGram_quad (b : ι → ι → ℝ) (R w : ι → ℝ) :
    w ⬝ᵥ noisyGram b R *ᵥ w = w ⬝ᵥ (Matrix.of b) *ᵥ w + ∑ i, R i * w i ^ 2 := by
  have : noisyGram b R *ᵥ w = (Matrix.of b) *ᵥ w + fun i => R i * w i := by
    funext i
    rw [noisyGram_mulVec]
    rfl
  rw [this, dotProduct_add]
  congr 1
  exact Finset.sum_congr rfl fun i _ => by ring

/-- the noise in a prediction accounts for part of its variance -/
theorem weights_noise {b : ι → ι → ℝ} {R : ι → ℝ} (hK : (noisyGram b R).PosDef) {v : ℝ} {c : ι → ℝ}
    (hj : ∀ w : ι → ℝ, 0 ≤ v - 2 * (w ⬝ᵥ c) + w ⬝ᵥ (Matrix.of b) *ᵥ w) :
    ∑ i, R i * ((noisyGram b R)⁻¹ *ᵥ c) i ^ 2 ≤ postVar (noisyGram b R) v c := by
  rw [postVar_eq hK, noisyGram_quad]
  have := hj ((noisyGram b R)⁻¹ *ᵥ c)
  linarith

theorem postMean_weights {K : Matrix ι ι ℝ} (hK : K.PosDef) (y c : ι → ℝ) : postMean K y c = ∑ i, (K⁻¹ *ᵥ c) i * y i := by
  have hs : (K⁻¹)ᵀ = K⁻¹ := psd_symm hK.inv.posSemidef
  unfold postMean
  rw [dotProduct_mulVec, ← mulVec_transpose, hs]
  rfl

theorem influence {b : ι → ι → ℝ} {R : ι → ℝ} (hR : ∀ i, 0 < R i) (hK : (noisyGram b R).PosDef) {v : ℝ} {c : ι → ℝ}
    (hj : ∀ w : ι → ℝ, 0 ≤ v - 2 * (w ⬝ᵥ c) + w ⬝ᵥ (Matrix.of b) *ᵥ w) (y y' : ι → ℝ) :
    (postMean (noisyGram b R) y c - postMean (noisyGram b R) y' c) ^ 2 ≤ postVar (noisyGram b R) v c * ∑ i, (y i - y' i) ^ 2 / R i := by
  set a := (noisyGram b R)⁻¹ *ᵥ c with ha
  have e : postMean (noisyGram b R) y c - postMean (noisyGram b R) y' c = ∑ i, (√(R i) * a i) * ((y i - y' i) / √(R i)) := by
    rw [postMean_weights hK, postMean_weights hK, ← Finset.sum_sub_distrib]
    refine Finset.sum_congr rfl fun i _ => ?_
    have := (Real.sqrt_pos.2 (hR i)).ne'
    rw [← ha]
    field_simp
  rw [e]
  refine (Finset.sum_mul_sq_le_sq_mul_sq _ _ _).trans ?_
  have e1 : ∑ i, (√(R i) * a i) ^ 2 = ∑ i, R i * a i ^ 2 :=
    Finset.sum_congr rfl fun i _ => by rw [mul_pow, Real.sq_sqrt (hR i).le]
  have e2 : ∑ i, ((y i - y' i) / √(R i)) ^ 2 = ∑ i, (y i - y' i) ^ 2 / R i :=
    Finset.sum_congr rfl fun i _ => by rw [div_pow, Real.sq_sqrt (hR i).le]
  rw [e1, e2]
  exact mul_le_mul_of_nonneg_right (weights_noise hK hj) (Finset.sum_nonneg fun i _ => div_nonneg (sq_nonneg _) (hR i).le)

/-- Hadamard's inequality -/
theorem log_det_le {K : Matrix ι ι ℝ} (hK : K.PosDef) : Real.log K.det ≤ ∑ i, Real.log (K i i) := by
  have hd : ∀ i, 0 < K i i := fun i => hK.diag_pos
  set D : Matrix ι ι ℝ := Matrix.diagonal fun i => (√(K i i))⁻¹ with hD
  have hDt : Dᵀ = D := Matrix.diagonal_transpose _
  have hdet : D.det ^ 2 = (∏ i, K i i)⁻¹ := by
    rw [hD, Matrix.det_diagonal, ← Finset.prod_pow, ← Finset.prod_inv_distrib]
    exact Finset.prod_congr rfl fun i _ => by rw [inv_pow, Real.sq_sqrt (hd i).le]
  have hDu : IsUnit D.det := by
    rw [hD, Matrix.det_diagonal]
    exact isUnit_iff_ne_zero.2 (Finset.prod_ne_zero_iff.2 fun i _ => inv_ne_zero (Real.sqrt_pos.2 (hd i)).ne')
  set M := D * K * D with hM
  have hMp : M.PosDef := by
    have h := psd_conj hK.posSemidef D
    rw [hDt] at h
    refine h.posDef_iff_isUnit.2 ?_
    rw [Matrix.isUnit_iff_isUnit_det, det_mul, det_mul]
    exact (hDu.mul (pd_det hK)).mul hDu
  have hdiag : M.trace = Fintype.card ι := by
    have : ∀ i, M i i = 1 := fun i => by
      rw [hM, hD, Matrix.mul_diagonal, Matrix.diagonal_mul]
      have h1 := Real.mul_self_sqrt (hd i).le
      have := (Real.sqrt_pos.2 (hd i)).ne'
      field_simp
      rw [sq, h1]
    simp [Matrix.trace, this]
  have hlog : Real.log M.det ≤ 0 := by
    have hH := hMp.isHermitian
    have ht := hH.trace_eq_sum_eigenvalues
    rw [hH.det_eq_prod_eigenvalues]
    simp only [RCLike.ofReal_real_eq_id, id] at ht ⊢
    rw [Real.log_prod fun i _ => (hMp.eigenvalues_pos i).ne']
    calc ∑ i, Real.log (hH.eigenvalues i) ≤ ∑ i, (hH.eigenvalues i - 1) :=
          Finset.sum_le_sum fun i _ => Real.log_le_sub_one_of_pos (hMp.eigenvalues_pos i)
      _ = 0 := by
        rw [Finset.sum_sub_distrib, ← ht, hdiag]
        simp
  have e : M.det = K.det * (∏ i, K i i)⁻¹ := by
    rw [hM, det_mul, det_mul, ← hdet]
    ring
  have hp : 0 < ∏ i, K i i := Finset.prod_pos fun i _ => hd i
  rw [e, Real.log_mul (hK.det_pos).ne' (inv_ne_zero hp.ne'), Real.log_inv, Real.log_prod fun i _ => (hd i).ne'] at hlog
  linarith

/-- bounds of the log density which depend on the noise and on the variances only -/
theorem gaussLogDensity_bounds {b : ι → ι → ℝ} (hb : (Matrix.of b).PosSemidef) {R : ι → ℝ} (hR : ∀ i, 0 < R i) (y : ι → ℝ) :
    gaussLogDensity (noisyGram b R) y ≤ -(1 / 2) * ∑ i, Real.log (2 * Real.pi * R i) ∧
    -(1 / 2) * ∑ i, (y i ^ 2 / R i + Real.log (2 * Real.pi * (b i i + R i))) ≤ gaussLogDensity (noisyGram b R) y := by
  have hD : (Matrix.diagonal R).PosDef := Matrix.PosDef.diagonal hR
  have hsub : (noisyGram b R - Matrix.diagonal R).PosSemidef := by
    have : noisyGram b R - Matrix.diagonal R = Matrix.of b := by
      ext i j
      by_cases hij : i = j <;> simp [noisyGram, hij]
    rwa [this]
  have hK : (noisyGram b R).PosDef := by
    have : noisyGram b R = Matrix.of b + Matrix.diagonal R := by
      ext i j
      by_cases hij : i = j <;> simp [noisyGram, hij]
    rw [this]
    exact Matrix.PosDef.posSemidef_add hb hD
  have hlog : ∀ f : ι → ℝ, (∀ i, 0 < f i) → ∑ i, Real.log (2 * Real.pi * f i) = Fintype.card ι * Real.log (2 * Real.pi) + ∑ i, Real.log (f i) := by
    intro f hf
    have : ∀ i, Real.log (2 * Real.pi * f i) = Real.log (2 * Real.pi) + Real.log (f i) := fun i =>
      Real.log_mul (by positivity) (hf i).ne'
    simp only [this, Finset.sum_add_distrib, Finset.sum_const, Finset.card_univ, nsmul_eq_mul]
  constructor
  · have h1 : Real.log (Matrix.diagonal R).det ≤ Real.log (noisyGram b R).det := Real.log_le_log hD.det_pos (det_mono hD hsub)
    rw [Matrix.det_diagonal, Real.log_prod fun i _ => (hR i).ne'] at h1
    have h2 := ((psd_iff _).1 hK.inv.posSemidef).2 y
    rw [hlog R hR]
    unfold gaussLogDensity
    linarith
  · have h1 := log_det_le hK
    have hKd : ∀ i, noisyGram b R i i = b i i + R i := fun i => by simp [noisyGram]
    simp only [hKd] at h1
    have h2 : y ⬝ᵥ (noisyGram b R)⁻¹ *ᵥ y ≤ ∑ i, y i ^ 2 / R i := by
      have h3 := postVar_mono hK hD hsub 0 y
      have e : (Matrix.diagonal R)⁻¹ = Matrix.diagonal fun i => (R i)⁻¹ := by
        refine Matrix.inv_eq_right_inv ?_
        rw [Matrix.diagonal_mul_diagonal, ← Matrix.diagonal_one]
        congr 1
        funext i
        exact mul_inv_cancel₀ (hR i).ne'
      have e2 : y ⬝ᵥ (Matrix.diagonal R)⁻¹ *ᵥ y = ∑ i, y i ^ 2 / R i := by
        rw [e]
        simp only [dotProduct, Matrix.mulVec_diagonal]
        exact Finset.sum_congr rfl fun i _ => by ring
      unfold postVar at h3
      rw [e2] at h3
      linarith
    have hpos : ∀ i, 0 < b i i + R i := fun i => by rw [← hKd]; exact hK.diag_pos
    rw [Finset.sum_add_distrib, hlog _ hpos]
    unfold gaussLogDensity
    linarith

end Verif
