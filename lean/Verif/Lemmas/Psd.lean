import Verif.Model.Psd
import Verif.Lemmas.ExpBound
import Verif.Lemmas.CovModel
import Mathlib.MeasureTheory.Integral.IntegralEqImproper
import Mathlib.MeasureTheory.Integral.ExpDecay
import Mathlib.MeasureTheory.Measure.Lebesgue.Integral

/-!
# Power spectral densities: algebra and the Fourier integral
-/

set_option linter.unusedSectionVars false

namespace Verif
open Matrix MeasureTheory Filter Topology

section algebra
variable {m n l : Type} [Fintype n] [DecidableEq n]

theorem toC_mul (A : Matrix m n ℝ) (B : Matrix n l ℝ) : toC (A * B) = toC A * toC B := by
  ext i j
  simp [toC, Matrix.mul_apply]

theorem toC_add (A B : Matrix m n ℝ) : toC (A + B) = toC A + toC B := by ext i j; simp [toC]

theorem toC_transpose (A : Matrix m n ℝ) : toC Aᵀ = (toC A)ᵀ := rfl

theorem toC_conj (A : Matrix m n ℝ) : (toC A).map (starRingEnd ℂ) = toC A := by
  ext i j; simp [toC]

theorem toC_one : toC (1 : Matrix n n ℝ) = 1 := by
  ext i j
  by_cases h : i = j <;> simp [toC, h, Matrix.one_apply]

theorem map_conj_mul (A : Matrix m n ℂ) (B : Matrix n l ℂ) : (A * B).map (starRingEnd ℂ) = A.map (starRingEnd ℂ) * B.map (starRingEnd ℂ) :=
  Matrix.map_mul

theorem map_conj_one : (1 : Matrix n n ℂ).map (starRingEnd ℂ) = 1 :=
  Matrix.map_one _ (map_zero _) (map_one _)

theorem map_conj_inv {A : Matrix n n ℂ} (h : IsUnit A.det) : A⁻¹.map (starRingEnd ℂ) = (A.map (starRingEnd ℂ))⁻¹ := by
  symm
  refine Matrix.inv_eq_right_inv ?_
  rw [← map_conj_mul, Matrix.mul_nonsing_inv _ h, map_conj_one]

theorem det_map_conj (A : Matrix n n ℂ) : (A.map (starRingEnd ℂ)).det = starRingEnd ℂ A.det :=
  (RingHom.map_det (starRingEnd ℂ) A).symm

end algebra

namespace SSM
variable (k : SSM)

theorem psdShift_conj (w : ℝ) : (k.psdShift w).map (starRingEnd ℂ) = k.psdShift (-w) := by
  unfold psdShift
  ext i j
  by_cases h : i = j <;> simp [toC, h]

theorem psdDefined_neg {w : ℝ} (h : k.PsdDefined w) : k.PsdDefined (-w) := by
  unfold PsdDefined at *
  rw [← psdShift_conj, det_map_conj]
  exact h.map _

/-- the row `H (F + i w)⁻¹` -/
noncomputable def psdRow (w : ℝ) : Matrix (Fin 1) k.n ℂ := toC (k.obsMatrix (.time 0)) * (k.psdShift w)⁻¹

theorem psd_eq_row (w : ℝ) : k.psd w =
    (((k.psdRow w).map (starRingEnd ℂ) * toC (k.L * k.Qc * k.Lᵀ) * (k.psdRow w)ᵀ) 0 0).re / (2 * Real.pi) := by
  unfold psd psdValue psdRow
  simp only [map_conj_mul, toC_conj, toC_mul, toC_transpose, transpose_mul, Matrix.mul_assoc]

theorem psd_neg {w : ℝ} (h : k.PsdDefined w) (hs : (k.L * k.Qc * k.Lᵀ)ᵀ = k.L * k.Qc * k.Lᵀ) : k.psd (-w) = k.psd w := by
  have hr : k.psdRow (-w) = (k.psdRow w).map (starRingEnd ℂ) := by
    unfold psdRow
    rw [← psdShift_conj, map_conj_mul, toC_conj, map_conj_inv h]
  have hrr : (k.psdRow (-w)).map (starRingEnd ℂ) = k.psdRow w := by
    rw [hr]
    ext i j
    simp
  have e : k.psdRow w * toC (k.L * k.Qc * k.Lᵀ) * ((k.psdRow w).map (starRingEnd ℂ))ᵀ =
      ((k.psdRow w).map (starRingEnd ℂ) * toC (k.L * k.Qc * k.Lᵀ) * (k.psdRow w)ᵀ)ᵀ := by
    rw [transpose_mul, transpose_mul, transpose_transpose, ← toC_transpose, hs, Matrix.mul_assoc]
  rw [psd_eq_row, psd_eq_row, hrr, hr, e]
  rfl

/-- real and imaginary part of the row -/
theorem quad_re {n : Type} [Fintype n] (z : Matrix (Fin 1) n ℂ) {M : Matrix n n ℝ} :
    ((z.map (starRingEnd ℂ) * toC M * zᵀ) 0 0).re =
    (fun i => (z 0 i).re) ⬝ᵥ (M *ᵥ fun i => (z 0 i).re) + (fun i => (z 0 i).im) ⬝ᵥ (M *ᵥ fun i => (z 0 i).im) := by
  rw [Matrix.mul_assoc]
  simp only [Matrix.mul_apply, dotProduct, mulVec, toC, Matrix.map_apply, transpose_apply, Complex.re_sum, ← Finset.sum_add_distrib]
  refine Finset.sum_congr rfl fun i _ => ?_
  rw [Complex.mul_re, Complex.re_sum, Complex.im_sum]
  simp only [Complex.conj_re, Complex.conj_im, Complex.re_ofReal_mul, Complex.im_ofReal_mul]
  ring

theorem psd_nonneg (hs : (k.L * k.Qc * k.Lᵀ).PosSemidef) (w : ℝ) : 0 ≤ k.psd w := by
  rw [psd_eq_row, quad_re]
  rw [psd_iff] at hs
  have := Real.pi_pos
  exact div_nonneg (add_nonneg (hs.2 _) (hs.2 _)) (by positivity)

end SSM

/-! ### the Fourier integral of `exp (t F)` -/

section fourier
variable {n : Type} [Fintype n] [DecidableEq n] {F : Matrix n n ℝ} {a : ℝ}

theorem expm_continuous (F : Matrix n n ℝ) (i j : n) : Continuous fun t : ℝ => NormedSpace.exp (t • F) i j :=
  continuous_iff_continuousAt.2 fun t => (expm_deriv F t i j).continuousAt

theorem integrableOn_of_bound {f : ℝ → ℝ} (hf : Continuous f) {C : ℝ} (ha : 0 < a) (h : ∀ t : ℝ, 0 ≤ t → |f t| ≤ C * Real.exp (-a * t)) :
    IntegrableOn f (Set.Ioi 0) := by
  refine Integrable.mono' ((exp_neg_integrableOn_Ioi 0 ha).const_mul C) hf.aestronglyMeasurable ?_
  refine (ae_restrict_iff' measurableSet_Ioi).2 (ae_of_all _ fun t ht => ?_)
  exact h t (le_of_lt ht)

theorem tendsto_of_bound {f : ℝ → ℝ} {C : ℝ} (ha : 0 < a) (h : ∀ t : ℝ, 0 ≤ t → |f t| ≤ C * Real.exp (-a * t)) :
    Tendsto f atTop (𝓝 0) := by
  refine squeeze_zero_norm' (a := fun t => C * Real.exp (-a * t)) ?_ ?_
  · filter_upwards [eventually_ge_atTop 0] with t ht using h t ht
  · have : Tendsto (fun t : ℝ => C * Real.exp (-a * t)) atTop (𝓝 (C * 0)) :=
      (Real.tendsto_exp_atBot.comp ((tendsto_const_mul_atBot_of_neg (neg_neg_of_pos ha)).2 tendsto_id)).const_mul C
    rwa [mul_zero] at this

/-- `∫₀^∞ cos (w t) exp (t F) dt` -/
noncomputable def cosInt (F : Matrix n n ℝ) (w : ℝ) : Matrix n n ℝ :=
  Matrix.of fun i j => ∫ t in Set.Ioi (0 : ℝ), Real.cos (w * t) * NormedSpace.exp (t • F) i j

/-- `∫₀^∞ sin (w t) exp (t F) dt` -/
noncomputable def sinInt (F : Matrix n n ℝ) (w : ℝ) : Matrix n n ℝ :=
  Matrix.of fun i j => ∫ t in Set.Ioi (0 : ℝ), Real.sin (w * t) * NormedSpace.exp (t • F) i j

theorem cos_integrable (h : ExpBound F a) (ha : 0 < a) (w : ℝ) (i j : n) :
    IntegrableOn (fun t => Real.cos (w * t) * NormedSpace.exp (t • F) i j) (Set.Ioi 0) := by
  obtain ⟨C, hC, h⟩ := h
  refine integrableOn_of_bound ((Real.continuous_cos.comp (continuous_const.mul continuous_id)).mul (expm_continuous F i j)) ha (C := C) fun t ht => ?_
  rw [abs_mul]
  exact (mul_le_of_le_one_left (abs_nonneg _) (Real.abs_cos_le_one _)).trans (h t ht i j)

theorem sin_integrable (h : ExpBound F a) (ha : 0 < a) (w : ℝ) (i j : n) :
    IntegrableOn (fun t => Real.sin (w * t) * NormedSpace.exp (t • F) i j) (Set.Ioi 0) := by
  obtain ⟨C, hC, h⟩ := h
  refine integrableOn_of_bound ((Real.continuous_sin.comp (continuous_const.mul continuous_id)).mul (expm_continuous F i j)) ha (C := C) fun t ht => ?_
  rw [abs_mul]
  exact (mul_le_of_le_one_left (abs_nonneg _) (Real.abs_sin_le_one _)).trans (h t ht i j)

theorem cosInt_eq (h : ExpBound F a) (ha : 0 < a) (w : ℝ) : F * cosInt F w - w • sinInt F w = -1 := by
  ext i j
  have hd : ∀ t ∈ Set.Ici (0 : ℝ), HasDerivAt (fun t => Real.cos (w * t) * NormedSpace.exp (t • F) i j)
      (∑ l, F i l * (Real.cos (w * t) * NormedSpace.exp (t • F) l j) - w * (Real.sin (w * t) * NormedSpace.exp (t • F) i j)) t := by
    intro t _
    have h1 : HasDerivAt (fun t => Real.cos (w * t)) (-Real.sin (w * t) * w) t := by
      have := ((hasDerivAt_id t).const_mul w).cos
      simpa using this
    refine (h1.mul (expm_deriv' F t i j)).congr_deriv ?_
    rw [Matrix.mul_apply, Finset.mul_sum]
    have : ∀ l, F i l * (Real.cos (w * t) * NormedSpace.exp (t • F) l j) = Real.cos (w * t) * (F i l * NormedSpace.exp (t • F) l j) := fun l => by ring
    simp only [this]
    ring
  have hi1 : IntegrableOn (fun t => ∑ l, F i l * (Real.cos (w * t) * NormedSpace.exp (t • F) l j)) (Set.Ioi 0) :=
    integrable_finsetSum _ fun l _ => (cos_integrable h ha w l j).const_mul _
  have hi2 : IntegrableOn (fun t => w * (Real.sin (w * t) * NormedSpace.exp (t • F) i j)) (Set.Ioi 0) :=
    (sin_integrable h ha w i j).const_mul _
  have ht : Tendsto (fun t => Real.cos (w * t) * NormedSpace.exp (t • F) i j) atTop (𝓝 0) := by
    obtain ⟨C, hC, h⟩ := h
    refine tendsto_of_bound (C := C) ha fun t ht => ?_
    rw [abs_mul]
    exact (mul_le_of_le_one_left (abs_nonneg _) (Real.abs_cos_le_one _)).trans (h t ht i j)
  have key := integral_Ioi_of_hasDerivAt_of_tendsto' hd (hi1.sub hi2) ht
  rw [integral_sub hi1 hi2, integral_finsetSum _ (fun l _ => (cos_integrable h ha w l j).const_mul _)] at key
  simp only [integral_const_mul, mul_zero, Real.cos_zero, one_mul, expm_zero, zero_sub] at key
  rw [Matrix.sub_apply, Matrix.mul_apply, Matrix.smul_apply, Matrix.neg_apply, smul_eq_mul]
  exact key

theorem sinInt_eq (h : ExpBound F a) (ha : 0 < a) (w : ℝ) : F * sinInt F w + w • cosInt F w = 0 := by
  ext i j
  have hd : ∀ t ∈ Set.Ici (0 : ℝ), HasDerivAt (fun t => Real.sin (w * t) * NormedSpace.exp (t • F) i j)
      (∑ l, F i l * (Real.sin (w * t) * NormedSpace.exp (t • F) l j) + w * (Real.cos (w * t) * NormedSpace.exp (t • F) i j)) t := by
    intro t _
    have h1 : HasDerivAt (fun t => Real.sin (w * t)) (Real.cos (w * t) * w) t := by
      have := ((hasDerivAt_id t).const_mul w).sin
      simpa using this
    refine (h1.mul (expm_deriv' F t i j)).congr_deriv ?_
    rw [Matrix.mul_apply, Finset.mul_sum]
    have : ∀ l, F i l * (Real.sin (w * t) * NormedSpace.exp (t • F) l j) = Real.sin (w * t) * (F i l * NormedSpace.exp (t • F) l j) := fun l => by ring
    simp only [this]
    ring
  have hi1 : IntegrableOn (fun t => ∑ l, F i l * (Real.sin (w * t) * NormedSpace.exp (t • F) l j)) (Set.Ioi 0) :=
    integrable_finsetSum _ fun l _ => (sin_integrable h ha w l j).const_mul _
  have hi2 : IntegrableOn (fun t => w * (Real.cos (w * t) * NormedSpace.exp (t • F) i j)) (Set.Ioi 0) :=
    (cos_integrable h ha w i j).const_mul _
  have ht : Tendsto (fun t => Real.sin (w * t) * NormedSpace.exp (t • F) i j) atTop (𝓝 0) := by
    obtain ⟨C, hC, h⟩ := h
    refine tendsto_of_bound (C := C) ha fun t ht => ?_
    rw [abs_mul]
    exact (mul_le_of_le_one_left (abs_nonneg _) (Real.abs_sin_le_one _)).trans (h t ht i j)
  have key := integral_Ioi_of_hasDerivAt_of_tendsto' hd (hi1.add hi2) ht
  rw [integral_add hi1 hi2, integral_finsetSum _ (fun l _ => (sin_integrable h ha w l j).const_mul _)] at key
  simp only [integral_const_mul, mul_zero, Real.sin_zero, zero_mul, sub_zero] at key
  rw [Matrix.add_apply, Matrix.mul_apply, Matrix.smul_apply, Matrix.zero_apply, smul_eq_mul]
  exact key

end fourier

namespace SSM
variable {k : SSM} {a : ℝ}

/-- `(F - i w)⁻¹ = -∫₀^∞ exp (-i w t) exp (t F) dt` -/
theorem psdShift_inverse (h : ExpBound k.F a) (ha : 0 < a) (w : ℝ) :
    k.psdShift (-w) * (Complex.I • toC (sinInt k.F w) - toC (cosInt k.F w)) = 1 := by
  have h1 := congrArg toC (cosInt_eq h ha w)
  have h2 := congrArg toC (sinInt_eq h ha w)
  have e1 : toC (k.F * cosInt k.F w - w • sinInt k.F w) = toC k.F * toC (cosInt k.F w) - (w : ℂ) • toC (sinInt k.F w) := by
    rw [← toC_mul]
    ext i j
    simp [toC]
  have e2 : toC (k.F * sinInt k.F w + w • cosInt k.F w) = toC k.F * toC (sinInt k.F w) + (w : ℂ) • toC (cosInt k.F w) := by
    rw [← toC_mul]
    ext i j
    simp [toC]
  have e3 : toC (-1 : Matrix k.n k.n ℝ) = -1 := by
    ext i j
    by_cases h : i = j <;> simp [toC, h]
  have e4 : toC (0 : Matrix k.n k.n ℝ) = 0 := by
    ext i j
    simp [toC]
  rw [e1, e3] at h1
  rw [e2, e4] at h2
  have f1 : toC k.F * toC (cosInt k.F w) = -1 + (w : ℂ) • toC (sinInt k.F w) := by rw [← h1]; abel
  have f2 : toC k.F * toC (sinInt k.F w) = -((w : ℂ) • toC (cosInt k.F w)) := eq_neg_of_add_eq_zero_left h2
  unfold psdShift
  rw [Matrix.add_mul, Matrix.mul_sub, Matrix.mul_smul, f1, f2, Matrix.smul_mul, Matrix.one_mul]
  ext i j
  simp only [Matrix.add_apply, Matrix.sub_apply, Matrix.smul_apply, Matrix.neg_apply, smul_eq_mul]
  push_cast
  linear_combination (-(w : ℂ) * toC (sinInt k.F w) i j) * Complex.I_sq

theorem psdDefined_of_bound (h : ExpBound k.F a) (ha : 0 < a) (w : ℝ) : k.PsdDefined w := by
  have := psdShift_inverse h ha (-w)
  rw [neg_neg] at this
  exact (Matrix.isUnit_iff_isUnit_det _).1 (IsUnit.of_mul_eq_one _ this)

theorem psd_eq_covInt (hP : k.Pinfᵀ = k.Pinf) (hl : k.Lyapunov) (h : ExpBound k.F a) (ha : 0 < a) (w : ℝ) :
    k.psd w = (k.obsMatrix (.time 0) * cosInt k.F w * k.Pinf * (k.obsMatrix (.time 0))ᵀ) 0 0 / Real.pi := by
  have hu := psdDefined_of_bound h ha w
  have hu' := psdDefined_of_bound h ha (-w)
  set M := (k.psdShift w)⁻¹ with hM
  set H := k.obsMatrix (.time 0) with hH
  have hMc : M.map (starRingEnd ℂ) = (k.psdShift (-w))⁻¹ := by rw [hM, map_conj_inv hu, psdShift_conj]
  have hN : (k.psdShift (-w))⁻¹ = Complex.I • toC (sinInt k.F w) - toC (cosInt k.F w) :=
    Matrix.inv_eq_right_inv (psdShift_inverse h ha w)
  -- the Lyapunov equation with the shifts put in
  have hS : toC (k.L * k.Qc * k.Lᵀ) = -(k.psdShift (-w) * toC k.Pinf + toC k.Pinf * (k.psdShift w)ᵀ) := by
    have e : k.L * k.Qc * k.Lᵀ = -(k.F * k.Pinf + k.Pinf * k.Fᵀ) := by
      have := hl
      unfold SSM.Lyapunov at this
      exact eq_neg_of_add_eq_zero_right this
    have e' : toC (k.L * k.Qc * k.Lᵀ) = -(toC k.F * toC k.Pinf + toC k.Pinf * (toC k.F)ᵀ) := by
      rw [e, ← toC_transpose, ← toC_mul, ← toC_mul, ← toC_add]
      ext i j
      simp [toC]
    rw [e']
    unfold psdShift
    rw [transpose_add, transpose_smul, transpose_one, Matrix.add_mul, Matrix.mul_add, Matrix.smul_mul, Matrix.mul_smul, Matrix.one_mul,
      Matrix.mul_one]
    congr 1
    ext i j
    simp only [Matrix.add_apply, Matrix.smul_apply, smul_eq_mul]
    push_cast
    ring
  have hmid : M.map (starRingEnd ℂ) * toC (k.L * k.Qc * k.Lᵀ) * Mᵀ = -(toC k.Pinf * Mᵀ + M.map (starRingEnd ℂ) * toC k.Pinf) := by
    have h1 : M.map (starRingEnd ℂ) * k.psdShift (-w) = 1 := by rw [hMc, Matrix.nonsing_inv_mul _ hu']
    have h2 : (k.psdShift w)ᵀ * Mᵀ = 1 := by rw [← transpose_mul, hM, Matrix.nonsing_inv_mul _ hu, transpose_one]
    rw [hS, Matrix.mul_neg, Matrix.neg_mul, Matrix.mul_add, Matrix.add_mul, ← Matrix.mul_assoc, h1, Matrix.one_mul,
      Matrix.mul_assoc, Matrix.mul_assoc, h2, Matrix.mul_one]
  have hz : k.psd w = ((-(toC H * (toC k.Pinf * Mᵀ) * (toC H)ᵀ + toC H * (M.map (starRingEnd ℂ) * toC k.Pinf) * (toC H)ᵀ)) 0 0).re / (2 * Real.pi) := by
    have : toC H * M.map (starRingEnd ℂ) * toC k.L * toC k.Qc * (toC k.L)ᵀ * Mᵀ * (toC H)ᵀ =
        -(toC H * (toC k.Pinf * Mᵀ) * (toC H)ᵀ + toC H * (M.map (starRingEnd ℂ) * toC k.Pinf) * (toC H)ᵀ) := by
      rw [← Matrix.add_mul, ← Matrix.mul_add, ← Matrix.neg_mul, ← Matrix.mul_neg, ← hmid, toC_mul, toC_mul, toC_transpose]
      simp only [Matrix.mul_assoc]
    rw [← this]
    rfl
  have hsym : ((toC H * (toC k.Pinf * Mᵀ) * (toC H)ᵀ) 0 0).re = ((toC H * (M.map (starRingEnd ℂ) * toC k.Pinf) * (toC H)ᵀ) 0 0).re := by
    have e : toC H * (M.map (starRingEnd ℂ) * toC k.Pinf) * (toC H)ᵀ = ((toC H * (toC k.Pinf * Mᵀ) * (toC H)ᵀ).map (starRingEnd ℂ))ᵀ := by
      simp only [map_conj_mul, transpose_mul, ← toC_transpose, toC_conj, Matrix.transpose_map, transpose_transpose, hP, Matrix.mul_assoc]
    rw [e]
    exact (Complex.conj_re _).symm
  have hcos : ((toC H * (M.map (starRingEnd ℂ) * toC k.Pinf) * (toC H)ᵀ) 0 0).re = -(H * cosInt k.F w * k.Pinf * Hᵀ) 0 0 := by
    rw [hMc, hN, Matrix.sub_mul, Matrix.mul_sub, Matrix.sub_mul, Matrix.smul_mul, Matrix.mul_smul, Matrix.smul_mul, ← toC_transpose,
      ← toC_mul, ← toC_mul, ← toC_mul, ← toC_mul, ← toC_mul, ← toC_mul, Matrix.sub_apply, Matrix.smul_apply, ← Matrix.mul_assoc, ← Matrix.mul_assoc]
    simp [toC]
  rw [hz, Matrix.neg_apply, Matrix.add_apply, Complex.neg_re, Complex.add_re, hsym, hcos]
  have := Real.pi_pos
  field_simp
  ring

/-- the integral over the whole line -/
theorem covInt_eq_integral (h : ExpBound k.F a) (ha : 0 < a) (w : ℝ) :
    IntegrableOn (fun t => Real.cos (w * t) * k.covAt k.F t) (Set.Ioi 0) ∧
    (k.obsMatrix (.time 0) * cosInt k.F w * k.Pinf * (k.obsMatrix (.time 0))ᵀ) 0 0 = ∫ t in Set.Ioi (0 : ℝ), Real.cos (w * t) * k.covAt k.F t := by
  have e : ∀ E : Matrix k.n k.n ℝ, (k.obsMatrix (.time 0) * E * k.Pinf * (k.obsMatrix (.time 0))ᵀ) 0 0 =
      ∑ i, ∑ j, (k.obsMatrix (.time 0) 0 i * (k.Pinf * (k.obsMatrix (.time 0))ᵀ) j 0) * E i j := by
    intro E
    rw [Matrix.mul_assoc, Matrix.mul_assoc, Matrix.mul_apply]
    refine Finset.sum_congr rfl fun i _ => ?_
    rw [Matrix.mul_apply, Finset.mul_sum]
    exact Finset.sum_congr rfl fun j _ => by ring
  have hf : (fun t => Real.cos (w * t) * k.covAt k.F t) = fun t => ∑ i, ∑ j, (k.obsMatrix (.time 0) 0 i * (k.Pinf * (k.obsMatrix (.time 0))ᵀ) j 0) *
      (Real.cos (w * t) * NormedSpace.exp (t • k.F) i j) := by
    funext t
    unfold covAt
    rw [e, Finset.mul_sum]
    refine Finset.sum_congr rfl fun i _ => ?_
    rw [Finset.mul_sum]
    exact Finset.sum_congr rfl fun j _ => by ring
  rw [hf, e]
  have hi := fun i j => (cos_integrable h ha w i j).const_mul (k.obsMatrix (.time 0) 0 i * (k.Pinf * (k.obsMatrix (.time 0))ᵀ) j 0)
  refine ⟨integrable_finsetSum _ fun i _ => integrable_finsetSum _ fun j _ => hi i j, ?_⟩
  rw [integral_finsetSum _ (fun i _ => integrable_finsetSum _ fun j _ => hi i j)]
  refine Finset.sum_congr rfl fun i _ => ?_
  rw [integral_finsetSum _ (fun j _ => hi i j)]
  refine Finset.sum_congr rfl fun j _ => ?_
  rw [integral_const_mul]
  rfl

end SSM

end Verif
