import Verif.Spec.Dense
import Mathlib.Probability.Distributions.Gaussian.HasGaussianLaw.Independence
import Mathlib.Probability.Distributions.Gaussian.Real
import Mathlib.MeasureTheory.Integral.Pi
import Mathlib.MeasureTheory.Measure.Lebesgue.Basic
import Mathlib.Probability.Kernel.CondDistrib
import Mathlib.Probability.Moments.Covariance
import Mathlib.LinearAlgebra.Matrix.PosDef
import Mathlib.Analysis.Matrix.PosDef
import Mathlib.Analysis.Matrix.Order

/-!
# Gaussian random vectors: density and conditional distribution

The textbook formulas of `Spec/Dense.lean` are the density and the conditional distribution of jointly Gaussian random variables in the
sense of Mathlib's probability theory.
-/

namespace Verif
open MeasureTheory ProbabilityTheory Matrix Spec
open scoped ENNReal NNReal MatrixOrder

/-- standard normal variables, independent: the law has the product density -/
theorem pi_gaussianReal {ι : Type*} [Fintype ι] : Measure.pi (fun _ : ι => gaussianReal 0 1) =
    volume.withDensity fun x : ι → ℝ => ENNReal.ofReal (∏ i, gaussianPDFReal 0 1 (x i)) := by
  refine Measure.pi_eq fun s hs => ?_
  rw [withDensity_apply _ (MeasurableSet.univ_pi hs)]
  have hint : ∀ i, Integrable (gaussianPDFReal 0 1) (volume.restrict (s i)) := fun i => (integrable_gaussianPDFReal 0 1).restrict
  have e : (volume : Measure (ι → ℝ)).restrict (Set.univ.pi s) = Measure.pi fun i => volume.restrict (s i) := by
    rw [volume_pi, Measure.restrict_pi_pi]
  rw [e, ← ofReal_integral_eq_lintegral_ofReal]
  · rw [integral_fintype_prod_eq_prod (fun _ => gaussianPDFReal 0 1), ENNReal.ofReal_prod_of_nonneg]
    · exact Finset.prod_congr rfl fun i _ => (gaussianReal_apply_eq_integral 0 one_ne_zero (s i)).symm
    · exact fun i _ => integral_nonneg fun x => gaussianPDFReal_nonneg _ _ _
  · exact Integrable.fintype_prod hint
  · exact Filter.Eventually.of_forall fun x => Finset.prod_nonneg fun i _ => gaussianPDFReal_nonneg _ _ _

theorem prod_gaussianPDFReal {ι : Type*} [Fintype ι] (x : ι → ℝ) : ∏ i, gaussianPDFReal 0 1 (x i) =
    Real.exp (-(1 / 2) * (x ⬝ᵥ x) - (Fintype.card ι : ℝ) / 2 * Real.log (2 * Real.pi)) := by
  have h : ∀ r : ℝ, gaussianPDFReal 0 1 r = Real.exp (-(1 / 2) * (r * r) - 1 / 2 * Real.log (2 * Real.pi)) := by
    intro r
    have hp : (0 : ℝ) < 2 * Real.pi := by positivity
    have hs : Real.exp (1 / 2 * Real.log (2 * Real.pi)) = √(2 * Real.pi) := by
      rw [one_div, inv_mul_eq_div, ← Real.log_sqrt hp.le, Real.exp_log (Real.sqrt_pos.mpr hp)]
    rw [gaussianPDFReal_def, Real.exp_sub, hs, div_eq_inv_mul]
    simp only [NNReal.coe_one, mul_one, sub_zero]
    congr 2
    ring
  simp_rw [h]
  rw [← Real.exp_sum, Finset.sum_sub_distrib, ← Finset.mul_sum]
  simp only [Finset.sum_const, Finset.card_univ, nsmul_eq_mul, dotProduct]
  congr 2
  ring

theorem gaussLogDensity_of_factor {ι : Type*} [Fintype ι] [DecidableEq ι] (C : Matrix ι ι ℝ) (hC : C.det ≠ 0) (y : ι → ℝ) :
    Real.exp (gaussLogDensity (C * Cᵀ) y) = |C.det|⁻¹ * ∏ i, gaussianPDFReal 0 1 ((C⁻¹ *ᵥ y) i) := by
  have hq : y ⬝ᵥ (C * Cᵀ)⁻¹ *ᵥ y = (C⁻¹ *ᵥ y) ⬝ᵥ (C⁻¹ *ᵥ y) := by
    rw [Matrix.mul_inv_rev, ← Matrix.mulVec_mulVec, ← Matrix.transpose_nonsing_inv, Matrix.dotProduct_mulVec, Matrix.vecMul_transpose]
  have hd : Real.log (C * Cᵀ).det = 2 * Real.log |C.det| := by
    rw [Matrix.det_mul, Matrix.det_transpose, Real.log_mul hC hC, Real.log_abs]; ring
  have he : |C.det|⁻¹ = Real.exp (-Real.log |C.det|) := by
    rw [Real.exp_neg, Real.exp_log (abs_pos.mpr hC)]
  rw [prod_gaussianPDFReal, he, ← Real.exp_add, gaussLogDensity, hq, hd]
  congr 1
  ring

/-- a Gaussian vector with independent standard coordinates -/
theorem map_eq_pi_of_white {Ω ι : Type*} [MeasurableSpace Ω] [Fintype ι] [DecidableEq ι] {P : Measure Ω} {W : ι → Ω → ℝ}
    (hW : HasGaussianLaw (fun ω i => W i ω) P) (h0 : ∀ i, P[W i] = 0) (hc : ∀ i j, cov[W i, W j; P] = if i = j then 1 else 0) :
    P.map (fun ω i => W i ω) = Measure.pi fun _ => gaussianReal 0 1 := by
  have hP := hW.isProbabilityMeasure
  have hm : ∀ i, AEMeasurable (W i) P := fun i => (hW.eval i).aemeasurable
  have hi : iIndepFun W P := hW.iIndepFun_of_covariance_eq_zero fun i j hij => by rw [hc, if_neg hij]
  rw [(iIndepFun_iff_map_fun_eq_pi_map hm).mp hi]
  congr 1
  funext i
  have hv : Var[W i; P] = 1 := by rw [← covariance_self (hm i), hc, if_pos rfl]
  rw [(hW.eval i).map_eq_gaussianReal, h0, hv, Real.toNNReal_one]

theorem mulVec_cov {Ω ι : Type*} [MeasurableSpace Ω] [Fintype ι] {P : Measure Ω} [IsFiniteMeasure P] {Y : ι → Ω → ℝ} {K : Matrix ι ι ℝ}
    (hY : ∀ i, MemLp (Y i) 2 P) (hc : ∀ i j, cov[Y i, Y j; P] = K i j) (a b : ι → ℝ) :
    cov[fun ω => a ⬝ᵥ fun i => Y i ω, fun ω => b ⬝ᵥ fun i => Y i ω; P] = a ⬝ᵥ K *ᵥ b := by
  simp only [dotProduct, mulVec]
  rw [covariance_fun_sum_fun_sum (fun i => (hY i).const_mul (a i)) (fun i => (hY i).const_mul (b i))]
  refine Finset.sum_congr rfl fun i _ => ?_
  rw [Finset.mul_sum]
  refine Finset.sum_congr rfl fun j _ => ?_
  rw [covariance_const_mul_left, covariance_const_mul_right, hc]
  ring

theorem mulVec_mean {Ω ι : Type*} [MeasurableSpace Ω] [Fintype ι] {P : Measure Ω} {Y : ι → Ω → ℝ}
    (hY : ∀ i, Integrable (Y i) P) (h0 : ∀ i, P[Y i] = 0) (a : ι → ℝ) : P[fun ω => a ⬝ᵥ fun i => Y i ω] = 0 := by
  simp only [dotProduct]
  rw [integral_finsetSum _ fun i _ => (hY i).const_mul (a i)]
  refine Finset.sum_eq_zero fun i _ => ?_
  rw [integral_const_mul, h0, mul_zero]

/-- a positive definite matrix has an invertible square root -/
theorem posDef_factor {ι : Type*} [Fintype ι] [DecidableEq ι] {K : Matrix ι ι ℝ} (hK : K.PosDef) :
    ∃ C : Matrix ι ι ℝ, C.det ≠ 0 ∧ K = C * Cᵀ := by
  obtain ⟨B, hB⟩ := CStarAlgebra.nonneg_iff_eq_star_mul_self.mp hK.posSemidef.nonneg
  rw [star_eq_conjTranspose, conjTranspose_eq_transpose_of_trivial] at hB
  refine ⟨Bᵀ, fun h => ?_, by rw [hB, transpose_transpose]⟩
  have := hK.det_pos
  rw [hB, det_mul, h, zero_mul] at this
  exact this.false

/-- **the density of a Gaussian vector** with mean zero and a positive definite covariance matrix -/
theorem gaussian_withDensity {Ω ι : Type*} [MeasurableSpace Ω] [Fintype ι] [DecidableEq ι] {P : Measure Ω} {Y : ι → Ω → ℝ}
    {K : Matrix ι ι ℝ} (hY : HasGaussianLaw (fun ω i => Y i ω) P) (h0 : ∀ i, P[Y i] = 0) (hc : ∀ i j, cov[Y i, Y j; P] = K i j)
    (hK : K.PosDef) : P.map (fun ω i => Y i ω) = volume.withDensity fun y => ENNReal.ofReal (Real.exp (gaussLogDensity K y)) := by
  have hP := hY.isProbabilityMeasure
  obtain ⟨C, hC, rfl⟩ := posDef_factor hK
  have hCu : IsUnit C.det := isUnit_iff_ne_zero.mpr hC
  have hm : ∀ i, MemLp (Y i) 2 P := fun i => (hY.eval i).memLp_two
  have hmeas : AEMeasurable (fun ω i => Y i ω) P := hY.aemeasurable
  set W : ι → Ω → ℝ := fun i ω => C⁻¹ i ⬝ᵥ fun j => Y j ω with hWdef
  have hWlaw : HasGaussianLaw (fun ω i => W i ω) P :=
    hY.map_fun (LinearMap.toContinuousLinearMap (Matrix.toLin' C⁻¹))
  have hW0 : ∀ i, P[W i] = 0 := fun i => mulVec_mean (fun j => (hY.eval j).integrable) h0 _
  have hWc : ∀ i j, cov[W i, W j; P] = if i = j then 1 else 0 := by
    intro i j
    rw [hWdef, mulVec_cov hm hc]
    have e : C⁻¹ * (C * Cᵀ) * C⁻¹ᵀ = 1 := by
      rw [← Matrix.mul_assoc, Matrix.nonsing_inv_mul _ hCu, Matrix.one_mul, ← Matrix.transpose_mul, Matrix.nonsing_inv_mul _ hCu,
        Matrix.transpose_one]
    have := congrFun (congrFun e i) j
    rw [Matrix.mul_assoc] at this
    rw [← Matrix.one_apply, ← this]
    simp only [Matrix.mul_apply, dotProduct, mulVec, Matrix.transpose_apply]
  have hWmap := map_eq_pi_of_white hWlaw hW0 hWc
  have hYW : (fun ω i => Y i ω) = fun ω => C *ᵥ fun i => W i ω := by
    funext ω
    show _ = C *ᵥ (C⁻¹ *ᵥ fun j => Y j ω)
    rw [Matrix.mulVec_mulVec, Matrix.mul_nonsing_inv _ hCu, Matrix.one_mulVec]
  have hLm : Measurable fun x : ι → ℝ => C *ᵥ x := (LinearMap.toContinuousLinearMap (Matrix.toLin' C)).continuous.measurable
  have hIm : Measurable fun x : ι → ℝ => C⁻¹ *ᵥ x := (LinearMap.toContinuousLinearMap (Matrix.toLin' C⁻¹)).continuous.measurable
  have hgm : Measurable fun x : ι → ℝ => ENNReal.ofReal (∏ i, gaussianPDFReal 0 1 (x i)) :=
    (Finset.measurable_prod _ fun i _ => (measurable_gaussianPDFReal 0 1).comp (measurable_pi_apply i)).ennreal_ofReal
  have e1 : P.map (fun ω i => Y i ω) = (P.map fun ω i => W i ω).map fun x => C *ᵥ x := by
    rw [AEMeasurable.map_map_of_aemeasurable hLm.aemeasurable hWlaw.aemeasurable, hYW]; rfl
  rw [e1, hWmap, pi_gaussianReal]
  ext s hs
  rw [Measure.map_apply hLm hs, withDensity_apply _ (hLm hs), withDensity_apply _ hs]
  have hvol : (volume : Measure (ι → ℝ)) = ENNReal.ofReal |C.det| • Measure.map (Matrix.toLin' C) volume := by
    rw [Real.map_matrix_volume_pi_eq_smul_volume_pi hC, smul_smul, ← ENNReal.ofReal_mul (abs_nonneg _), ← abs_mul,
      mul_inv_cancel₀ hC, abs_one, ENNReal.ofReal_one, one_smul]
  have hdm : Measurable fun y => ENNReal.ofReal (Real.exp (gaussLogDensity (C * Cᵀ) y)) := by
    have : (fun y => ENNReal.ofReal (Real.exp (gaussLogDensity (C * Cᵀ) y)))
        = fun y => ENNReal.ofReal (|C.det|⁻¹ * ∏ i, gaussianPDFReal 0 1 ((C⁻¹ *ᵥ y) i)) :=
      funext fun y => by rw [gaussLogDensity_of_factor C hC]
    rw [this]
    exact ((Finset.measurable_prod _ fun i _ =>
      (measurable_gaussianPDFReal 0 1).comp ((measurable_pi_apply i).comp hIm)).const_mul _).ennreal_ofReal
  conv_rhs => rw [hvol]
  rw [Measure.restrict_smul, lintegral_smul_measure, ← lintegral_indicator hs]
  have hL' : Measurable (Matrix.toLin' C) := hLm
  rw [lintegral_map (hdm.indicator hs) hL', smul_eq_mul, ← lintegral_const_mul _ (show Measurable fun a => s.indicator _ (Matrix.toLin' C a) from (hdm.indicator hs).comp hL'),
    ← lintegral_indicator (hLm hs)]
  refine lintegral_congr fun x => ?_
  by_cases hx : C *ᵥ x ∈ s
  · rw [Set.indicator_of_mem (show x ∈ _ from hx), Set.indicator_of_mem (show Matrix.toLin' C x ∈ s from hx), Matrix.toLin'_apply,
      gaussLogDensity_of_factor C hC, Matrix.mulVec_mulVec, Matrix.nonsing_inv_mul _ hCu, Matrix.one_mulVec,
      ← ENNReal.ofReal_mul (abs_nonneg _), mul_inv_cancel_left₀ (abs_ne_zero.mpr hC)]
  · rw [Set.indicator_of_notMem (show x ∉ _ from hx), Set.indicator_of_notMem (show Matrix.toLin' C x ∉ s from hx), mul_zero]

section conditional
variable {Ω ι : Type*} [MeasurableSpace Ω] [Fintype ι] [DecidableEq ι] {P : Measure Ω} {Y : ι → Ω → ℝ} {F : Ω → ℝ} {K : Matrix ι ι ℝ}
  {c : ι → ℝ} {v : ℝ}

theorem postMean_eq_weights (hK : K.IsSymm) (y c : ι → ℝ) : postMean K y c = (K⁻¹ *ᵥ c) ⬝ᵥ y := by
  rw [postMean, Matrix.dotProduct_mulVec, ← Matrix.mulVec_transpose, Matrix.transpose_nonsing_inv, hK.eq]

/-- the residual of the posterior mean: a Gaussian variable independent of the data -/
theorem gaussian_residual (hFY : HasGaussianLaw (fun ω => (F ω, fun i => Y i ω)) P) (hF0 : P[F] = 0) (h0 : ∀ i, P[Y i] = 0)
    (hc : ∀ i j, cov[Y i, Y j; P] = K i j) (hFc : ∀ i, cov[F, Y i; P] = c i) (hFv : Var[F; P] = v) (hK : K.PosDef) :
    IndepFun (fun ω => F ω - postMean K (fun i => Y i ω) c) (fun ω i => Y i ω) P ∧
    P.map (fun ω => F ω - postMean K (fun i => Y i ω) c) = gaussianReal 0 (postVar K v c).toNNReal ∧ 0 ≤ postVar K v c := by
  have hP := hFY.isProbabilityMeasure
  have hY : HasGaussianLaw (fun ω i => Y i ω) P := hFY.snd
  have hm : ∀ i, MemLp (Y i) 2 P := fun i => (hY.eval i).memLp_two
  have hFm : MemLp F 2 P := hFY.fst.memLp_two
  have hsym : K.IsSymm := by
    have := hK.isHermitian
    rwa [IsHermitian, conjTranspose_eq_transpose_of_trivial] at this
  have hKu : IsUnit K.det := isUnit_iff_ne_zero.mpr hK.det_pos.ne'
  simp_rw [postMean_eq_weights hsym]
  set w := K⁻¹ *ᵥ c with hw
  have hKw : K *ᵥ w = c := by rw [hw, Matrix.mulVec_mulVec, Matrix.mul_nonsing_inv _ hKu, Matrix.one_mulVec]
  have hwm : MemLp (fun ω => w ⬝ᵥ fun i => Y i ω) 2 P := memLp_finsetSum _ fun i _ => (hm i).const_mul (w i)
  set L : ((ℝ × (ι → ℝ)) →ₗ[ℝ] ℝ × (ι → ℝ)) :=
    { toFun := fun p => (p.1 - w ⬝ᵥ p.2, p.2)
      map_add' := fun p q => by simp only [Prod.fst_add, Prod.snd_add, dotProduct_add, Prod.mk_add_mk]; congr 1; ring
      map_smul' := fun r p => by
        simp only [Prod.smul_fst, Prod.smul_snd, dotProduct_smul, smul_eq_mul, RingHom.id_apply, Prod.smul_mk]; congr 1; ring } with hL
  have hEY : HasGaussianLaw (fun ω => (F ω - w ⬝ᵥ (fun i => Y i ω), fun i => Y i ω)) P :=
    hFY.map_fun (LinearMap.toContinuousLinearMap L)
  have hE := hEY.fst
  have hcov : ∀ b : ι → ℝ, cov[fun ω => F ω - w ⬝ᵥ (fun i => Y i ω), fun ω => b ⬝ᵥ fun i => Y i ω; P] = 0 := by
    intro b
    have hbm : MemLp (fun ω => b ⬝ᵥ fun i => Y i ω) 2 P := memLp_finsetSum _ fun i _ => (hm i).const_mul (b i)
    rw [covariance_fun_sub_left hFm hwm hbm, mulVec_cov hm hc]
    have : cov[F, fun ω => b ⬝ᵥ fun i => Y i ω; P] = c ⬝ᵥ b := by
      simp only [dotProduct]
      rw [covariance_fun_sum_right (fun i => (hm i).const_mul (b i)) hFm]
      exact Finset.sum_congr rfl fun i _ => by rw [covariance_const_mul_right, hFc, mul_comm]
    rw [this, Matrix.dotProduct_mulVec, ← Matrix.mulVec_transpose, hsym.eq, hKw, sub_self]
  have hvar : Var[fun ω => F ω - w ⬝ᵥ (fun i => Y i ω); P] = postVar K v c := by
    rw [← covariance_self hE.aemeasurable, covariance_fun_sub_right hE.memLp_two hFm hwm, hcov w, sub_zero, covariance_comm,
      covariance_fun_sub_right hFm hFm hwm, covariance_self hFm.aemeasurable, hFv, covariance_comm]
    have : cov[fun ω => w ⬝ᵥ fun i => Y i ω, F; P] = c ⬝ᵥ w := by
      simp only [dotProduct]
      rw [covariance_fun_sum_left (fun i => (hm i).const_mul (w i)) hFm]
      exact Finset.sum_congr rfl fun i _ => by rw [covariance_const_mul_left, covariance_comm, hFc, mul_comm]
    rw [this, postVar]
  have hmean : P[fun ω => F ω - w ⬝ᵥ (fun i => Y i ω)] = 0 := by
    rw [integral_sub hFY.fst.integrable (hwm.integrable one_le_two), hF0, mulVec_mean (fun i => (hY.eval i).integrable) h0, sub_zero]
  refine ⟨hEY.indepFun_of_covariance_strongDual fun L₁ L₂ => ?_, ?_, hvar ▸ variance_nonneg _ _⟩
  · have e1 : (L₁ ∘ fun ω => F ω - w ⬝ᵥ (fun i => Y i ω)) = fun ω => L₁ 1 * (F ω - w ⬝ᵥ (fun i => Y i ω)) := by
      funext ω
      have := L₁.map_smul (F ω - w ⬝ᵥ (fun i => Y i ω)) 1
      rw [smul_eq_mul, mul_one, smul_eq_mul, mul_comm] at this
      exact this
    have e2 : (L₂ ∘ fun ω i => Y i ω) = fun ω => (fun i => L₂ (Pi.single i 1)) ⬝ᵥ fun i => Y i ω := by
      funext ω
      rw [Function.comp_apply, dotProduct]
      conv_lhs => rw [← Finset.univ_sum_single (fun i => Y i ω), map_sum]
      refine Finset.sum_congr rfl fun i _ => ?_
      have := L₂.map_smul (Y i ω) (Pi.single i 1)
      rw [← Pi.single_smul, smul_eq_mul, mul_one, smul_eq_mul, mul_comm] at this
      exact this
    rw [e1, e2, covariance_const_mul_left, hcov, mul_zero]
  · rw [hE.map_eq_gaussianReal, hmean, hvar]

theorem measurable_postMean (K : Matrix ι ι ℝ) (c : ι → ℝ) : Measurable fun y => postMean K y c := by
  unfold postMean
  exact (LinearMap.toContinuousLinearMap ((dotProductBilin ℝ ℝ c).comp (Matrix.toLin' K⁻¹))).continuous.measurable

/-- the kernel of the posterior distributions -/
noncomputable def posteriorKernel (K : Matrix ι ι ℝ) (c : ι → ℝ) (V : ℝ≥0) : Kernel (ι → ℝ) ℝ where
  toFun y := gaussianReal (postMean K y c) V
  measurable' := measurable_gaussianReal.comp ((measurable_postMean K c).prodMk measurable_const)

instance (K : Matrix ι ι ℝ) (c : ι → ℝ) (V : ℝ≥0) : IsMarkovKernel (posteriorKernel K c V) :=
  ⟨fun y => inferInstanceAs (IsProbabilityMeasure (gaussianReal (postMean K y c) V))⟩

/-- **the conditional distribution** of a Gaussian variable given a Gaussian vector -/
theorem gaussian_condDistrib (hFY : HasGaussianLaw (fun ω => (F ω, fun i => Y i ω)) P) (hF0 : P[F] = 0) (h0 : ∀ i, P[Y i] = 0)
    (hc : ∀ i j, cov[Y i, Y j; P] = K i j) (hFc : ∀ i, cov[F, Y i; P] = c i) (hFv : Var[F; P] = v) (hK : K.PosDef) [IsFiniteMeasure P] :
    condDistrib F (fun ω i => Y i ω) P =ᵐ[P.map fun ω i => Y i ω] fun y => gaussianReal (postMean K y c) (postVar K v c).toNNReal := by
  obtain ⟨hind, hlaw, -⟩ := gaussian_residual hFY hF0 h0 hc hFc hFv hK
  have hP := hFY.isProbabilityMeasure
  have hYm : AEMeasurable (fun ω i => Y i ω) P := hFY.snd.aemeasurable
  have hFm : AEMeasurable F P := hFY.fst.aemeasurable
  have hμ := measurable_postMean K c
  have hEm : AEMeasurable (fun ω => F ω - postMean K (fun i => Y i ω) c) P := hFm.sub (hμ.comp_aemeasurable hYm)
  refine condDistrib_ae_eq_of_measure_eq_compProd (κ := posteriorKernel K c (postVar K v c).toNNReal) _ hFm ?_
  have hg : Measurable fun p : (ι → ℝ) × ℝ => (p.1, postMean K p.1 c + p.2) :=
    measurable_fst.prodMk ((hμ.comp measurable_fst).add measurable_snd)
  have hjoint := (indepFun_iff_map_prod_eq_prod_map_map hYm hEm).mp hind.symm
  have e : P.map (fun ω => ((fun i => Y i ω), F ω)) = (P.map fun ω => ((fun i => Y i ω), F ω - postMean K (fun i => Y i ω) c)).map
      fun p => (p.1, postMean K p.1 c + p.2) := by
    rw [AEMeasurable.map_map_of_aemeasurable hg.aemeasurable (hYm.prodMk hEm)]
    congr 1
    funext ω
    simp only [Function.comp_apply, add_sub_cancel]
  rw [e, hjoint, hlaw]
  ext s hs
  rw [Measure.map_apply hg hs, Measure.prod_apply (hg hs), Measure.compProd_apply hs]
  refine lintegral_congr fun y => ?_
  show _ = gaussianReal (postMean K y c) _ _
  have e3 : gaussianReal (postMean K y c) (postVar K v c).toNNReal
      = (gaussianReal 0 (postVar K v c).toNNReal).map fun x => postMean K y c + x := by
    rw [gaussianReal_map_const_add, zero_add]
  rw [e3, Measure.map_apply (measurable_const_add _) (measurable_prodMk_left hs)]
  rfl

/-- **the posterior mean is the conditional expectation** -/
theorem gaussian_condExp (hFY : HasGaussianLaw (fun ω => (F ω, fun i => Y i ω)) P) (hF0 : P[F] = 0) (h0 : ∀ i, P[Y i] = 0)
    (hc : ∀ i j, cov[Y i, Y j; P] = K i j) (hFc : ∀ i, cov[F, Y i; P] = c i) (hFv : Var[F; P] = v) (hK : K.PosDef) [IsFiniteMeasure P]
    (hYm : ∀ i, Measurable (Y i)) :
    P[F | MeasurableSpace.comap (fun ω i => Y i ω) inferInstance] =ᵐ[P] fun ω => postMean K (fun i => Y i ω) c := by
  have hm : Measurable fun ω i => Y i ω := measurable_pi_lambda _ hYm
  have h1 := condExp_ae_eq_integral_condDistrib' (μ := P) hm hFY.fst.integrable
  have h2 := ae_of_ae_map hm.aemeasurable (gaussian_condDistrib hFY hF0 h0 hc hFc hFv hK)
  filter_upwards [h1, h2] with ω e1 e2
  rw [e1, e2, integral_id_gaussianReal]

/-- **coverage**: intervals of `z` posterior standard deviations contain the variable with the probability of a standard normal -/
theorem gaussian_coverage (hFY : HasGaussianLaw (fun ω => (F ω, fun i => Y i ω)) P) (hF0 : P[F] = 0) (h0 : ∀ i, P[Y i] = 0)
    (hc : ∀ i j, cov[Y i, Y j; P] = K i j) (hFc : ∀ i, cov[F, Y i; P] = c i) (hFv : Var[F; P] = v) (hK : K.PosDef)
    (hV : 0 < postVar K v c) (z : ℝ) :
    P {ω | |F ω - postMean K (fun i => Y i ω) c| ≤ z * √(postVar K v c)} = gaussianReal 0 1 (Set.Icc (-z) z) := by
  obtain ⟨-, hlaw, -⟩ := gaussian_residual hFY hF0 h0 hc hFc hFv hK
  have hEm : AEMeasurable (fun ω => F ω - postMean K (fun i => Y i ω) c) P :=
    hFY.fst.aemeasurable.sub ((measurable_postMean K c).comp_aemeasurable hFY.snd.aemeasurable)
  have hs : MeasurableSet {x : ℝ | |x| ≤ z * √(postVar K v c)} := measurableSet_le (by fun_prop) measurable_const
  have e : P {ω | |F ω - postMean K (fun i => Y i ω) c| ≤ z * √(postVar K v c)} =
      P.map (fun ω => F ω - postMean K (fun i => Y i ω) c) {x : ℝ | |x| ≤ z * √(postVar K v c)} := by
    rw [Measure.map_apply_of_aemeasurable hEm hs]; rfl
  have hq : 0 < √(postVar K v c) := Real.sqrt_pos.mpr hV
  have e2 : gaussianReal 0 (postVar K v c).toNNReal = (gaussianReal 0 1).map fun x => √(postVar K v c) * x := by
    rw [gaussianReal_map_const_mul, mul_zero]
    congr 1
    apply NNReal.coe_injective
    simp [Real.sq_sqrt hV.le, hV.le]
  rw [e, hlaw, e2, Measure.map_apply (by fun_prop) hs]
  congr 1
  ext x
  show |√(postVar K v c) * x| ≤ z * √(postVar K v c) ↔ -z ≤ x ∧ x ≤ z
  rw [abs_mul, abs_of_pos hq, mul_comm z, mul_le_mul_iff_right₀ hq, abs_le]

/-- **optimality**: the posterior mean has mean square error `postVar`, and no other function of the data has a smaller one -/
theorem gaussian_mse (hFY : HasGaussianLaw (fun ω => (F ω, fun i => Y i ω)) P) (hF0 : P[F] = 0) (h0 : ∀ i, P[Y i] = 0)
    (hc : ∀ i j, cov[Y i, Y j; P] = K i j) (hFc : ∀ i, cov[F, Y i; P] = c i) (hFv : Var[F; P] = v) (hK : K.PosDef) :
    P[fun ω => (F ω - postMean K (fun i => Y i ω) c) ^ 2] = postVar K v c ∧
    ∀ g : (ι → ℝ) → ℝ, Measurable g → MemLp (fun ω => g fun i => Y i ω) 2 P →
      P[fun ω => (F ω - g fun i => Y i ω) ^ 2] = postVar K v c + P[fun ω => (postMean K (fun i => Y i ω) c - g fun i => Y i ω) ^ 2] := by
  obtain ⟨hind, hlaw, hnn⟩ := gaussian_residual hFY hF0 h0 hc hFc hFv hK
  have hP := hFY.isProbabilityMeasure
  have hYm : AEMeasurable (fun ω i => Y i ω) P := hFY.snd.aemeasurable
  have hμ := measurable_postMean K c
  have hEm : AEMeasurable (fun ω => F ω - postMean K (fun i => Y i ω) c) P := hFY.fst.aemeasurable.sub (hμ.comp_aemeasurable hYm)
  have hEl : HasLaw (fun ω => F ω - postMean K (fun i => Y i ω) c) (gaussianReal 0 (postVar K v c).toNNReal) P := ⟨hEm, hlaw⟩
  have hE2 : MemLp (fun ω => F ω - postMean K (fun i => Y i ω) c) 2 P := hEl.hasGaussianLaw.memLp_two
  have hE0 : P[fun ω => F ω - postMean K (fun i => Y i ω) c] = 0 := by
    rw [hEl.integral_eq, integral_id_gaussianReal]
  have hEv : P[fun ω => (F ω - postMean K (fun i => Y i ω) c) ^ 2] = postVar K v c := by
    have h := variance_of_integral_eq_zero hEm hE0
    rw [← h, hEl.variance_eq, variance_id_gaussianReal, Real.coe_toNNReal _ hnn]
  refine ⟨hEv, fun g hg hg2 => ?_⟩
  have hμ2 : MemLp (fun ω => postMean K (fun i => Y i ω) c) 2 P := by
    have := hFY.fst.memLp_two.sub hE2
    refine this.ae_eq (Filter.Eventually.of_forall fun ω => ?_)
    simp
  have hD2 : MemLp (fun ω => postMean K (fun i => Y i ω) c - g fun i => Y i ω) 2 P := hμ2.sub hg2
  have hind' : IndepFun (fun ω => F ω - postMean K (fun i => Y i ω) c) (fun ω => postMean K (fun i => Y i ω) c - g fun i => Y i ω) P :=
    hind.comp measurable_id (hμ.sub hg)
  have hprod : P[fun ω => (F ω - postMean K (fun i => Y i ω) c) * (postMean K (fun i => Y i ω) c - g fun i => Y i ω)] = 0 := by
    have := hind'.integral_mul_eq_mul_integral hE2.aestronglyMeasurable hD2.aestronglyMeasurable
    rw [hE0, zero_mul] at this
    exact this
  have e : (fun ω => (F ω - g fun i => Y i ω) ^ 2) = fun ω => (F ω - postMean K (fun i => Y i ω) c) ^ 2 +
      (2 * ((F ω - postMean K (fun i => Y i ω) c) * (postMean K (fun i => Y i ω) c - g fun i => Y i ω)) +
        (postMean K (fun i => Y i ω) c - g fun i => Y i ω) ^ 2) := by
    funext ω; ring
  have hi1 := hE2.integrable_sq
  have hi2 : Integrable (fun ω => (F ω - postMean K (fun i => Y i ω) c) * (postMean K (fun i => Y i ω) c - g fun i => Y i ω)) P :=
    hE2.integrable_mul hD2
  have hi3 := hD2.integrable_sq
  have hi4 : Integrable (fun ω => 2 * ((F ω - postMean K (fun i => Y i ω) c) * (postMean K (fun i => Y i ω) c - g fun i => Y i ω)) +
        (postMean K (fun i => Y i ω) c - g fun i => Y i ω) ^ 2) P := (hi2.const_mul 2).add hi3
  rw [e, integral_add hi1 hi4, integral_add (hi2.const_mul 2) hi3, integral_const_mul, hprod, hEv]
  ring

end conditional

/-- the log density of a Gaussian vector is a quadratic function -/
theorem gaussLogDensity_integrable {Ω ι : Type*} [MeasurableSpace Ω] [Fintype ι] [DecidableEq ι] {P : Measure Ω} {Y : ι → Ω → ℝ}
    (hY : HasGaussianLaw (fun ω i => Y i ω) P) (K : Matrix ι ι ℝ) : Integrable (fun ω => gaussLogDensity K fun i => Y i ω) P := by
  have hP := hY.isProbabilityMeasure
  have hm : ∀ i, MemLp (Y i) 2 P := fun i => (hY.eval i).memLp_two
  have hq : Integrable (fun ω => (fun i => Y i ω) ⬝ᵥ K⁻¹ *ᵥ fun i => Y i ω) P := by
    simp only [dotProduct, mulVec]
    refine integrable_finsetSum _ fun i _ => ?_
    have : (fun ω => Y i ω * ∑ j, K⁻¹ i j * Y j ω) = fun ω => Y i ω * (fun ω => ∑ j, K⁻¹ i j * Y j ω) ω := rfl
    rw [this]
    exact (hm i).integrable_mul (memLp_finsetSum _ fun j _ => (hm j).const_mul _)
  unfold gaussLogDensity
  exact ((hq.const_mul _).sub (integrable_const _)).sub (integrable_const _)

/-- **Gibbs' inequality**: the expected log density is largest for the density of the data -/
theorem gaussian_gibbs {Ω ι : Type*} [MeasurableSpace Ω] [Fintype ι] [DecidableEq ι] {P : Measure Ω} {Y : ι → Ω → ℝ}
    {K K' : Matrix ι ι ℝ} (hY : HasGaussianLaw (fun ω i => Y i ω) P)
    (hd : P.map (fun ω i => Y i ω) = volume.withDensity fun y => ENNReal.ofReal (Real.exp (gaussLogDensity K y)))
    (hone : ∫⁻ y : ι → ℝ, ENNReal.ofReal (Real.exp (gaussLogDensity K' y)) = 1) :
    P[fun ω => gaussLogDensity K' fun i => Y i ω] ≤ P[fun ω => gaussLogDensity K fun i => Y i ω] := by
  have hP := hY.isProbabilityMeasure
  have hcont : ∀ M : Matrix ι ι ℝ, Continuous fun y => gaussLogDensity M y := by
    intro M
    unfold gaussLogDensity
    simp only [dotProduct, mulVec]
    fun_prop
  have hexp : Integrable (fun ω => Real.exp (gaussLogDensity K' (fun i => Y i ω) - gaussLogDensity K fun i => Y i ω)) P ∧
      P[fun ω => Real.exp (gaussLogDensity K' (fun i => Y i ω) - gaussLogDensity K fun i => Y i ω)] = 1 := by
    have hmeas : Measurable fun y => Real.exp (gaussLogDensity K' y - gaussLogDensity K y) := ((hcont K').sub (hcont K)).rexp.measurable
    have hl : ∫⁻ ω, ENNReal.ofReal (Real.exp (gaussLogDensity K' (fun i => Y i ω) - gaussLogDensity K fun i => Y i ω)) ∂P = 1 := by
      rw [← lintegral_map' (f := fun y => ENNReal.ofReal (Real.exp (gaussLogDensity K' y - gaussLogDensity K y))) (g := fun ω i => Y i ω)
        hmeas.ennreal_ofReal.aemeasurable hY.aemeasurable, hd,
        lintegral_withDensity_eq_lintegral_mul _ (hcont K).rexp.measurable.ennreal_ofReal hmeas.ennreal_ofReal, ← hone]
      refine lintegral_congr fun y => ?_
      rw [Pi.mul_apply, ← ENNReal.ofReal_mul (Real.exp_pos _).le, ← Real.exp_add, add_sub_cancel]
    have hae : AEStronglyMeasurable (fun ω => Real.exp (gaussLogDensity K' (fun i => Y i ω) - gaussLogDensity K fun i => Y i ω)) P :=
      (hmeas.comp_aemeasurable hY.aemeasurable).aestronglyMeasurable
    have hnn : 0 ≤ᵐ[P] fun ω => Real.exp (gaussLogDensity K' (fun i => Y i ω) - gaussLogDensity K fun i => Y i ω) :=
      Filter.Eventually.of_forall fun ω => (Real.exp_pos _).le
    refine ⟨⟨hae, ?_⟩, ?_⟩
    · rw [hasFiniteIntegral_iff_ofReal hnn, hl]; exact ENNReal.one_lt_top
    · rw [integral_eq_lintegral_of_nonneg_ae hnn hae, hl, ENNReal.toReal_one]
  have h1 := gaussLogDensity_integrable hY K
  have h2 := gaussLogDensity_integrable hY K'
  have key : P[fun ω => gaussLogDensity K' (fun i => Y i ω) - gaussLogDensity K fun i => Y i ω] ≤
      P[fun ω => Real.exp (gaussLogDensity K' (fun i => Y i ω) - gaussLogDensity K fun i => Y i ω) - 1] := by
    refine integral_mono (h2.sub h1) (hexp.1.sub (integrable_const 1)) fun ω => ?_
    have := Real.add_one_le_exp (gaussLogDensity K' (fun i => Y i ω) - gaussLogDensity K fun i => Y i ω)
    show gaussLogDensity K' (fun i => Y i ω) - gaussLogDensity K (fun i => Y i ω) ≤ _ - 1
    linarith
  rw [integral_sub h2 h1, integral_sub hexp.1 (integrable_const 1), hexp.2] at key
  simp only [integral_const, probReal_univ, smul_eq_mul, mul_one] at key
  linarith

end Verif
