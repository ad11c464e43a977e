import Verif.Lemmas.GaussianAverages
import Verif.Lemmas.Parts
import Mathlib.Analysis.Calculus.LHopital

/-!
# Limits of Gaussian vectors, and the derivative of a Gaussian process
-/

namespace Verif
open Matrix MeasureTheory ProbabilityTheory Filter Topology Spec

variable {Ω : Type*} [MeasurableSpace Ω] {P : Measure Ω}

/-- an almost sure limit of centred normal variables is normal -/
theorem gaussian_limit [IsProbabilityMeasure P] {A : ℕ → Ω → ℝ} {B : Ω → ℝ} {V : ℕ → ℝ} {v : ℝ}
    (hlaw : ∀ n, HasLaw (A n) (gaussianReal 0 (V n).toNNReal) P ∧ 0 ≤ V n) (hA : ∀ᵐ ω ∂P, Tendsto (fun n => A n ω) atTop (𝓝 (B ω)))
    (hV : Tendsto V atTop (𝓝 v)) : HasLaw B (gaussianReal 0 v.toNNReal) P ∧ 0 ≤ v := by
  have hm : AEMeasurable B P := aemeasurable_of_tendsto_metrizable_ae atTop (fun n => (hlaw n).1.aemeasurable) hA
  have hV0 : 0 ≤ v := ge_of_tendsto' hV fun n => (hlaw n).2
  refine ⟨⟨hm, ?_⟩, hV0⟩
  have hPm := Measure.isProbabilityMeasure_map (μ := P) hm
  refine Measure.ext_of_charFun (funext fun t => ?_)
  have h1 : Tendsto (fun n => charFun (P.map (A n)) t) atTop (𝓝 (charFun (P.map B) t)) := by
    have hint : ∀ {B : Ω → ℝ}, AEMeasurable B P → charFun (P.map B) t = ∫ ω, Complex.exp (t * B ω * Complex.I) ∂P := by
      intro B hB
      rw [charFun_apply_real, integral_map hB (by fun_prop)]
    rw [hint hm]
    simp_rw [fun n => hint (hlaw n).1.aemeasurable]
    refine tendsto_integral_of_dominated_convergence (fun _ => 1) (fun n => ?_) (integrable_const _) (fun n => ?_) ?_
    · have := (hlaw n).1.aemeasurable
      exact (by fun_prop : AEMeasurable (fun ω => Complex.exp (t * A n ω * Complex.I)) P).aestronglyMeasurable
    · refine Eventually.of_forall fun ω => le_of_eq ?_
      rw [← Complex.ofReal_mul, Complex.norm_exp_ofReal_mul_I]
    · filter_upwards [hA] with ω hω
      exact (by fun_prop : Continuous fun a : ℝ => Complex.exp (t * a * Complex.I)).tendsto _ |>.comp hω
  have h2 : Tendsto (fun n => charFun (P.map (A n)) t) atTop (𝓝 (charFun (gaussianReal 0 v.toNNReal) t)) := by
    simp_rw [fun n => (hlaw n).1.map_eq, charFun_gaussianReal, Real.coe_toNNReal _ hV0, fun n => Real.coe_toNNReal _ (hlaw n).2]
    exact (by fun_prop : Continuous fun v : ℝ => Complex.exp (t * ((0 : ℝ) : ℂ) * Complex.I - (v : ℂ) * t ^ 2 / 2)).tendsto _ |>.comp hV
  exact tendsto_nhds_unique h1 h2

/-- an almost sure limit of centred Gaussian vectors whose covariances converge is a Gaussian vector with the limiting covariances -/
theorem gaussian_vector_limit [IsProbabilityMeasure P] {ι : Type*} [Fintype ι] [DecidableEq ι] {Z : ℕ → ι → Ω → ℝ} {W : ι → Ω → ℝ}
    {C : ℕ → Matrix ι ι ℝ} {K : Matrix ι ι ℝ} (hZ : ∀ n, HasGaussianLaw (fun ω i => Z n i ω) P) (h0 : ∀ n i, P[Z n i] = 0)
    (hC : ∀ n i j, cov[Z n i, Z n j; P] = C n i j) (hW : ∀ i, ∀ᵐ ω ∂P, Tendsto (fun n => Z n i ω) atTop (𝓝 (W i ω)))
    (hK : ∀ i j, Tendsto (fun n => C n i j) atTop (𝓝 (K i j))) :
    HasGaussianLaw (fun ω i => W i ω) P ∧ (∀ i, P[W i] = 0) ∧ ∀ i j, cov[W i, W j; P] = K i j := by
  have hcomb : ∀ w : ι → ℝ, HasLaw (fun ω => ∑ i, w i * W i ω) (gaussianReal 0 (w ⬝ᵥ K *ᵥ w).toNNReal) P ∧ 0 ≤ w ⬝ᵥ K *ᵥ w := by
    intro w
    refine gaussian_limit (A := fun n ω => ∑ i, w i * Z n i ω) (V := fun n => w ⬝ᵥ C n *ᵥ w) (fun n => ?_) ?_ ?_
    · have hl : HasGaussianLaw (fun ω => w ⬝ᵥ fun i => Z n i ω) P :=
        (hZ n).map_fun (LinearMap.toContinuousLinearMap (dotProductBilin ℝ ℝ w))
      have e0 : P[fun ω => w ⬝ᵥ fun i => Z n i ω] = 0 := mulVec_mean (fun i => ((hZ n).eval i).integrable) (h0 n) w
      have ev : Var[fun ω => w ⬝ᵥ fun i => Z n i ω; P] = w ⬝ᵥ C n *ᵥ w := by
        rw [← covariance_self hl.aemeasurable]
        exact mulVec_cov (fun i => ((hZ n).eval i).memLp_two) (hC n) w w
      refine ⟨⟨hl.aemeasurable, ?_⟩, ev ▸ variance_nonneg _ _⟩
      have := hl.map_eq_gaussianReal
      rw [e0, ev] at this
      exact this
    · filter_upwards [ae_all_iff.2 hW] with ω hω
      exact tendsto_finsetSum _ fun i _ => (hω i).const_mul _
    · simp only [dotProduct, mulVec]
      exact tendsto_finsetSum _ fun i _ => Tendsto.const_mul _ (tendsto_finsetSum _ fun j _ => (hK i j).mul_const _)
  have h1 : ∀ i, HasLaw (W i) (gaussianReal 0 (K i i).toNNReal) P ∧ 0 ≤ K i i := fun i => by
    have h := hcomb (Pi.single i 1)
    simpa [Pi.single_apply] using h
  have hsymm : ∀ i j, K i j = K j i := fun i j => by
    refine tendsto_nhds_unique (hK i j) ?_
    have : (fun n => C n i j) = fun n => C n j i := funext fun n => by rw [← hC, covariance_comm, hC]
    rw [this]
    exact hK j i
  have hvar : ∀ i, Var[W i; P] = K i i := fun i => by
    rw [(h1 i).1.variance_eq, variance_id_gaussianReal, Real.coe_toNNReal _ (h1 i).2]
  refine ⟨hasGaussianLaw_of_comb (fun i => (h1 i).1.aemeasurable) fun w => ⟨_, (hcomb w).1⟩, fun i => ?_, fun i j => ?_⟩
  · rw [(h1 i).1.integral_eq, integral_id_gaussianReal]
  · have h2 := hcomb (Pi.single i 1 + Pi.single j 1)
    have e1 : (fun ω => ∑ k, (Pi.single i 1 + Pi.single j 1 : ι → ℝ) k * W k ω) = fun ω => W i ω + W j ω := by
      funext ω
      simp [Pi.single_apply, add_mul, Finset.sum_add_distrib]
    have e2 : (Pi.single i 1 + Pi.single j 1 : ι → ℝ) ⬝ᵥ K *ᵥ (Pi.single i 1 + Pi.single j 1) = K i i + K i j + (K j i + K j j) := by
      simp [mulVec_add]
      ring
    rw [e1, e2] at h2
    have e := variance_fun_add (h1 i).1.hasGaussianLaw.memLp_two (h1 j).1.hasGaussianLaw.memLp_two
    rw [h2.1.variance_eq, variance_id_gaussianReal, Real.coe_toNNReal _ h2.2, hvar, hvar, hsymm j i] at e
    linarith

/-- the second difference quotient of an even function -/
theorem second_difference {K K' : ℝ → ℝ} {v : ℝ} (hK : ∀ u, HasDerivAt K (K' u) u) (he : ∀ u, K (-u) = K u) (hK' : HasDerivAt K' (-v) 0) :
    Tendsto (fun h => 2 * (K 0 - K h) / h ^ 2) (𝓝[≠] 0) (𝓝 v) := by
  have h0 : K' 0 = 0 := by
    have h1 : HasDerivAt (fun u => K (-u)) (-K' 0) 0 := by
      have h := HasDerivAt.comp (0 : ℝ) (h₂ := K) (h := fun u : ℝ => -u) (by simpa using hK (-0)) (hasDerivAt_neg 0)
      rw [mul_neg_one] at h
      exact h
    simp only [he] at h1
    have := h1.unique (hK 0)
    linarith
  refine HasDerivAt.lhopital_zero_nhdsNE (f' := fun u => 2 * (0 - K' u)) (g' := fun u => 2 * u) (Eventually.of_forall fun u => ?_)
    (Eventually.of_forall fun u => ?_) ?_ ?_ ?_ ?_
  · exact ((hasDerivAt_const u (K 0)).sub (hK u)).const_mul 2
  · simpa using hasDerivAt_pow 2 u
  · filter_upwards [self_mem_nhdsWithin] with u hu
    exact mul_ne_zero two_ne_zero hu
  · refine tendsto_nhdsWithin_of_tendsto_nhds ?_
    have : ContinuousAt (fun u => 2 * (K 0 - K u)) 0 := (continuousAt_const.sub (hK 0).continuousAt).const_mul 2
    simpa [ContinuousAt] using this
  · refine tendsto_nhdsWithin_of_tendsto_nhds ?_
    have : ContinuousAt (fun u : ℝ => u ^ 2) 0 := by fun_prop
    simpa [ContinuousAt] using this
  · have h := (hasDerivAt_iff_tendsto_slope.1 hK').neg
    rw [neg_neg] at h
    refine h.congr' ?_
    filter_upwards [self_mem_nhdsWithin] with u hu
    have hu' : u ≠ 0 := hu
    rw [slope_def_field, h0, sub_zero, sub_zero]
    field_simp
    ring

section measured
variable {κ : ℝ → ℝ} {T : Set Coord} {g : Coord → Ω → ℝ} {X : Arr Coord} {R : Arr ℝ} {Y : Fin X.len → Ω → ℝ}

/-- measurements and any further latent values are jointly Gaussian -/
theorem Spec.Measured.gaussian_vector (h : Measured P κ T g X R Y) {ι : Type*} [Fintype ι] (c : ι → T) :
    HasGaussianLaw (fun ω (o : ι ⊕ Fin X.len) => o.elim (fun i => g (c i) ω) fun i => Y i ω) P := by
  have hP := h.latent.gaussian.isProbabilityMeasure
  set τ : ι ⊕ Fin X.len → T := fun o => o.elim c fun i : Fin X.len => ⟨X.get i, h.coords i i.2⟩ with hτ
  have hZ : HasGaussianLaw (fun ω (o : ι ⊕ Fin X.len) => g (τ o) ω) P := gaussianProcess_vector h.latent.gaussian τ
  have he : HasGaussianLaw (fun ω (i : Fin X.len) => Y i ω - g (X.get i) ω) P :=
    iIndepFun.hasGaussianLaw (fun i => (h.error_law i).hasGaussianLaw) h.errors_independent
  have hi := h.independent.comp (φ := fun (z : T → ℝ) (o : ι ⊕ Fin X.len) => z (τ o)) (ψ := id)
    (measurable_pi_lambda _ fun o => measurable_pi_apply _) measurable_id
  have hj := IndepFun.hasGaussianLaw hZ he hi
  set L : ((ι ⊕ Fin X.len → ℝ) × (Fin X.len → ℝ)) →ₗ[ℝ] (ι ⊕ Fin X.len → ℝ) :=
    { toFun := fun p o => p.1 o + o.elim (fun _ => 0) fun i => p.2 i
      map_add' := fun p q => by
        funext o
        rcases o with i | i
        · simp
        · simp; ring
      map_smul' := fun r p => by
        funext o
        rcases o with i | i
        · simp
        · simp; ring } with hL
  refine (hj.map_fun (LinearMap.toContinuousLinearMap L)).congr (Eventually.of_forall fun ω => ?_)
  funext o
  rcases o with i | i
  · show g (c i) ω + 0 = g (c i) ω
    ring
  · show g (X.get i) ω + (Y i ω - g (X.get i) ω) = Y i ω
    ring

/-- the instant `s` -/
theorem exposureCov_instants (s r : ℝ) : exposureCov κ (.time s) (.time r) = κ |s - r| := by
  simp [exposureCov, Coord.average, Coord.delta, Coord.sortable]

/-- **The posterior of the derivative of a Gaussian process.** -/
theorem Spec.Measured.derivative (h : Measured P κ T g X R Y) [IsFiniteMeasure P] (hT : ∀ s, Coord.time s ∈ T) (hR : ∀ i < X.len, 0 ≤ R.get i)
    (hpd : (noisyGram (fun i j : Fin X.len => exposureCov κ (X.get i) (X.get j)) (fun i => R.get i)).PosDef) {K' : ℝ → ℝ} {v : ℝ}
    (hK : ∀ u, HasDerivAt (fun u => κ |u|) (K' u) u) (hK' : HasDerivAt K' (-v) 0) {τ : ℝ} {c : Fin X.len → ℝ}
    (hc : ∀ i : Fin X.len, HasDerivAt (fun s => exposureCov κ (.time s) (X.get i)) (c i) τ) {D : Ω → ℝ}
    (hD : ∀ᵐ ω ∂P, HasDerivAt (fun s => g (.time s) ω) (D ω) τ) :
    IsPosterior P D Y (fun y => postMean (noisyGram (fun i j : Fin X.len => exposureCov κ (X.get i) (X.get j)) (fun i => R.get i)) y c)
      (postVar (noisyGram (fun i j : Fin X.len => exposureCov κ (X.get i) (X.get j)) (fun i => R.get i)) v c) := by
  have hP := h.latent.gaussian.isProbabilityMeasure
  obtain ⟨hY0, hYc, hgm⟩ := h.moments hR
  set G := noisyGram (fun i j : Fin X.len => exposureCov κ (X.get i) (X.get j)) (fun i => R.get i) with hG
  set η : ℕ → ℝ := fun n => 1 / ((n : ℝ) + 1) with hη
  have hη0 : ∀ n, η n ≠ 0 := fun n => (Nat.one_div_pos_of_nat).ne'
  have hηt : Tendsto η atTop (𝓝[≠] 0) :=
    tendsto_nhdsWithin_iff.2 ⟨tendsto_one_div_add_atTop_nhds_zero_nat, Eventually.of_forall fun n => hη0 n⟩
  set q : ℕ → Ω → ℝ := fun n ω => (g (.time (τ + η n)) ω - g (.time τ) ω) / η n with hq
  have hg2 : ∀ s, MemLp (g (.time s)) 2 P := fun s => (h.latent.gaussian.hasGaussianLaw_eval ⟨_, hT s⟩).memLp_two
  -- the vectors that converge
  set Z : ℕ → Option (Fin X.len) → Ω → ℝ := fun n o => o.elim (q n) Y with hZd
  have hZ : ∀ n, HasGaussianLaw (fun ω o => Z n o ω) P := fun n => by
    have h1 := h.gaussian_vector (fun b : Bool => if b then (⟨_, hT (τ + η n)⟩ : T) else ⟨_, hT τ⟩)
    set L : (Bool ⊕ Fin X.len → ℝ) →ₗ[ℝ] (Option (Fin X.len) → ℝ) :=
      { toFun := fun p o => o.elim ((p (.inl true) - p (.inl false)) / η n) fun i => p (.inr i)
        map_add' := fun p q => by
          funext o
          rcases o with _ | i
          · simp; ring
          · simp
        map_smul' := fun r p => by
          funext o
          rcases o with _ | i
          · simp; ring
          · simp } with hL
    refine (h1.map_fun (LinearMap.toContinuousLinearMap L)).congr (Eventually.of_forall fun ω => ?_)
    funext o
    rcases o with _ | i <;> rfl
  have hYl : ∀ i, MemLp (Y i) 2 P := fun i => ((hZ 0).eval (some i)).memLp_two
  have hqe : ∀ n, q n = fun ω => (η n)⁻¹ * (g (.time (τ + η n)) ω - g (.time τ) ω) := fun n => funext fun ω => by
    simp only [hq]; rw [div_eq_inv_mul]
  have hq0 : ∀ n, P[q n] = 0 := fun n => by
    rw [hqe, integral_const_mul, integral_sub ((hg2 _).integrable one_le_two) ((hg2 _).integrable one_le_two), (hgm _ (hT _)).1, (hgm _ (hT _)).1,
      sub_zero, mul_zero]
  have hqY : ∀ n i, cov[q n, Y i; P] = (exposureCov κ (.time (τ + η n)) (X.get i) - exposureCov κ (.time τ) (X.get i)) / η n := fun n i => by
    rw [hqe, covariance_const_mul_left]
    rw [covariance_fun_sub_left (hg2 _) (hg2 _) (hYl i), (hgm _ (hT _)).2.2, (hgm _ (hT _)).2.2, div_eq_inv_mul]
  have hqq : ∀ n, cov[q n, q n; P] = 2 * (κ |0| - κ |η n|) / η n ^ 2 := fun n => by
    have hsub : MemLp (fun ω => g (.time (τ + η n)) ω - g (.time τ) ω) 2 P := (hg2 _).sub (hg2 _)
    rw [hqe, covariance_const_mul_left, covariance_const_mul_right, covariance_fun_sub_left (hg2 _) (hg2 _) hsub,
      covariance_fun_sub_right (hg2 _) (hg2 _) (hg2 _), covariance_fun_sub_right (hg2 _) (hg2 _) (hg2 _)]
    rw [h.latent.cov _ (hT _) _ (hT _), h.latent.cov _ (hT _) _ (hT _), h.latent.cov _ (hT _) _ (hT _), h.latent.cov _ (hT _) _ (hT _)]
    simp only [exposureCov_instants, sub_self, add_sub_cancel_left, sub_add_cancel_left, abs_neg]
    have := hη0 n
    field_simp
    ring
  set C : ℕ → Matrix (Option (Fin X.len)) (Option (Fin X.len)) ℝ := fun n => Matrix.of fun a b => cov[Z n a, Z n b; P] with hC
  set M : Matrix (Option (Fin X.len)) (Option (Fin X.len)) ℝ :=
    Matrix.of fun a b => a.elim (b.elim v c) fun i => b.elim (c i) fun j => G i j with hM
  have hslope : ∀ i : Fin X.len, Tendsto (fun n => (exposureCov κ (.time (τ + η n)) (X.get i) - exposureCov κ (.time τ) (X.get i)) / η n) atTop (𝓝 (c i)) :=
    fun i => by
      have h1 := (hasDerivAt_iff_tendsto_slope_zero.1 (hc i)).comp hηt
      refine h1.congr fun n => ?_
      simp only [Function.comp_apply, smul_eq_mul]
      rw [div_eq_inv_mul]
  obtain ⟨hgl, hm0, hcov⟩ := gaussian_vector_limit (Z := Z) (W := fun o => o.elim D Y) (C := C) (K := M) hZ (fun n o => by
      rcases o with _ | i
      · exact hq0 n
      · exact hY0 i) (fun n a b => rfl) (fun o => by
      rcases o with _ | i
      · filter_upwards [hD] with ω hω
        have h1 := (hasDerivAt_iff_tendsto_slope_zero.1 hω).comp hηt
        refine h1.congr fun n => ?_
        simp only [Function.comp_apply, smul_eq_mul]
        show _ = (g (.time (τ + η n)) ω - g (.time τ) ω) / η n
        rw [div_eq_inv_mul]
      · exact Eventually.of_forall fun ω => tendsto_const_nhds) (fun a b => by
      rcases a with _ | i <;> rcases b with _ | j
      · show Tendsto (fun n => cov[q n, q n; P]) atTop (𝓝 v)
        simp only [hqq]
        exact (second_difference hK (fun u => by rw [abs_neg]) hK').comp hηt
      · show Tendsto (fun n => cov[q n, Y j; P]) atTop (𝓝 (c j))
        simp only [hqY]
        exact hslope j
      · show Tendsto (fun n => cov[Y i, q n; P]) atTop (𝓝 (c i))
        simp only [fun n => covariance_comm (Y i) (q n) (μ := P), hqY]
        exact hslope i
      · show Tendsto (fun n => cov[Y i, Y j; P]) atTop (𝓝 (G i j))
        rw [hYc]
        exact tendsto_const_nhds)
  have hjoint : HasGaussianLaw (fun ω => (D ω, fun i => Y i ω)) P := by
    set L : (Option (Fin X.len) → ℝ) →ₗ[ℝ] ℝ × (Fin X.len → ℝ) :=
      { toFun := fun p => (p none, fun i => p (some i))
        map_add' := fun p q => rfl
        map_smul' := fun r p => rfl } with hL
    exact hgl.map_fun (LinearMap.toContinuousLinearMap L)
  refine isPosterior_of_gaussian hjoint (hm0 none) hY0 hYc (fun i => hcov none (some i)) ?_ hpd
  rw [← covariance_self hjoint.fst.aemeasurable]
  exact hcov none none

end measured

end Verif
