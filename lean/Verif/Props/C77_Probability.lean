import Verif.Props.C65_Data
import Verif.Props.C62_Curves
import Verif.Lemmas.GaussianAverages

/-!
# C77: what likelihood and predictions mean

The random experiment is that of `Spec/Probability.lean`: a Gaussian process with the covariance function of the kernel is measured at the
coordinates of the data, at instants or averaged over exposures, with independent normal errors whose variances are the diagonal noise given
to `GaussianProcess`. Then `log_probability` is the log density of the distribution of the measurements, and `predict` returns mean and
variance of the conditional distribution of the process given the measurements.
-/

namespace Verif
open MeasureTheory ProbabilityTheory Matrix Kern Spec Filter
open scoped ENNReal NNReal

section
variable {kernel : Kern} {X : XArg} {solver : Option SolverKind} {κ : ℝ → ℝ} {diag : Option (ℝ ⊕ Arr ℝ)} {mean : Option (Coord → ℝ)}
  {u : Bool} {gp : GP} {Ω : Type*} [MeasurableSpace Ω] {P : Measure Ω} {T : Set Coord} {g : Coord → Ω → ℝ} {Y : Fin X.coords.len → Ω → ℝ}

/-- **C77, likelihood.** `log_probability` is the log of the probability density of the measurements. -/
theorem C77_density (h : Regression kernel X solver κ) (hnew : GP.new kernel X diag mean solver u = .ok gp)
    (hR : ∀ i < X.coords.len, 0 < (GP.noiseOf X.coords.len diag).get i)
    (hM : Measured P κ T g X.coords (GP.noiseOf X.coords.len diag) Y) :
    ∃ ℓ : (Fin X.coords.len → ℝ) → ℝ,
      (∀ y : Arr ℝ, y.len = X.coords.len → gp.logProbability y = .ok ((ℓ fun i => y.get i : ℝ) : EReal)) ∧
      P.map (fun ω i => Y i ω) = volume.withDensity fun y => ENNReal.ofReal (Real.exp (ℓ y)) := by
  refine ⟨gaussLogDensity (obsGram κ X.coords (GP.noiseOf X.coords.len diag)), fun y hy => C61_log_probability h hnew hy hR, ?_⟩
  obtain ⟨h0, hc, -⟩ := hM.moments fun i hi => (hR i hi).le
  exact gaussian_withDensity (hM.gaussian (hM.coords 0 h.nonempty)).snd h0 hc (h.gram_pd hR)

theorem posterior_of_measured (h : Regression kernel X solver κ) (hR : ∀ i < X.coords.len, 0 < (GP.noiseOf X.coords.len diag).get i)
    (hM : Measured P κ T g X.coords (GP.noiseOf X.coords.len diag) Y) [IsFiniteMeasure P] {c : Coord} (hc : c ∈ T) :
    IsPosterior P (g c) Y (fun y => postMean (obsGram κ X.coords (GP.noiseOf X.coords.len diag)) y (obsCross κ c X.coords))
      (postVar (obsGram κ X.coords (GP.noiseOf X.coords.len diag)) (exposureCov κ c c) (obsCross κ c X.coords)) := by
  obtain ⟨h0, hcov, hg⟩ := hM.moments fun i hi => (hR i hi).le
  obtain ⟨hc0, hcv, hcc⟩ := hg c hc
  have hG := hM.gaussian hc
  have hK := h.gram_pd hR
  have hmse := gaussian_mse hG hc0 h0 hcov hcc hcv hK
  refine ⟨(gaussian_residual hG hc0 h0 hcov hcc hcv hK).2.2, gaussian_condDistrib hG hc0 h0 hcov hcc hcv hK,
    fun hv z => gaussian_coverage hG hc0 h0 hcov hcc hcv hK hv z, hmse.1, fun a ha ha2 => ?_⟩
  rw [hmse.2 a ha ha2]
  exact le_add_of_nonneg_right (integral_nonneg fun ω => sq_nonneg _)

/-- **C77, predictions.** Mean and variance which `predict` returns at a time are those of the conditional distribution of the process at that
time given the measurements. -/
theorem C77_predict (h : Regression kernel X solver κ) (hnew : GP.new kernel X diag mean solver u = .ok gp)
    (hR : ∀ i < X.coords.len, 0 < (GP.noiseOf X.coords.len diag).get i)
    (hM : Measured P κ T g X.coords (GP.noiseOf X.coords.len diag) Y) [IsFiniteMeasure P] (ts : Arr ℝ) {j : ℕ} (hj : j < ts.len)
    (hT : Coord.time (ts.get j) ∈ T) :
    ∃ (m : (Fin X.coords.len → ℝ) → ℝ) (v : ℝ), IsPosterior P (g (.time (ts.get j))) Y m v ∧
      ∀ (y : Arr ℝ) (lp : EReal) (gp' : GP), gp.condition y = .ok (lp, gp') →
        ∃ mu var, gp'.predict (some (.times ts)) = .ok (mu, var) ∧ mu.len = ts.len ∧ var.len = ts.len ∧
          mu.get j = m (fun i => y.get i) ∧ var.get j = v := by
  refine ⟨_, _, posterior_of_measured h hR hM hT, fun y lp gp' hcond => ?_⟩
  obtain ⟨mu, var, hp, hl, hl', hm⟩ := C61_predict h hnew hR hcond ts
  refine ⟨mu, var, hp, hl, hl', (hm j hj).1, (hm j hj).2.trans ?_⟩
  rw [exposureCov_times, sub_self, abs_zero]

/-- **C77, at the data.** `predict` without arguments, and the mean and variance of the conditioned GP, describe the process at (or averaged over)
the coordinates of the data. -/
theorem C77_at_data (h : Regression kernel X solver κ) (hnew : GP.new kernel X diag mean solver u = .ok gp)
    (hR : ∀ i < X.coords.len, 0 < (GP.noiseOf X.coords.len diag).get i)
    (hM : Measured P κ T g X.coords (GP.noiseOf X.coords.len diag) Y) [IsFiniteMeasure P] {j : ℕ} (hj : j < X.coords.len) :
    ∃ (m : (Fin X.coords.len → ℝ) → ℝ) (v : ℝ), IsPosterior P (g (X.coords.get j)) Y m v ∧
      ∀ (y : Arr ℝ) (lp : EReal) (gp' : GP), gp.condition y = .ok (lp, gp') →
        ∃ var, gp'.var = some var ∧ gp'.mean.get j = m (fun i => y.get i) ∧ var.get j = v ∧
          ∃ mu' var', gp'.predict = .ok (mu', var') ∧ mu'.get j = m (fun i => y.get i) ∧ var'.get j = v := by
  refine ⟨_, _, posterior_of_measured h hR hM (hM.coords j hj), fun y lp gp' hcond => ?_⟩
  obtain ⟨-, -, var, hvar, -, hm⟩ := C61_condition h hnew hR hcond
  obtain ⟨mu', var', hp, -, -, hm'⟩ := C61_predict_at_data h hnew hR hcond
  exact ⟨var, hvar, (hm j hj).1, (hm j hj).2, mu', var', hp, (hm' j hj).1, (hm' j hj).2⟩

/-- **C77, conditional expectation.** Computed from the measurements, the predicted mean is the conditional expectation of the process. -/
theorem C77_conditional_expectation (h : Regression kernel X solver κ) (hnew : GP.new kernel X diag mean solver u = .ok gp)
    (hR : ∀ i < X.coords.len, 0 < (GP.noiseOf X.coords.len diag).get i)
    (hM : Measured P κ T g X.coords (GP.noiseOf X.coords.len diag) Y) [IsFiniteMeasure P] (hY : ∀ i, Measurable (Y i)) (ts : Arr ℝ) {j : ℕ}
    (hj : j < ts.len) (hT : Coord.time (ts.get j) ∈ T) :
    ∃ m : (Fin X.coords.len → ℝ) → ℝ,
      P[g (.time (ts.get j)) | MeasurableSpace.comap (fun ω i => Y i ω) inferInstance] =ᵐ[P] (fun ω => m fun i => Y i ω) ∧
      ∀ (y : Arr ℝ) (lp : EReal) (gp' : GP), gp.condition y = .ok (lp, gp') →
        ∃ mu var, gp'.predict (some (.times ts)) = .ok (mu, var) ∧ mu.get j = m fun i => y.get i := by
  obtain ⟨h0, hcov, hg⟩ := hM.moments fun i hi => (hR i hi).le
  obtain ⟨hc0, hcv, hcc⟩ := hg _ hT
  refine ⟨fun y => postMean (obsGram κ X.coords (GP.noiseOf X.coords.len diag)) y (obsCross κ (.time (ts.get j)) X.coords),
    gaussian_condExp (hM.gaussian hT) hc0 h0 hcov hcc hcv (h.gram_pd hR) hY, fun y lp gp' hcond => ?_⟩
  obtain ⟨mu, var, hp, -, -, hm⟩ := C61_predict h hnew hR hcond ts
  exact ⟨mu, var, hp, (hm j hj).1⟩

/-- **The experiments exist**: for every kernel, data coordinates and noise for which regression is exact, and any finite number of further
coordinates. -/
theorem C77_exists (h : Regression kernel X solver κ) (R : Arr ℝ) (T : Finset Coord) : ∃ (Ω : Type) (_ : MeasurableSpace Ω) (P : Measure Ω)
    (T' : Set Coord) (g : Coord → Ω → ℝ) (Y : Fin X.coords.len → Ω → ℝ), (∀ c ∈ T, c ∈ T') ∧ Measured P κ T' g X.coords R Y ∧ ∀ i, Measurable (Y i) := by
  classical
  obtain ⟨Ω, hΩ, P, g, Y, hM, hY⟩ := exists_measured h.continuous h.psd X.coords R (T ∪ (Finset.range X.coords.len).image X.coords.get) fun i hi =>
    Finset.mem_union_right _ (Finset.mem_image_of_mem _ (Finset.mem_range.2 hi))
  exact ⟨Ω, hΩ, P, _, g, Y, fun c hc => Finset.mem_coe.2 (Finset.mem_union_left _ hc), hM, hY⟩

theorem normalised (h : Regression kernel X solver κ) (hR : ∀ i < X.coords.len, 0 < (GP.noiseOf X.coords.len diag).get i) :
    ∫⁻ y, ENNReal.ofReal (Real.exp (gaussLogDensity (obsGram κ X.coords (GP.noiseOf X.coords.len diag)) y)) = 1 := by
  obtain ⟨Ω, hΩ, P, T', g, Y, -, hM, hY⟩ := C77_exists h (GP.noiseOf X.coords.len diag) ∅
  obtain ⟨h0, hc, -⟩ := hM.moments fun i hi => (hR i hi).le
  have hd := gaussian_withDensity (hM.gaussian (hM.coords 0 h.nonempty)).snd h0 hc (h.gram_pd hR)
  have hP := hM.latent.gaussian.isProbabilityMeasure
  have hm : Measurable fun ω i => Y i ω := measurable_pi_lambda _ hY
  have := Measure.isProbabilityMeasure_map (μ := P) hm.aemeasurable
  have h1 : (P.map fun ω i => Y i ω) Set.univ = 1 := measure_univ
  rw [hd, withDensity_apply _ MeasurableSet.univ, Measure.restrict_univ] at h1
  exact h1

/-- **C77, normalisation.** As a function of the data, the exponential of `log_probability` integrates to one. -/
theorem C77_normalised (h : Regression kernel X solver κ) (hnew : GP.new kernel X diag mean solver u = .ok gp)
    (hR : ∀ i < X.coords.len, 0 < (GP.noiseOf X.coords.len diag).get i) :
    ∃ ℓ : (Fin X.coords.len → ℝ) → ℝ,
      (∀ y : Arr ℝ, y.len = X.coords.len → gp.logProbability y = .ok ((ℓ fun i => y.get i : ℝ) : EReal)) ∧
      ∫⁻ y, ENNReal.ofReal (Real.exp (ℓ y)) = 1 := by
  exact ⟨_, fun y hy => C61_log_probability h hnew hy hR, normalised h hR⟩

/-- **C77, model comparison.** If the data come from the process of one kernel, then the expectation of the log likelihood computed with that kernel
and noise is at least that computed with any other kernel and noise at the same coordinates. -/
theorem C77_true_model_has_the_largest_expected_likelihood {kernel' : Kern} {solver' : Option SolverKind} {κ' : ℝ → ℝ}
    {diag' : Option (ℝ ⊕ Arr ℝ)} {mean' : Option (Coord → ℝ)} {u' : Bool} {gp' : GP}
    (h : Regression kernel X solver κ) (hnew : GP.new kernel X diag mean solver u = .ok gp)
    (hR : ∀ i < X.coords.len, 0 < (GP.noiseOf X.coords.len diag).get i)
    (h' : Regression kernel' X solver' κ') (hnew' : GP.new kernel' X diag' mean' solver' u' = .ok gp')
    (hR' : ∀ i < X.coords.len, 0 < (GP.noiseOf X.coords.len diag').get i)
    (hM : Measured P κ T g X.coords (GP.noiseOf X.coords.len diag) Y) :
    ∃ ℓ ℓ' : (Fin X.coords.len → ℝ) → ℝ,
      (∀ y : Arr ℝ, y.len = X.coords.len → gp.logProbability y = .ok ((ℓ fun i => y.get i : ℝ) : EReal) ∧
        gp'.logProbability y = .ok ((ℓ' fun i => y.get i : ℝ) : EReal)) ∧
      Integrable (fun ω => ℓ fun i => Y i ω) P ∧ Integrable (fun ω => ℓ' fun i => Y i ω) P ∧
      P[fun ω => ℓ' fun i => Y i ω] ≤ P[fun ω => ℓ fun i => Y i ω] := by
  obtain ⟨h0, hc, -⟩ := hM.moments fun i hi => (hR i hi).le
  have hY := (hM.gaussian (hM.coords 0 h.nonempty)).snd
  refine ⟨gaussLogDensity (obsGram κ X.coords (GP.noiseOf X.coords.len diag)),
    gaussLogDensity (obsGram κ' X.coords (GP.noiseOf X.coords.len diag')),
    fun y hy => ⟨C61_log_probability h hnew hy hR, C61_log_probability h' hnew' hy hR'⟩,
    gaussLogDensity_integrable hY _, gaussLogDensity_integrable hY _, gaussian_gibbs hY (gaussian_withDensity hY h0 hc (h.gram_pd hR)) ?_⟩
  exact normalised h' hR'

end

/-! ### Continuous processes -/

/-- **C77, exposures.** A Gaussian process with continuous paths and the covariance function of the kernel is such a process: what is measured
is its average over each exposure. -/
theorem C77_averages {kernel : Kern} {X : XArg} {solver : Option SolverKind} {κ : ℝ → ℝ} (h : Regression kernel X solver κ) {R : Arr ℝ}
    {Ω : Type*} [MeasurableSpace Ω] {P : Measure Ω} {f : ℝ → Ω → ℝ} (hf : GaussianPaths P κ f) {e : Fin X.coords.len → Ω → ℝ}
    (he : ∀ i, HasLaw (e i) (gaussianReal 0 (R.get i).toNNReal) P) (hi : iIndepFun e P)
    (hfe : IndepFun (fun ω (s : ℝ) => f s ω) (fun ω i => e i ω) P) :
    Measured P κ Set.univ (fun c ω => c.average fun s => f s ω) X.coords R
      fun i ω => (X.coords.get i).average (fun s => f s ω) + e i ω := by
  refine ⟨hf.latent h.continuous, fun i _ => Set.mem_univ _, ?_, ?_, ?_⟩ <;> simp only [add_sub_cancel_left]
  · exact he
  · exact hi
  · exact average_indep hf hfe

/-- **C77, instants.** For instantaneous measurements any Gaussian process with the covariance function of the kernel will do. -/
theorem C77_instants {t : Arr ℝ} {κ : ℝ → ℝ} {R : Arr ℝ} {Ω : Type*} [MeasurableSpace Ω] {P : Measure Ω} {f : ℝ → Ω → ℝ}
    (hf : IsGaussianProcess f P) (h0 : ∀ s, P[f s] = 0) (hc : ∀ s t, cov[f s, f t; P] = κ |s - t|)
    {e : Fin (XArg.times t).coords.len → Ω → ℝ} (he : ∀ i, HasLaw (e i) (gaussianReal 0 (R.get i).toNNReal) P) (hi : iIndepFun e P)
    (hfe : IndepFun (fun ω (s : ℝ) => f s ω) (fun ω i => e i ω) P) :
    Measured P κ {c | c.delta ≤ 0} (fun c => f c.sortable) (XArg.times t).coords R fun i ω => f (t.get i) ω + e i ω := by
  refine ⟨latent_of_process hf h0 hc, fun i _ => le_refl (0 : ℝ), fun i => ?_, ?_, ?_⟩
  · have : (fun ω => f (t.get i) ω + e i ω - f ((XArg.times t).coords.get i).sortable ω) = e i := funext fun ω => add_sub_cancel_left _ _
    rw [this]
    exact he i
  · have : (fun (i : Fin (XArg.times t).coords.len) ω => f (t.get i) ω + e i ω - f ((XArg.times t).coords.get i).sortable ω) = e :=
      funext fun i => funext fun ω => add_sub_cancel_left _ _
    rw [this]
    exact hi
  · have : (fun ω (i : Fin (XArg.times t).coords.len) => f (t.get i) ω + e i ω - f ((XArg.times t).coords.get i).sortable ω) = fun ω i => e i ω :=
      funext fun ω => funext fun i => add_sub_cancel_left _ _
    rw [this]
    exact hfe.comp (φ := fun (z : ℝ → ℝ) (c : {c : Coord | c.delta ≤ 0}) => z (c : Coord).sortable) (ψ := id)
      (measurable_pi_lambda _ fun c => measurable_pi_apply _) measurable_id

/-! ### Examples -/

section examples

/-- a random oscillation: two independent normal amplitudes -/
noncomputable def randomWave (ell sigma : ℝ) (s : ℝ) (a : Fin 2 → ℝ) : ℝ :=
  ![sigma * Real.cos (2 * Real.pi * s / ell), sigma * Real.sin (2 * Real.pi * s / ell)] ⬝ᵥ a

/-- the process with the covariance function of the cosine kernel -/
theorem randomWave_paths (ell sigma : ℝ) : GaussianPaths (Measure.pi fun _ : Fin 2 => gaussianReal 0 1) (covCosine ell sigma) (randomWave ell sigma) := by
  set P : Measure (Fin 2 → ℝ) := Measure.pi fun _ : Fin 2 => gaussianReal 0 1 with hPdef
  have hl : ∀ i, HasLaw (fun a : Fin 2 → ℝ => a i) (gaussianReal 0 1) P := fun i =>
    ⟨(measurable_pi_apply i).aemeasurable, (measurePreserving_eval (fun _ : Fin 2 => gaussianReal 0 1) i).map_eq⟩
  have hi : iIndepFun (fun (i : Fin 2) (a : Fin 2 → ℝ) => a i) P := by
    rw [iIndepFun_iff_map_fun_eq_pi_map fun i => (hl i).aemeasurable]
    simp_rw [fun i => (hl i).map_eq]
    exact Measure.map_id
  have hA : HasGaussianLaw (fun (a : Fin 2 → ℝ) i => a i) P := iIndepFun.hasGaussianLaw (fun i => (hl i).hasGaussianLaw) hi
  have hc : ∀ i j, cov[fun a : Fin 2 → ℝ => a i, fun a => a j; P] = (1 : Matrix (Fin 2) (Fin 2) ℝ) i j := by
    intro i j
    rw [Matrix.one_apply]
    split_ifs with hij
    · rw [← hij, covariance_self (hl i).aemeasurable, (hl i).variance_eq, variance_id_gaussianReal, NNReal.coe_one]
    · exact IndepFun.covariance_eq_zero (hi.indepFun hij) (hA.eval i).memLp_two (hA.eval j).memLp_two
  refine ⟨⟨fun I => ?_⟩, fun s => ?_, fun s t => ?_, fun a => ?_⟩
  · exact hA.map_fun (ContinuousLinearMap.pi fun s : I => LinearMap.toContinuousLinearMap (dotProductBilin ℝ ℝ
      ![sigma * Real.cos (2 * Real.pi * (s : ℝ) / ell), sigma * Real.sin (2 * Real.pi * (s : ℝ) / ell)]))
  · exact mulVec_mean (Y := fun (i : Fin 2) (a : Fin 2 → ℝ) => a i) (fun i => (hA.eval i).integrable)
      (fun i => by rw [(hl i).integral_eq, integral_id_gaussianReal]) _
  · have := mulVec_cov (Y := fun (i : Fin 2) (a : Fin 2 → ℝ) => a i) (fun i => (hA.eval i).memLp_two) hc
      ![sigma * Real.cos (2 * Real.pi * s / ell), sigma * Real.sin (2 * Real.pi * s / ell)]
      ![sigma * Real.cos (2 * Real.pi * t / ell), sigma * Real.sin (2 * Real.pi * t / ell)]
    refine this.trans ?_
    rw [Matrix.one_mulVec, covCosine]
    have e : Real.cos (2 * Real.pi * |s - t| / ell) = Real.cos (2 * Real.pi * s / ell - 2 * Real.pi * t / ell) := by
      rw [show 2 * Real.pi * s / ell - 2 * Real.pi * t / ell = 2 * Real.pi / ell * (s - t) by ring,
        show 2 * Real.pi * |s - t| / ell = 2 * Real.pi / ell * |s - t| by ring]
      rcases abs_choice (s - t) with h | h <;> rw [h]
      rw [mul_neg, Real.cos_neg]
    rw [e, Real.cos_sub]
    simp [dotProduct, Fin.sum_univ_two]
    ring
  · unfold randomWave
    simp only [dotProduct, Fin.sum_univ_two, Matrix.cons_val_zero, Matrix.cons_val_one]
    fun_prop

/-- C77 applies to an exponential kernel and two data: the experiment exists, and the prediction at time 5 is the conditional distribution -/
example : ∃ gp, GP.new (.exp 1 1 "a") (.times twoT) (some (.inl 1)) none none false = .ok gp ∧
    ∃ (Ω : Type) (_ : MeasurableSpace Ω) (P : Measure Ω) (_ : IsProbabilityMeasure P) (F : Ω → ℝ) (Y : Fin 2 → Ω → ℝ) (m : (Fin 2 → ℝ) → ℝ) (v : ℝ)
      (ℓ : (Fin 2 → ℝ) → ℝ), IsPosterior P F Y m v ∧ Var[F; P] = 1 ∧
      (P.map (fun ω i => Y i ω) = volume.withDensity fun y => ENNReal.ofReal (Real.exp (ℓ y))) ∧
      ∀ y : Arr ℝ, y.len = 2 → gp.logProbability y = .ok ((ℓ fun i => y.get i : ℝ) : EReal) ∧
        ∃ lp gp' mu var, gp.condition y = .ok (lp, gp') ∧ gp'.predict (some (.times ⟨1, fun _ => 5⟩)) = .ok (mu, var) ∧
          mu.get 0 = m (fun i => y.get i) ∧ var.get 0 = v := by
  have hr := exp_regression twoT_sorted (by show 0 < 2; decide)
  obtain ⟨gp, -, -, hnew, -⟩ := exp_gp twoT (by show (2 : ℕ) ≠ 1; decide) (some (.inl 1)) ⟨2, fun _ => 0⟩
  obtain ⟨Ω, hΩ, P, T', g, Y, hT, hM, -⟩ := C77_exists hr (GP.noiseOf (XArg.times twoT).coords.len (some (.inl 1))) {Coord.time 5}
  have hP := hM.latent.gaussian.isProbabilityMeasure
  have h5 : Coord.time 5 ∈ T' := hT _ (Finset.mem_singleton_self _)
  obtain ⟨ℓ, hℓ, hd⟩ := C77_density hr hnew (fun _ _ => one_pos) hM
  obtain ⟨m, v, hpost, hpred⟩ := C77_predict hr hnew (fun _ _ => one_pos) hM ⟨1, fun _ => 5⟩ (j := 0) (by show 0 < 1; decide) h5
  refine ⟨gp, hnew, Ω, hΩ, P, hP, g (.time 5), Y, m, v, ℓ, hpost, ?_, hd, fun y hy => ⟨hℓ y hy, ?_⟩⟩
  · rw [((hM.moments fun _ _ => zero_le_one).2.2 _ h5).2.1, exposureCov_times]
    simp [covExp]
  · obtain ⟨gp2, lp, gp', hnew2, hc⟩ := exp_gp twoT (by show (2 : ℕ) ≠ 1; decide) (some (.inl 1)) y
    obtain rfl : gp = gp2 := Except.ok.inj (hnew.symm.trans hnew2)
    obtain ⟨mu, var, hp, -, -, e1, e2⟩ := hpred y lp gp' hc
    exact ⟨lp, gp', mu, var, hc, hp, e1, e2⟩

end examples

end Verif
