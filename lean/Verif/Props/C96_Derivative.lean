import Verif.Props.C59_States
import Verif.Props.C77_Probability
import Verif.Lemmas.DerivativeLaw

/-!
# C96: the predicted derivative is the posterior of the derivative of the process

The random experiment is that of `Spec/Probability.lean`. `D` is the derivative of the path of the process at the test time, wherever the path
comes from.
-/

namespace Verif
open MeasureTheory ProbabilityTheory Matrix Kern Spec Filter Topology

section
variable {kernel : Kern} {t : Arr ℝ} {solver : Option SolverKind} {κ : ℝ → ℝ} {diag : Option (ℝ ⊕ Arr ℝ)} {mean : Option (Coord → ℝ)}
  {u : Bool} {gp : GP} {Ω : Type*} [MeasurableSpace Ω] {P : Measure Ω} {T : Set Coord} {g : Coord → Ω → ℝ}
  {Y : Fin (XArg.times t).coords.len → Ω → ℝ}

/-- what `Regression` says about data given by times -/
theorem Regression.times_inv (h : Regression kernel (.times t) solver κ) :
    kernel.Valid ∧ kernel.model.HasCov κ ∧ (Sequential solver ∨ solver = some .parallel) ∧ Sorted t ∧ 0 < t.len := by
  cases h with
  | sequential hv hκ hsol ht hN => exact ⟨hv, hκ, .inl hsol, ht, hN⟩
  | parallel hv hκ _ ht hN => exact ⟨hv, hκ, .inr rfl, ht, hN⟩

/-- **C96.** If the paths of the process have a derivative `D` at the test time, then `predict` with the derivative row returns mean and variance
of the conditional distribution of `D` given the measurements. -/
theorem C96_derivative (h : Regression kernel (.times t) solver κ) (hg : kernel.Genuine) (he : ¬ Uses IsExp kernel)
    (hnew : GP.new kernel (.times t) diag mean solver u = .ok gp) (hR : ∀ i < t.len, 0 < (GP.noiseOf t.len diag).get i)
    (hM : Measured P κ T g (XArg.times t).coords (GP.noiseOf t.len diag) Y) [IsFiniteMeasure P] (hT : ∀ s, Coord.time s ∈ T)
    (ts : Arr ℝ) (j : ℕ) {D : Ω → ℝ} (hD : ∀ᵐ ω ∂P, HasDerivAt (fun s => g (.time s) ω) (D ω) (ts.get j)) :
    ∃ (m : (Fin (XArg.times t).coords.len → ℝ) → ℝ) (v : ℝ), IsPosterior P D Y m v ∧
      ∀ (y : Arr ℝ) (lp : EReal) (gp' : GP), gp.condition y = .ok (lp, gp') →
        ∃ mu var, gp'.predictWith (.times ts) (fun _ => gp'.kernel.model.derivativeRow) = .ok (mu, var) ∧ mu.len = ts.len ∧ var.len = ts.len ∧
          mu.get j = m (fun i => y.get i) ∧ var.get j = v := by
  obtain ⟨hv, hκ, hsol, ht, hN⟩ := h.times_inv
  have hI : Instantaneous solver (.times ts) := hsol.imp id fun h => ⟨h, rfl⟩
  set E : ℝ → ℝ → ℝ := fun s r => (kernel.model.derivativeRow * stationaryCov kernel.model.F kernel.model.Pinf s r * kernel.model.valueRowᵀ) 0 0 with hE
  have hev : ∀ s r, kernel.model.evaluate (.time s) (.time r) = κ |s - r| := fun s r => hκ _ _
  have h1 : ∀ s r, HasDerivAt (fun s => κ |s - r|) (E s r) s := fun s r => by
    have := (C59_derivative_covariance kernel hv hg he s r).1
    simpa only [hev] using this
  set v := (kernel.model.derivativeRow * kernel.model.Pinf * kernel.model.derivativeRowᵀ) 0 0 with hvd
  have h2 : ∀ s, HasDerivAt (E s) v s := fun s => by
    have := (C59_derivative_covariance kernel hv hg he s s).2
    rwa [stationaryCov_self] at this
  have hK : ∀ u, HasDerivAt (fun u => κ |u|) (E 0 (-u)) u := fun u => by
    have h3 := h1 0 (-u)
    simp only [sub_neg_eq_add] at h3
    have h4 := HasDerivAt.comp_sub_const u u (f := fun s => κ |s + u|) (f' := E 0 (-u)) (by rwa [sub_self])
    simpa only [sub_add_cancel] using h4
  have hK' : HasDerivAt (fun u => E 0 (-u)) (-v) 0 := by
    have h3 := HasDerivAt.comp (0 : ℝ) (h₂ := E 0) (h := fun u : ℝ => -u) (by simpa using h2 0) (hasDerivAt_neg 0)
    rw [mul_neg_one] at h3
    exact h3
  have hpd := h.gram_pd (R := GP.noiseOf t.len diag) hR
  have hpost := hM.derivative hT (fun i hi => (hR i hi).le) hpd hK hK' (c := fun i : Fin t.len => E (ts.get j) (t.get i))
    (fun i => by
      have h3 := h1 (ts.get j) (t.get i)
      have e : (fun s => exposureCov κ (.time s) ((XArg.times t).coords.get i)) = fun s => κ |s - t.get i| :=
        funext fun s => exposureCov_times κ s (t.get i)
      rw [e]
      exact h3) hD
  refine ⟨_, _, hpost, fun y lp gp' hcond => ?_⟩
  obtain ⟨mu, var, h0, hl, hl', h3⟩ := C59_derivative_prediction hv hg he (.times ts) hI hnew ht hN hR hcond
  obtain ⟨hmu, D', v', hD', hv', hvar⟩ := h3 j
  simp only [hev] at hmu hD'
  have hτ : ((XArg.times ts).coords.get j).sortable = ts.get j := rfl
  rw [hτ] at hmu hv'
  simp only [hτ] at hD'
  have eD : D' = E (ts.get j) := funext fun r => (hD' r).unique (h1 _ r)
  have ev : v' = v := by
    rw [eD] at hv'
    exact hv'.unique (h2 _)
  refine ⟨mu, var, h0, hl, hl', ?_, ?_⟩
  · refine hmu.unique ?_
    rw [dataGram_eq_obsGram hκ]
    show HasDerivAt (fun s => postMean (obsGram κ (XArg.times t).coords (GP.noiseOf t.len diag)) (fun j => y.get j) fun j : Fin t.len => κ |s - t.get j|)
      (postMean (obsGram κ (XArg.times t).coords (GP.noiseOf t.len diag)) (fun j => y.get j) fun i : Fin t.len => E (ts.get j) (t.get i)) (ts.get j)
    unfold postMean dotProduct
    exact HasDerivAt.fun_sum fun i _ => (h1 _ _).mul_const _
  · rw [hvar, eD, ev, dataGram_eq_obsGram hκ]
    rfl

end

/-! ### An experiment: a wave with random amplitudes -/

section examples

/-- adding independent measurement errors to a latent process -/
theorem measured_product {Ω₀ : Type} [MeasurableSpace Ω₀] {μ : Measure Ω₀} {κ : ℝ → ℝ} {T : Set Coord} {g₀ : Coord → Ω₀ → ℝ}
    (hL : Latent μ κ T g₀) (hm : ∀ c, Measurable (g₀ c)) (X : Arr Coord) (R : Arr ℝ) (hX : ∀ i < X.len, X.get i ∈ T) :
    Measured (μ.prod (Measure.pi fun i : Fin X.len => gaussianReal 0 (R.get i).toNNReal)) κ T (fun c ω => g₀ c ω.1) X R
      (fun i ω => g₀ (X.get i) ω.1 + ω.2 i) := by
  have hμ := hL.gaussian.isProbabilityMeasure
  set ν : Measure (Fin X.len → ℝ) := Measure.pi fun i => gaussianReal 0 (R.get i).toNNReal with hν
  have hfst : (μ.prod ν).map Prod.fst = μ := by rw [Measure.map_fst_prod, measure_univ, one_smul]
  have hsnd : ∀ i, HasLaw (fun ω : Ω₀ × (Fin X.len → ℝ) => ω.2 i) (gaussianReal 0 (R.get i).toNNReal) (μ.prod ν) := fun i => by
    refine ⟨by fun_prop, ?_⟩
    rw [show (fun ω : Ω₀ × (Fin X.len → ℝ) => ω.2 i) = (fun z : Fin X.len → ℝ => z i) ∘ Prod.snd from rfl,
      ← Measure.map_map (measurable_pi_apply i) measurable_snd, Measure.map_snd_prod, measure_univ, one_smul]
    exact (measurePreserving_eval (fun i : Fin X.len => gaussianReal 0 (R.get i).toNNReal) i).map_eq
  have hind2 : iIndepFun (fun (i : Fin X.len) (ω : Ω₀ × (Fin X.len → ℝ)) => ω.2 i) (μ.prod ν) := by
    rw [iIndepFun_iff_map_fun_eq_pi_map fun i => (hsnd i).aemeasurable]
    simp_rw [fun i => (hsnd i).map_eq]
    show (μ.prod ν).map Prod.snd = _
    rw [Measure.map_snd_prod, measure_univ, one_smul]
  refine ⟨⟨⟨fun I => ⟨?_⟩⟩, fun c hc => ?_, fun c hc d hd => ?_⟩, hX, fun i => ?_, ?_, ?_⟩
  · have h1 := (hL.gaussian.hasGaussianLaw I).isGaussian_map
    have hIm : Measurable fun z => I.restrict fun x : T => g₀ x z := measurable_pi_lambda _ fun i => hm _
    rw [← hfst, Measure.map_map hIm measurable_fst] at h1
    exact h1
  · have h1 := hL.mean c hc
    rw [← hfst, integral_map measurable_fst.aemeasurable (hm c).aestronglyMeasurable] at h1
    exact h1
  · have h1 := hL.cov c hc d hd
    rw [← hfst, covariance_map_fun (hm c).aestronglyMeasurable (hm d).aestronglyMeasurable measurable_fst.aemeasurable] at h1
    exact h1
  · simp only [add_sub_cancel_left]
    exact hsnd i
  · simp only [add_sub_cancel_left]
    exact hind2
  · simp only [add_sub_cancel_left]
    exact indepFun_prod (μ := μ) (ν := ν) (X := fun z (c : T) => g₀ c z) (Y := fun z : Fin X.len → ℝ => z)
      (measurable_pi_lambda _ fun c => hm c) measurable_id

/-- the wave `a cos s + b sin s`, for a pair of amplitudes -/
noncomputable def wave (s : ℝ) (z : Fin 2 → ℝ) : ℝ := ![Real.cos s, Real.sin s] ⬝ᵥ z

/-- standard normal amplitudes -/
noncomputable def amplitudes : Measure (Fin 2 → ℝ) := Measure.pi fun _ => gaussianReal 0 1

instance : IsProbabilityMeasure amplitudes := by unfold amplitudes; infer_instance

theorem wave_latent : Latent amplitudes Real.cos {c | c.delta ≤ 0} fun c => wave c.sortable := by
  have hl : ∀ i, HasLaw (fun z : Fin 2 → ℝ => z i) (gaussianReal 0 1) amplitudes := fun i =>
    ⟨(measurable_pi_apply i).aemeasurable, (measurePreserving_eval (fun _ : Fin 2 => gaussianReal 0 1) i).map_eq⟩
  have hi : iIndepFun (fun (i : Fin 2) (z : Fin 2 → ℝ) => z i) amplitudes := by
    rw [iIndepFun_iff_map_fun_eq_pi_map fun i => (hl i).aemeasurable]
    simp_rw [fun i => (hl i).map_eq]
    exact Measure.map_id
  have hW : HasGaussianLaw (fun (z : Fin 2 → ℝ) (i : Fin 2) => z i) amplitudes := iIndepFun.hasGaussianLaw (fun i => (hl i).hasGaussianLaw) hi
  have hc : ∀ i j : Fin 2, cov[fun z : Fin 2 → ℝ => z i, fun z => z j; amplitudes] = (1 : Matrix (Fin 2) (Fin 2) ℝ) i j := fun i j => by
    rw [Matrix.one_apply]
    split_ifs with hij
    · rw [← hij, covariance_self (hl i).aemeasurable, (hl i).variance_eq, variance_id_gaussianReal, NNReal.coe_one]
    · exact IndepFun.covariance_eq_zero (hi.indepFun hij) (hW.eval i).memLp_two (hW.eval j).memLp_two
  refine latent_of_process (f := wave) ⟨fun I => ?_⟩ (fun s => ?_) fun s r => ?_
  · exact hW.map_fun (ContinuousLinearMap.pi fun s : I =>
      LinearMap.toContinuousLinearMap (dotProductBilin ℝ ℝ (![Real.cos s, Real.sin s] : Fin 2 → ℝ)))
  · exact mulVec_mean (Y := fun (i : Fin 2) (z : Fin 2 → ℝ) => z i) (fun i => (hW.eval i).integrable)
      (fun i => by rw [(hl i).integral_eq, integral_id_gaussianReal]) _
  · unfold wave
    rw [mulVec_cov (Y := fun (i : Fin 2) (z : Fin 2 → ℝ) => z i) (fun i => (hW.eval i).memLp_two) hc, Matrix.one_mulVec, Real.cos_abs, Real.cos_sub]
    simp [dotProduct, Fin.sum_univ_two]

theorem wave_deriv (s : ℝ) (z : Fin 2 → ℝ) : HasDerivAt (fun s => wave s z) (-Real.sin s * z 0 + Real.cos s * z 1) s := by
  have e : (fun s => wave s z) = fun s => Real.cos s * z 0 + Real.sin s * z 1 := funext fun s => by
    simp [wave, dotProduct, Fin.sum_univ_two]
  rw [e]
  exact ((Real.hasDerivAt_cos s).mul_const _).add ((Real.hasDerivAt_sin s).mul_const _)

/-- the cosine kernel of period `2π`: the slope of a wave with unknown amplitudes, from measurements with errors of variance one, with both solvers -/
example (t ts y : Arr ℝ) (ht : Sorted t) (hN : 1 < t.len) (solver : Option SolverKind) (hsol : solver = none ∨ solver = some .parallel) :
    ∃ gp lp gp', GP.new (.cosine (2 * Real.pi) 1 "wave") (.times t) (some (.inl 1)) none solver false = .ok gp ∧ gp.condition y = .ok (lp, gp') ∧
    ∃ (m : (Fin t.len → ℝ) → ℝ) (v : ℝ), IsPosterior (amplitudes.prod (Measure.pi fun _ : Fin t.len => gaussianReal 0 (1 : ℝ).toNNReal))
        (fun ω => -Real.sin (ts.get 0) * ω.1 0 + Real.cos (ts.get 0) * ω.1 1) (fun (i : Fin t.len) ω => wave (t.get i) ω.1 + ω.2 i) m v ∧
      ∃ mu var, gp'.predictWith (.times ts) (fun _ => gp'.kernel.model.derivativeRow) = .ok (mu, var) ∧
        mu.get 0 = m (fun i => y.get i) ∧ var.get 0 = v := by
  have hpi : 0 < 2 * Real.pi := by positivity
  have hv : (Kern.cosine (2 * Real.pi) 1 "wave").Valid := .cosine hpi one_ne_zero
  have he : ¬ Uses IsExp (Kern.cosine (2 * Real.pi) 1 "wave") := ((transitionError_iff true _).1 rfl).2 rfl
  have hκ : (Kern.cosine (2 * Real.pi) 1 "wave").model.HasCov Real.cos := by
    have h := C24_cosine (scale := 2 * Real.pi) (sigma := 1) (name := "wave")
    have e : Spec.covCosine (2 * Real.pi) 1 = Real.cos := by
      funext r
      unfold Spec.covCosine
      rw [one_pow, one_mul, mul_div_cancel_left₀ r hpi.ne']
    rw [e] at h
    exact h hpi
  have hreg : Regression (.cosine (2 * Real.pi) 1 "wave") (.times t) solver Real.cos := by
    rcases hsol with rfl | rfl
    · exact .sequential hv hκ (.inl rfl) ht (zero_lt_one.trans hN)
    · exact .parallel hv hκ he ht (zero_lt_one.trans hN)
  have hname : ∃ k, (Kern.cosine (2 * Real.pi) 1 "wave").assignUniqueNames = .ok k := ⟨_, rfl⟩
  obtain ⟨gp, hnew, lp, gp', hc⟩ : ∃ gp, GP.new (.cosine (2 * Real.pi) 1 "wave") (.times t) (some (.inl 1)) none solver false = .ok gp ∧
      ∃ lp gp', gp.condition y = .ok (lp, gp') := by
    rcases hsol with rfl | rfl
    · obtain ⟨⟨lp, gp'⟩, h⟩ := (C02_condition_succeeds hv (solver := none) (.inl rfl) (u := false) (mean := none) (diag := some (.inl 1)) (t := t)
        rfl y).2 ⟨hN.ne', hname⟩
      exact ⟨_, rfl, lp, gp', h⟩
    · obtain ⟨⟨lp, gp'⟩, h⟩ := (C07_condition_succeeds hv he (u := false) (mean := none) (diag := some (.inl 1)) (t := t) rfl y).2
        ⟨hN.ne', hname⟩
      exact ⟨_, rfl, lp, gp', h⟩
  have hM := measured_product wave_latent (fun c => (LinearMap.toContinuousLinearMap (dotProductBilin ℝ ℝ
    (![Real.cos c.sortable, Real.sin c.sortable] : Fin 2 → ℝ))).continuous.measurable) (XArg.times t).coords (GP.noiseOf t.len (some (.inl 1)))
    fun i _ => le_refl (0 : ℝ)
  obtain ⟨m, v, hpost, hall⟩ := C96_derivative hreg trivial he hnew (fun _ _ => one_pos) hM (fun s => le_refl (0 : ℝ)) ts 0
    (D := fun ω => -Real.sin (ts.get 0) * ω.1 0 + Real.cos (ts.get 0) * ω.1 1) (Eventually.of_forall fun ω => wave_deriv _ ω.1)
  obtain ⟨mu, var, h1, -, -, h2, h3⟩ := hall y lp gp' hc
  exact ⟨gp, lp, gp', hnew, hc, m, v, hpost, mu, var, h1, h2, h3⟩

end examples

end Verif
