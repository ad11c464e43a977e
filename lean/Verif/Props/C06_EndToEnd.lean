import Verif.Props.C42_Interface
import Verif.Props.C06_Parallel

/-!
# C06, C07 at the level of the user interface

`GaussianProcess(kernel, t, diag=..., solver=ParallelStateSpaceSolver)`: `log_probability(y)`, `condition(y)` and `predict(X_test)`.
-/

namespace Verif
open Matrix Kern

variable {kernel : Kern} {t : Arr ℝ} {diag : Option (ℝ ⊕ Arr ℝ)} {mean : Option (Coord → ℝ)} {u : Bool}
  {gp gp' : GP} {y : Arr ℝ} {lp : EReal}

/-- constructing the GP only fails because of names -/
theorem C06_constructor (hv : kernel.Valid) (t : Arr ℝ) (diag : Option (ℝ ⊕ Arr ℝ)) (mean : Option (Coord → ℝ)) :
    (∃ gp, GP.new kernel (.times t) diag mean (some .parallel) false = .ok gp) ∧
    ((∃ gp, GP.new kernel (.times t) diag mean (some .parallel) true = .ok gp) ↔ ∃ k, kernel.assignUniqueNames = .ok k) := by
  have hX : GP.needsIntegrated kernel = true → (XArg.times t).isTuple = true := by rw [hv.instantaneous]; intro h; cases h
  have hc : ((some SolverKind.parallel).getD (GP.chooseSolver kernel)).construct (.times t) = .ok () := rfl
  refine ⟨GP.new_eq diag mean (k := kernel) rfl hX hc, ?_, ?_⟩
  · rintro ⟨gp, h⟩
    exact ⟨_, (GP.new_ok h).1⟩
  · rintro ⟨k, h⟩
    exact GP.new_eq diag mean (k := k) h hX hc

theorem parallel_run (hv : kernel.Valid) (hexp : ¬ Uses IsExp kernel) (hnew : GP.new kernel (.times t) diag mean (some .parallel) u = .ok gp) :
    gp.runError = none := by
  obtain ⟨-, hs, -, -, -, -, -, hs', -⟩ := GP.new_ok hnew
  unfold GP.runError
  rw [hs', hs.transitionError, transitionError_iff]
  exact ⟨((transitionError_iff false kernel).1 hv.transitionError).1, fun _ => hexp⟩

/-- **C06 (interface).** `GaussianProcess(kernel, t, diag=diag, solver=ParallelStateSpaceSolver).log_probability(y)` is the Gaussian log density. -/
theorem C06_log_probability (hv : kernel.Valid) (hexp : ¬ Uses IsExp kernel)
    (hnew : GP.new kernel (.times t) diag mean (some .parallel) u = .ok gp) (ht : Sorted t) (hN : 0 < t.len)
    (hR : ∀ i < t.len, 0 < (GP.noiseOf t.len diag).get i) (y : Arr ℝ) :
    gp.logProbability y = .ok
      ((Spec.gaussLogDensity (dataGram kernel.model (t.map .time) (GP.noiseOf t.len diag)) (fun i => y.get i) : ℝ) : EReal) := by
  have hrun := parallel_run hv hexp hnew
  obtain ⟨-, hs, -, -, -, -, -, hs', -⟩ := GP.new_ok hnew
  unfold GP.logProbability
  rw [hrun]
  simp only
  rw [logProb_of_same hs, hs']
  exact congrArg _ (C06_parallel_likelihood_builtin kernel.model hv.builtIn (t.map .time) y (GP.noiseOf t.len diag) ht hN hR)

/-- **C07, C57.** Conditioning with the parallel solver succeeds exactly when it succeeds with the sequential one. -/
theorem C07_condition_succeeds (hv : kernel.Valid) (hexp : ¬ Uses IsExp kernel)
    (hnew : GP.new kernel (.times t) diag mean (some .parallel) u = .ok gp) (y : Arr ℝ) :
    (∃ r, gp.condition y = .ok r) ↔ t.len ≠ 1 ∧ ∃ k, gp.kernel.assignUniqueNames = .ok k := by
  have hrun := parallel_run hv hexp hnew
  obtain ⟨-, hs, hX, -, -, -, -, hs', -⟩ := GP.new_ok hnew
  constructor
  · rintro ⟨⟨lp, gp'⟩, h⟩
    obtain ⟨-, -, hk, -, -, -, -, -, -, -, -, hl, -⟩ := GP.condition_ok h
    rw [hX] at hl
    exact ⟨hl, _, hk⟩
  · rintro ⟨hl, k, hk⟩
    refine GP.condition_eq hrun hk (fun h => ?_) (by rw [hX]; exact hl) (by rw [hs.obsError]; exact hv.obsError _)
    rw [hs.needsIntegrated, hv.instantaneous] at h
    cases h

/-- **C07 (interface).** `condition(y)` with the parallel solver: the log likelihood, and a GP whose mean and variance are the exact posterior
ones at the data. -/
theorem C07_condition (hv : kernel.Valid) (hnew : GP.new kernel (.times t) diag mean (some .parallel) u = .ok gp) (ht : Sorted t) (hN : 0 < t.len)
    (hR : ∀ i < t.len, 0 < (GP.noiseOf t.len diag).get i) (hcond : gp.condition y = .ok (lp, gp')) :
    gp.logProbability y = .ok lp ∧
    gp'.mean.len = t.len ∧ ∃ var, gp'.var = some var ∧ var.len = t.len ∧ ∀ i < t.len,
      gp'.mean.get i = Spec.postMean (dataGram kernel.model (t.map .time) (GP.noiseOf t.len diag)) (fun j => y.get j)
        (fun j => kernel.model.evaluate (.time (t.get i)) (.time (t.get j))) ∧
      var.get i = Spec.postVar (dataGram kernel.model (t.map .time) (GP.noiseOf t.len diag))
        (kernel.model.evaluate (.time (t.get i)) (.time (t.get i)))
        (fun j => kernel.model.evaluate (.time (t.get i)) (.time (t.get j))) := by
  obtain ⟨-, hs, hX, -, -, -, -, hs', -⟩ := GP.new_ok hnew
  obtain ⟨hrun, hlp, -, -, -, -, hm, hvar, -⟩ := GP.condition_ok hcond
  refine ⟨?_, ?_, _, hvar, ?_, fun i hi => ?_⟩
  · unfold GP.logProbability
    rw [hrun, hlp]
  · rw [hm]; show gp.X.coords.len = _; rw [hX]; rfl
  · show gp.X.coords.len = _; rw [hX]; rfl
  · have e : gp.atData y = kernel.model.parallelConditionedAtData (t.map .time) y (GP.noiseOf t.len diag) := by
      unfold GP.atData GP.projectAtData
      rw [← SSM.strip_projectData, hs.strip, SSM.strip_projectData, hX, hs']
      rfl
    have hr := hv.builtIn.regular
    rw [hm]
    show ((gp.atData y).get i).1 = _ ∧ ((gp.atData y).get i).2 = _
    rw [e, C07_parallel_conditioned kernel.model hr (t.map .time) y _ ht hN hR i hi]
    exact ⟨C02_conditioned_mean_exact kernel.model hr (t.map .time) y _ ht hR i hi,
      C03_conditioned_variance_exact kernel.model hr (t.map .time) y _ ht hR i hi⟩

/-- **C07, C04 (interface).** Prediction at test times after conditioning with the parallel solver: the exact posterior. -/
theorem C07_predict (hv : kernel.Valid) (hnew : GP.new kernel (.times t) diag mean (some .parallel) u = .ok gp) (ht : Sorted t)
    (hN : 0 < t.len) (hR : ∀ i < t.len, 0 < (GP.noiseOf t.len diag).get i) (hcond : gp.condition y = .ok (lp, gp')) (ts : Arr ℝ) :
    ∃ mu var, gp'.predict (some (.times ts)) = .ok (mu, var) ∧ mu.len = ts.len ∧ var.len = ts.len ∧ ∀ i,
      mu.get i = Spec.postMean (dataGram kernel.model (t.map .time) (GP.noiseOf t.len diag)) (fun j => y.get j)
        (fun j => kernel.model.evaluate (.time (ts.get i)) (.time (t.get j))) ∧
      var.get i = Spec.postVar (dataGram kernel.model (t.map .time) (GP.noiseOf t.len diag))
        (kernel.model.evaluate (.time (ts.get i)) (.time (ts.get i)))
        (fun j => kernel.model.evaluate (.time (ts.get i)) (.time (t.get j))) := by
  obtain ⟨-, hs0, -, -, -, -, -, hs', -⟩ := GP.new_ok hnew
  obtain ⟨hrun, -, -, hs, -, -, -, -, -, hsol', hst, -⟩ := GP.condition_ok hcond
  have hrun' : gp'.runError = none := by
    rw [← hrun]
    unfold GP.runError
    rw [hsol', hs.transitionError]
  rw [hs'] at hsol'
  have hkind' : ¬ (gp'.solver.kind = .parallel ∧ (gp'.solver.X.isTuple = true ∨ (XArg.times ts).isTuple = true)) := by
    rw [hsol']; rintro ⟨-, h | h⟩ <;> cases h
  have ho : gp'.kernel.obsError (.times ts) = none := by rw [(hs.trans hs0).obsError]; exact hv.obsError _
  unfold GP.predict
  simp only [hst, GP.predictConditioned, hrun', if_neg hkind', ho]
  refine ⟨_, _, rfl, rfl, rfl, fun i => ?_⟩
  have e : gp'.kernel.model.projectTest (gp'.kernel.model.states gp'.solver.kind gp'.solver.X.coords y gp'.solver.noise)
      (fun x => gp'.kernel.model.obsModel x none) (XArg.times ts).coords =
      kernel.model.parallelPredictAt (t.map .time) y (GP.noiseOf t.len diag) (ts.map .time) := by
    rw [← SSM.strip_projectTest, (hs.trans hs0).strip, SSM.strip_projectTest, hsol']
    rfl
  rw [e]
  have hr := hv.builtIn.regular
  have key := C07_parallel_prediction kernel.model hr (t.map .time) y (GP.noiseOf t.len diag) (ts.map .time) ht hN hR i
  have h := C04_prediction_exact kernel.model hr (t.map .time) y (GP.noiseOf t.len diag) (ts.map .time) ht hN hR i
  exact ⟨congrArg Prod.fst (key.trans h), congrArg Prod.snd (key.trans h)⟩

/-- **C06, C07 (interface).** Whatever can be computed with both solvers agrees: `log_probability`, the conditioned mean and variance, and
predictions at times. -/
theorem C07_same_answers {gp₁ gp₁' : GP} {lp₁ : EReal} (hv : kernel.Valid) (hexp : ¬ Uses IsExp kernel)
    (hnew : GP.new kernel (.times t) diag mean (some .parallel) u = .ok gp)
    (hnew₁ : GP.new kernel (.times t) diag mean (some .stateSpace) u = .ok gp₁) (ht : Sorted t) (hN : 0 < t.len)
    (hR : ∀ i < t.len, 0 < (GP.noiseOf t.len diag).get i) (hc : gp.condition y = .ok (lp, gp')) (hc₁ : gp₁.condition y = .ok (lp₁, gp₁')) :
    lp = lp₁ ∧ (∀ i < t.len, gp'.mean.get i = gp₁'.mean.get i) ∧
    (∀ v v₁, gp'.var = some v → gp₁'.var = some v₁ → ∀ i < t.len, v.get i = v₁.get i) ∧
    ∀ ts r r₁, gp'.predict (some (.times ts)) = .ok r → gp₁'.predict (some (.times ts)) = .ok r₁ →
      ∀ i, r.1.get i = r₁.1.get i ∧ r.2.get i = r₁.2.get i := by
  have hl := C06_log_probability hv hexp hnew ht hN hR y
  obtain ⟨h1, -, v, hvar, -, h2⟩ := C07_condition hv hnew ht hN hR hc
  obtain ⟨h3, -, v₁, hvar₁, -, h4⟩ := C02_C03_condition hv (.inr rfl) hnew₁ ht hR hc₁
  refine ⟨?_, fun i hi => (h2 i hi).1.trans (h4 i hi).1.symm, fun w w₁ hw hw₁ i hi => ?_, fun ts r r₁ hr hr₁ i => ?_⟩
  · rw [hl] at h1
    rw [h3]
    exact (Except.ok.inj h1).symm
  · rw [hvar] at hw
    rw [hvar₁] at hw₁
    cases hw; cases hw₁
    exact (h2 i hi).2.trans (h4 i hi).2.symm
  · obtain ⟨mu, var, e, -, -, h5⟩ := C07_predict hv hnew ht hN hR hc ts
    obtain ⟨mu₁, var₁, e₁, -, -, h6⟩ := C04_predict hv (.inr rfl) hnew₁ ht hN hR hc₁ (.times ts)
    rw [e] at hr
    rw [e₁] at hr₁
    cases hr; cases hr₁
    exact ⟨(h5 i).1.trans (h6 i).1.symm, (h5 i).2.trans (h6 i).2.symm⟩

/-- a quasi-periodic kernel with an oscillator: construction and conditioning succeed with the parallel solver -/
example (t y : Arr ℝ) (hl : t.len = 3) : ∃ gp lp gp', GP.new (.sum (.prod (.matern52 2 1 "a") (.expSineSquared 3 1 1 2 "b")) (.sho 1 (1/2) 3 "c"))
    (.times t) (some (.inl 1)) none (some .parallel) false = .ok gp ∧ gp.condition y = .ok (lp, gp') ∧
    (Sorted t → ∃ mu var, gp'.predict (some (.times t)) = .ok (mu, var)) := by
  set k : Kern := .sum (.prod (.matern52 2 1 "a") (.expSineSquared 3 1 1 2 "b")) (.sho 1 (1/2) 3 "c") with hk
  have hv : k.Valid := .sum (.prod (.matern52 two_pos one_ne_zero) (.expSineSquared (by norm_num) one_pos one_ne_zero))
    (.sho one_pos (by norm_num) (.inr le_rfl) (by norm_num))
  have hexp : ¬ Uses IsExp k := ((transitionError_iff true k).1 rfl).2 rfl
  obtain ⟨gp, hnew⟩ := (C06_constructor hv t (some (.inl 1)) none).1
  have hgk : gp.kernel = k := by
    have := (GP.new_ok hnew).1
    rw [if_neg (by decide)] at this
    exact (Except.ok.inj this).symm
  obtain ⟨⟨lp, gp'⟩, hc⟩ := (C07_condition_succeeds hv hexp hnew y).2 ⟨by omega, by rw [hgk]; exact ⟨k, rfl⟩⟩
  refine ⟨gp, lp, gp', hnew, hc, fun ht => ?_⟩
  obtain ⟨mu, var, h, -⟩ := C07_predict hv hnew ht (by omega) (fun _ _ => one_pos) hc t
  exact ⟨mu, var, h⟩

end Verif
