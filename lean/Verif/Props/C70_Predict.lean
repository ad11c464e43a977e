import Verif.Lemmas.NoisyPredict
import Verif.Props.C70_Truncation

/-!
# C70, predictions: how far the truncated process noise can move predictions at other times
-/

set_option linter.unusedSectionVars false

namespace Verif
open Matrix Spec

section
variable {kernel : Kern} {t : Arr ℝ} {diag : Option (ℝ ⊕ Arr ℝ)} {mean : Option (Coord → ℝ)} {u : Bool}
  {solver : Option SolverKind} {gp gp' : GP} {y : Arr ℝ} {lp : EReal} {ε p c r : ℝ}

/-- **C70, prediction.** `condition(y).gp.predict(X_test, return_var=True)` with truncated process noise, at any times before, between and
after the data: with `θ` the relative error of the data covariance, kernel variance `κ`, `N` data and smallest noise `r`, the mean is off by
at most `2 θ (√κ + √(r/N)) √(yᵀ G⁻¹ y)` and the variance by at most `2 θ (√κ + √(r/N))²`. -/
theorem C70_predict (hk : kernel.Truncated ε p c) (hsol : Sequential solver)
    (hnew : GP.new kernel (.times t) diag mean solver u = .ok gp) (ht : Sorted t) (hN : 0 < t.len) (hr : 0 < r)
    (hR : ∀ i < t.len, r ≤ (GP.noiseOf t.len diag).get i)
    (hsmall : 4 * t.len * ε * Fintype.card kernel.model.n * (2 * t.len * kernel.model.evaluate (.time 0) (.time 0) + r) < c * r)
    (hcond : gp.condition y = .ok (lp, gp')) (ts : Arr ℝ) :
    ∃ mu var, gp'.predict (some (.times ts)) = .ok (mu, var) ∧ mu.len = ts.len ∧ var.len = ts.len ∧ ∀ i,
      |mu.get i - postMean (dataCov kernel t diag) (fun j => y.get j)
          (fun j => kernel.model.evaluate (.time (ts.get i)) (.time (t.get j)))| ≤
        2 * relErr kernel t.len ε c r * (Real.sqrt (kernel.model.evaluate (.time 0) (.time 0)) + Real.sqrt (r / t.len)) *
          Real.sqrt ((fun j : Fin t.len => y.get j) ⬝ᵥ (dataCov kernel t diag)⁻¹ *ᵥ (fun j => y.get j)) ∧
      |var.get i - postVar (dataCov kernel t diag) (kernel.model.evaluate (.time (ts.get i)) (.time (ts.get i)))
          (fun j => kernel.model.evaluate (.time (ts.get i)) (.time (t.get j)))| ≤
        2 * relErr kernel t.len ε c r * (Real.sqrt (kernel.model.evaluate (.time 0) (.time 0)) + Real.sqrt (r / t.len)) ^ 2 := by
  obtain ⟨-, hs0, -, -, -, -, -, hs', -⟩ := GP.new_ok hnew
  obtain ⟨hrun, -, -, hs, -, -, -, -, -, hsol', hst, -⟩ := GP.condition_ok hcond
  obtain ⟨⟨G, hG⟩, hn, -, hl⟩ := hk.facts
  obtain ⟨he, -, hc⟩ := hk.eps_nonneg
  have hkind := truncated_kind hk hsol
  have hrun' : gp'.runError = none := by
    rw [← hrun]
    unfold GP.runError
    rw [hsol', hs.transitionError]
  rw [hs', hkind] at hsol'
  have hkind' : ¬ (gp'.solver.kind = .parallel ∧ (gp'.solver.X.isTuple = true ∨ (XArg.times ts).isTuple = true)) := by
    rw [hsol']; rintro ⟨h, -⟩; cases h
  unfold GP.predict
  simp only [hst, GP.predictConditioned, hrun', if_neg hkind', (hs.trans hs0).obsError, hk.obsError]
  refine ⟨_, _, rfl, rfl, rfl, fun i => ?_⟩
  have e : gp'.kernel.model.projectTest (gp'.kernel.model.states gp'.solver.kind gp'.solver.X.coords y gp'.solver.noise)
      (fun x => gp'.kernel.model.obsModel x none) (XArg.times ts).coords =
      kernel.model.predictAt (t.map .time) y (GP.noiseOf t.len diag) (XArg.times ts).coords := by
    rw [← SSM.strip_projectTest, (hs.trans hs0).strip, SSM.strip_projectTest, hsol']
    rfl
  rw [e]
  exact noisy_predicted_near (y := y) he hn hG ht hN hc hl hr hR hsmall rfl (ts.get i)

/-- **C70, prediction, one oscillator.** With `θ = 2·10⁻¹⁴ N² / (min(1, w²) r)` the mean is off by at most `2 θ (|s| + √(r/N)) √(yᵀ G⁻¹ y)`
and the variance by at most `2 θ (|s| + √(r/N))²`. -/
theorem C70_sho_predict {w q s : ℝ} {name : String} (hw : 0 < w) (hq : 1 / 2 < q) (hd : ¬ SHO.isCritical q) (hs : s ≠ 0) (hsol : Sequential solver)
    (hnew : GP.new (.sho w q s name) (.times t) diag mean solver u = .ok gp) (ht : Sorted t) (hN : 0 < t.len) (hr : 0 < r)
    (hR : ∀ i < t.len, r ≤ (GP.noiseOf t.len diag).get i)
    (hsmall : 8e-14 * t.len * (2 * t.len * s ^ 2 + r) < s ^ 2 * min 1 (w ^ 2) * r)
    (hcond : gp.condition y = .ok (lp, gp')) (ts : Arr ℝ) :
    ∃ mu var, gp'.predict (some (.times ts)) = .ok (mu, var) ∧ mu.len = ts.len ∧ var.len = ts.len ∧ ∀ i,
      |mu.get i - postMean (dataCov (.sho w q s name) t diag) (fun j => y.get j)
          (fun j => (sho w q s name).evaluate (.time (ts.get i)) (.time (t.get j)))| ≤
        2 * (2e-14 * t.len ^ 2 / (min 1 (w ^ 2) * r)) * (|s| + Real.sqrt (r / t.len)) *
          Real.sqrt ((fun j : Fin t.len => y.get j) ⬝ᵥ (dataCov (.sho w q s name) t diag)⁻¹ *ᵥ (fun j => y.get j)) ∧
      |var.get i - postVar (dataCov (.sho w q s name) t diag) ((sho w q s name).evaluate (.time (ts.get i)) (.time (ts.get i)))
          (fun j => (sho w q s name).evaluate (.time (ts.get i)) (.time (t.get j)))| ≤
        2 * (2e-14 * t.len ^ 2 / (min 1 (w ^ 2) * r)) * (|s| + Real.sqrt (r / t.len)) ^ 2 := by
  have hq0 : 0 < q := by linarith
  have hk : (Kern.sho w q s name).Truncated _ _ _ := .sho hw hq hd hs
  have h := C70_predict hk hsol hnew ht hN hr hR (by
    have hc : (Fintype.card (Kern.sho w q s name).model.n : ℝ) = 2 := by
      show (Fintype.card (Fin 2) : ℝ) = 2
      simp
    rw [sho_variance name hw hq0, hc]
    linarith) hcond ts
  rw [sho_relErr name hw hq0 hs t.len hr, sho_variance name hw hq0, Real.sqrt_sq_eq_abs] at h
  exact h

/-- three data with unit noise: the predicted variance of the oscillator with quality 3 is within `2·10⁻¹²` of the exact one, anywhere -/
example (y ts : Arr ℝ) : ∃ gp lp gp' mu var, GP.new (.sho 1 3 1 "SHO") (.times threeT) (some (.inl 1)) none none = .ok gp ∧
    gp.condition y = .ok (lp, gp') ∧ gp'.predict (some (.times ts)) = .ok (mu, var) ∧ ∀ i,
      |var.get i - postVar (dataCov (.sho 1 3 1 "SHO") threeT (some (.inl 1))) ((sho 1 3 1 "SHO").evaluate (.time (ts.get i)) (.time (ts.get i)))
        (fun j => (sho 1 3 1 "SHO").evaluate (.time (ts.get i)) (.time (threeT.get j)))| ≤ 2e-12 := by
  have hk : (Kern.sho 1 3 1 "SHO").Truncated _ _ _ := .sho one_pos (by norm_num) notCritical_three one_ne_zero
  obtain ⟨gp, h, hc⟩ := C70_succeeds hk (.inl rfl) (by rfl) threeT (some (.inl 1)) none
  obtain ⟨⟨lp, gp'⟩, hc⟩ := hc (by decide) y
  have h3 : (threeT.len : ℝ) = 3 := by show ((3 : ℕ) : ℝ) = 3; norm_num
  obtain ⟨mu, var, hp, -, -, hb⟩ := C70_sho_predict one_pos (by norm_num) notCritical_three one_ne_zero (.inl rfl) h threeT_sorted (by decide) one_pos
    (fun i _ => le_rfl) (by rw [h3]; norm_num) hc ts
  refine ⟨gp, lp, gp', mu, var, h, hc, hp, fun i => (hb i).2.trans ?_⟩
  rw [h3]
  have hs : Real.sqrt (1 / 3) ≤ 1 := Real.sqrt_le_one.2 (by norm_num)
  have h4 : (|1| + Real.sqrt (1 / 3)) ^ 2 ≤ (2 : ℝ) ^ 2 :=
    pow_le_pow_left₀ (by positivity) (by rw [abs_one]; linarith) 2
  refine (mul_le_mul_of_nonneg_left h4 (by norm_num)).trans (by norm_num)

end

end Verif
