import Verif.Props.C61_Regression
import Verif.Props.C29_Periodic
import Verif.Spec.Textbook

/-!
# C71: regression as in the textbook

The results of the package for a kernel expression, stated without reference to any other part of the model: covariance functions, noise
and formulas are those of `Spec/Textbook.lean`.
-/

namespace Verif
open Matrix Kern Spec

theorem noiseOf_get (N : ℕ) (diag : Option (ℝ ⊕ Arr ℝ)) (i : ℕ) : (GP.noiseOf N diag).get i = noiseVar diag i := by
  rcases diag with _ | (r | a) <;> rfl

theorem qj2_eq {gamma : ℝ} (hg : 0 < gamma) (j : ℕ) : ExpSineSquared.qj2 j (2 / gamma) = periodicCoeff gamma j := by
  unfold ExpSineSquared.qj2 periodicCoeff
  have e1 : 1 / (2 / gamma) = gamma / 2 := by field_simp
  rw [e1, ExpSineSquared.Ij_eq j (by positivity), mul_div_assoc, mul_assoc, Real.exp_neg, div_eq_inv_mul]
  congr 2
  refine Finset.sum_congr rfl fun k _ => ?_
  unfold Fourier.wt
  rw [show gamma / 2 / 2 = gamma / 4 by ring, div_mul_div_comm, ← pow_add, mul_comm ((k + j).factorial : ℝ)]
  congr 2
  dsimp only
  ring

theorem Spec.Textbook.facts {k : Kern} {κ : ℝ → ℝ} (h : Textbook k κ) : k.Valid ∧ k.model.HasCov κ := by
  induction h with
  | exp hs hσ => exact ⟨.exp hs hσ, C24_exp _ _ _ hs⟩
  | matern32 hs hσ => exact ⟨.matern32 hs hσ, C24_matern32 _ _ _ hs⟩
  | matern52 hs hσ => exact ⟨.matern52 hs hσ, C24_matern52 _ _ _ hs⟩
  | cosine hs hσ => exact ⟨.cosine hs hσ, C24_cosine _ _ _ hs⟩
  | sho hw hq hd hσ => exact ⟨.sho hw hq (.inr (hd.elim Eq.le fun h => h.1.le)) hσ, C24_sho _ _ _ _ hw hq (hd.imp id And.right)⟩
  | expSineSquared hp hg hσ ho =>
    rename_i period gamma sigma order name
    refine ⟨.expSineSquared hp hg hσ, fun X1 X2 => (C29_series period gamma sigma order name ho X1 X2).trans ?_⟩
    congr 1
    refine Finset.sum_congr rfl fun j _ => ?_
    rw [qj2_eq hg]
    congr 1
    rcases abs_choice (X1.sortable - X2.sortable) with h | h
    · rw [h]; congr 1; ring
    · rw [h, ← Real.cos_neg]; congr 1; ring
  | sum _ _ h1 h2 =>
    refine ⟨.sum h1.1 h2.1, fun X1 X2 => (C27_sum_evaluate _ _ X1 X2).trans ?_⟩
    rw [h1.2, h2.2]
  | prod _ _ h1 h2 =>
    refine ⟨.prod h1.1 h2.1, fun X1 X2 => (C27_prod_evaluate _ _ X1 X2).trans ?_⟩
    rw [h1.2, h2.2]

/-- an expression has one textbook covariance function -/
theorem Spec.Textbook.unique {k : Kern} {κ κ' : ℝ → ℝ} (h : Textbook k κ) (h' : Textbook k κ') {r : ℝ} (hr : 0 ≤ r) : κ r = κ' r := by
  have e := (h.facts.2 (.time r) (.time 0)).symm.trans (h'.facts.2 (.time r) (.time 0))
  simpa [Coord.sortable, abs_of_nonneg hr] using e

section
variable {kernel : Kern} {κ : ℝ → ℝ} {t : Arr ℝ} {solver : Option SolverKind} {diag : Option (ℝ ⊕ Arr ℝ)} {mean : Option (Coord → ℝ)}
  {u : Bool} {gp gp' : GP} {y : Arr ℝ} {lp : EReal}

/-- the default or the sequential solver, or the parallel one unless the kernel contains `Exp` (with which that solver fails, C06) -/
def SolverFor (kernel : Kern) (solver : Option SolverKind) : Prop :=
  solver = none ∨ solver = some .stateSpace ∨ (solver = some .parallel ∧ ¬ Uses IsExp kernel)

theorem textbook_regression (h : Textbook kernel κ) (hsol : SolverFor kernel solver) (ht : Sorted t) (hN : 0 < t.len) :
    Regression kernel (.times t) solver κ := by
  obtain ⟨hv, hκ⟩ := h.facts
  rcases hsol with rfl | rfl | ⟨rfl, hexp⟩
  · exact .sequential hv hκ (.inl rfl) ht hN
  · exact .sequential hv hκ (.inr rfl) ht hN
  · exact .parallel hv hκ hexp ht hN

theorem obsGram_textbook (κ : ℝ → ℝ) (t : Arr ℝ) (diag : Option (ℝ ⊕ Arr ℝ)) :
    obsGram κ (XArg.times t).coords (GP.noiseOf (XArg.times t).coords.len diag) = dataMatrix κ t diag := by
  ext i j
  have e : exposureCov κ (.time (t.get i)) (.time (t.get j)) = κ |t.get i - t.get j| := exposureCov_times κ _ _
  have e' : (GP.noiseOf (XArg.times t).coords.len diag).get i = noiseVar diag i := noiseOf_get _ _ _
  show exposureCov κ (.time (t.get i)) (.time (t.get j)) + (if i = j then (GP.noiseOf (XArg.times t).coords.len diag).get i else 0) =
    κ |t.get i - t.get j| + if i = j then noiseVar diag i else 0
  simp only [e, e']

theorem obsCross_textbook (κ : ℝ → ℝ) (t : Arr ℝ) (s : ℝ) :
    obsCross κ (.time s) (XArg.times t).coords = fun j : Fin t.len => κ |s - t.get j| := by
  funext j
  exact exposureCov_times κ s (t.get j)

/-- **C71, likelihood.** `-½ yᵀ K⁻¹ y - ½ log det K - N/2 log 2π` with the textbook covariance matrix. -/
theorem C71_log_probability (h : Textbook kernel κ) (hsol : SolverFor kernel solver)
    (hnew : GP.new kernel (.times t) diag mean solver u = .ok gp) (ht : Sorted t) (hN : 0 < t.len) (hR : ∀ i < t.len, 0 < noiseVar diag i)
    (hy : y.len = t.len) :
    gp.logProbability y = .ok ((-(1 / 2) * ((fun i : Fin t.len => y.get i) ⬝ᵥ (dataMatrix κ t diag)⁻¹ *ᵥ fun i => y.get i) -
      1 / 2 * Real.log (dataMatrix κ t diag).det - (t.len : ℝ) / 2 * Real.log (2 * Real.pi) : ℝ) : EReal) := by
  have := C61_log_probability (textbook_regression h hsol ht hN) hnew hy (fun i hi => by rw [noiseOf_get]; exact hR i hi)
  rw [obsGram_textbook] at this
  rw [this]
  unfold gaussLogDensity
  rw [Fintype.card_fin]
  rfl

/-- **C71, `condition`.** Mean and variance at the data. -/
theorem C71_condition (h : Textbook kernel κ) (hsol : SolverFor kernel solver)
    (hnew : GP.new kernel (.times t) diag mean solver u = .ok gp) (ht : Sorted t) (hN : 0 < t.len) (hR : ∀ i < t.len, 0 < noiseVar diag i)
    (hcond : gp.condition y = .ok (lp, gp')) :
    gp.logProbability y = .ok lp ∧ gp'.mean.len = t.len ∧ ∃ var, gp'.var = some var ∧ var.len = t.len ∧ ∀ i < t.len,
      gp'.mean.get i = (fun j : Fin t.len => κ |t.get i - t.get j|) ⬝ᵥ (dataMatrix κ t diag)⁻¹ *ᵥ (fun j => y.get j) ∧
      var.get i = κ 0 - (fun j : Fin t.len => κ |t.get i - t.get j|) ⬝ᵥ (dataMatrix κ t diag)⁻¹ *ᵥ fun j => κ |t.get i - t.get j| := by
  obtain ⟨h1, h2, var, h3, h4, h5⟩ := C61_condition (textbook_regression h hsol ht hN) hnew (fun i hi => by rw [noiseOf_get]; exact hR i hi) hcond
  refine ⟨h1, h2, var, h3, h4, fun i hi => ?_⟩
  have := h5 i hi
  rw [obsGram_textbook] at this
  have e : obsCross κ ((XArg.times t).coords.get i) (XArg.times t).coords = fun j : Fin t.len => κ |t.get i - t.get j| :=
    obsCross_textbook κ t (t.get i)
  have e0 : exposureCov κ ((XArg.times t).coords.get i) ((XArg.times t).coords.get i) = κ 0 := by
    show exposureCov κ (.time (t.get i)) (.time (t.get i)) = _
    rw [exposureCov_times, sub_self, abs_zero]
  rw [e, e0] at this
  exact this

/-- **C71, `predict`.** Mean and variance at any times. -/
theorem C71_predict (h : Textbook kernel κ) (hsol : SolverFor kernel solver)
    (hnew : GP.new kernel (.times t) diag mean solver u = .ok gp) (ht : Sorted t) (hN : 0 < t.len) (hR : ∀ i < t.len, 0 < noiseVar diag i)
    (hcond : gp.condition y = .ok (lp, gp')) (ts : Arr ℝ) :
    ∃ mu var, gp'.predict (some (.times ts)) = .ok (mu, var) ∧ mu.len = ts.len ∧ var.len = ts.len ∧ ∀ i < ts.len,
      mu.get i = (fun j : Fin t.len => κ |ts.get i - t.get j|) ⬝ᵥ (dataMatrix κ t diag)⁻¹ *ᵥ (fun j => y.get j) ∧
      var.get i = κ 0 - (fun j : Fin t.len => κ |ts.get i - t.get j|) ⬝ᵥ (dataMatrix κ t diag)⁻¹ *ᵥ fun j => κ |ts.get i - t.get j| := by
  obtain ⟨mu, var, h1, h2, h3, h4⟩ := C61_predict (textbook_regression h hsol ht hN) hnew (fun i hi => by rw [noiseOf_get]; exact hR i hi) hcond ts
  refine ⟨mu, var, h1, h2, h3, fun i hi => ?_⟩
  have := h4 i hi
  rw [obsGram_textbook, obsCross_textbook] at this
  exact this

end

section exposures
variable {kernel : Kern} {κ : ℝ → ℝ} {t d : Arr ℝ} {inst : Arr ℤ} {m : ℕ} {solver : Option SolverKind} {diag : Option (ℝ ⊕ Arr ℝ)}
  {mean : Option (Coord → ℝ)} {u : Bool} {gp gp' : GP} {y : Arr ℝ} {lp : EReal}

theorem exposures_regression (h : kernel.Integrates False m κ) (hsol : IntegratedSolver kernel (XArg.triple t d inst).coords solver)
    (hX : Exposures m t d inst) (hN : 0 < t.len) : Regression kernel (.triple t d inst) solver κ := by
  refine .integrated h hsol ⟨fun n hn => (hX.positive n hn).le, hX.instruments, hX.disjoint⟩ ⟨hX.positive, hX.distinct⟩ hN

theorem average_exposure {s δ : ℝ} {i : ℤ} (h : 0 < δ) (f : ℝ → ℝ) :
    (Coord.exposure s δ i).average f = 1 / δ * ∫ u in (s - δ / 2)..(s + δ / 2), f u := if_pos h

theorem average_time (s : ℝ) (f : ℝ → ℝ) : (Coord.time s).average f = f s := if_neg (lt_irrefl 0)

theorem obsGram_exposures (hX : Exposures m t d inst) :
    obsGram κ (XArg.triple t d inst).coords (GP.noiseOf (XArg.triple t d inst).coords.len diag) = exposureMatrix κ t d diag := by
  ext i j
  have hi := hX.positive i i.2
  have hj := hX.positive j j.2
  have e : exposureCov κ (.exposure (t.get i) (d.get i) (inst.get i)) (.exposure (t.get j) (d.get j) (inst.get j)) =
      1 / (d.get i * d.get j) * (∫ u in (t.get i - d.get i / 2)..(t.get i + d.get i / 2),
        ∫ v in (t.get j - d.get j / 2)..(t.get j + d.get j / 2), κ |u - v|) := by
    unfold exposureCov
    rw [average_exposure hi]
    simp only [average_exposure hj]
    rw [intervalIntegral.integral_const_mul, ← mul_assoc]
    congr 1
    field_simp
  have e' : (GP.noiseOf (XArg.triple t d inst).coords.len diag).get i = noiseVar diag i := noiseOf_get _ _ _
  show exposureCov κ (.exposure (t.get i) (d.get i) (inst.get i)) (.exposure (t.get j) (d.get j) (inst.get j)) +
      (if i = j then (GP.noiseOf (XArg.triple t d inst).coords.len diag).get i else 0) =
    1 / (d.get i * d.get j) * (∫ u in (t.get i - d.get i / 2)..(t.get i + d.get i / 2),
      ∫ v in (t.get j - d.get j / 2)..(t.get j + d.get j / 2), κ |u - v|) + if i = j then noiseVar diag i else 0
  simp only [e, e']

theorem obsCross_exposures (hX : Exposures m t d inst) (s : ℝ) :
    obsCross κ (.time s) (XArg.triple t d inst).coords = exposureVector κ t d s := by
  funext j
  have hj := hX.positive j j.2
  show exposureCov κ (.time s) (.exposure (t.get j) (d.get j) (inst.get j)) = _
  unfold exposureCov
  rw [average_time, average_exposure hj]
  rfl

/-- **C71, exposures, likelihood.** -/
theorem C71_exposures_log_probability (h : kernel.Integrates False m κ)
    (hsol : IntegratedSolver kernel (XArg.triple t d inst).coords solver) (hX : Exposures m t d inst)
    (hnew : GP.new kernel (.triple t d inst) diag mean solver u = .ok gp) (hN : 0 < t.len) (hR : ∀ i < t.len, 0 < noiseVar diag i)
    (hy : y.len = t.len) :
    gp.logProbability y = .ok ((-(1 / 2) * ((fun i : Fin t.len => y.get i) ⬝ᵥ (exposureMatrix κ t d diag)⁻¹ *ᵥ fun i => y.get i) -
      1 / 2 * Real.log (exposureMatrix κ t d diag).det - (t.len : ℝ) / 2 * Real.log (2 * Real.pi) : ℝ) : EReal) := by
  have := C61_log_probability (exposures_regression h hsol hX hN) hnew hy (fun i hi => by rw [noiseOf_get]; exact hR i hi)
  rw [obsGram_exposures hX] at this
  rw [this]
  unfold gaussLogDensity
  rw [Fintype.card_fin]
  rfl

/-- **C71, exposures, `predict`.** Mean and variance of the underlying process at any times. -/
theorem C71_exposures_predict (h : kernel.Integrates False m κ)
    (hsol : IntegratedSolver kernel (XArg.triple t d inst).coords solver) (hX : Exposures m t d inst)
    (hnew : GP.new kernel (.triple t d inst) diag mean solver u = .ok gp) (hN : 0 < t.len) (hR : ∀ i < t.len, 0 < noiseVar diag i)
    (hcond : gp.condition y = .ok (lp, gp')) (ts : Arr ℝ) :
    gp.logProbability y = .ok lp ∧ ∃ mu var, gp'.predict (some (.times ts)) = .ok (mu, var) ∧ mu.len = ts.len ∧ var.len = ts.len ∧
      ∀ i < ts.len,
        mu.get i = exposureVector κ t d (ts.get i) ⬝ᵥ (exposureMatrix κ t d diag)⁻¹ *ᵥ (fun j => y.get j) ∧
        var.get i = κ 0 - exposureVector κ t d (ts.get i) ⬝ᵥ (exposureMatrix κ t d diag)⁻¹ *ᵥ exposureVector κ t d (ts.get i) := by
  have hreg := exposures_regression h hsol hX hN
  have hR' : ∀ i < (XArg.triple t d inst).coords.len, 0 < (GP.noiseOf (XArg.triple t d inst).coords.len diag).get i :=
    fun i hi => by rw [noiseOf_get]; exact hR i hi
  obtain ⟨mu, var, h1, h2, h3, h4⟩ := C61_predict hreg hnew hR' hcond ts
  refine ⟨(C61_condition hreg hnew hR' hcond).1, mu, var, h1, h2, h3, fun i hi => ?_⟩
  have := h4 i hi
  rw [obsGram_exposures hX, obsCross_exposures hX] at this
  exact this

end exposures

section examples

/-- the hypotheses can be met: two overlapping exposures on two instruments -/
example : Exposures 1 ⟨2, fun i => i⟩ ⟨2, fun _ => 2⟩ ⟨2, fun i => i⟩ := by
  refine ⟨fun _ _ => two_pos, fun n hn => ⟨by positivity, ?_⟩, fun a ha b hb hab h => (hab (Int.ofNat.inj h)).elim, fun a _ b _ hab h => hab ?_⟩
  · have : n ≤ 1 := by simpa using Nat.le_of_lt_succ hn
    show (n : ℤ) ≤ ((1 : ℕ) : ℤ)
    exact_mod_cast this
  · have : (a : ℝ) = b := by simpa using h
    exact_mod_cast this

/-- the hypotheses can be met: an overdamped oscillator times a periodic kernel plus a Matérn kernel, the parallel solver, default noise -/
example (t : Arr ℝ) (hN : 1 < t.len) (y : Arr ℝ) : ∃ κ gp lp gp',
    Textbook (.sum (.prod (.sho 1 (1 / 4) 2 "a") (.expSineSquared 3 1 1 4 "b")) (.matern52 1 1 "c")) κ ∧
    GP.new (.sum (.prod (.sho 1 (1 / 4) 2 "a") (.expSineSquared 3 1 1 4 "b")) (.matern52 1 1 "c")) (.times t) none none (some .parallel) false = .ok gp ∧
    (∀ i < t.len, 0 < noiseVar none i) ∧ gp.condition y = .ok (lp, gp') := by
  have hq : ¬ SHO.isCritical (1 / 4) := by unfold SHO.isCritical; norm_num [abs_of_neg]
  have hT : Textbook (.sum (.prod (.sho 1 (1 / 4) 2 "a") (.expSineSquared 3 1 1 4 "b")) (.matern52 1 1 "c")) _ :=
    .sum (.prod (.sho one_pos (by norm_num) (.inr ⟨by norm_num, hq⟩) two_ne_zero)
      (.expSineSquared (by norm_num) one_pos one_ne_zero (by norm_num))) (.matern52 one_pos one_ne_zero)
  have hexp : ¬ Uses IsExp (.sum (.prod (.sho 1 (1 / 4) 2 "a") (.expSineSquared 3 1 1 4 "b")) (.matern52 1 1 "c")) :=
    ((transitionError_iff true _).1 rfl).2 rfl
  obtain ⟨gp, h⟩ := GP.new_eq (kernel := .sum (.prod (.sho 1 (1 / 4) 2 "a") (.expSineSquared 3 1 1 4 "b")) (.matern52 1 1 "c"))
    (X := .times t) (solver := some .parallel) (u := false) none none (k := _) rfl (fun h => by cases h) rfl
  have hk : gp.kernel = .sum (.prod (.sho 1 (1 / 4) 2 "a") (.expSineSquared 3 1 1 4 "b")) (.matern52 1 1 "c") := by
    have := (GP.new_ok h).1
    rw [if_neg (by decide)] at this
    exact (Except.ok.inj this).symm
  obtain ⟨⟨lp, gp'⟩, hc⟩ := (C07_condition_succeeds hT.facts.1 hexp h y).2 ⟨by omega, _, by rw [hk]; rfl⟩
  exact ⟨_, gp, lp, gp', hT, h, fun i _ => Real.sqrt_pos.2 (by positivity), hc⟩

end examples

end Verif
