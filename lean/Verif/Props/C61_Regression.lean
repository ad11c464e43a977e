import Verif.Props.C06_EndToEnd
import Verif.Props.C11_EndToEnd

/-!
# C61: only the covariance function matters

`Regression kernel X solver κ`: the cases in which the package does exact Gaussian-process regression with the latent covariance function
`κ` of the lag. Instantaneous measurements with the sequential or the parallel solver, exposure-averaged ones with either integrated
solver. In all of them the results are functions of `κ`, of the coordinates, of the noise and of the data; different kernel
expressions with the same covariance function give the same results.
-/

namespace Verif
open Matrix Kern Spec

/-- covariance matrix of noisy measurements of a process with covariance function `κ`, averaged over their exposures -/
noncomputable def Spec.obsGram (κ : ℝ → ℝ) (X : Arr Coord) (R : Arr ℝ) : Matrix (Fin X.len) (Fin X.len) ℝ :=
  noisyGram (fun i j => exposureCov κ (X.get i) (X.get j)) fun i => R.get i

/-- covariances of the process, averaged over the exposure of `Xs`, with the measurements -/
noncomputable def Spec.obsCross (κ : ℝ → ℝ) (Xs : Coord) (X : Arr Coord) : Fin X.len → ℝ := fun j => exposureCov κ Xs (X.get j)

/-- the cases in which regression is exact, with the covariance function of the latent process -/
inductive Regression : Kern → XArg → Option SolverKind → (ℝ → ℝ) → Prop
  | sequential {kernel : Kern} {t : Arr ℝ} {solver : Option SolverKind} {κ : ℝ → ℝ} (hv : kernel.Valid) (hκ : kernel.model.HasCov κ)
      (hsol : Sequential solver) (ht : Sorted t) (hN : 0 < t.len) : Regression kernel (.times t) solver κ
  | parallel {kernel : Kern} {t : Arr ℝ} {κ : ℝ → ℝ} (hv : kernel.Valid) (hκ : kernel.model.HasCov κ) (hexp : ¬ Uses IsExp kernel)
      (ht : Sorted t) (hN : 0 < t.len) : Regression kernel (.times t) (some .parallel) κ
  | integrated {kernel : Kern} {t d : Arr ℝ} {inst : Arr ℤ} {solver : Option SolverKind} {κ : ℝ → ℝ} {m : ℕ}
      (hk : kernel.Integrates False m κ) (hsol : IntegratedSolver kernel (XArg.triple t d inst).coords solver)
      (hX : Schedule m (XArg.triple t d inst).coords) (hd : DistinctStarts (XArg.triple t d inst).coords) (hN : 0 < t.len) :
      Regression kernel (.triple t d inst) solver κ

theorem exposureCov_times (κ : ℝ → ℝ) (s t : ℝ) : exposureCov κ (.time s) (.time t) = κ |s - t| := by
  simp [exposureCov, Coord.average, Coord.delta, Coord.sortable]

/-- every valid kernel has a covariance function -/
theorem Kern.Valid.hasCov {k : Kern} (h : k.Valid) : ∃ κ, k.model.HasCov κ := by
  obtain ⟨G, hG⟩ := h.builtIn.leafCombos.covModel
  exact ⟨_, hG.evaluate_eq⟩

section
variable {kernel : Kern} {X : XArg} {solver : Option SolverKind} {κ : ℝ → ℝ} {diag : Option (ℝ ⊕ Arr ℝ)} {mean : Option (Coord → ℝ)}
  {u : Bool} {gp gp' : GP} {y : Arr ℝ} {lp : EReal}

theorem Regression.nonempty (h : Regression kernel X solver κ) : 0 < X.coords.len := by
  cases h with
  | sequential _ _ _ _ hN => exact hN
  | parallel _ _ _ _ hN => exact hN
  | integrated _ _ _ _ hN => exact hN

theorem dataGram_eq_obsGram {k : SSM} (hκ : k.HasCov κ) (t R : Arr ℝ) : dataGram k (t.map .time) R = obsGram κ (XArg.times t).coords R := by
  ext i j
  show k.evaluate (.time (t.get i)) (.time (t.get j)) + _ = exposureCov κ (.time (t.get i)) (.time (t.get j)) + _
  rw [exposureCov_times, hκ]
  rfl

theorem evaluate_eq_obsCross {k : SSM} (hκ : k.HasCov κ) (t : Arr ℝ) (s : ℝ) :
    (fun j : Fin t.len => k.evaluate (.time s) (.time (t.get j))) = obsCross κ (.time s) (XArg.times t).coords := by
  funext j
  show _ = exposureCov κ (.time s) (.time (t.get j))
  rw [exposureCov_times, hκ]
  rfl

theorem postMean_times {k : SSM} (hκ : k.HasCov κ) (t R y : Arr ℝ) (s : ℝ) :
    postMean (dataGram k (t.map .time) R) (fun j => y.get j) (fun j => k.evaluate (.time s) (.time (t.get j))) =
      postMean (obsGram κ (XArg.times t).coords R) (fun j => y.get j) (obsCross κ (.time s) (XArg.times t).coords) := by
  rw [dataGram_eq_obsGram hκ]
  exact congrArg (postMean _ _) (evaluate_eq_obsCross hκ t s)

theorem postVar_times {k : SSM} (hκ : k.HasCov κ) (t R : Arr ℝ) (s : ℝ) :
    postVar (dataGram k (t.map .time) R) (k.evaluate (.time s) (.time s)) (fun j => k.evaluate (.time s) (.time (t.get j))) =
      postVar (obsGram κ (XArg.times t).coords R) (κ 0) (obsCross κ (.time s) (XArg.times t).coords) := by
  rw [dataGram_eq_obsGram hκ, hκ (.time s) (.time s), sub_self, abs_zero]
  exact congrArg (postVar _ _) (evaluate_eq_obsCross hκ t s)

/-- **C61, likelihood.** -/
theorem C61_log_probability (h : Regression kernel X solver κ) (hnew : GP.new kernel X diag mean solver u = .ok gp)
    (hy : y.len = X.coords.len) (hR : ∀ i < X.coords.len, 0 < (GP.noiseOf X.coords.len diag).get i) :
    gp.logProbability y = .ok ((gaussLogDensity (obsGram κ X.coords (GP.noiseOf X.coords.len diag)) (fun i => y.get i) : ℝ) : EReal) := by
  cases h with
  | sequential hv hκ hsol ht hN =>
    rw [C01_log_probability hv hsol hnew ht hR y, dataGram_eq_obsGram hκ]
    rfl
  | parallel hv hκ hexp ht hN =>
    rw [C06_log_probability hv hexp hnew ht hN hR y, dataGram_eq_obsGram hκ]
    rfl
  | integrated hk hsol hX hd hN => exact C11_log_probability hk hsol hnew hX hy hR

/-- **C61, `condition`.** -/
theorem C61_condition (h : Regression kernel X solver κ) (hnew : GP.new kernel X diag mean solver u = .ok gp)
    (hR : ∀ i < X.coords.len, 0 < (GP.noiseOf X.coords.len diag).get i) (hcond : gp.condition y = .ok (lp, gp')) :
    gp.logProbability y = .ok lp ∧ gp'.mean.len = X.coords.len ∧ ∃ var, gp'.var = some var ∧ var.len = X.coords.len ∧
      ∀ i < X.coords.len,
        gp'.mean.get i = postMean (obsGram κ X.coords (GP.noiseOf X.coords.len diag)) (fun j => y.get j)
          (obsCross κ (X.coords.get i) X.coords) ∧
        var.get i = postVar (obsGram κ X.coords (GP.noiseOf X.coords.len diag)) (exposureCov κ (X.coords.get i) (X.coords.get i))
          (obsCross κ (X.coords.get i) X.coords) := by
  have hlp : gp.logProbability y = .ok lp := by
    obtain ⟨hrun, hlp, -⟩ := GP.condition_ok hcond
    unfold GP.logProbability
    rw [hrun, hlp]
  refine ⟨hlp, ?_⟩
  cases h with
  | sequential hv hκ hsol ht hN =>
    rename_i t
    obtain ⟨-, hl, var, hvar, hl', hm⟩ := C02_C03_condition hv hsol hnew ht hR hcond
    refine ⟨hl, var, hvar, hl', fun i hi => ?_⟩
    have := hm i hi
    rw [postMean_times hκ, postVar_times hκ] at this
    refine ⟨this.1, this.2.trans ?_⟩
    show _ = postVar _ (exposureCov κ (.time (t.get i)) (.time (t.get i))) _
    rw [exposureCov_times, sub_self, abs_zero]
    rfl
  | parallel hv hκ hexp ht hN =>
    rename_i t
    obtain ⟨-, hl, var, hvar, hl', hm⟩ := C07_condition hv hnew ht hN hR hcond
    refine ⟨hl, var, hvar, hl', fun i hi => ?_⟩
    have := hm i hi
    rw [postMean_times hκ, postVar_times hκ] at this
    refine ⟨this.1, this.2.trans ?_⟩
    show _ = postVar _ (exposureCov κ (.time (t.get i)) (.time (t.get i))) _
    rw [exposureCov_times, sub_self, abs_zero]
    rfl
  | integrated hk hsol hX hd hN =>
    obtain ⟨-, hl, var, hvar, hl', hm⟩ := C11_condition hk hsol hnew hX hd hR hcond
    exact ⟨hl, var, hvar, hl', fun i hi => hm i hi⟩

/-- **C61, `predict` without test points.** On a conditioned GP it returns the posterior at the data. -/
theorem C61_predict_at_data (h : Regression kernel X solver κ) (hnew : GP.new kernel X diag mean solver u = .ok gp)
    (hR : ∀ i < X.coords.len, 0 < (GP.noiseOf X.coords.len diag).get i) (hcond : gp.condition y = .ok (lp, gp')) :
    ∃ mu var, gp'.predict = .ok (mu, var) ∧ mu.len = X.coords.len ∧ var.len = X.coords.len ∧ ∀ i < X.coords.len,
      mu.get i = postMean (obsGram κ X.coords (GP.noiseOf X.coords.len diag)) (fun j => y.get j) (obsCross κ (X.coords.get i) X.coords) ∧
      var.get i = postVar (obsGram κ X.coords (GP.noiseOf X.coords.len diag)) (exposureCov κ (X.coords.get i) (X.coords.get i))
        (obsCross κ (X.coords.get i) X.coords) := by
  obtain ⟨-, hl, var, hvar, hl', hm⟩ := C61_condition h hnew hR hcond
  obtain ⟨-, -, -, -, -, -, -, -, -, -, hst, -, -⟩ := GP.condition_ok hcond
  refine ⟨gp'.mean, var, ?_, hl, hl', hm⟩
  unfold GP.predict
  rw [hst]
  unfold GP.predictConditioned
  rw [hvar]
  rfl

/-- **C61, `predict` of the latent process.** -/
theorem C61_predict (h : Regression kernel X solver κ) (hnew : GP.new kernel X diag mean solver u = .ok gp)
    (hR : ∀ i < X.coords.len, 0 < (GP.noiseOf X.coords.len diag).get i) (hcond : gp.condition y = .ok (lp, gp')) (ts : Arr ℝ) :
    ∃ mu var, gp'.predict (some (.times ts)) = .ok (mu, var) ∧ mu.len = ts.len ∧ var.len = ts.len ∧ ∀ i < ts.len,
      mu.get i = postMean (obsGram κ X.coords (GP.noiseOf X.coords.len diag)) (fun j => y.get j)
        (obsCross κ (.time (ts.get i)) X.coords) ∧
      var.get i = postVar (obsGram κ X.coords (GP.noiseOf X.coords.len diag)) (κ 0) (obsCross κ (.time (ts.get i)) X.coords) := by
  cases h with
  | sequential hv hκ hsol ht hN =>
    rename_i t
    obtain ⟨mu, var, hp, hl, hl', hm⟩ := C04_predict hv hsol hnew ht hN hR hcond (.times ts)
    refine ⟨mu, var, hp, hl, hl', fun i hi => ?_⟩
    exact ⟨(hm i).1.trans (postMean_times hκ t _ y _), (hm i).2.trans (postVar_times hκ t _ _)⟩
  | parallel hv hκ hexp ht hN =>
    rename_i t
    obtain ⟨mu, var, hp, hl, hl', hm⟩ := C07_predict hv hnew ht hN hR hcond ts
    refine ⟨mu, var, hp, hl, hl', fun i hi => ?_⟩
    exact ⟨(hm i).1.trans (postMean_times hκ t _ y _), (hm i).2.trans (postVar_times hκ t _ _)⟩
  | integrated hk hsol hX hd hN =>
    obtain ⟨mu, var, hp, hl, hl', hm⟩ := C58_predict hk hsol hnew hX hd hN hR hcond (.times ts) (fun _ _ h => by cases h) (fun _ => rfl)
    exact ⟨mu, var, hp, hl, hl', fun i hi => hm i hi⟩

end

theorem obsGram_congr {κ κ' : ℝ → ℝ} (h : ∀ r, 0 ≤ r → κ r = κ' r) (X : Arr Coord) (R : Arr ℝ) : obsGram κ X R = obsGram κ' X R := by
  unfold obsGram
  congr 1
  funext i j
  exact exposureCov_congr h _ _

theorem obsCross_congr {κ κ' : ℝ → ℝ} (h : ∀ r, 0 ≤ r → κ r = κ' r) (Xs : Coord) (X : Arr Coord) : obsCross κ Xs X = obsCross κ' Xs X :=
  funext fun _ => exposureCov_congr h _ _

/-- **C61.** Two GPs on the same data whose kernels have the same covariance function, however different their kernel expressions, state
dimensions or solvers, agree on the log likelihood, on the conditioned mean and variance, and on every prediction. -/
theorem C61_only_the_covariance_matters {k k' : Kern} {X : XArg} {s s' : Option SolverKind} {κ κ' : ℝ → ℝ} (h : Regression k X s κ)
    (h' : Regression k' X s' κ') (hκ : ∀ r, 0 ≤ r → κ r = κ' r) {diag : Option (ℝ ⊕ Arr ℝ)} {mean mean' : Option (Coord → ℝ)} {u u' : Bool}
    {gp₁ gp₂ : GP} (hnew : GP.new k X diag mean s u = .ok gp₁) (hnew' : GP.new k' X diag mean' s' u' = .ok gp₂)
    (hR : ∀ i < X.coords.len, 0 < (GP.noiseOf X.coords.len diag).get i) {y : Arr ℝ} (hy : y.len = X.coords.len) :
    gp₁.logProbability y = gp₂.logProbability y ∧
    ∀ lp₁ lp₂ gp₁' gp₂', gp₁.condition y = .ok (lp₁, gp₁') → gp₂.condition y = .ok (lp₂, gp₂') →
      lp₁ = lp₂ ∧ gp₁'.mean.len = gp₂'.mean.len ∧ (∀ i < X.coords.len, gp₁'.mean.get i = gp₂'.mean.get i) ∧
      (∃ v₁ v₂, gp₁'.var = some v₁ ∧ gp₂'.var = some v₂ ∧ v₁.len = v₂.len ∧ ∀ i < X.coords.len, v₁.get i = v₂.get i) ∧
      ∀ ts : Arr ℝ, ∃ m₁ v₁ m₂ v₂, gp₁'.predict (some (.times ts)) = .ok (m₁, v₁) ∧ gp₂'.predict (some (.times ts)) = .ok (m₂, v₂) ∧
        m₁.len = m₂.len ∧ v₁.len = v₂.len ∧ ∀ i < ts.len, m₁.get i = m₂.get i ∧ v₁.get i = v₂.get i := by
  have hl : gp₁.logProbability y = gp₂.logProbability y := by
    rw [C61_log_probability h hnew hy hR, C61_log_probability h' hnew' hy hR, obsGram_congr hκ]
  refine ⟨hl, fun lp₁ lp₂ gp₁' gp₂' hc hc' => ?_⟩
  obtain ⟨e1, l1, v1, hv1, lv1, m1⟩ := C61_condition h hnew hR hc
  obtain ⟨e2, l2, v2, hv2, lv2, m2⟩ := C61_condition h' hnew' hR hc'
  refine ⟨?_, l1.trans l2.symm, fun i hi => ?_, ⟨v1, v2, hv1, hv2, lv1.trans lv2.symm, fun i hi => ?_⟩, fun ts => ?_⟩
  · rw [e1, e2] at hl
    exact Except.ok.inj hl
  · rw [(m1 i hi).1, (m2 i hi).1, obsGram_congr hκ, obsCross_congr hκ]
  · rw [(m1 i hi).2, (m2 i hi).2, obsGram_congr hκ, obsCross_congr hκ, exposureCov_congr hκ]
  · obtain ⟨a1, b1, p1, n1, n1', q1⟩ := C61_predict h hnew hR hc ts
    obtain ⟨a2, b2, p2, n2, n2', q2⟩ := C61_predict h' hnew' hR hc' ts
    refine ⟨a1, b1, a2, b2, p1, p2, n1.trans n2.symm, n1'.trans n2'.symm, fun i hi => ⟨?_, ?_⟩⟩
    · rw [(q1 i hi).1, (q2 i hi).1, obsGram_congr hκ, obsCross_congr hκ]
    · rw [(q1 i hi).2, (q2 i hi).2, obsGram_congr hκ, obsCross_congr hκ, hκ 0 le_rfl]

/-! ### Kernel algebra -/

/-- rewriting a kernel expression by the laws of a commutative semiring -/
inductive Kern.Rearranged : Kern → Kern → Prop
  | refl (a : Kern) : Rearranged a a
  | symm {a b : Kern} (h : Rearranged a b) : Rearranged b a
  | trans {a b c : Kern} (h : Rearranged a b) (h' : Rearranged b c) : Rearranged a c
  | sum {a a' b b' : Kern} (h : Rearranged a a') (h' : Rearranged b b') : Rearranged (.sum a b) (.sum a' b')
  | prod {a a' b b' : Kern} (h : Rearranged a a') (h' : Rearranged b b') : Rearranged (.prod a b) (.prod a' b')
  | sum_comm (a b : Kern) : Rearranged (.sum a b) (.sum b a)
  | prod_comm (a b : Kern) : Rearranged (.prod a b) (.prod b a)
  | sum_assoc (a b c : Kern) : Rearranged (.sum (.sum a b) c) (.sum a (.sum b c))
  | prod_assoc (a b c : Kern) : Rearranged (.prod (.prod a b) c) (.prod a (.prod b c))
  | distrib (a b c : Kern) : Rearranged (.prod a (.sum b c)) (.sum (.prod a b) (.prod a c))

theorem Kern.Rearranged.evaluate {k k' : Kern} (h : k.Rearranged k') (X1 X2 : Coord) : k.model.evaluate X1 X2 = k'.model.evaluate X1 X2 := by
  have es : ∀ a b : Kern, (Kern.sum a b).model.evaluate X1 X2 = a.model.evaluate X1 X2 + b.model.evaluate X1 X2 :=
    fun a b => C27_sum_evaluate _ _ _ _
  have ep : ∀ a b : Kern, (Kern.prod a b).model.evaluate X1 X2 = a.model.evaluate X1 X2 * b.model.evaluate X1 X2 :=
    fun a b => C27_prod_evaluate _ _ _ _
  induction h with
  | refl => rfl
  | symm _ ih => exact ih.symm
  | trans _ _ h h' => exact h.trans h'
  | sum _ _ h h' => rw [es, es, h, h']
  | prod _ _ h h' => rw [ep, ep, h, h']
  | sum_comm => simp only [es]; ring
  | prod_comm => simp only [ep]; ring
  | sum_assoc => simp only [es]; ring
  | prod_assoc => simp only [ep]; ring
  | distrib => simp only [es, ep]; ring

theorem Kern.Rearranged.valid {k k' : Kern} (h : k.Rearranged k') : k.Valid ↔ k'.Valid := by
  have es : ∀ a b : Kern, (Kern.sum a b).Valid ↔ a.Valid ∧ b.Valid := fun a b =>
    ⟨fun h => by cases h with | sum h h' => exact ⟨h, h'⟩, fun h => .sum h.1 h.2⟩
  have ep : ∀ a b : Kern, (Kern.prod a b).Valid ↔ a.Valid ∧ b.Valid := fun a b =>
    ⟨fun h => by cases h with | prod h h' => exact ⟨h, h'⟩, fun h => .prod h.1 h.2⟩
  induction h with
  | refl => rfl
  | symm _ ih => exact ih.symm
  | trans _ _ h h' => exact h.trans h'
  | sum _ _ h h' => exact (es _ _).trans ((and_congr h h').trans (es _ _).symm)
  | prod _ _ h h' => exact (ep _ _).trans ((and_congr h h').trans (ep _ _).symm)
  | sum_comm => rw [es, es, and_comm]
  | prod_comm => rw [ep, ep, and_comm]
  | sum_assoc => rw [es, es, es, es, and_assoc]
  | prod_assoc => rw [ep, ep, ep, ep, and_assoc]
  | distrib => rw [ep, es, es, ep, ep]; tauto

/-- **C61, kernel algebra.** Reordering, regrouping or multiplying out a kernel expression changes nothing. -/
theorem C61_rearranged {k k' : Kern} (hr : k.Rearranged k') (hv : k.Valid) {t : Arr ℝ} (ht : Sorted t) (hN : 0 < t.len)
    {s : Option SolverKind} (hs : Sequential s) {diag : Option (ℝ ⊕ Arr ℝ)} {mean : Option (Coord → ℝ)} {u : Bool} {gp₁ gp₂ : GP}
    (hnew : GP.new k (.times t) diag mean s u = .ok gp₁) (hnew' : GP.new k' (.times t) diag mean s u = .ok gp₂)
    (hR : ∀ i < t.len, 0 < (GP.noiseOf t.len diag).get i) {y : Arr ℝ} (hy : y.len = t.len) :
    gp₁.logProbability y = gp₂.logProbability y ∧
    ∀ lp₁ lp₂ gp₁' gp₂', gp₁.condition y = .ok (lp₁, gp₁') → gp₂.condition y = .ok (lp₂, gp₂') →
      (∀ i < t.len, gp₁'.mean.get i = gp₂'.mean.get i) ∧
      ∀ ts : Arr ℝ, ∃ m₁ v₁ m₂ v₂, gp₁'.predict (some (.times ts)) = .ok (m₁, v₁) ∧ gp₂'.predict (some (.times ts)) = .ok (m₂, v₂) ∧
        ∀ i < ts.len, m₁.get i = m₂.get i ∧ v₁.get i = v₂.get i := by
  obtain ⟨κ, hκ⟩ := hv.hasCov
  have hκ' : k'.model.HasCov κ := fun X1 X2 => by rw [← hr.evaluate]; exact hκ X1 X2
  obtain ⟨h1, h2⟩ := C61_only_the_covariance_matters (.sequential hv hκ hs ht hN) (.sequential (hr.valid.1 hv) hκ' hs ht hN) (fun _ _ => rfl)
    hnew hnew' hR hy
  refine ⟨h1, fun lp₁ lp₂ gp₁' gp₂' hc hc' => ?_⟩
  obtain ⟨-, -, h3, -, h4⟩ := h2 _ _ _ _ hc hc'
  refine ⟨h3, fun ts => ?_⟩
  obtain ⟨m₁, v₁, m₂, v₂, p1, p2, -, -, h5⟩ := h4 ts
  exact ⟨m₁, v₁, m₂, v₂, p1, p2, h5⟩

section examples

/-- `A * (B + C)` and `B * A + C * A`: state dimensions 6 and 6, but different matrices -/
example (t y : Arr ℝ) (ht : Sorted t) (hl : t.len = 2) (hy : y.len = 2) : ∃ gp₁ gp₂,
    GP.new (.prod (.matern52 2 1 "a") (.sum (.exp 3 1 "b") (.exp 5 2 "c"))) (.times t) (some (.inl 1)) none none false = .ok gp₁ ∧
    GP.new (.sum (.prod (.exp 3 1 "b") (.matern52 2 1 "a")) (.prod (.exp 5 2 "c") (.matern52 2 1 "a"))) (.times t) (some (.inl 1)) none none
      false = .ok gp₂ ∧ gp₁.logProbability y = gp₂.logProbability y := by
  have hv : (Kern.prod (.matern52 2 1 "a") (.sum (.exp 3 1 "b") (.exp 5 2 "c"))).Valid :=
    .prod (.matern52 two_pos one_ne_zero) (.sum (.exp (by norm_num) one_ne_zero) (.exp (by norm_num) two_ne_zero))
  have hr : (Kern.prod (.matern52 2 1 "a") (.sum (.exp 3 1 "b") (.exp 5 2 "c"))).Rearranged
      (.sum (.prod (.exp 3 1 "b") (.matern52 2 1 "a")) (.prod (.exp 5 2 "c") (.matern52 2 1 "a"))) :=
    (Kern.Rearranged.distrib _ _ _).trans (.sum (.prod_comm _ _) (.prod_comm _ _))
  obtain ⟨gp₁, h₁⟩ := (C01_constructor hv (.inl rfl) t (some (.inl 1)) none).1
  obtain ⟨gp₂, h₂⟩ := (C01_constructor (hr.valid.1 hv) (.inl rfl) t (some (.inl 1)) none).1
  exact ⟨gp₁, gp₂, h₁, h₂, (C61_rearranged hr hv ht (by omega) (.inl rfl) h₁ h₂ (fun _ _ => one_pos) (by omega)).1⟩

end examples

end Verif
