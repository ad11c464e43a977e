import Verif.Props.C39_Components

/-!
# C01-C05 at the level of the user interface

`GaussianProcess(kernel, X, diag=...)`, `log_probability(y)`, `condition(y)` and `predict(X_test)` of a conditioned GP, including the
calls that raise.
-/

namespace Verif
open Matrix Kern

theorem Kern.Valid.component {k a : Kern} (h : k.Valid) (ha : a ∈ k.extractLeafKernels) : a.Valid := by
  induction h with
  | sum _ _ h1 h2 => rcases List.mem_append.1 ha with ha | ha; exacts [h1 ha, h2 ha]
  | prod hx hy => cases List.mem_singleton.1 ha; exact .prod hx hy
  | exp hs hσ => cases List.mem_singleton.1 ha; exact .exp hs hσ
  | matern32 hs hσ => cases List.mem_singleton.1 ha; exact .matern32 hs hσ
  | matern52 hs hσ => cases List.mem_singleton.1 ha; exact .matern52 hs hσ
  | cosine hs hσ => cases List.mem_singleton.1 ha; exact .cosine hs hσ
  | expSineSquared hp hg hσ => cases List.mem_singleton.1 ha; exact .expSineSquared hp hg hσ
  | sho hw hq hd hσ => cases List.mem_singleton.1 ha; exact .sho hw hq hd hσ

theorem Kern.Valid.instantaneous {k : Kern} (h : k.Valid) : GP.needsIntegrated k = false := by
  unfold GP.needsIntegrated
  rw [List.any_eq_false]
  intro a ha
  cases h.component ha <;> simp [Kern.isIntegrated]

theorem Kern.Valid.transitionError {k : Kern} (h : k.Valid) : k.transitionError false = none := by
  induction h with
  | sum _ _ h1 h2 => simp only [Kern.transitionError, h1, h2]; rfl
  | prod _ _ h1 h2 => simp only [Kern.transitionError, h1, h2]; rfl
  | _ => rfl

/-- the sequential solver: the default for these kernels -/
def Sequential (solver : Option SolverKind) : Prop := solver = none ∨ solver = some .stateSpace

variable {kernel : Kern} {t : Arr ℝ} {diag : Option (ℝ ⊕ Arr ℝ)} {mean : Option (Coord → ℝ)} {u : Bool}
  {solver : Option SolverKind} {gp gp' : GP} {y : Arr ℝ} {lp : EReal}

theorem sequential_kind (hv : kernel.Valid) (hsol : Sequential solver) : solver.getD (GP.chooseSolver kernel) = .stateSpace := by
  rcases hsol with rfl | rfl
  · show GP.chooseSolver kernel = _
    unfold GP.chooseSolver
    rw [hv.instantaneous]; rfl
  · rfl

/-- **C01, C38.** Constructing the GP only fails because of names. -/
theorem C01_constructor (hv : kernel.Valid) (hsol : Sequential solver) (t : Arr ℝ) (diag : Option (ℝ ⊕ Arr ℝ)) (mean : Option (Coord → ℝ)) :
    (∃ gp, GP.new kernel (.times t) diag mean solver false = .ok gp) ∧
    ((∃ gp, GP.new kernel (.times t) diag mean solver true = .ok gp) ↔ ∃ k, kernel.assignUniqueNames = .ok k) := by
  have hX : GP.needsIntegrated kernel = true → (XArg.times t).isTuple = true := by rw [hv.instantaneous]; intro h; cases h
  have hc : (solver.getD (GP.chooseSolver kernel)).construct (.times t) = .ok () := by rw [sequential_kind hv hsol]; rfl
  refine ⟨GP.new_eq diag mean (k := kernel) rfl hX hc, ?_, ?_⟩
  · rintro ⟨gp, h⟩
    exact ⟨_, (GP.new_ok h).1⟩
  · rintro ⟨k, h⟩
    exact GP.new_eq diag mean (k := k) h hX hc

theorem gp_run (hv : kernel.Valid) (hsol : Sequential solver) (hnew : GP.new kernel (.times t) diag mean solver u = .ok gp) :
    gp.runError = none := by
  obtain ⟨-, hs, -, -, -, -, -, hs', -⟩ := GP.new_ok hnew
  unfold GP.runError
  rw [hs', sequential_kind hv hsol, hs.transitionError]
  exact hv.transitionError

theorem logProb_of_same {k k' : Kern} (h : k.SameButNames k') (kind : SolverKind) (X : Arr Coord) (y R : Arr ℝ) :
    k.model.logProb kind X y R = k'.model.logProb kind X y R := by
  rw [← SSM.strip_logProb, h.strip, SSM.strip_logProb]

/-- **C01 (interface).** `GaussianProcess(kernel, t, diag=diag).log_probability(y)` is the Gaussian log density. -/
theorem C01_log_probability (hv : kernel.Valid) (hsol : Sequential solver) (hnew : GP.new kernel (.times t) diag mean solver u = .ok gp)
    (ht : Sorted t) (hR : ∀ i < t.len, 0 < (GP.noiseOf t.len diag).get i) (y : Arr ℝ) :
    gp.logProbability y = .ok
      ((Spec.gaussLogDensity (dataGram kernel.model (t.map .time) (GP.noiseOf t.len diag)) (fun i => y.get i) : ℝ) : EReal) := by
  have hrun := gp_run hv hsol hnew
  obtain ⟨-, hs, -, -, -, -, -, hs', -⟩ := GP.new_ok hnew
  unfold GP.logProbability
  rw [hrun]
  simp only
  rw [logProb_of_same hs, hs', sequential_kind hv hsol]
  exact congrArg _ (C01_likelihood_exact_builtin kernel.model hv.builtIn (t.map .time) y (GP.noiseOf t.len diag) ht hR)

/-- **C02, C57.** `condition(y)` succeeds unless there is exactly one data point (or the component names, having been left alone by
`use_unique_names=False`, cannot be made unique). -/
theorem C02_condition_succeeds (hv : kernel.Valid) (hsol : Sequential solver)
    (hnew : GP.new kernel (.times t) diag mean solver u = .ok gp) (y : Arr ℝ) :
    (∃ r, gp.condition y = .ok r) ↔ t.len ≠ 1 ∧ ∃ k, gp.kernel.assignUniqueNames = .ok k := by
  have hrun := gp_run hv hsol hnew
  obtain ⟨-, hs, hX, -, -, -, -, hs', -⟩ := GP.new_ok hnew
  constructor
  · rintro ⟨⟨lp, gp'⟩, h⟩
    obtain ⟨-, -, hk, -, -, -, -, -, -, -, -, hl, -⟩ := GP.condition_ok h
    rw [hX] at hl
    exact ⟨hl, _, hk⟩
  · rintro ⟨hl, k, hk⟩
    refine GP.condition_eq hrun hk (fun h => ?_) (by rw [hX]; exact hl) (by rw [hs.obsError]; exact hv.obsError _)
    rw [hs.needsIntegrated, hv.instantaneous] at h
    cases h

/-- **C01-C03 (interface).** The result of `condition(y)`: the log likelihood, and a GP whose mean and variance are the exact posterior ones
at the data. -/
theorem C02_C03_condition (hv : kernel.Valid) (hsol : Sequential solver)
    (hnew : GP.new kernel (.times t) diag mean solver u = .ok gp) (ht : Sorted t)
    (hR : ∀ i < t.len, 0 < (GP.noiseOf t.len diag).get i) (hcond : gp.condition y = .ok (lp, gp')) :
    lp = ((Spec.gaussLogDensity (dataGram kernel.model (t.map .time) (GP.noiseOf t.len diag)) (fun i => y.get i) : ℝ) : EReal) ∧
    gp'.mean.len = t.len ∧ ∃ var, gp'.var = some var ∧ var.len = t.len ∧ ∀ i < t.len,
      gp'.mean.get i = Spec.postMean (dataGram kernel.model (t.map .time) (GP.noiseOf t.len diag)) (fun j => y.get j)
        (fun j => kernel.model.evaluate (.time (t.get i)) (.time (t.get j))) ∧
      var.get i = Spec.postVar (dataGram kernel.model (t.map .time) (GP.noiseOf t.len diag))
        (kernel.model.evaluate (.time (t.get i)) (.time (t.get i)))
        (fun j => kernel.model.evaluate (.time (t.get i)) (.time (t.get j))) := by
  obtain ⟨-, hs, hX, -, -, -, -, hs', -⟩ := GP.new_ok hnew
  obtain ⟨-, hlp, -, -, -, -, hm, hvar, -⟩ := GP.condition_ok hcond
  have hkind := sequential_kind hv hsol
  refine ⟨?_, ?_, _, hvar, ?_, fun i hi => ?_⟩
  · rw [hlp, logProb_of_same hs, hs', hkind]
    exact C01_likelihood_exact_builtin kernel.model hv.builtIn (t.map .time) y (GP.noiseOf t.len diag) ht hR
  · rw [hm]; show gp.X.coords.len = _; rw [hX]; rfl
  · show gp.X.coords.len = _; rw [hX]; rfl
  · have e : gp.atData y = kernel.model.conditionedAtData (t.map .time) y (GP.noiseOf t.len diag) := by
      unfold GP.atData GP.projectAtData
      rw [← SSM.strip_projectData, hs.strip, SSM.strip_projectData, hX, hs', hkind]
      rfl
    rw [hm, e]
    have hr := hv.builtIn.regular
    exact ⟨C02_conditioned_mean_exact kernel.model hr (t.map .time) y _ ht hR i hi,
      C03_conditioned_variance_exact kernel.model hr (t.map .time) y _ ht hR i hi⟩

/-- **C04 (interface).** `condition(y).gp.predict(X_test, return_var=True)` succeeds and is the exact posterior at every test coordinate,
whatever the format of `X_test`. -/
theorem C04_predict (hv : kernel.Valid) (hsol : Sequential solver)
    (hnew : GP.new kernel (.times t) diag mean solver u = .ok gp) (ht : Sorted t) (hN : 0 < t.len)
    (hR : ∀ i < t.len, 0 < (GP.noiseOf t.len diag).get i) (hcond : gp.condition y = .ok (lp, gp')) (Xtest : XArg) :
    ∃ mu var, gp'.predict (some Xtest) = .ok (mu, var) ∧ mu.len = Xtest.coords.len ∧ var.len = Xtest.coords.len ∧ ∀ i,
      mu.get i = Spec.postMean (dataGram kernel.model (t.map .time) (GP.noiseOf t.len diag)) (fun j => y.get j)
        (fun j => kernel.model.evaluate (Xtest.coords.get i) (.time (t.get j))) ∧
      var.get i = Spec.postVar (dataGram kernel.model (t.map .time) (GP.noiseOf t.len diag))
        (kernel.model.evaluate (Xtest.coords.get i) (Xtest.coords.get i))
        (fun j => kernel.model.evaluate (Xtest.coords.get i) (.time (t.get j))) := by
  obtain ⟨-, hs0, -, -, -, -, -, hs', -⟩ := GP.new_ok hnew
  obtain ⟨hrun, -, -, hs, -, -, -, -, -, hsol', hst, -⟩ := GP.condition_ok hcond
  have hkind := sequential_kind hv hsol
  have hrun' : gp'.runError = none := by
    rw [← hrun]
    unfold GP.runError
    rw [hsol', hs.transitionError]
  rw [hs', hkind] at hsol'
  have hkind' : ¬ (gp'.solver.kind = .parallel ∧ (gp'.solver.X.isTuple = true ∨ Xtest.isTuple = true)) := by
    rw [hsol']; rintro ⟨h, -⟩; cases h
  unfold GP.predict
  simp only [hst, GP.predictConditioned, hrun', if_neg hkind', (hs.trans hs0).obsError, hv.obsError]
  refine ⟨_, _, rfl, rfl, rfl, fun i => ?_⟩
  have e : gp'.kernel.model.projectTest (gp'.kernel.model.states gp'.solver.kind gp'.solver.X.coords y gp'.solver.noise)
      (fun x => gp'.kernel.model.obsModel x none) Xtest.coords =
      kernel.model.predictAt (t.map .time) y (GP.noiseOf t.len diag) Xtest.coords := by
    rw [← SSM.strip_projectTest, (hs.trans hs0).strip, SSM.strip_projectTest, hsol']
    rfl
  rw [e]
  have h := C04_prediction_exact kernel.model hv.builtIn.regular (t.map .time) y (GP.noiseOf t.len diag) Xtest.coords ht hN hR i
  exact ⟨congrArg Prod.fst h, congrArg Prod.snd h⟩

/-- **C57, the part that fails**: with a single data point `condition(y)` raises. -/
theorem C57_single_point (hv : kernel.Valid) (hsol : Sequential solver) (hl : t.len = 1)
    (hnew : GP.new kernel (.times t) diag mean solver u = .ok gp) (y : Arr ℝ) : ¬ ∃ r, gp.condition y = .ok r :=
  fun h => ((C02_condition_succeeds hv hsol hnew y).1 h).1 hl

section examples

/-- the two measurements with unit noise: the GP, its conditioning, and the posterior mean, for every valid kernel with distinct names -/
theorem two_condition {k : Kern} (hv : k.Valid) (hn : k.componentNames.Nodup) {a : ℝ} (ha : k.model.evaluate (.time 0) (.time 0) = a)
    (hpos : 0 ≤ a) : ∃ gp lp gp', GP.new k (.times twoT) (some (.inl 1)) none (some .stateSpace) = .ok gp ∧
      gp.condition twoY = .ok (lp, gp') ∧ gp'.kernel = k ∧ gp'.mean.get 0 = 2 * a / (2 * a + 1) := by
  have hk : k.assignUniqueNames = .ok k := by unfold Kern.assignUniqueNames; rw [if_pos hn]
  obtain ⟨gp, h⟩ := ((C01_constructor hv (.inr rfl) twoT (some (.inl 1)) none).2).2 ⟨_, hk⟩
  have hk' : gp.kernel = k := by
    have := (GP.new_ok h).1
    rw [if_pos rfl, hk] at this
    exact (Except.ok.inj this).symm
  obtain ⟨⟨lp, gp'⟩, h'⟩ := (C02_condition_succeeds hv (.inr rfl) h twoY).2 ⟨by show (2 : ℕ) ≠ 1; decide, _, by rw [hk']; exact hk⟩
  have hk2 : gp'.kernel = k := by
    have := (GP.condition_ok h').2.2.1
    rw [hk', hk] at this
    exact (Except.ok.inj this).symm
  refine ⟨gp, lp, gp', h, h', hk2, ?_⟩
  obtain ⟨-, -, var, -, -, hm⟩ := C02_C03_condition hv (.inr rfl) h twoT_sorted (fun i _ => one_pos) h'
  rw [(hm 0 (by show 0 < 2; decide)).1]
  refine (congrArg (Spec.postMean _ _) (funext fun j => ha)).trans ?_
  exact two_postMean ha hpos a

theorem prodPlus_names : prodPlus.componentNames.Nodup := by decide

/-- the hypotheses can be met: a sum of a product and a kernel, repeated times, scalar noise -/
example : ∃ gp lp gp', GP.new prodPlus (.times twoT) (some (.inl 1)) none (some .stateSpace) = .ok gp ∧ gp.condition twoY = .ok (lp, gp') ∧
    gp'.mean.get 0 = 4 / 5 := by
  obtain ⟨gp, lp, gp', h, h', -, hm⟩ := two_condition prodPlus_valid prodPlus_names prodPlus_value (by norm_num)
  exact ⟨gp, lp, gp', h, h', hm.trans (by norm_num)⟩

theorem two_noise : ∀ i < twoT.len, 0 < (GP.noiseOf twoT.len (some (.inl 1))).get i := fun _ _ => one_pos

/-- **C39, the part that fails**: for `A * B + C` the component means do not add up; the product's own mean is reported as zero. -/
theorem C39_product_lost : ∃ gp lp gp' d, GP.new prodPlus (.times twoT) (some (.inl 1)) none (some .stateSpace) = .ok gp ∧
    gp.condition twoY = .ok (lp, gp') ∧ gp'.getAllComponentMeans = .ok d ∧ d.map Prod.fst = ["Product(A, B)", "C"] ∧
    gp'.mean.get 0 = 4 / 5 ∧ d.map (fun e => (e.2.get 0).1) = [0, 2 / 5] := by
  obtain ⟨gp, lp, gp', h, h', hk, hm⟩ := two_condition prodPlus_valid prodPlus_names prodPlus_value (by norm_num)
  have hst : gp'.states = some twoY := (GP.condition_ok h').2.2.2.2.2.2.2.2.2.2.1
  obtain ⟨r1, e1, hr1⟩ := C40_unknown_name gp gp' twoY lp h' "Product(A, B)" (by
    rw [hk]; intro a ha
    simp only [prodPlus, Kern.extractLeafKernels, if_true, List.cons_append, List.nil_append, List.mem_cons, List.not_mem_nil, or_false] at ha
    rcases ha with rfl | rfl | rfl <;> decide)
  obtain ⟨r2, e2, -, hr2⟩ := C40_component_partial prodPlus prodPlus_valid twoT twoT_sorted (some (.inl 1)) none true gp gp' twoY lp
    two_noise h h' ["C"] (List.cons_ne_nil _ _) (List.nodup_singleton _) (by
      intro c hc
      rw [List.mem_singleton] at hc
      subst hc
      rw [hk]; intro p hp hprod
      have hp' : p ∈ [Kern.prod (.matern32 1 1 "A") (.matern32 1 1 "B"), .matern32 1 1 "C"] := hp
      rw [List.mem_cons, List.mem_singleton] at hp'
      rcases hp' with rfl | rfl
      · refine ⟨by decide, fun a ha => ?_⟩
        simp only [Kern.extractLeafKernels, if_true, List.cons_append, List.nil_append, List.mem_cons, List.not_mem_nil, or_false] at ha
        rcases ha with rfl | rfl <;> decide
      · exact absurd hprod id)
  have hd : gp'.getAllComponentMeans = .ok [("Product(A, B)", r1), ("C", r2)] := by
    unfold GP.getComponentMean at e1 e2
    simp only [hst, if_neg (List.cons_ne_nil _ _), GP.condition_obs' h'] at e1 e2
    unfold GP.getAllComponentMeans
    simp only [hst, GP.condition_obs' h']
    rw [show gp'.kernel.componentNames.dedup = ["Product(A, B)", "C"] by rw [hk]; rfl]
    simp only [List.map_cons, List.map_nil]
    rw [Except.ok.inj e1, Except.ok.inj e2]
  refine ⟨gp, lp, gp', _, h, h', hd, rfl, hm.trans (by norm_num), ?_⟩
  simp only [List.map_cons, List.map_nil]
  have h2 := congrArg Prod.fst (hr2 0 (by show 0 < 2; decide))
  rw [hr1 0, h2]
  have e3 : ∀ j : Fin twoT.len, gp'.kernel.partValue ["C"] (.time (twoT.get 0)) (.time (twoT.get j)) = 1 := by
    intro j
    rw [hk]
    show ((prodPlus.extractLeafKernels.filter fun a => a.name ∈ ["C"]).map fun a => a.model.evaluate (.time 0) (.time 0)).sum = 1
    rw [show (prodPlus.extractLeafKernels.filter fun a => a.name ∈ ["C"]) = [.matern32 1 1 "C"] from rfl]
    simp only [List.map_cons, List.map_nil, List.sum_cons, List.sum_nil, add_zero]
    exact matern32_one "C"
  refine congrArg (fun x => [0, x]) ?_
  refine (congrArg (Spec.postMean _ _) (funext fun j => e3 j)).trans ?_
  exact (two_postMean prodPlus_value (by norm_num) 1).trans (by norm_num)

/-- `Matern32("A") + Matern32("A") * Matern32("A")` -/
noncomputable def selfProd : Kern := .sum (.matern32 1 1 "A") (.prod (.matern32 1 1 "A") (.matern32 1 1 "A"))

theorem selfProd_valid : selfProd.Valid :=
  .sum (.matern32 one_pos one_ne_zero) (.prod (.matern32 one_pos one_ne_zero) (.matern32 one_pos one_ne_zero))

theorem selfProd_value : selfProd.model.evaluate (.time 0) (.time 0) = 2 := by
  show ((matern32 1 1 "A").sum ((matern32 1 1 "A").prod (matern32 1 1 "A"))).evaluate _ _ = 2
  rw [C27_sum_evaluate, C27_prod_evaluate, matern32_one]
  norm_num

/-- **C40, the part that fails**: in `A + A * A` the component names `A` and `Product(A, A)` are distinct, yet requesting `A` also selects
the product: the mean is 4/5 instead of the posterior mean 2/5 of the component `A`. -/
theorem C40_factor_leaks : ∃ gp lp gp' r, GP.new selfProd (.times twoT) (some (.inl 1)) none (some .stateSpace) = .ok gp ∧
    gp.condition twoY = .ok (lp, gp') ∧ gp'.kernel.componentNames = ["A", "Product(A, A)"] ∧ gp'.getComponentMean ["A"] = .ok r ∧
    (r.get 0).1 = 4 / 5 ∧
    Spec.postMean (dataGram selfProd.model (twoT.map .time) (GP.noiseOf 2 (some (.inl 1)))) (fun j => twoY.get j)
      (fun j => (matern32 1 1 "A").evaluate (.time 0) (.time (twoT.get j))) = 2 / 5 := by
  obtain ⟨gp, lp, gp', h, h', hk, hm⟩ := two_condition selfProd_valid (by decide) selfProd_value (by norm_num)
  obtain ⟨-, -, -, -, hX, -, hmean, -, -, hsol, hst, -⟩ := GP.condition_ok h'
  refine ⟨gp, lp, gp', gp'.atData twoY, h, h', by rw [hk]; rfl, ?_, ?_, ?_⟩
  · unfold GP.getComponentMean
    simp only [hst, if_neg (List.cons_ne_nil _ _), GP.condition_obs' h']
    unfold GP.atData
    congr 2
    rw [hk]
    funext x
    have e1 : (matern32 1 1 "A").obsModel x (some "A") = (matern32 1 1 "A").obsModel x none := by
      show keepFactor "A" (some "A") • _ = keepFactor "A" none • _
      rw [show keepFactor "A" (some "A") = keepFactor "A" none by simp [keepFactor]]
    show hstack ((matern32 1 1 "A").obsModel x (some "A"))
        (kronRow ((matern32 1 1 "A").obsModel x (some "A")) ((matern32 1 1 "A").obsModel x (some "A"))) = _
    rw [e1]
    rfl
  · rw [atData_of_condition h']
    rw [hmean] at hm
    exact hm.trans (by norm_num)
  · refine (congrArg (Spec.postMean _ _) (funext fun j => matern32_one "A")).trans ?_
    exact (two_postMean selfProd_value (by norm_num) 1).trans (by norm_num)

end examples

end Verif
