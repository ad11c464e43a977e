import Verif.Props.C01_EndToEnd

/-!
# C30, C42, C43, C44, C45, C52, C54: the calls of the user interface
-/

namespace Verif
open Matrix Kern

/-! ### C42: the state machine -/

/-- **C42.** Before conditioning, `predict` without data fails, whatever is asked for. -/
theorem C42_predict_needs_data (gp : GP) (h : gp.states = none) (Xtest : Option XArg) (c : Option String) :
    gp.predict Xtest none c = .error .assertionError := by
  unfold GP.predict; rw [h]

/-- **C42.** Before conditioning, component queries fail. -/
theorem C42_components_need_data (gp : GP) (h : gp.states = none) (names : List String) :
    gp.getComponentMean names = .error .valueError ∧ gp.getAllComponentMeans = .error .valueError := by
  unfold GP.getComponentMean GP.getAllComponentMeans; rw [h]; exact ⟨rfl, rfl⟩

/-- **C42.** A new GP is not conditioned; the GP returned by `condition(y)` is. -/
theorem C42_states (kernel : Kern) (X : XArg) (diag : Option (ℝ ⊕ Arr ℝ)) (mean : Option (Coord → ℝ)) (solver : Option SolverKind) (u : Bool)
    (gp gp' : GP) (y : Arr ℝ) (lp : EReal) (hnew : GP.new kernel X diag mean solver u = .ok gp) (hcond : gp.condition y = .ok (lp, gp')) :
    gp.states = none ∧ gp'.states = some y :=
  ⟨(GP.new_ok hnew).2.2.2.2.2.2.2.2.1, (GP.condition_ok hcond).2.2.2.2.2.2.2.2.2.2.1⟩

/-- **C42.** `predict(X_test, y)` on a GP that is not conditioned is `condition(y)` followed by `predict(X_test)`, also if one of them
raises. -/
theorem C42_predict_is_condition_predict (gp : GP) (h : gp.states = none) (y : Arr ℝ) (Xtest : Option XArg) (c : Option String) :
    gp.predict Xtest (some y) c =
      match gp.condition y with
      | .error e => .error e
      | .ok (_, gp') => gp'.predict Xtest none c := by
  unfold GP.predict
  rw [h]
  simp only [bind, Except.bind]
  cases hc : gp.condition y with
  | error e => rfl
  | ok r =>
    obtain ⟨lp, gp'⟩ := r
    have := (GP.condition_ok hc).2.2.2.2.2.2.2.2.2.2.1
    simp only [this]

/-- **C42.** A conditioned GP ignores the data passed to `predict`. -/
theorem C42_conditioned_ignores_data (gp : GP) (y0 : Arr ℝ) (h : gp.states = some y0) (y : Option (Arr ℝ)) (Xtest : Option XArg)
    (c : Option String) : gp.predict Xtest y c = gp.predict Xtest none c := by
  unfold GP.predict; rw [h]

/-- **C42.** Conditioning again starts from the prior: the result does not depend on the first data set. -/
theorem C42_recondition (gp gp1 gp2 gp3 : GP) (y1 y2 : Arr ℝ) (lp1 lp2 lp3 : EReal) (h1 : gp.condition y1 = .ok (lp1, gp1))
    (h2 : gp1.condition y2 = .ok (lp2, gp2)) (h3 : gp.condition y2 = .ok (lp3, gp3)) :
    lp2 = lp3 ∧ gp2.mean = gp3.mean ∧ gp2.var = gp3.var := by
  obtain ⟨-, -, -, hs1, hX1, -, -, -, -, hsol1, -⟩ := GP.condition_ok h1
  obtain ⟨-, hlp2, -, -, -, -, hm2, hv2, -⟩ := GP.condition_ok h2
  obtain ⟨-, hlp3, -, -, -, -, hm3, hv3, -⟩ := GP.condition_ok h3
  have e : gp1.atData y2 = gp.atData y2 := by
    unfold GP.atData GP.projectAtData
    rw [← SSM.strip_projectData, hs1.strip, hX1, hsol1, SSM.strip_projectData]
  refine ⟨?_, ?_, ?_⟩
  · rw [hlp2, hlp3, hsol1, logProb_of_same hs1]
  · rw [hm2, hm3, e]
  · rw [hv2, hv3, e]

/-! ### C43: test coordinates in `condition` -/

/-- **C43, refuted**: `condition(y, X_test)` raises for every GP, data and test coordinates. -/
theorem C43_condition_with_test_coordinates_raises (gp : GP) (y : Arr ℝ) (Xtest : XArg) : ∃ e, gp.condition y (some Xtest) = .error e := by
  unfold GP.condition
  simp only [bind, Except.bind]
  by_cases ht : (!gp.X.sameTree Xtest) = true
  · rw [if_pos ht]; exact ⟨_, rfl⟩
  · rw [if_neg ht]
    cases hs : gp.solverCondition y true with
    | error e => exact ⟨_, rfl⟩
    | ok c =>
      simp only
      unfold GP.unpackStateCoords
      split_ifs
      · simp only [GP.newConditioned, bind, Except.bind]
        cases gp.kernel.assignUniqueNames with
        | error e => exact ⟨_, rfl⟩
        | ok k =>
          simp only
          split_ifs
          · exact ⟨_, rfl⟩
          · exact ⟨_, rfl⟩
      · exact ⟨_, rfl⟩
      · exact ⟨_, rfl⟩

/-! ### C44: the mean function -/

/-- **C44, refuted in general**: the mean function has no effect on the likelihood, the conditioned mean and variance, or the predictions. -/
theorem C44_mean_has_no_effect (kernel : Kern) (X : XArg) (diag : Option (ℝ ⊕ Arr ℝ)) (mean : Option (Coord → ℝ)) (solver : Option SolverKind)
    (u : Bool) (gp : GP) (hnew : GP.new kernel X diag mean solver u = .ok gp) : ∃ gp0, GP.new kernel X diag none solver u = .ok gp0 ∧
      ∀ y, gp.logProbability y = gp0.logProbability y ∧ gp.condition y = gp0.condition y ∧
        ∀ Xtest c, gp.predict Xtest (some y) c = gp0.predict Xtest (some y) c := by
  obtain ⟨hk, hs, hX, hmf, hm, hvar, hn, hsol, hst, hi, hc⟩ := GP.new_ok hnew
  obtain ⟨gp0, h0⟩ := GP.new_eq (u := u) diag none hk hi hc
  obtain ⟨hk', hs', hX', hmf', hm', hvar', hn', hsol', hst', -, -⟩ := GP.new_ok h0
  have ek : gp.kernel = gp0.kernel := by rw [hk] at hk'; exact Except.ok.inj hk'
  refine ⟨gp0, h0, fun y => ?_⟩
  obtain ⟨kernel', X', mf', m', var', n', sol', st'⟩ := gp
  obtain ⟨kernel0, X0, mf0, m0, var0, n0, sol0, st0⟩ := gp0
  simp only at hk hs hX hmf hm hvar hn hsol hst hk' hs' hX' hmf' hm' hvar' hn' hsol' hst' ek
  subst ek hX hvar hn hsol hst hX' hvar' hn' hsol' hst'
  exact ⟨rfl, rfl, fun _ _ => rfl⟩

/-- equal densities with the same covariance mean equal quadratic forms -/
theorem density_eq {n : ℕ} {K : Matrix (Fin n) (Fin n) ℝ} {y z : Fin n → ℝ} (h : Spec.gaussLogDensity K y = Spec.gaussLogDensity K z) :
    y ⬝ᵥ K⁻¹ *ᵥ y = z ⬝ᵥ K⁻¹ *ᵥ z := by
  unfold Spec.gaussLogDensity at h
  linarith

/-- **C44, refuted**: with the constant mean 1 and the data 1, 1 the likelihood is that of the data, not that of the residuals 0, 0. -/
theorem C44_mean_ignored : ∃ gp, GP.new (.matern32 1 1 "M") (.times twoT) (some (.inl 1)) (some fun _ => 1) = .ok gp ∧
    gp.logProbability twoY ≠ .ok ((Spec.gaussLogDensity (dataGram (matern32 1 1 "M") (twoT.map .time) (GP.noiseOf 2 (some (.inl 1))))
      (fun i => twoY.get i - 1) : ℝ) : EReal) := by
  have hv : (Kern.matern32 1 1 "M").Valid := .matern32 one_pos one_ne_zero
  obtain ⟨gp, h⟩ := ((C01_constructor hv (.inl rfl) twoT (some (.inl 1)) (some fun _ => 1)).2).2 ⟨_, rfl⟩
  refine ⟨gp, h, ?_⟩
  rw [C01_log_probability hv (.inl rfl) h twoT_sorted two_noise twoY]
  intro he
  have he2 := EReal.coe_eq_coe_iff.1 (Except.ok.inj he)
  have h0 : (fun i : Fin (twoT.map Coord.time).len => twoY.get i - 1) = 0 := by funext i; show (1 : ℝ) - 1 = 0; norm_num
  rw [h0] at he2
  have hq := density_eq he2
  rw [mulVec_zero, dotProduct_zero] at hq
  have := two_postMean (matern32_one "M") zero_le_one 1
  unfold Spec.postMean at this
  exact absurd (this.symm.trans hq) (by norm_num)

/-! ### C45: solver choice and coordinate formats -/

/-- is some component an integrated kernel? -/
def HasIntegrated (k : Kern) : Prop := ∃ c ∈ k.extractLeafKernels, c.isIntegrated = true

theorem needsIntegrated_iff (k : Kern) : GP.needsIntegrated k = true ↔ HasIntegrated k := List.any_eq_true

/-- **C45.** Without an explicit solver: the integrated solver exactly if some component is integrated. -/
theorem C45_default_solver (kernel : Kern) (X : XArg) (diag : Option (ℝ ⊕ Arr ℝ)) (mean : Option (Coord → ℝ)) (u : Bool) (gp : GP)
    (hnew : GP.new kernel X diag mean none u = .ok gp) :
    (HasIntegrated kernel → gp.solver.kind = .integrated) ∧ (¬ HasIntegrated kernel → gp.solver.kind = .stateSpace) := by
  obtain ⟨-, -, -, -, -, -, -, hsol, -⟩ := GP.new_ok hnew
  rw [hsol]
  show (HasIntegrated kernel → GP.chooseSolver kernel = _) ∧ (¬ HasIntegrated kernel → GP.chooseSolver kernel = _)
  unfold GP.chooseSolver
  rw [← needsIntegrated_iff]
  refine ⟨fun h => if_pos h, fun h => if_neg h⟩

/-- **C45.** With an integrated component, bare times are rejected with an `AssertionError`, whatever the solver. -/
theorem C45_times_rejected (kernel : Kern) (t : Arr ℝ) (diag : Option (ℝ ⊕ Arr ℝ)) (mean : Option (Coord → ℝ)) (solver : Option SolverKind)
    (h : HasIntegrated kernel) : GP.new kernel (.times t) diag mean solver false = .error .assertionError := by
  have := (needsIntegrated_iff kernel).2 h
  simp only [GP.new, bind, Except.bind, Bool.false_eq_true, if_false, this, XArg.isTuple]
  rfl

/-- **C45, the part that fails**: the documented format `X = (t, texp)` is rejected by the integrated solver with a `ValueError`. -/
theorem C45_pair_rejected (kernel : Kern) (t d : Arr ℝ) (diag : Option (ℝ ⊕ Arr ℝ)) (mean : Option (Coord → ℝ))
    (h : HasIntegrated kernel) : GP.new kernel (.pair t d) diag mean none false = .error .valueError := by
  have hn := (needsIntegrated_iff kernel).2 h
  simp only [GP.new, bind, Except.bind, Bool.false_eq_true, if_false, hn, XArg.isTuple, Option.getD_none, GP.chooseSolver, SolverKind.construct]
  rfl

/-- **C45, partial**: `X = (t, texp, instid)` is accepted with integrated components, bare times and tuples without them. Missing:
`X = (t, texp)`, which is rejected. -/
theorem C45_formats_partial (kernel : Kern) (X : XArg) (diag : Option (ℝ ⊕ Arr ℝ)) (mean : Option (Coord → ℝ))
    (h : HasIntegrated kernel → ∃ t d i, X = .triple t d i) : ∃ gp, GP.new kernel X diag mean none false = .ok gp := by
  by_cases hi : HasIntegrated kernel
  · obtain ⟨t, d, i, rfl⟩ := h hi
    exact GP.new_eq diag mean (k := kernel) rfl (fun _ => rfl) (by
      show (GP.chooseSolver kernel).construct _ = _
      unfold GP.chooseSolver
      rw [(needsIntegrated_iff kernel).2 hi]; rfl)
  · have hn : ¬ GP.needsIntegrated kernel = true := fun h => hi ((needsIntegrated_iff kernel).1 h)
    refine GP.new_eq diag mean (k := kernel) rfl (fun h => absurd h hn) ?_
    show (GP.chooseSolver kernel).construct _ = _
    unfold GP.chooseSolver
    rw [if_neg hn]; rfl

/-- **C45, the part that fails**: integrated kernels inside a product are not noticed; the instantaneous solver is chosen and bare times
are accepted. -/
theorem C45_product_unnoticed (a b : Kern) (t : Arr ℝ) :
    ∃ gp, GP.new (.prod a b) (.times t) = .ok gp ∧ gp.solver.kind = .stateSpace := by
  have hn : GP.needsIntegrated (.prod a b) = false := rfl
  have hnames : (if true = true then (Kern.prod a b).assignUniqueNames else .ok (.prod a b)) = .ok (Kern.prod a b) :=
    (if_pos rfl).trans (if_pos (List.nodup_singleton _))
  obtain ⟨gp, h⟩ := GP.new_eq (u := true) (solver := none) (X := .times t) none none (kernel := .prod a b) hnames (fun h => by rw [hn] at h; cases h) rfl
  refine ⟨gp, h, ?_⟩
  rw [(GP.new_ok h).2.2.2.2.2.2.2.1]
  rfl

example : HasIntegrated (.sum (.exp 1 1 "A") (.integratedExp 1 1 0 "B")) := ⟨.integratedExp 1 1 0 "B", by simp [extractLeafKernels], rfl⟩

/-! ### C30: which kernels can be filtered -/

/-- the kernel is built from a kernel satisfying `p`, at any depth -/
inductive Uses (p : Kern → Prop) : Kern → Prop
  | here {k : Kern} (h : p k) : Uses p k
  | inScale {s : String} {k : Kern} {c : ℝ} (h : Uses p k) : Uses p (.scale s k c)
  | inSumLeft {a b : Kern} (h : Uses p a) : Uses p (.sum a b)
  | inSumRight {a b : Kern} (h : Uses p b) : Uses p (.sum a b)
  | inProdLeft {a b : Kern} (h : Uses p a) : Uses p (.prod a b)
  | inProdRight {a b : Kern} (h : Uses p b) : Uses p (.prod a b)

def IsConstant (k : Kern) : Prop := ∃ sigma s, k = .constant sigma s
def IsExp (k : Kern) : Prop := (∃ l sigma s, k = .exp l sigma s) ∨ ∃ l sigma m s, k = .integratedExp l sigma m s

theorem transitionError_iff (p : Bool) (k : Kern) : k.transitionError p = none ↔ ¬ Uses IsConstant k ∧ (p = true → ¬ Uses IsExp k) := by
  induction k with
  | constant sigma s =>
    refine ⟨fun h => (by cases h), fun h => absurd (Uses.here ⟨_, _, rfl⟩) h.1⟩
  | exp l sigma s =>
    constructor
    · intro h
      refine ⟨?_, ?_⟩
      · rintro (⟨⟨_, _, h⟩⟩ | _); cases h
      · rintro rfl; cases h
    · rintro ⟨-, h⟩
      cases p with
      | false => rfl
      | true => exact absurd (.here (.inl ⟨_, _, _, rfl⟩)) (h rfl)
  | integratedExp l sigma m s =>
    constructor
    · intro h
      refine ⟨?_, ?_⟩
      · rintro (⟨⟨_, _, h⟩⟩ | _); cases h
      · rintro rfl; cases h
    · rintro ⟨-, h⟩
      cases p with
      | false => rfl
      | true => exact absurd (.here (.inr ⟨_, _, _, _, rfl⟩)) (h rfl)
  | scale s k c ih =>
    show k.transitionError p = none ↔ _
    rw [ih]
    constructor
    · rintro ⟨h1, h2⟩
      refine ⟨?_, fun hp => ?_⟩
      · rintro (⟨⟨_, _, h⟩⟩ | h)
        · cases h
        · exact h1 h
      · rintro (⟨h⟩ | h)
        · rcases h with ⟨_, _, _, h⟩ | ⟨_, _, _, _, h⟩ <;> cases h
        · exact h2 hp h
    · rintro ⟨h1, h2⟩
      exact ⟨fun h => h1 (.inScale h), fun hp h => h2 hp (.inScale h)⟩
  | sum a b ha hb =>
    have : (Kern.sum a b).transitionError p = none ↔ a.transitionError p = none ∧ b.transitionError p = none := by
      show ((a.transitionError p).orElse fun _ => b.transitionError p) = none ↔ _
      cases a.transitionError p <;> simp
    rw [this, ha, hb]
    constructor
    · rintro ⟨⟨h1, h2⟩, h3, h4⟩
      refine ⟨?_, fun hp => ?_⟩
      · rintro (⟨⟨_, _, h⟩⟩ | _ | h | h)
        · cases h
        · exact h1 h
        · exact h3 h
      · rintro (⟨h⟩ | _ | h | h)
        · rcases h with ⟨_, _, _, h⟩ | ⟨_, _, _, _, h⟩ <;> cases h
        · exact h2 hp h
        · exact h4 hp h
    · rintro ⟨h1, h2⟩
      exact ⟨⟨fun h => h1 (.inSumLeft h), fun hp h => h2 hp (.inSumLeft h)⟩, fun h => h1 (.inSumRight h), fun hp h => h2 hp (.inSumRight h)⟩
  | prod a b ha hb =>
    have : (Kern.prod a b).transitionError p = none ↔ a.transitionError p = none ∧ b.transitionError p = none := by
      show ((a.transitionError p).orElse fun _ => b.transitionError p) = none ↔ _
      cases a.transitionError p <;> simp
    rw [this, ha, hb]
    constructor
    · rintro ⟨⟨h1, h2⟩, h3, h4⟩
      refine ⟨?_, fun hp => ?_⟩
      · rintro (⟨⟨_, _, h⟩⟩ | _ | _ | _ | h | h)
        · cases h
        · exact h1 h
        · exact h3 h
      · rintro (⟨h⟩ | _ | _ | _ | h | h)
        · rcases h with ⟨_, _, _, h⟩ | ⟨_, _, _, _, h⟩ <;> cases h
        · exact h2 hp h
        · exact h4 hp h
    · rintro ⟨h1, h2⟩
      exact ⟨⟨fun h => h1 (.inProdLeft h), fun hp h => h2 hp (.inProdLeft h)⟩, fun h => h1 (.inProdRight h), fun hp h => h2 hp (.inProdRight h)⟩
  | _ =>
    refine ⟨fun _ => ⟨?_, fun _ => ?_⟩, fun _ => rfl⟩
    · rintro (⟨⟨_, _, h⟩⟩ | _); cases h
    · rintro (⟨h⟩ | _); rcases h with ⟨_, _, _, h⟩ | ⟨_, _, _, _, h⟩ <;> cases h

/-- **C30, partial**: `log_probability` raises exactly if the kernel contains a `Constant` anywhere, or the solver is a parallel one and the
kernel contains an `Exp` or `IntegratedExp`. Missing: these cases, in which it does raise. -/
theorem C30_log_probability_iff_partial (gp : GP) (y : Arr ℝ) :
    (∃ lp, gp.logProbability y = .ok lp) ↔ ¬ Uses IsConstant gp.kernel ∧
      ((gp.solver.kind = .parallel ∨ gp.solver.kind = .parallelIntegrated) → ¬ Uses IsExp gp.kernel) := by
  have hp : (gp.solver.kind.callsWithPyScalars = true) ↔ (gp.solver.kind = .parallel ∨ gp.solver.kind = .parallelIntegrated) := by
    cases gp.solver.kind <;> simp [SolverKind.callsWithPyScalars]
  rw [← hp, ← transitionError_iff]
  unfold GP.logProbability GP.runError
  cases gp.kernel.transitionError gp.solver.kind.callsWithPyScalars with
  | none => exact ⟨fun _ => rfl, fun _ => ⟨_, rfl⟩⟩
  | some e => refine ⟨?_, fun h => by cases h⟩; rintro ⟨lp, h⟩; cases h

/-- **C30, the part that fails**: `Constant` cannot be used with any solver. -/
theorem C30_constant_fails (sigma : ℝ) (t y : Arr ℝ) : ∃ gp, GP.new (.constant sigma "Constant") (.times t) = .ok gp ∧
    gp.logProbability y = .error .attributeError := ⟨_, rfl, rfl⟩

/-- **C30, the part that fails**: `Exp` cannot be used with the parallel solver. -/
theorem C30_exp_parallel_fails (scale sigma : ℝ) (t y : Arr ℝ) :
    ∃ gp, GP.new (.exp scale sigma "Exp") (.times t) none none (some .parallel) = .ok gp ∧ gp.logProbability y = .error .typeError := ⟨_, rfl, rfl⟩

/-! ### C52: direct use of the solvers -/

/-- **C52, the part that fails**: `ParallelStateSpaceSolver.condition(y)` with default arguments always raises. -/
theorem C52_parallel_raises (gp : GP) (h : gp.solver.kind = .parallel) (y : Arr ℝ) :
    ∃ e, gp.solverCondition y gp.solver.kind.defaultReturnVS = .error e := by
  unfold GP.solverCondition
  rw [h]
  cases gp.runError with
  | none => exact ⟨_, rfl⟩
  | some e => exact ⟨_, rfl⟩

/-- **C52, partial**: with every other solver it returns the conditioned states, the same as with `return_v_S=True`, if the kernel can be
filtered at all. Missing: the parallel solver, with which it raises. -/
theorem C52_condition_partial (gp : GP) (hr : gp.runError = none) (h : gp.solver.kind ≠ .parallel) (y : Arr ℝ) :
    ∃ c, gp.solverCondition y gp.solver.kind.defaultReturnVS = .ok c ∧ gp.solverCondition y true = .ok c := by
  unfold GP.solverCondition
  rw [hr]
  cases hk : gp.solver.kind with
  | parallel => exact absurd hk h
  | _ => exact ⟨_, rfl, rfl⟩

/-! ### C54: names after conditioning -/

/-- **C54, partial**: if the component names are pairwise distinct, conditioning keeps the kernel unchanged. Missing: equal names, which
are renamed (again). -/
theorem C54_names_kept_partial (gp gp' : GP) (y : Arr ℝ) (lp : EReal) (h : gp.condition y = .ok (lp, gp'))
    (hn : gp.kernel.componentNames.Nodup) : gp'.kernel = gp.kernel := by
  have hk := (GP.condition_ok h).2.2.1
  unfold Kern.assignUniqueNames at hk
  rw [if_pos hn] at hk
  exact (Except.ok.inj hk).symm

/-- **C54.** In any case conditioning changes nothing but names. -/
theorem C54_only_names (gp gp' : GP) (y : Arr ℝ) (lp : EReal) (h : gp.condition y = .ok (lp, gp')) (X1 X2 : Coord) :
    gp'.kernel.model.evaluate X1 X2 = gp.kernel.model.evaluate X1 X2 :=
  SSM.evaluate_of_strip (GP.condition_ok h).2.2.2.1.strip X1 X2

/-- **C54, the part that fails**: `use_unique_names=False` is not remembered. -/
theorem C54_flag_forgotten : ∃ gp lp gp', GP.new (.sum (.matern32 1 1 "A") (.matern32 2 1 "A")) (.times twoT) (some (.inl 1)) none none false = .ok gp ∧
    gp.condition twoY = .ok (lp, gp') ∧ gp.kernel.componentNames = ["A", "A"] ∧ gp'.kernel.componentNames = ["A_1", "A_2"] := by
  have hv : (Kern.sum (.matern32 1 1 "A") (.matern32 2 1 "A")).Valid := .sum (.matern32 one_pos one_ne_zero) (.matern32 two_pos one_ne_zero)
  obtain ⟨gp, h⟩ := (C01_constructor hv (.inl rfl) twoT (some (.inl 1)) none).1
  have hk : gp.kernel = .sum (.matern32 1 1 "A") (.matern32 2 1 "A") := (Except.ok.inj (GP.new_ok h).1).symm
  obtain ⟨⟨lp, gp'⟩, h'⟩ := (C02_condition_succeeds hv (.inl rfl) h twoY).2 ⟨by show (2 : ℕ) ≠ 1; decide, _, by rw [hk]; rfl⟩
  refine ⟨gp, lp, gp', h, h', by rw [hk]; rfl, ?_⟩
  have := (GP.condition_ok h').2.2.1
  rw [hk] at this
  rw [← Except.ok.inj this]
  rfl

/-- **C54, the part that fails**: names that collide after the renaming are renamed again by conditioning. -/
theorem C54_renamed_again : ∃ gp lp gp', GP.new (.sum (.sum (.matern32 1 1 "A") (.matern32 2 1 "A")) (.matern32 3 1 "A_1"))
      (.times twoT) (some (.inl 1)) = .ok gp ∧
    gp.condition twoY = .ok (lp, gp') ∧ gp.kernel.componentNames = ["A_1", "A_2", "A_1"] ∧
    gp'.kernel.componentNames = ["A_1_1", "A_2", "A_1_2"] := by
  have hv : (Kern.sum (.sum (.matern32 1 1 "A") (.matern32 2 1 "A")) (.matern32 3 1 "A_1")).Valid :=
    .sum (.sum (.matern32 one_pos one_ne_zero) (.matern32 two_pos one_ne_zero)) (.matern32 three_pos one_ne_zero)
  obtain ⟨gp, h⟩ := (C01_constructor hv (.inl rfl) twoT (some (.inl 1)) none).2.2 ⟨_, rfl⟩
  have hk : gp.kernel = .sum (.sum (.matern32 1 1 "A_1") (.matern32 2 1 "A_2")) (.matern32 3 1 "A_1") := (Except.ok.inj (GP.new_ok h).1).symm
  obtain ⟨⟨lp, gp'⟩, h'⟩ := (C02_condition_succeeds hv (.inl rfl) h twoY).2 ⟨by show (2 : ℕ) ≠ 1; decide, _, by rw [hk]; rfl⟩
  refine ⟨gp, lp, gp', h, h', by rw [hk]; rfl, ?_⟩
  have := (GP.condition_ok h').2.2.1
  rw [hk] at this
  rw [← Except.ok.inj this]
  rfl

end Verif
