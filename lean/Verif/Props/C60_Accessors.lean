import Verif.Props.C59_States

/-!
# C60: `loc`, `variance`, and conditioning on one component
-/

namespace Verif
open Matrix Kern Spec

variable {kernel : Kern} {X : XArg} {t : Arr ℝ} {diag : Option (ℝ ⊕ Arr ℝ)} {mean : Option (Coord → ℝ)} {u : Bool}
  {solver : Option SolverKind} {gp gp' gp₁ : GP} {y : Arr ℝ} {lp lp₁ : EReal}

/-- **C60.** Before conditioning, `loc` is the mean function at the coordinates. -/
theorem C60_prior_loc (hnew : GP.new kernel X diag mean solver u = .ok gp) :
    gp.loc.len = X.coords.len ∧ ∀ i, gp.loc.get i = (mean.getD fun _ => 0) (X.coords.get i) := by
  obtain ⟨-, -, -, -, hm, -⟩ := GP.new_ok hnew
  unfold GP.loc
  rw [hm]
  exact ⟨rfl, fun _ => rfl⟩

/-- **C60, refuted.** Before conditioning, `variance` is `None`, not the prior variance. -/
theorem C60_prior_variance_missing (hnew : GP.new kernel X diag mean solver u = .ok gp) : gp.variance = none := by
  obtain ⟨-, -, -, -, -, hv, -⟩ := GP.new_ok hnew
  exact hv

/-- **C60.** After conditioning, `loc` and `variance` are the exact posterior mean and variance of the process at the data coordinates, with
the sequential solver and with the parallel one. -/
theorem C60_conditioned (hv : kernel.Valid) (hsol : Sequential solver ∨ solver = some .parallel)
    (hnew : GP.new kernel (.times t) diag mean solver u = .ok gp) (ht : Sorted t) (hN : 0 < t.len)
    (hR : ∀ i < t.len, 0 < (GP.noiseOf t.len diag).get i) (hcond : gp.condition y = .ok (lp, gp')) :
    ∃ var, gp'.variance = some var ∧ gp'.loc.len = t.len ∧ var.len = t.len ∧ ∀ i < t.len,
      gp'.loc.get i = postMean (dataGram kernel.model (t.map .time) (GP.noiseOf t.len diag)) (fun j => y.get j)
        (fun j => kernel.model.evaluate (.time (t.get i)) (.time (t.get j))) ∧
      var.get i = postVar (dataGram kernel.model (t.map .time) (GP.noiseOf t.len diag))
        (kernel.model.evaluate (.time (t.get i)) (.time (t.get i)))
        (fun j => kernel.model.evaluate (.time (t.get i)) (.time (t.get j))) := by
  rcases hsol with h | rfl
  · obtain ⟨-, h1, var, h2, h3, h4⟩ := C02_C03_condition hv h hnew ht hR hcond
    exact ⟨var, h2, h1, h3, h4⟩
  · obtain ⟨-, h1, var, h2, h3, h4⟩ := C07_condition hv hnew ht hN hR hcond
    exact ⟨var, h2, h1, h3, h4⟩

theorem conditionOn_ok {c : String} (h : gp.conditionOn y c = .ok (lp, gp')) :
    gp.kernel.obsError gp.X = none ∧ gp.runError = none ∧
    lp = gp.kernel.model.logProb gp.solver.kind gp.solver.X.coords y gp.solver.noise ∧
    gp.kernel.assignUniqueNames = .ok gp'.kernel ∧ gp'.X = gp.X ∧
    gp'.mean = (gp.projectAtData y fun x => gp.kernel.model.obsModel x (some c)).map Prod.fst ∧
    gp'.var = some ((gp.projectAtData y fun x => gp.kernel.model.obsModel x (some c)).map Prod.snd) ∧ gp'.solver = gp.solver ∧
    gp'.states = some y ∧ (∀ x, gp'.meanFunction x = 0) ∧ gp'.noise = gp.noise := by
  unfold GP.conditionOn at h
  have hkal : gp.solver.kind.kalmanReturns true = 6 := by cases gp.solver.kind <;> rfl
  cases hr : gp.runError with
  | some e => simp only [bind, Except.bind, GP.solverCondition, hr] at h; cases h
  | none =>
    cases ho : gp.kernel.obsError gp.X with
    | some e => simp only [bind, Except.bind, GP.solverCondition, hr, hkal, if_true, ho] at h; cases h
    | none =>
      simp only [bind, Except.bind, pure, Except.pure, GP.solverCondition, hr, hkal, if_true, ho] at h
      split at h
      · cases h
      · rename_i gp1 hgp1
        cases h
        unfold GP.newConditioned at hgp1
        simp only [bind, Except.bind, pure, Except.pure] at hgp1
        split at hgp1
        · cases hgp1
        · rename_i k hk
          split_ifs at hgp1 with h1
          split at hgp1
          · rename_i mu hmu
            cases hgp1
            have : mu = (gp.projectAtData y fun x => gp.kernel.model.obsModel x (some c)).map Prod.fst := by
              unfold squeeze at hmu
              split_ifs at hmu
              exact (Squeezed.vector.inj hmu).symm
            exact ⟨rfl, rfl, rfl, hk, rfl, this, rfl, rfl, rfl, fun _ => rfl, rfl⟩
          · cases hgp1
          · cases hgp1

theorem component_at_data {c : String} (hk : gp'.kernel = gp.kernel) (hX : gp'.X = gp.X) (hs : gp'.solver = gp.solver) :
    gp'.projectAtData y (gp'.kernel.model.componentRow [c]) = gp.projectAtData y fun x => gp.kernel.model.obsModel x (some c) := by
  obtain ⟨k, X, _, _, _, _, s, _⟩ := gp
  obtain ⟨k', X', _, _, _, _, s', _⟩ := gp'
  dsimp only at hk hX hs
  subst hk hX hs
  rfl

theorem predict_congr_conditioned (hk : gp₁.kernel = gp'.kernel) (hs : gp₁.solver = gp'.solver) (hst : gp₁.states = gp'.states) (hy : gp'.states = some y)
    (Xtest : XArg) : gp₁.predict (some Xtest) = gp'.predict (some Xtest) := by
  obtain ⟨k, X, _, _, _, _, s, st⟩ := gp₁
  obtain ⟨k', X', _, _, _, _, s', st'⟩ := gp'
  dsimp only at hk hs hst hy
  subst hk hs hst hy
  rfl

theorem conditionOn_eq (c : String) (h : gp.condition y = .ok (lp, gp')) : ∃ r, gp.conditionOn y c = .ok r := by
  obtain ⟨hr, -, hk, hs, -, -, -, -, -, -, -, hl, hX⟩ := GP.condition_ok h
  have ho := GP.condition_obs h
  unfold GP.conditionOn
  have hkal : gp.solver.kind.kalmanReturns true = 6 := by cases gp.solver.kind <;> rfl
  set r := gp.projectAtData y fun x => gp.kernel.model.obsModel x (some c)
  have e1 : squeeze (r.map Prod.fst) = .vector (r.map Prod.fst) := if_neg hl
  have : ¬ (GP.needsIntegrated gp.kernel && !gp.X.isTuple) = true := by
    intro h
    simp only [Bool.and_eq_true, Bool.not_eq_true'] at h
    rw [hX h.1] at h
    exact absurd h.2 (by simp)
  simp only [bind, Except.bind, pure, Except.pure, GP.solverCondition, hr, hkal, if_true, GP.newConditioned, hk, hs.needsIntegrated,
    e1, if_neg this, ho]
  exact ⟨_, rfl⟩

/-- **C60.** Whenever `condition(y)` succeeds, so does `condition(y, kernel=k)`. It differs in `loc` and `variance` only, which are those of the
component named as `k` (as `get_component_mean` gives them): the likelihood is that of the whole model, and predictions at new coordinates
ignore the choice. -/
theorem C60_condition_on_component (c : String) (hn : gp.kernel.componentNames.Nodup) (hc : gp.condition y = .ok (lp, gp')) :
    ∃ gp₁, gp.conditionOn y c = .ok (lp, gp₁) ∧ gp₁.kernel = gp'.kernel ∧
    (∃ r, gp'.getComponentMean [c] = .ok r ∧ gp₁.loc = r.map Prod.fst ∧ gp₁.variance = some (r.map Prod.snd)) ∧
    ∀ Xtest, gp₁.predict (some Xtest) = gp'.predict (some Xtest) := by
  obtain ⟨⟨lp₁, gp₁⟩, hc₁⟩ := conditionOn_eq c hc
  obtain ⟨h1, h2, h3, h4, h5, h6, h7, h8, h9, -⟩ := conditionOn_ok hc₁
  obtain ⟨-, e2, e3, -, e5, -, -, -, -, e8, e9, -⟩ := GP.condition_ok hc
  have hk : gp'.kernel = gp.kernel := C54_names_kept_partial gp gp' y lp hc hn
  have hk₁ : gp₁.kernel = gp'.kernel := by
    rw [h4] at e3
    exact Except.ok.inj e3
  have hl : lp₁ = lp := h3.trans e2.symm
  refine ⟨gp₁, by rw [hc₁, hl], hk₁, ?_, fun Xtest => ?_⟩
  · unfold GP.getComponentMean
    simp only [e9, if_neg (List.cons_ne_nil c []), GP.condition_obs' hc]
    refine ⟨_, rfl, ?_, ?_⟩
    · refine h6.trans (congrArg _ ?_)
      exact (component_at_data hk e5 e8).symm
    · refine h7.trans (congrArg some (congrArg _ ?_))
      exact (component_at_data hk e5 e8).symm
  · exact predict_congr_conditioned hk₁ (h8.trans e8.symm) (h9.trans e9.symm) e9 Xtest

/-- **C59, refuted in part.** An `observation_model` is silently ignored when no test coordinates are given, and when a component is named. -/
theorem C59_observation_model_ignored (gp : GP) (h : Coord → Matrix (Fin 1) gp.kernel.model.n ℝ) :
    (∀ component, gp.predictArgs none component (some h) = gp.predictArgs none component none) ∧
    (∀ Xtest c, gp.predictArgs (some Xtest) (some c) (some h) = gp.predictArgs (some Xtest) (some c) none) ∧
    ∀ Xtest, gp.predictArgs (some Xtest) none (some h) = gp.predictWith Xtest h :=
  ⟨fun component => by cases component <;> rfl, fun _ _ => rfl, fun _ => rfl⟩

/-- **C60**, with a witness that the choice of component is forgotten: `Matern32("A") + Matern32("B")`, two measurements of the value 1 at time 0
with unit noise. After `condition(y, kernel=A)` the stored mean is `2/5`, the prediction at the data coordinates `4/5`. -/
theorem C60_component_forgotten : ∃ gp lp gp₁ mu var,
    GP.new (.sum (.matern32 1 1 "A") (.matern32 1 1 "B")) (.times twoT) (some (.inl 1)) none (some .stateSpace) = .ok gp ∧
    gp.conditionOn twoY "A" = .ok (lp, gp₁) ∧ gp₁.loc.get 0 = 2 / 5 ∧ gp₁.predict (some (.times twoT)) = .ok (mu, var) ∧ mu.get 0 = 4 / 5 := by
  set k : Kern := .sum (.matern32 1 1 "A") (.matern32 1 1 "B") with hkdef
  have hv : k.Valid := .sum (.matern32 one_pos one_ne_zero) (.matern32 one_pos one_ne_zero)
  have hn : k.componentNames.Nodup := by
    show (["A", "B"] : List String).Nodup
    decide
  have ha : k.model.evaluate (.time 0) (.time 0) = 2 := by
    have h1 := C27_sum_evaluate (matern32 1 1 "A") (matern32 1 1 "B") (.time 0) (.time 0)
    rw [matern32_one, matern32_one] at h1
    exact h1.trans (by norm_num)
  obtain ⟨gp, lp, gp', hnew, hc, hk, hm⟩ := two_condition hv hn ha zero_le_two
  have hgk : gp.kernel = k := by
    have := (GP.new_ok hnew).1
    rw [if_pos rfl] at this
    unfold Kern.assignUniqueNames at this
    rw [if_pos hn] at this
    exact (Except.ok.inj this).symm
  obtain ⟨gp₁, h1, -, ⟨r, h2, h3, -⟩, h4⟩ := C60_condition_on_component "A" (hgk ▸ hn) hc
  obtain ⟨mu, var, h5, -, -, h6⟩ := C04_predict hv (.inr rfl) hnew twoT_sorted (by show 0 < 2; decide) (fun i _ => one_pos) hc (.times twoT)
  refine ⟨gp, lp, gp₁, mu, var, hnew, h1, ?_, (h4 _).trans h5, ?_⟩
  · obtain ⟨r', h7, -, h8⟩ := C40_component_partial k hv twoT twoT_sorted (some (.inl 1)) none true gp gp' twoY lp (fun i _ => one_pos) hnew hc
      ["A"] (by simp) (by simp) (by
        intro c _
        rw [hk]; intro p hp hprod
        have hp' : p ∈ [Kern.matern32 1 1 "A", .matern32 1 1 "B"] := hp
        rw [List.mem_cons, List.mem_singleton] at hp'
        rcases hp' with rfl | rfl <;> exact absurd hprod id)
    rw [h2] at h7
    cases h7
    rw [h3]
    show (r.get 0).1 = _
    rw [h8 0 (by show 0 < 2; decide)]
    have e3 : ∀ j : Fin twoT.len, gp'.kernel.partValue ["A"] (.time (twoT.get 0)) (.time (twoT.get j)) = 1 := by
      intro j
      rw [hk]
      show ((k.extractLeafKernels.filter fun a => a.name ∈ ["A"]).map fun a => a.model.evaluate (.time 0) (.time 0)).sum = 1
      rw [show (k.extractLeafKernels.filter fun a => a.name ∈ ["A"]) = [.matern32 1 1 "A"] from rfl]
      simp only [List.map_cons, List.map_nil, List.sum_cons, List.sum_nil, add_zero]
      exact matern32_one "A"
    refine (congrArg (postMean _ _) (funext fun j => e3 j)).trans ((two_postMean ha zero_le_two 1).trans ?_)
    norm_num
  · rw [(h6 0).1]
    refine (congrArg (postMean _ _) (funext fun j => ha)).trans ((two_postMean ha zero_le_two 2).trans ?_)
    norm_num

end Verif
