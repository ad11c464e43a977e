import Verif.Props.C42_Interface
import Verif.Props.C58_LatentPrediction
import Verif.Props.C12_ParallelIntegrated

/-!
# C11, C12, C58 at the level of the user interface

`GaussianProcess(kernel, (t, texp, instid), diag=...)` with integrated kernels: `log_probability(y)`, `condition(y)` and
`predict(X_test)`, with the sequential and with the parallel integrated solver.
-/

namespace Verif
open Matrix Kern Spec

/-- Sums of `IntegratedExp`, `IntegratedMatern32`, `IntegratedMatern52`, critically or overdamped `IntegratedSHO` and, if `cosineOk`,
`IntegratedCosine`, each declared for at least the instruments `0, ..., m`; with the covariance function of the latent process. -/
inductive Kern.Integrates (cosineOk : Prop) (m : ℕ) : Kern → (ℝ → ℝ) → Prop
  | exp {scale sigma : ℝ} {m' : ℕ} {name : String} (hs : 0 < scale) (hσ : sigma ≠ 0) (hm : m ≤ m') :
      Integrates cosineOk m (.integratedExp scale sigma m' name) (covExp scale sigma)
  | matern32 {scale sigma : ℝ} {m' : ℕ} {name : String} (hs : 0 < scale) (hσ : sigma ≠ 0) (hm : m ≤ m') :
      Integrates cosineOk m (.integratedMatern32 scale sigma m' name) (covMatern32 scale sigma)
  | matern52 {scale sigma : ℝ} {m' : ℕ} {name : String} (hs : 0 < scale) (hσ : sigma ≠ 0) (hm : m ≤ m') :
      Integrates cosineOk m (.integratedMatern52 scale sigma m' name) (covMatern52 scale sigma)
  | sho {omega quality sigma : ℝ} {m' : ℕ} {name : String} (hw : 0 < omega) (hq : 0 < quality)
      (hd : SHO.Genuine quality ∧ SHO.NotUnderdamped quality) (hσ : sigma ≠ 0) (hm : m ≤ m') :
      Integrates cosineOk m (.integratedSHO omega quality sigma m' name) (covSHO omega quality sigma)
  | cosine {scale sigma : ℝ} {m' : ℕ} {name : String} (ok : cosineOk) (hs : 0 < scale) (hm : m ≤ m') :
      Integrates cosineOk m (.integratedCosine scale sigma m' name) (covCosine scale sigma)
  | sum {k1 k2 : Kern} {κ1 κ2 : ℝ → ℝ} (h1 : Integrates cosineOk m k1 κ1) (h2 : Integrates cosineOk m k2 κ2) :
      Integrates cosineOk m (.sum k1 k2) fun r => κ1 r + κ2 r

theorem Kern.Integrates.toSum {p : Prop} {m : ℕ} {k : Kern} {κ : ℝ → ℝ} (h : k.Integrates p m κ) :
    IntegratedSum (fun q => SHO.Genuine q ∧ SHO.NotUnderdamped q) m k.model κ := by
  induction h with
  | exp hs _ hm => exact .exp hs hm
  | matern32 hs _ hm => exact .matern32 hs hm
  | matern52 hs _ hm => exact .matern52 hs hm
  | sho hw hq hd _ hm => exact .sho hw hq hd hm
  | cosine _ hs hm => exact .cosine hs hm
  | sum _ _ h1 h2 => exact .sum h1 h2

theorem Kern.Integrates.toDriven {m : ℕ} {k : Kern} {κ : ℝ → ℝ} (h : k.Integrates False m κ) :
    DrivenSum (fun q => SHO.Genuine q ∧ SHO.NotUnderdamped q) m k.model κ := by
  induction h with
  | exp hs hσ hm => exact .exp hs hσ hm
  | matern32 hs hσ hm => exact .matern32 hs hσ hm
  | matern52 hs hσ hm => exact .matern52 hs hσ hm
  | sho hw hq hd hσ hm => exact .sho hw hq hd hσ hm
  | cosine h _ _ => exact h.elim
  | sum _ _ h1 h2 => exact .sum h1 h2

theorem Kern.Integrates.hasIntegrated {p : Prop} {m : ℕ} {k : Kern} {κ : ℝ → ℝ} (h : k.Integrates p m κ) : HasIntegrated k := by
  induction h with
  | sum _ _ h1 _ =>
    obtain ⟨c, hc, hi⟩ := h1
    exact ⟨c, List.mem_append_left _ hc, hi⟩
  | _ => exact ⟨_, List.mem_singleton.2 rfl, rfl⟩

theorem Kern.Integrates.noConstant {p : Prop} {m : ℕ} {k : Kern} {κ : ℝ → ℝ} (h : k.Integrates p m κ) : ¬ Uses IsConstant k := by
  induction h with
  | sum _ _ h1 h2 =>
    rintro (⟨⟨_, _, h⟩⟩ | _ | h | h)
    · cases h
    · exact h1 h
    · exact h2 h
  | _ => rintro (⟨⟨_, _, h⟩⟩ | _); cases h

/-- coordinates that the parallel and the sequential integrated solver handle alike, and kernels that the former can filter -/
structure ParallelOk (kernel : Kern) (X : Arr Coord) : Prop where
  noExp : ¬ Uses IsExp kernel
  nonempty : 0 < X.len
  pos : ∀ n < X.len, 0 < (X.get n).delta

/-- the integrated solvers: the sequential one (the default for these kernels), or the parallel one -/
def IntegratedSolver (kernel : Kern) (X : Arr Coord) (solver : Option SolverKind) : Prop :=
  solver = none ∨ solver = some .integrated ∨ (solver = some .parallelIntegrated ∧ ParallelOk kernel X)

variable {kernel : Kern} {p : Prop} {m : ℕ} {κ : ℝ → ℝ} {t d : Arr ℝ} {inst : Arr ℤ} {diag : Option (ℝ ⊕ Arr ℝ)} {mean : Option (Coord → ℝ)}
  {u : Bool} {solver : Option SolverKind} {gp gp' : GP} {y : Arr ℝ} {lp : EReal}

theorem integratedSolver_kind {X : Arr Coord} (hk : kernel.Integrates p m κ) (hsol : IntegratedSolver kernel X solver) :
    solver.getD (GP.chooseSolver kernel) = .integrated ∨
      (solver.getD (GP.chooseSolver kernel) = .parallelIntegrated ∧ ParallelOk kernel X) := by
  rcases hsol with rfl | rfl | ⟨rfl, h⟩
  · left
    show GP.chooseSolver kernel = _
    unfold GP.chooseSolver
    rw [(needsIntegrated_iff kernel).2 hk.hasIntegrated]; rfl
  · exact .inl rfl
  · exact .inr ⟨rfl, h⟩

/-- **C38, C45.** Constructing the GP only fails because of names. -/
theorem C45_integrated_constructor (hk : kernel.Integrates p m κ) (hsol : IntegratedSolver kernel (XArg.triple t d inst).coords solver)
    (diag : Option (ℝ ⊕ Arr ℝ)) (mean : Option (Coord → ℝ)) :
    (∃ gp, GP.new kernel (.triple t d inst) diag mean solver false = .ok gp) ∧
    ((∃ gp, GP.new kernel (.triple t d inst) diag mean solver true = .ok gp) ↔ ∃ k, kernel.assignUniqueNames = .ok k) := by
  have hc : (solver.getD (GP.chooseSolver kernel)).construct (.triple t d inst) = .ok () := by
    rcases integratedSolver_kind hk hsol with h | ⟨h, -⟩ <;> rw [h] <;> rfl
  refine ⟨GP.new_eq diag mean (k := kernel) rfl (fun _ => rfl) hc, ?_, ?_⟩
  · rintro ⟨gp, h⟩
    exact ⟨_, (GP.new_ok h).1⟩
  · rintro ⟨k, h⟩
    exact GP.new_eq diag mean (k := k) h (fun _ => rfl) hc

theorem integrated_run (hk : kernel.Integrates p m κ) (hsol : IntegratedSolver kernel (XArg.triple t d inst).coords solver)
    (hnew : GP.new kernel (.triple t d inst) diag mean solver u = .ok gp) : gp.runError = none := by
  obtain ⟨-, hs, -, -, -, -, -, hs', -⟩ := GP.new_ok hnew
  unfold GP.runError
  rw [hs.transitionError, transitionError_iff]
  refine ⟨hk.noConstant, fun h => ?_⟩
  rw [hs'] at h
  rcases integratedSolver_kind hk hsol with e | ⟨-, h⟩
  · simp only [e] at h; cases h
  · exact h.noExp

/-- **C11, C12 (interface).** `GaussianProcess(kernel, (t, texp, instid), diag=diag).log_probability(y)` is the log density of a Gaussian whose
covariances are the double averages of the latent covariance over the exposures, with both integrated solvers. -/
theorem C11_log_probability (hk : kernel.Integrates p m κ) (hsol : IntegratedSolver kernel (XArg.triple t d inst).coords solver)
    (hnew : GP.new kernel (.triple t d inst) diag mean solver u = .ok gp) (hX : Schedule m (XArg.triple t d inst).coords)
    (hy : y.len = t.len) (hR : ∀ i < t.len, 0 < (GP.noiseOf t.len diag).get i) :
    gp.logProbability y = .ok ((gaussLogDensity (noisyGram (fun i j : Fin t.len =>
        exposureCov κ (.exposure (t.get i) (d.get i) (inst.get i)) (.exposure (t.get j) (d.get j) (inst.get j)))
        fun i => (GP.noiseOf t.len diag).get i) (fun i => y.get i) : ℝ) : EReal) := by
  have hrun := integrated_run hk hsol hnew
  obtain ⟨-, hs, -, -, -, -, -, hs', -⟩ := GP.new_ok hnew
  unfold GP.logProbability
  rw [hrun]
  simp only
  rw [logProb_of_same hs, hs']
  rcases integratedSolver_kind hk hsol with e | ⟨e, h⟩
  · rw [e]
    exact congrArg _ (C11_likelihood kernel.model κ m hk.toSum _ hX y (GP.noiseOf t.len diag) hy hR)
  · rw [e]
    exact congrArg _ (C12_likelihood_exact_partial kernel.model κ m hk.toSum _ hX h.pos h.nonempty y (GP.noiseOf t.len diag) hy hR).1

theorem Kern.obsError_triple (k : Kern) (t d : Arr ℝ) (inst : Arr ℤ) : k.obsError (.triple t d inst) = none := rfl

/-- **C57 (interface).** `condition(y)` of an integrated GP succeeds unless there is exactly one exposure (or names cannot be made unique). -/
theorem C57_integrated_condition_succeeds (hk : kernel.Integrates p m κ)
    (hsol : IntegratedSolver kernel (XArg.triple t d inst).coords solver)
    (hnew : GP.new kernel (.triple t d inst) diag mean solver u = .ok gp) (y : Arr ℝ) :
    (∃ r, gp.condition y = .ok r) ↔ t.len ≠ 1 ∧ ∃ k, gp.kernel.assignUniqueNames = .ok k := by
  have hrun := integrated_run hk hsol hnew
  obtain ⟨-, hs, hX, -, -, -, -, hs', -⟩ := GP.new_ok hnew
  constructor
  · rintro ⟨⟨lp, gp'⟩, h⟩
    obtain ⟨-, -, hk, -, -, -, -, -, -, -, -, hl, -⟩ := GP.condition_ok h
    rw [hX] at hl
    exact ⟨hl, _, hk⟩
  · rintro ⟨hl, k, hk⟩
    exact GP.condition_eq hrun hk (fun _ => by rw [hX]; rfl) (by rw [hX]; exact hl) (by rw [hX]; rfl)

/-- **C11, C12 (interface).** The result of `condition(y)`, if exposures start at different times: the log likelihood, and a GP whose mean and
variance are the exact posterior ones of the exposure averages, in the order of the data. -/
theorem C11_condition (hk : kernel.Integrates False m κ) (hsol : IntegratedSolver kernel (XArg.triple t d inst).coords solver)
    (hnew : GP.new kernel (.triple t d inst) diag mean solver u = .ok gp) (hX : Schedule m (XArg.triple t d inst).coords)
    (hd : DistinctStarts (XArg.triple t d inst).coords)
    (hR : ∀ i < t.len, 0 < (GP.noiseOf t.len diag).get i) (hcond : gp.condition y = .ok (lp, gp')) :
    gp.logProbability y = .ok lp ∧ gp'.mean.len = t.len ∧ ∃ var, gp'.var = some var ∧ var.len = t.len ∧ ∀ n < t.len,
      gp'.mean.get n = postMean (noisyGram (fun i j : Fin t.len =>
          exposureCov κ (.exposure (t.get i) (d.get i) (inst.get i)) (.exposure (t.get j) (d.get j) (inst.get j)))
          fun i => (GP.noiseOf t.len diag).get i) (fun i => y.get i)
        (fun i => exposureCov κ (.exposure (t.get n) (d.get n) (inst.get n)) (.exposure (t.get i) (d.get i) (inst.get i))) ∧
      var.get n = postVar (noisyGram (fun i j : Fin t.len =>
          exposureCov κ (.exposure (t.get i) (d.get i) (inst.get i)) (.exposure (t.get j) (d.get j) (inst.get j)))
          fun i => (GP.noiseOf t.len diag).get i)
        (exposureCov κ (.exposure (t.get n) (d.get n) (inst.get n)) (.exposure (t.get n) (d.get n) (inst.get n)))
        (fun i => exposureCov κ (.exposure (t.get n) (d.get n) (inst.get n)) (.exposure (t.get i) (d.get i) (inst.get i))) := by
  obtain ⟨-, hs, hX', -, -, -, -, hs', -⟩ := GP.new_ok hnew
  obtain ⟨hrun, hlp, -, -, -, -, hm, hvar, -⟩ := GP.condition_ok hcond
  refine ⟨?_, ?_, _, hvar, ?_, fun n hn => ?_⟩
  · unfold GP.logProbability
    rw [hrun, hlp]
  · rw [hm]; show gp.X.coords.len = _; rw [hX']; rfl
  · show gp.X.coords.len = _; rw [hX']; rfl
  · rw [hm]
    have hdr := hk.toDriven
    rcases integratedSolver_kind hk hsol with e0 | ⟨e0, h⟩
    · have e : gp.atData y = kernel.model.integratedConditionedAtData (XArg.triple t d inst).coords y (GP.noiseOf t.len diag) := by
        unfold GP.atData GP.projectAtData
        rw [← SSM.strip_projectData, hs.strip, SSM.strip_projectData, hX', hs', e0]
        rfl
      rw [e]
      have := C56_conditioned_partial kernel.model κ m (hdr.mono fun _ h => h.1) _ hX hd (fun _ _ => hk.toSum.noise _) y
        (GP.noiseOf t.len diag) hR n hn
      exact ⟨congrArg Prod.fst this, congrArg Prod.snd this⟩
    · have e : gp.atData y = kernel.model.parallelIntegratedConditionedAtData (XArg.triple t d inst).coords y (GP.noiseOf t.len diag) := by
        unfold GP.atData GP.projectAtData
        rw [← SSM.strip_projectData, hs.strip, SSM.strip_projectData, hX', hs', e0]
        rfl
      rw [e]
      have := C12_conditioned_exact_partial kernel.model κ m hdr _ hX hd y (GP.noiseOf t.len diag) hR n hn
      exact ⟨congrArg Prod.fst this, congrArg Prod.snd this⟩

/-- **C58, C12 (interface).** `condition(y).gp.predict(X_test, return_var=True)` at instantaneous test coordinates (bare times, or triples with
exposure zero): the exact posterior of the latent process, wherever the test times lie. -/
theorem C58_predict (hk : kernel.Integrates False m κ) (hsol : IntegratedSolver kernel (XArg.triple t d inst).coords solver)
    (hnew : GP.new kernel (.triple t d inst) diag mean solver u = .ok gp) (hX : Schedule m (XArg.triple t d inst).coords)
    (hd : DistinctStarts (XArg.triple t d inst).coords) (hN : 0 < t.len)
    (hR : ∀ i < t.len, 0 < (GP.noiseOf t.len diag).get i) (hcond : gp.condition y = .ok (lp, gp'))
    (Xtest : XArg) (hpair : ∀ t d, Xtest ≠ .pair t d) (hδ : ∀ n, (Xtest.coords.get n).delta = 0) :
    ∃ mu var, gp'.predict (some Xtest) = .ok (mu, var) ∧ mu.len = Xtest.coords.len ∧ var.len = Xtest.coords.len ∧ ∀ n < Xtest.coords.len,
      mu.get n = postMean (noisyGram (fun i j : Fin t.len =>
          exposureCov κ (.exposure (t.get i) (d.get i) (inst.get i)) (.exposure (t.get j) (d.get j) (inst.get j)))
          fun i => (GP.noiseOf t.len diag).get i) (fun i => y.get i)
        (fun i => exposureCov κ (Xtest.coords.get n) (.exposure (t.get i) (d.get i) (inst.get i))) ∧
      var.get n = postVar (noisyGram (fun i j : Fin t.len =>
          exposureCov κ (.exposure (t.get i) (d.get i) (inst.get i)) (.exposure (t.get j) (d.get j) (inst.get j)))
          fun i => (GP.noiseOf t.len diag).get i) (κ 0)
        (fun i => exposureCov κ (Xtest.coords.get n) (.exposure (t.get i) (d.get i) (inst.get i))) := by
  obtain ⟨-, hs0, -, -, -, -, -, hs', -⟩ := GP.new_ok hnew
  obtain ⟨hrun, -, -, hs, -, -, -, -, -, hsol', hst, -⟩ := GP.condition_ok hcond
  have hrun' : gp'.runError = none := by
    rw [← hrun]
    unfold GP.runError
    rw [hsol', hs.transitionError]
  rw [hs'] at hsol'
  have hkind' : ¬ (gp'.solver.kind = .parallel ∧ (gp'.solver.X.isTuple = true ∨ Xtest.isTuple = true)) := by
    rw [hsol']; rintro ⟨h, -⟩
    rcases integratedSolver_kind hk hsol with e0 | ⟨e0, -⟩ <;> simp only [e0] at h <;> cases h
  have ho : gp'.kernel.obsError Xtest = none := by
    cases Xtest with
    | pair a b => exact absurd rfl (hpair a b)
    | _ => rfl
  unfold GP.predict
  simp only [hst, GP.predictConditioned, hrun', if_neg hkind', ho]
  refine ⟨_, _, rfl, rfl, rfl, fun n hn => ?_⟩
  have hdr := hk.toDriven
  have hg := hdr.mono (q := SHO.Genuine) fun _ h => h.1
  have hQ : kernel.model.NoiseOnEvents (XArg.triple t d inst).coords := fun _ _ => hk.toSum.noise _
  have main := C58_latent_prediction kernel.model κ m hdr _ hX hN hd y (GP.noiseOf t.len diag) hR Xtest.coords n (hδ n)
  rcases integratedSolver_kind hk hsol with e0 | ⟨e0, h⟩
  · have e : gp'.kernel.model.projectTest (gp'.kernel.model.states gp'.solver.kind gp'.solver.X.coords y gp'.solver.noise)
        (fun x => gp'.kernel.model.obsModel x none) Xtest.coords =
        kernel.model.integratedPredictAt (XArg.triple t d inst).coords y (GP.noiseOf t.len diag) Xtest.coords := by
      rw [← SSM.strip_projectTest, (hs.trans hs0).strip, SSM.strip_projectTest, hsol', e0]
      rfl
    rw [e]
    exact ⟨congrArg Prod.fst main, congrArg Prod.snd main⟩
  · have e : gp'.kernel.model.projectTest (gp'.kernel.model.states gp'.solver.kind gp'.solver.X.coords y gp'.solver.noise)
        (fun x => gp'.kernel.model.obsModel x none) Xtest.coords =
        kernel.model.parallelIntegratedPredictAt (XArg.triple t d inst).coords y (GP.noiseOf t.len diag) Xtest.coords := by
      rw [← SSM.strip_projectTest, (hs.trans hs0).strip, SSM.strip_projectTest, hsol', e0]
      rfl
    rw [e]
    have hp := (C12_parallel_predict kernel.model (XArg.triple t d inst).coords hN (SSM.NoiseOnEvents.psd hg.toSum.ok hQ)
      (noise_zero_of_over hg.toSum.ok.zero) y (GP.noiseOf t.len diag) hR (first_event_is_start _ hN hd.pos)
      (fun j hj => pd_det (C56_systems_posdef _ κ m hg _ hX hd hQ y _ hR (j + 1) hj)) Xtest.coords).2 n
      (by rw [parallelIntegratedPredictAt_len]; exact hn)
    rw [main] at hp
    exact ⟨congrArg Prod.fst hp, congrArg Prod.snd hp⟩

/-- **C45, the part that fails (prediction)**: test coordinates in the format `(t, texp)` always raise for integrated kernels. -/
theorem C45_pair_prediction_raises (hk : kernel.Integrates p m κ) (hnew : GP.new kernel (.triple t d inst) diag mean solver u = .ok gp)
    (hcond : gp.condition y = .ok (lp, gp')) (t' d' : Arr ℝ) : ∃ e, gp'.predict (some (.pair t' d')) = .error e := by
  obtain ⟨-, hs0, -, -, -, -, -, -, -⟩ := GP.new_ok hnew
  obtain ⟨-, -, -, hs, -, -, -, -, -, -, hst, -⟩ := GP.condition_ok hcond
  have hu : kernel.unpacksCoordinate = true := by
    clear hnew hcond hs0 hs hst
    induction hk with
    | sum _ _ h1 _ => simp only [unpacksCoordinate, h1, Bool.true_or]
    | _ => rfl
  have ho : gp'.kernel.obsError (.pair t' d') = some .valueError := by
    rw [(hs.trans hs0).obsError]
    exact if_pos hu
  unfold GP.predict
  simp only [hst, GP.predictConditioned, ho]
  cases gp'.runError with
  | some e => exact ⟨e, rfl⟩
  | none =>
    simp only
    split_ifs
    · exact ⟨_, rfl⟩
    · exact ⟨_, rfl⟩

/-! ### A concrete case: overlapping exposures on two instruments -/

noncomputable def exT : Arr ℝ := ⟨3, fun n => if n = 0 then 0 else if n = 1 then 1 / 2 else 2⟩
def exD : Arr ℝ := ⟨3, fun _ => 2⟩
def exI : Arr ℤ := ⟨3, fun n => if n = 1 then 1 else 0⟩
noncomputable def exKernel : Kern := .sum (.integratedMatern52 2 1 1 "slow") (.integratedMatern32 5 3 4 "fast")

theorem exKernel_integrates : exKernel.Integrates False 1 fun r => covMatern52 2 1 r + covMatern32 5 3 r :=
  .sum (.matern52 two_pos one_ne_zero le_rfl) (.matern32 (by norm_num) (by norm_num) (by norm_num))

theorem ex_get (n : ℕ) : (XArg.triple exT exD exI).coords.get n = .exposure (exT.get n) 2 (exI.get n) := rfl

theorem ex_schedule : Schedule 1 (XArg.triple exT exD exI).coords := by
  have hl : (XArg.triple exT exD exI).coords.len = 3 := rfl
  refine ⟨fun n hn => ?_, fun n hn => ?_, fun a ha b hb hab hi => ?_⟩
  · rw [ex_get]; exact zero_le_two
  · rw [hl] at hn
    rw [ex_get]
    interval_cases n <;> simp [exI, Coord.inst]
  · rw [hl] at ha hb
    simp only [ex_get, Coord.inst, Coord.delta, Coord.sortable] at hi ⊢
    interval_cases a <;> interval_cases b <;> simp [exI, exT] at hab hi ⊢ <;> norm_num

theorem ex_distinct : DistinctStarts (XArg.triple exT exD exI).coords := by
  have hl : (XArg.triple exT exD exI).coords.len = 3 := rfl
  refine ⟨fun n hn => ?_, fun a ha b hb hab => ?_⟩
  · rw [ex_get]; exact two_pos
  · rw [hl] at ha hb
    simp only [ex_get, Coord.delta, Coord.sortable] at hab ⊢
    interval_cases a <;> interval_cases b <;> simp [exT] at hab ⊢ <;> norm_num

theorem exKernel_noExp : ¬ Uses IsExp exKernel := by
  have h : exKernel.transitionError true = none := rfl
  exact ((transitionError_iff _ _).1 h).2 rfl

theorem ex_solver (s : Option SolverKind) (h : s = none ∨ s = some .integrated ∨ s = some .parallelIntegrated) :
    IntegratedSolver exKernel (XArg.triple exT exD exI).coords s := by
  rcases h with h | h | h
  · exact .inl h
  · exact .inr (.inl h)
  · exact .inr (.inr ⟨h, exKernel_noExp, by show 0 < 3; norm_num, fun n _ => by rw [ex_get]; exact two_pos⟩)

theorem exKernel_names : ∃ k, exKernel.assignUniqueNames = .ok k := ⟨exKernel, by unfold exKernel; rfl⟩

/-- with the default solver, with the sequential one and with the parallel one: construction, conditioning and prediction succeed, and the
prediction at any times is the posterior of the latent process -/
example (s : Option SolverKind) (h : s = none ∨ s = some .integrated ∨ s = some .parallelIntegrated) (y ts : Arr ℝ) :
    ∃ gp lp gp' mu var, GP.new exKernel (.triple exT exD exI) (some (.inl (1/10))) none s false = .ok gp ∧
      gp.condition y = .ok (lp, gp') ∧ gp'.predict (some (.times ts)) = .ok (mu, var) ∧ ∀ n < ts.len,
        mu.get n = postMean (noisyGram (fun i j : Fin exT.len => exposureCov (fun r => covMatern52 2 1 r + covMatern32 5 3 r)
          (.exposure (exT.get i) 2 (exI.get i)) (.exposure (exT.get j) 2 (exI.get j))) fun _ => 1/10) (fun i => y.get i)
          (fun i => exposureCov (fun r => covMatern52 2 1 r + covMatern32 5 3 r) (.time (ts.get n)) (.exposure (exT.get i) 2 (exI.get i))) := by
  have hs := ex_solver s h
  have hk := exKernel_integrates
  have hR : ∀ i < exT.len, 0 < (GP.noiseOf exT.len (some (.inl (1/10 : ℝ)))).get i := fun _ _ => by
    show (0 : ℝ) < 1 / 10
    norm_num
  obtain ⟨gp, hnew⟩ := (C45_integrated_constructor hk hs (some (.inl (1/10))) none).1
  have hgk : gp.kernel = exKernel := by
    have := (GP.new_ok hnew).1
    rw [if_neg (by decide)] at this
    exact (Except.ok.inj this).symm
  obtain ⟨⟨lp, gp'⟩, hc⟩ := (C57_integrated_condition_succeeds hk hs hnew y).2
    ⟨by show 3 ≠ 1; norm_num, by rw [hgk]; exact exKernel_names⟩
  obtain ⟨mu, var, hp, -, -, hv⟩ := C58_predict hk hs hnew ex_schedule ex_distinct (by show 0 < 3; norm_num) hR hc (.times ts)
    (fun _ _ h => by cases h) (fun _ => rfl)
  exact ⟨gp, lp, gp', mu, var, hnew, hc, hp, fun n hn => (hv n hn).1⟩

end Verif
