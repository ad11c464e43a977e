import Verif.Props.C97_Resolved

/-!
# C05 at the interface, and for kernels whose noise is cut off

Two statements beyond `C05_predict_at_data`. `C05_predict` is about the package interface, for both instantaneous solvers and with repeated
times. `C05_predict_any` needs no exactness at all: at a time observed once, `predict` returns what `condition` stored, whatever the noise
variances are and even if the process noise of an underdamped oscillator is cut off.
-/

namespace Verif
open Matrix Kern Spec

section
variable {kernel : Kern} {t : Arr ℝ} {solver : Option SolverKind} {κ : ℝ → ℝ} {diag : Option (ℝ ⊕ Arr ℝ)} {mean : Option (Coord → ℝ)}
  {u : Bool} {gp gp' : GP} {y : Arr ℝ} {lp : EReal}

/-- **C05 at the interface.** Predicting at a data time returns the mean and the variance stored by `condition`, repeated times
included. -/
theorem C05_predict (h : Regression kernel (.times t) solver κ) (hnew : GP.new kernel (.times t) diag mean solver u = .ok gp)
    (hR : ∀ i < t.len, 0 < (GP.noiseOf t.len diag).get i) (hcond : gp.condition y = .ok (lp, gp')) (ts : Arr ℝ) :
    ∃ mu var cvar, gp'.predict (some (.times ts)) = .ok (mu, var) ∧ gp'.var = some cvar ∧ ∀ m < ts.len, ∀ i < t.len, ts.get m = t.get i →
      mu.get m = gp'.mean.get i ∧ var.get m = cvar.get i := by
  obtain ⟨-, -, cvar, hv, -, hc⟩ := C61_condition h hnew hR hcond
  obtain ⟨mu, var, hp, -, -, hm⟩ := C61_predict h hnew hR hcond ts
  refine ⟨mu, var, cvar, hp, hv, fun m hm' i hi e => ?_⟩
  obtain ⟨a, b⟩ := hm m hm'
  obtain ⟨c, d⟩ := hc i hi
  have e0 : exposureCov κ ((XArg.times t).coords.get i) ((XArg.times t).coords.get i) = κ 0 := by
    show exposureCov κ (.time (t.get i)) (.time (t.get i)) = κ 0
    rw [exposureCov_times, sub_self, abs_zero]
  rw [e0] at d
  rw [e] at a b
  exact ⟨a.trans c.symm, b.trans d.symm⟩

/-- the single-point routine of `predict`, at the time of the datum `i` and of no later one, returns the smoothed state -/
theorem ssPredictPoint_at_data {n : Type} [Fintype n] [DecidableEq n] {A Q : ℝ → ℝ → Matrix n n ℝ} (P : Matrix n n ℝ) (hA : A 0 0 = 1)
    (hQ : Q 0 0 = 0) {t : Arr ℝ} (ht : Sorted t) (kf : Arr (FilterOut n)) (hkf : kf.len = t.len) {i : ℕ} (hi : i < t.len)
    (hd : ∀ j < t.len, i < j → t.get j ≠ t.get i) : ssPredictPoint A Q P t kf (rtsSmoother A t kf) (t.get i) = (rtsSmoother A t kf).get i := by
  have hs : searchsortedRight t (t.get i) = i + 1 := by
    have h1 : i < searchsortedRight t (t.get i) := (searchsorted_lt_iff ht _ hi).2 le_rfl
    by_contra hne
    have h2 : i + 1 < searchsortedRight t (t.get i) := by omega
    have h3 : i + 1 < t.len := h2.trans_le (searchsorted_le _)
    exact hd _ h3 (by omega) (le_antisymm ((searchsorted_lt_iff ht _ h3).1 h2) (ht i (i + 1) (by omega) h3))
  unfold ssPredictPoint
  simp only [hs, Nat.succ_ne_zero, if_false, Nat.add_sub_cancel]
  by_cases hl : t.len ≤ i + 1
  · have e : t.len - 1 = i := by omega
    rw [if_pos hl, e, sub_self, hA, hQ]
    have h := rts_last (A := A) (t := t) (kf := kf)
    rw [e] at h
    rw [h]
    simp [Arr.last, hkf, e]
  · rw [if_neg hl, sub_self, hA, hQ, rts_step (A := A) (t := t) (kf := kf) (k := i) (by omega)]
    simp [rtsStep]

/-- **C05 without exactness.** For every kernel built from the exported instantaneous classes, whatever the damping of its oscillators,
every data set and any noise variances: predicting at a time observed once returns what `condition` stored there. -/
theorem C05_predict_any (hk : kernel.AnyDamping) (hsol : Sequential solver) (hnew : GP.new kernel (.times t) diag mean solver u = .ok gp)
    (ht : Sorted t) (hcond : gp.condition y = .ok (lp, gp')) (ts : Arr ℝ) :
    ∃ mu var cvar, gp'.predict (some (.times ts)) = .ok (mu, var) ∧ gp'.var = some cvar ∧ ∀ m, ∀ i < t.len, ts.get m = t.get i →
      (∀ j < t.len, j ≠ i → t.get j ≠ t.get i) → mu.get m = gp'.mean.get i ∧ var.get m = cvar.get i := by
  have hkind : solver.getD (GP.chooseSolver kernel) = .stateSpace := by
    rcases hsol with rfl | rfl
    · show GP.chooseSolver kernel = _
      unfold GP.chooseSolver
      rw [hk.instantaneous]; rfl
    · rfl
  obtain ⟨-, hs0, hX0, -, -, -, -, hs', -⟩ := GP.new_ok hnew
  obtain ⟨hrun, -, -, hs, -, -, hm, hvar, -, hsol', hst, -⟩ := GP.condition_ok hcond
  have hrun' : gp'.runError = none := by
    rw [← hrun]
    unfold GP.runError
    rw [hsol', hs.transitionError]
  rw [hs', hkind] at hsol'
  have hkind' : ¬ (gp'.solver.kind = .parallel ∧ (gp'.solver.X.isTuple = true ∨ (XArg.times ts).isTuple = true)) := by
    rw [hsol']; rintro ⟨-, h | h⟩ <;> cases h
  have ho : gp'.kernel.obsError (.times ts) = none := by rw [(hs.trans hs0).obsError]; exact hk.obsError _
  unfold GP.predict
  simp only [hst, GP.predictConditioned, hrun', if_neg hkind', ho]
  refine ⟨_, _, _, rfl, hvar, fun m i hi e hd => ?_⟩
  have e1 : gp'.kernel.model.projectTest (gp'.kernel.model.states gp'.solver.kind gp'.solver.X.coords y gp'.solver.noise)
      (fun x => gp'.kernel.model.obsModel x none) (XArg.times ts).coords =
      kernel.model.predictAt (t.map .time) y (GP.noiseOf t.len diag) (ts.map .time) := by
    rw [← SSM.strip_projectTest, (hs.trans hs0).strip, SSM.strip_projectTest, hsol']
    rfl
  have e2 : gp.atData y = kernel.model.conditionedAtData (t.map .time) y (GP.noiseOf t.len diag) := by
    unfold GP.atData GP.projectAtData
    rw [← SSM.strip_projectData, hs0.strip, SSM.strip_projectData, hX0, hs', hkind]
    rfl
  have hA : kernel.model.At 0 0 = 1 := (C21_transition_composes _ hk.combos).1 _ _ rfl
  have hQ : kernel.model.Qt 0 0 = 0 := C22_noise_zero _ hk.combos _ _ rfl
  have key := ssPredictPoint_at_data kernel.model.Pinf hA hQ ht (kernel.model.kalman t y (GP.noiseOf t.len diag)) rfl hi
    (fun j hj hij => hd j hj (by omega))
  rw [e1, hm]
  show _ = ((gp.atData y).get i).1 ∧ _ = ((gp.atData y).get i).2
  rw [e2, conditionedAtData_get kernel.model (t.map .time) y _ hi]
  have key' : (kernel.model.predictAt (t.map .time) y (GP.noiseOf t.len diag) (ts.map .time)).get m =
      ((kernel.model.obsModel (.time (t.get i)) none *ᵥ ((kernel.model.condition t y (GP.noiseOf t.len diag)).2.get i).m) 0,
       (kernel.model.obsModel (.time (t.get i)) none * ((kernel.model.condition t y (GP.noiseOf t.len diag)).2.get i).P *
        (kernel.model.obsModel (.time (t.get i)) none)ᵀ) 0 0) := by
    have h := congrArg (fun s : StateMP kernel.model.n => ((kernel.model.obsModel (.time (t.get i)) none *ᵥ s.m) 0,
          (kernel.model.obsModel (.time (t.get i)) none * s.P * (kernel.model.obsModel (.time (t.get i)) none)ᵀ) 0 0)) key
    have h' : (kernel.model.predictAt (t.map .time) y (GP.noiseOf t.len diag) (ts.map .time)).get m =
        (kernel.model.predictAt (t.map .time) y (GP.noiseOf t.len diag) (t.map .time)).get i := by
      show (fun x : ℝ => ((kernel.model.obsModel (.time x) none *ᵥ (ssPredictPoint kernel.model.At kernel.model.Qt kernel.model.Pinf t
          (kernel.model.condition t y (GP.noiseOf t.len diag)).1 (kernel.model.condition t y (GP.noiseOf t.len diag)).2 x).m) 0,
        (kernel.model.obsModel (.time x) none * (ssPredictPoint kernel.model.At kernel.model.Qt kernel.model.Pinf t
          (kernel.model.condition t y (GP.noiseOf t.len diag)).1 (kernel.model.condition t y (GP.noiseOf t.len diag)).2 x).P *
          (kernel.model.obsModel (.time x) none)ᵀ) 0 0)) (ts.get m) = _
      rw [e]
      rfl
    exact h'.trans h
  exact ⟨congrArg Prod.fst key', congrArg Prod.snd key'⟩

end

section examples

/-- two observations of an underdamped oscillator 1e-5 apart: the noise between them is cut off (`C16_sho_noise_not_psd`), and still
prediction at the observed times reproduces what was stored -/
example (y ts : Arr ℝ) : ∃ gp lp gp' mu var cvar, GP.new (.sho 1 1 1 "SHO") (.times ⟨2, fun i => i * 1e-5⟩) (some (.inl 1)) = .ok gp ∧
    gp.condition y = .ok (lp, gp') ∧ gp'.predict (some (.times ts)) = .ok (mu, var) ∧ gp'.var = some cvar ∧
    (ts.get 0 = 1e-5 → mu.get 0 = gp'.mean.get 1 ∧ var.get 0 = cvar.get 1) := by
  have hk : (Kern.sho 1 1 1 "SHO").AnyDamping := .sho one_pos (by norm_num) (by unfold SHO.isCritical; norm_num) one_ne_zero
  obtain ⟨gp, hnew, hc⟩ := C97_succeeds hk (.inl (.inl rfl)) (by simp [Kern.componentNames, Kern.extractLeafKernels])
    ⟨2, fun i => i * 1e-5⟩ (some (.inl 1)) none
  obtain ⟨⟨lp, gp'⟩, hcond⟩ := hc (by decide) y
  have ht : Sorted ⟨2, fun i => i * 1e-5⟩ := fun i j hij _ => by
    have : (i : ℝ) ≤ j := by exact_mod_cast hij
    show (i : ℝ) * 1e-5 ≤ j * 1e-5
    linarith
  obtain ⟨mu, var, cvar, hp, hv, h⟩ := C05_predict_any hk (.inl rfl) hnew ht hcond ts
  refine ⟨gp, lp, gp', mu, var, cvar, hnew, hcond, hp, hv, fun e => h 0 1 (by decide) (by rw [e]; norm_num) fun j hj hne => ?_⟩
  have : j = 0 := by have : j < 2 := hj; omega
  subst this
  norm_num

/-- repeated times, both solvers -/
example (solver : Option SolverKind) (hs : Sequential solver ∨ solver = some .parallel) (y : Arr ℝ) :
    ∃ gp lp gp' mu var cvar, GP.new (.matern32 1 1 "M") (.times twoT) (some (.inl 1)) none solver = .ok gp ∧
      gp.condition y = .ok (lp, gp') ∧ gp'.predict (some (.times ⟨1, fun _ => 0⟩)) = .ok (mu, var) ∧ gp'.var = some cvar ∧
      ∀ i < 2, mu.get 0 = gp'.mean.get i ∧ var.get 0 = cvar.get i := by
  have hv : (Kern.matern32 1 1 "M").Valid := .matern32 one_pos one_ne_zero
  have hexp : ¬ Uses IsExp (Kern.matern32 1 1 "M") := ((transitionError_iff true _).1 rfl).2 rfl
  obtain ⟨κ, hκ⟩ := hv.hasCov
  have h : Regression (.matern32 1 1 "M") (.times twoT) solver κ := by
    rcases hs with hs | rfl
    · exact .sequential hv hκ hs twoT_sorted two_pos
    · exact .parallel hv hκ hexp twoT_sorted two_pos
  obtain ⟨gp, hnew, hc⟩ := C97_succeeds (.valid hv) (hs.imp id fun e => ⟨e, hexp⟩) (by simp [Kern.componentNames, Kern.extractLeafKernels])
    twoT (some (.inl 1)) none
  obtain ⟨⟨lp, gp'⟩, hcond⟩ := hc (by decide) y
  obtain ⟨mu, var, cvar, hp, hvar, e⟩ := C05_predict h hnew (fun _ _ => one_pos) hcond ⟨1, fun _ => 0⟩
  exact ⟨gp, lp, gp', mu, var, cvar, hnew, hcond, hp, hvar, fun i hi => e 0 (by decide) i hi rfl⟩

end examples
end Verif
