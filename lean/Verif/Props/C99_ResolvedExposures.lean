import Verif.Props.C61_Regression
import Verif.Lemmas.ShoLarge

/-!
# C99: exposure averages of oscillators of any damping, over resolved steps

`IntegratedSHO` with `quality > 1/2` replaces the entries of its process noise which are below `1e-14` by zero. The integrated solvers read the
process noise over the steps between neighbouring edges (starts and ends) of exposures, and from edges to test times. If no entry which is
not zero is below the cut-off over these steps, `log_probability`, `condition` and `predict` are exact regression on the exposure averages,
with both integrated solvers.
-/

namespace Verif
open Matrix Kern Spec Filter

/-- the edges of the exposures -/
def Spec.edges (X : Arr Coord) : Set ℝ :=
  {s | ∃ i < X.len, s = (X.get i).sortable - (X.get i).delta / 2 ∨ s = (X.get i).sortable + (X.get i).delta / 2}

/-- `a ≤ b` are times in `S` without another one in between -/
def Spec.Neighbours (S : Set ℝ) (a b : ℝ) : Prop := a ∈ S ∧ b ∈ S ∧ a ≤ b ∧ ∀ c ∈ S, ¬ (a < c ∧ c < b)

/-- sums of `IntegratedExp`, `IntegratedMatern32`, `IntegratedMatern52` and `IntegratedSHO` of any damping (not within the window around
`quality = 1/2` in which the code takes the critical formulas), with the covariance function of the latent process -/
inductive Kern.IntegratesAny (m : ℕ) : Kern → (ℝ → ℝ) → Prop
  | exact {k : Kern} {κ : ℝ → ℝ} (h : k.Integrates False m κ) : IntegratesAny m k κ
  | sho {omega quality sigma : ℝ} {m' : ℕ} {name : String} (hw : 0 < omega) (hq : 1 / 2 < quality) (hd : ¬ SHO.isCritical quality)
      (hσ : sigma ≠ 0) (hm : m ≤ m') :
      IntegratesAny m (.integratedSHO omega quality sigma m' name) (covSHO omega quality sigma)
  | sum {k1 k2 : Kern} {κ1 κ2 : ℝ → ℝ} (h1 : IntegratesAny m k1 κ1) (h2 : IntegratesAny m k2 κ2) :
      IntegratesAny m (.sum k1 k2) fun r => κ1 r + κ2 r

/-- no entry of the noise accumulated over a step `s` by the stochastic differential equation of an underdamped oscillator and its integrals
is below the cut-off without being zero -/
def Kern.ResolvesIntegrals (s : ℝ) : Kern → Prop
  | .integratedSHO omega quality sigma m name => ¬ SHO.NotUnderdamped quality → ∀ i j : Fin 2 ⊕ Fin (m + 1),
      let k := (Kern.integratedSHO omega quality sigma m name).model
      let e : ℝ := ∫ u in (0 : ℝ)..s, (NormedSpace.exp (u • k.F) * (k.L * k.Qc * k.Lᵀ) * (NormedSpace.exp (u • k.F))ᵀ) i j
      e = 0 ∨ 1e-14 ≤ |e|
  | .sum a b => a.ResolvesIntegrals s ∧ b.ResolvesIntegrals s
  | _ => True

/-! ### the noise over resolved steps -/

theorem IntegratedSHO.trunc_of_resolved {x : ℝ} (h : x = 0 ∨ 1e-14 ≤ |x|) : IntegratedSHO.trunc x = x := by
  unfold IntegratedSHO.trunc
  split_ifs with hx
  · rcases h with h | h
    · exact h.symm
    · linarith
  · rfl

/-- every entry of the process noise is the cut of the accumulated noise -/
theorem integratedSHO_Qt_cut {w q σ : ℝ} (m : ℕ) (name : String) (hw : 0 < w) (hq : 1 / 2 < q) (hc : ¬ SHO.isCritical q) {s : ℝ}
    (hs : 0 ≤ s) (i j : Fin 2 ⊕ Fin (m + 1)) : (integratedSHO w q σ m name).Qt 0 s i j =
      IntegratedSHO.trunc (∫ u in (0 : ℝ)..s, (NormedSpace.exp (u • (integratedSHO w q σ m name).F) *
        ((integratedSHO w q σ m name).L * (integratedSHO w q σ m name).Qc * (integratedSHO w q σ m name).Lᵀ) *
        (NormedSpace.exp (u • (integratedSHO w q σ m name).F))ᵀ) i j) := by
  have hu : ¬ SHO.isCritical q ∧ q > 0.5 := ⟨hc, by norm_num; linarith⟩
  have ok : SHO.Genuine q := Or.inr hc
  have hq0 : 0 < q := by linarith
  have key := augNoise_integral (base := sho w q σ) (0 : Fin 2) name m (transpose_one_by_one _) s i j
  refine Eq.trans ?_ (congrArg IntegratedSHO.trunc key)
  have hQ := QFromVanLoan_stationary (Leaf.sho (shoOk := SHO.Any) (sigma := σ) (name := "SHO") hw hq0 trivial).lyapunov s
  have hA : SHO.Aunder w q s = NormedSpace.exp (s • SHO.F w q) := by
    have := (Leaf.sho (sigma := σ) (name := "SHO") hw hq0 ok).transitionIsExp (.time 0) (.time s)
    have e : (sho w q σ).A (.time 0) (.time s) = SHO.Aunder w q (s - 0) := by
      show SHO.A w q _ = _
      unfold SHO.A
      rw [if_neg hc, if_pos hu.2]
      rfl
    rw [sub_zero] at e
    rw [show (Coord.time s).sortable - (Coord.time 0).sortable = s from sub_zero s] at this
    exact e.symm.trans this
  have e12 : ∀ a : Fin 2, IntegratedSHO.q12 w q σ 0 s a = IntegratedSHO.trunc (defaultQ12 (sho w q σ) (0 : Fin 2) 0 s a) := by
    intro a
    unfold IntegratedSHO.q12
    rw [if_pos hu, sub_zero, IntegratedSHO.iQ12_eq σ "SHO" hw hq]
    unfold defaultQ12
    rw [sub_zero]
  rcases i with i | i <;> rcases j with j | j
  · show SHO.Q w q σ (s - 0 - 0) i j = IntegratedSHO.trunc (QFromVanLoan (sho w q σ).F (sho w q σ).L (sho w q σ).Qc s i j)
    rw [sub_zero, sub_zero, hQ]
    unfold SHO.Q
    rw [if_neg hc, if_pos hu.2]
    have h := SHO.Qunder_eq σ hw.ne' hq s
    rw [hA] at h
    exact congrArg IntegratedSHO.trunc (congrFun₂ h i j)
  · exact e12 i
  · exact e12 j
  · show IntegratedSHO.q22 w q σ 0 s = IntegratedSHO.trunc (defaultQ22 (sho w q σ) (0 : Fin 2) 0 s)
    unfold IntegratedSHO.q22
    rw [if_pos hu, sub_zero, max_eq_left (IntegratedSHO.iQ22_nonneg hw hq hs), IntegratedSHO.iQ22_eq σ "SHO" hw hq]

theorem SHO.underdamped_of {q : ℝ} (hq : 1 / 2 < q) (hd : ¬ SHO.isCritical q) : ¬ SHO.NotUnderdamped q := by
  rintro (h | h)
  exacts [hd h, by linarith]

namespace Kern.IntegratesAny
variable {m : ℕ} {k : Kern} {κ : ℝ → ℝ}

theorem toDriven (h : k.IntegratesAny m κ) : DrivenSum SHO.Genuine m k.model κ := by
  induction h with
  | exact h => exact h.toDriven.mono fun _ h => h.1
  | sho hw hq hd hσ hm => exact .sho hw (by linarith) (Or.inr hd) hσ hm
  | sum _ _ h1 h2 => exact .sum h1 h2

theorem noise (h : k.IntegratesAny m κ) {s : ℝ} (hs : 0 ≤ s) (hr : k.ResolvesIntegrals s) : k.model.NoiseIntegralOver s := by
  induction h with
  | exact h => exact h.toSum.noise s
  | @sho w q σ m' name hw hq hd hσ hm =>
    intro i j
    exact (integratedSHO_Qt_cut m' name hw hq hd hs i j).trans (IntegratedSHO.trunc_of_resolved (hr (SHO.underdamped_of hq hd) i j))
  | sum _ _ h1 h2 => exact SSM.NoiseIntegralOver.sum_iff.2 ⟨h1 hr.1, h2 hr.2⟩

theorem hasIntegrated (h : k.IntegratesAny m κ) : HasIntegrated k := by
  induction h with
  | exact h => exact h.hasIntegrated
  | sho => exact ⟨_, List.mem_singleton.2 rfl, rfl⟩
  | sum _ _ h1 _ =>
    obtain ⟨c, hc, hi⟩ := h1
    exact ⟨c, List.mem_append_left _ hc, hi⟩

theorem noConstant (h : k.IntegratesAny m κ) : ¬ Uses IsConstant k := by
  induction h with
  | exact h => exact h.noConstant
  | sho => rintro (⟨⟨_, _, h⟩⟩ | _); cases h
  | sum _ _ h1 h2 =>
    rintro (⟨⟨_, _, h⟩⟩ | _ | h | h)
    · cases h
    · exact h1 h
    · exact h2 h

end Kern.IntegratesAny

/-! ### the steps of the solvers -/

section
variable {X : Arr Coord}

theorem edge_of_event {j : ℕ} (hj : j < 2 * X.len) : (stateCoords X).t.get j ∈ edges X := by
  have ho := obsid_lt hj
  rw [← evTime_lt hj]
  by_cases hs : (stateCoords X).stateid.get j = 0
  · exact ⟨_, ho, .inl (evTime_start ho ⟨hj, rfl, hs⟩)⟩
  · exact ⟨_, ho, .inr (evTime_end ho ⟨hj, rfl, by rw [sc_stateid] at hs ⊢; omega⟩)⟩

theorem event_of_edge {s : ℝ} (hs : s ∈ edges X) : ∃ j < 2 * X.len, s = (stateCoords X).t.get j := by
  obtain ⟨i, hi, rfl | rfl⟩ := hs
  · refine ⟨startStep X i, startStep_lt hi, ?_⟩
    rw [← evTime_lt (startStep_lt hi)]
    exact (evTime_start hi ((isStart_iff hi).2 rfl)).symm
  · refine ⟨endStep X i, endStep_lt hi, ?_⟩
    rw [← evTime_lt (endStep_lt hi)]
    exact (evTime_end hi ((isEnd_iff hi).2 rfl)).symm

theorem events_sorted {i j : ℕ} (h : i ≤ j) (hj : j < 2 * X.len) : (stateCoords X).t.get i ≤ (stateCoords X).t.get j :=
  sc_sorted _ _ h (by rw [sc_len]; exact hj)

theorem neighbours_of_events {j : ℕ} (hj : j + 1 < 2 * X.len) :
    Neighbours (edges X) ((stateCoords X).t.get j) ((stateCoords X).t.get (j + 1)) := by
  refine ⟨edge_of_event (by omega), edge_of_event hj, events_sorted (Nat.le_succ j) hj, fun c hc h => ?_⟩
  obtain ⟨l, hl, rfl⟩ := event_of_edge hc
  rcases Nat.lt_or_ge j l with h' | h'
  · exact absurd h.2 (not_lt.2 (events_sorted h' hl))
  · exact absurd h.1 (not_lt.2 (events_sorted h' (by omega)))

theorem neighbours_before {x : ℝ} (h : 0 < testPos X x) :
    Neighbours (insert x (edges X)) ((stateCoords X).t.get (testPos X x - 1)) x := by
  have hp : testPos X x ≤ 2 * X.len := testPos_le
  refine ⟨.inr (edge_of_event (by omega)), .inl rfl, testPos_before (by omega), ?_⟩
  rintro c (rfl | hc) ⟨h1, h2⟩
  · exact lt_irrefl _ h2
  · obtain ⟨l, hl, rfl⟩ := event_of_edge hc
    rcases Nat.lt_or_ge l (testPos X x) with h' | h'
    · exact absurd h1 (not_lt.2 (events_sorted (by omega) (by omega)))
    · exact absurd h2 (not_lt.2 (testPos_after h' hl))

theorem neighbours_after {x : ℝ} (h : testPos X x < 2 * X.len) :
    Neighbours (insert x (edges X)) x ((stateCoords X).t.get (testPos X x)) := by
  refine ⟨.inl rfl, .inr (edge_of_event h), testPos_after le_rfl h, ?_⟩
  rintro c (rfl | hc) ⟨h1, h2⟩
  · exact lt_irrefl _ h1
  · obtain ⟨l, hl, rfl⟩ := event_of_edge hc
    rcases Nat.lt_or_ge l (testPos X x) with h' | h'
    · exact absurd h1 (not_lt.2 (testPos_before h'))
    · exact absurd h2 (not_lt.2 (events_sorted h' hl))

end

/-! ### The interface -/

section
variable {kernel : Kern} {m : ℕ} {κ : ℝ → ℝ} {t d : Arr ℝ} {inst : Arr ℤ} {diag : Option (ℝ ⊕ Arr ℝ)} {mean : Option (Coord → ℝ)}
  {u : Bool} {solver : Option SolverKind} {gp gp' : GP} {y : Arr ℝ} {lp : EReal}

theorem integratesAny_kind {X : Arr Coord} (hk : kernel.IntegratesAny m κ) (hsol : IntegratedSolver kernel X solver) :
    solver.getD (GP.chooseSolver kernel) = .integrated ∨
      (solver.getD (GP.chooseSolver kernel) = .parallelIntegrated ∧ ParallelOk kernel X) := by
  rcases hsol with rfl | rfl | ⟨rfl, h⟩
  · left
    show GP.chooseSolver kernel = _
    unfold GP.chooseSolver
    rw [(needsIntegrated_iff kernel).2 hk.hasIntegrated]; rfl
  · exact .inl rfl
  · exact .inr ⟨rfl, h⟩

theorem integratesAny_run (hk : kernel.IntegratesAny m κ) (hsol : IntegratedSolver kernel (XArg.triple t d inst).coords solver)
    (hnew : GP.new kernel (.triple t d inst) diag mean solver u = .ok gp) : gp.runError = none := by
  obtain ⟨-, hs, -, -, -, -, -, hs', -⟩ := GP.new_ok hnew
  unfold GP.runError
  rw [hs.transitionError, transitionError_iff]
  refine ⟨hk.noConstant, fun h => ?_⟩
  rw [hs'] at h
  rcases integratesAny_kind hk hsol with e | ⟨-, h⟩
  · simp only [e] at h; cases h
  · exact h.noExp

theorem resolved_on_events (hk : kernel.IntegratesAny m κ) {X : Arr Coord}
    (hg : ∀ a b, Neighbours (edges X) a b → kernel.ResolvesIntegrals (b - a)) : kernel.model.NoiseOnEvents X := fun _ hj =>
  hk.noise (sub_nonneg.2 (neighbours_of_events hj).2.2.1) (hg _ _ (neighbours_of_events hj))

theorem resolved_around (hk : kernel.IntegratesAny m κ) {X : Arr Coord} {x : ℝ}
    (hx : ∀ a b, Neighbours (insert x (edges X)) a b → kernel.ResolvesIntegrals (b - a)) : kernel.model.NoiseAround X x :=
  ⟨fun h => hk.noise (sub_nonneg.2 (neighbours_before h).2.2.1) (hx _ _ (neighbours_before h)),
    fun h => hk.noise (sub_nonneg.2 (neighbours_after h).2.2.1) (hx _ _ (neighbours_after h))⟩

/-- **C99.** Constructing the GP and conditioning succeed (names that are distinct, not exactly one exposure). -/
theorem C99_succeeds (hk : kernel.IntegratesAny m κ) (hsol : IntegratedSolver kernel (XArg.triple t d inst).coords solver)
    (hn : kernel.componentNames.Nodup) (diag : Option (ℝ ⊕ Arr ℝ)) (mean : Option (Coord → ℝ)) :
    ∃ gp, GP.new kernel (.triple t d inst) diag mean solver true = .ok gp ∧ (t.len ≠ 1 → ∀ y, ∃ r, gp.condition y = .ok r) := by
  have hn' : kernel.assignUniqueNames = .ok kernel := if_pos hn
  obtain ⟨gp, h⟩ := GP.new_eq (u := true) diag mean (k := kernel) (X := .triple t d inst) hn' (fun _ => rfl)
    (by rcases integratesAny_kind hk hsol with e | ⟨e, -⟩ <;> rw [e] <;> rfl)
  refine ⟨gp, h, fun hl y => ?_⟩
  obtain ⟨hk', hs, hX, -, -, -, -, hs', -⟩ := GP.new_ok h
  have e : gp.kernel = kernel := by
    rw [if_pos rfl, hn'] at hk'
    exact (Except.ok.inj hk').symm
  exact GP.condition_eq (integratesAny_run hk hsol h) (k := kernel) (by rw [e]; exact hn') (fun _ => by rw [hX]; rfl)
    (by rw [hX]; exact hl) (by rw [hX]; rfl)

/-- **C99, likelihood.** -/
theorem C99_log_probability (hk : kernel.IntegratesAny m κ) (hsol : IntegratedSolver kernel (XArg.triple t d inst).coords solver)
    (hnew : GP.new kernel (.triple t d inst) diag mean solver u = .ok gp) (hX : Schedule m (XArg.triple t d inst).coords)
    (hg : ∀ a b, Neighbours (edges (XArg.triple t d inst).coords) a b → kernel.ResolvesIntegrals (b - a))
    (hy : y.len = t.len) (hR : ∀ i < t.len, 0 < (GP.noiseOf t.len diag).get i) :
    gp.logProbability y = .ok ((gaussLogDensity (obsGram κ (XArg.triple t d inst).coords (GP.noiseOf t.len diag))
      (fun i => y.get i) : ℝ) : EReal) := by
  have hrun := integratesAny_run hk hsol hnew
  have hQ := resolved_on_events hk hg
  have hg' := hk.toDriven.toSum
  obtain ⟨-, hs, -, -, -, -, -, hs', -⟩ := GP.new_ok hnew
  unfold GP.logProbability
  rw [hrun]
  simp only
  rw [logProb_of_same hs, hs']
  have main := C11_likelihood_on_events kernel.model κ m hg' _ hX hQ y (GP.noiseOf t.len diag) hy hR
  rcases integratesAny_kind hk hsol with e | ⟨e, h⟩
  · rw [e]
    exact congrArg _ main
  · rw [e]
    exact congrArg _ ((C12_parallel_likelihood kernel.model _ (SSM.NoiseOnEvents.psd hg'.ok hQ) (noise_zero_of_over hg'.ok.zero) y
      (GP.noiseOf t.len diag) hy hR (first_event_is_start _ h.nonempty h.pos)).trans main)

/-- **C99, conditioning.** -/
theorem C99_condition (hk : kernel.IntegratesAny m κ) (hsol : IntegratedSolver kernel (XArg.triple t d inst).coords solver)
    (hnew : GP.new kernel (.triple t d inst) diag mean solver u = .ok gp) (hX : Schedule m (XArg.triple t d inst).coords)
    (hd : DistinctStarts (XArg.triple t d inst).coords)
    (hg : ∀ a b, Neighbours (edges (XArg.triple t d inst).coords) a b → kernel.ResolvesIntegrals (b - a))
    (hR : ∀ i < t.len, 0 < (GP.noiseOf t.len diag).get i) (hcond : gp.condition y = .ok (lp, gp')) :
    gp.logProbability y = .ok lp ∧ gp'.mean.len = t.len ∧ ∃ var, gp'.var = some var ∧ var.len = t.len ∧ ∀ n < t.len,
      gp'.mean.get n = postMean (obsGram κ (XArg.triple t d inst).coords (GP.noiseOf t.len diag)) (fun i => y.get i)
        (obsCross κ ((XArg.triple t d inst).coords.get n) (XArg.triple t d inst).coords) ∧
      var.get n = postVar (obsGram κ (XArg.triple t d inst).coords (GP.noiseOf t.len diag))
        (exposureCov κ ((XArg.triple t d inst).coords.get n) ((XArg.triple t d inst).coords.get n))
        (obsCross κ ((XArg.triple t d inst).coords.get n) (XArg.triple t d inst).coords) := by
  have hQ := resolved_on_events hk hg
  have hdr := hk.toDriven
  obtain ⟨-, hs, hX', -, -, -, -, hs', -⟩ := GP.new_ok hnew
  obtain ⟨hrun, hlp, -, -, -, -, hm, hvar, -⟩ := GP.condition_ok hcond
  refine ⟨?_, ?_, _, hvar, ?_, fun n hn => ?_⟩
  · unfold GP.logProbability
    rw [hrun, hlp]
  · rw [hm]; show gp.X.coords.len = _; rw [hX']; rfl
  · show gp.X.coords.len = _; rw [hX']; rfl
  · rw [hm]
    have main := C56_conditioned_partial kernel.model κ m hdr _ hX hd hQ y (GP.noiseOf t.len diag) hR n hn
    rcases integratesAny_kind hk hsol with e0 | ⟨e0, h⟩
    · have e : gp.atData y = kernel.model.integratedConditionedAtData (XArg.triple t d inst).coords y (GP.noiseOf t.len diag) := by
        unfold GP.atData GP.projectAtData
        rw [← SSM.strip_projectData, hs.strip, SSM.strip_projectData, hX', hs', e0]
        rfl
      rw [e]
      exact ⟨congrArg Prod.fst main, congrArg Prod.snd main⟩
    · have e : gp.atData y = kernel.model.parallelIntegratedConditionedAtData (XArg.triple t d inst).coords y (GP.noiseOf t.len diag) := by
        unfold GP.atData GP.projectAtData
        rw [← SSM.strip_projectData, hs.strip, SSM.strip_projectData, hX', hs', e0]
        rfl
      rw [e]
      have h' := C12_parallel_conditioned kernel.model _ (SSM.NoiseOnEvents.psd hdr.toSum.ok hQ) (noise_zero_of_over hdr.toSum.ok.zero) y
        (GP.noiseOf t.len diag) hR (first_event_is_start _ h.nonempty hd.pos)
        (fun j hj => pd_det (C56_systems_posdef kernel.model κ m hdr _ hX hd hQ y _ hR (j + 1) hj))
      have main' := (h'.2 n hn).trans main
      exact ⟨congrArg Prod.fst main', congrArg Prod.snd main'⟩

/-- **C99, prediction** of the latent process: the steps that matter are those between neighbours among the edges and the test time. -/
theorem C99_predict (hk : kernel.IntegratesAny m κ) (hsol : IntegratedSolver kernel (XArg.triple t d inst).coords solver)
    (hnew : GP.new kernel (.triple t d inst) diag mean solver u = .ok gp) (hX : Schedule m (XArg.triple t d inst).coords)
    (hd : DistinctStarts (XArg.triple t d inst).coords) (hN : 0 < t.len)
    (hg : ∀ a b, Neighbours (edges (XArg.triple t d inst).coords) a b → kernel.ResolvesIntegrals (b - a))
    (hR : ∀ i < t.len, 0 < (GP.noiseOf t.len diag).get i) (hcond : gp.condition y = .ok (lp, gp')) (ts : Arr ℝ) :
    ∃ mu var, gp'.predict (some (.times ts)) = .ok (mu, var) ∧ mu.len = ts.len ∧ var.len = ts.len ∧ ∀ n < ts.len,
      (∀ a b, Neighbours (insert (ts.get n) (edges (XArg.triple t d inst).coords)) a b → kernel.ResolvesIntegrals (b - a)) →
      mu.get n = postMean (obsGram κ (XArg.triple t d inst).coords (GP.noiseOf t.len diag)) (fun i => y.get i)
        (obsCross κ (.time (ts.get n)) (XArg.triple t d inst).coords) ∧
      var.get n = postVar (obsGram κ (XArg.triple t d inst).coords (GP.noiseOf t.len diag)) (κ 0)
        (obsCross κ (.time (ts.get n)) (XArg.triple t d inst).coords) := by
  have hQ := resolved_on_events hk hg
  have hdr := hk.toDriven
  obtain ⟨-, hs0, -, -, -, -, -, hs', -⟩ := GP.new_ok hnew
  obtain ⟨hrun, -, -, hs, -, -, -, -, -, hsol', hst, -⟩ := GP.condition_ok hcond
  have hrun' : gp'.runError = none := by
    rw [← hrun]
    unfold GP.runError
    rw [hsol', hs.transitionError]
  rw [hs'] at hsol'
  have hkind' : ¬ (gp'.solver.kind = .parallel ∧ (gp'.solver.X.isTuple = true ∨ (XArg.times ts).isTuple = true)) := by
    rw [hsol']; rintro ⟨h, -⟩
    rcases integratesAny_kind hk hsol with e0 | ⟨e0, -⟩ <;> simp only [e0] at h <;> cases h
  have ho : gp'.kernel.obsError (.times ts) = none := rfl
  unfold GP.predict
  simp only [hst, GP.predictConditioned, hrun', if_neg hkind', ho]
  refine ⟨_, _, rfl, rfl, rfl, fun n hn hx => ?_⟩
  have hP := fun j hj => pd_det (C56_systems_posdef kernel.model κ m hdr _ hX hd hQ y (GP.noiseOf t.len diag) hR j hj)
  have main := C58_prediction_exact kernel.model κ m hdr.toSum _ hX hN hQ y (GP.noiseOf t.len diag) hR hP
    (last_event_is_end _ hN hd.pos) (XArg.times ts).coords n rfl (resolved_around hk hx)
  rcases integratesAny_kind hk hsol with e0 | ⟨e0, h⟩
  · have e : gp'.kernel.model.projectTest (gp'.kernel.model.states gp'.solver.kind gp'.solver.X.coords y gp'.solver.noise)
        (fun x => gp'.kernel.model.obsModel x none) (XArg.times ts).coords =
        kernel.model.integratedPredictAt (XArg.triple t d inst).coords y (GP.noiseOf t.len diag) (XArg.times ts).coords := by
      rw [← SSM.strip_projectTest, (hs.trans hs0).strip, SSM.strip_projectTest, hsol', e0]
      rfl
    rw [e]
    exact ⟨congrArg Prod.fst main, congrArg Prod.snd main⟩
  · have e : gp'.kernel.model.projectTest (gp'.kernel.model.states gp'.solver.kind gp'.solver.X.coords y gp'.solver.noise)
        (fun x => gp'.kernel.model.obsModel x none) (XArg.times ts).coords =
        kernel.model.parallelIntegratedPredictAt (XArg.triple t d inst).coords y (GP.noiseOf t.len diag) (XArg.times ts).coords := by
      rw [← SSM.strip_projectTest, (hs.trans hs0).strip, SSM.strip_projectTest, hsol', e0]
      rfl
    rw [e]
    have hp := (C12_parallel_predict kernel.model (XArg.triple t d inst).coords hN (SSM.NoiseOnEvents.psd hdr.toSum.ok hQ)
      (noise_zero_of_over hdr.toSum.ok.zero) y (GP.noiseOf t.len diag) hR (first_event_is_start _ hN hd.pos)
      (fun j hj => hP (j + 1) hj) (XArg.times ts).coords).2 n (by rw [parallelIntegratedPredictAt_len]; exact hn)
    rw [main] at hp
    exact ⟨congrArg Prod.fst hp, congrArg Prod.snd hp⟩

end

/-! ### A case -/

theorem edges_finite (X : Arr Coord) : (edges X).Finite := by
  refine (((Finset.range X.len).image fun i => (X.get i).sortable - (X.get i).delta / 2) ∪
    ((Finset.range X.len).image fun i => (X.get i).sortable + (X.get i).delta / 2)).finite_toSet.subset ?_
  rintro s ⟨i, hi, rfl | rfl⟩
  · exact Finset.mem_union_left _ (Finset.mem_image_of_mem _ (Finset.mem_range.2 hi))
  · exact Finset.mem_union_right _ (Finset.mem_image_of_mem _ (Finset.mem_range.2 hi))

theorem scale_noise {n : Type} [Fintype n] [DecidableEq n] (F : Matrix n n ℝ) (L : Matrix n (Fin 1) ℝ) (w q : ℝ) {s : ℝ} (i j : n) (σ : ℝ) :
    (∫ u in (0 : ℝ)..s, (NormedSpace.exp (u • F) * (L * (!![2 * w ^ 3 * σ ^ 2 / q] : Matrix (Fin 1) (Fin 1) ℝ) * Lᵀ) *
      (NormedSpace.exp (u • F))ᵀ) i j) = σ ^ 2 * ∫ u in (0 : ℝ)..s, (NormedSpace.exp (u • F) *
      (L * (!![2 * w ^ 3 * 1 ^ 2 / q] : Matrix (Fin 1) (Fin 1) ℝ) * Lᵀ) * (NormedSpace.exp (u • F))ᵀ) i j := by
  rw [← intervalIntegral.integral_const_mul]
  refine intervalIntegral.integral_congr fun u _ => ?_
  have hq : (!![2 * w ^ 3 * σ ^ 2 / q] : Matrix (Fin 1) (Fin 1) ℝ) = σ ^ 2 • !![2 * w ^ 3 * 1 ^ 2 / q] := by
    rw [Matrix.smul_of]
    ext a b
    fin_cases a; fin_cases b
    show 2 * w ^ 3 * σ ^ 2 / q = σ ^ 2 * (2 * w ^ 3 * 1 ^ 2 / q)
    ring
  simp only [hq, Matrix.mul_smul, Matrix.smul_mul, Matrix.smul_apply, smul_eq_mul]

/-- over each step, an oscillator of sufficiently large amplitude is resolved -/
theorem resolves_eventually {w q : ℝ} (m : ℕ) (name : String) {s : ℝ} :
    ∀ᶠ σ : ℝ in atTop, (Kern.integratedSHO w q σ m name).ResolvesIntegrals s := by
  set F : Matrix (Fin 2 ⊕ Fin (m + 1)) (Fin 2 ⊕ Fin (m + 1)) ℝ :=
    Matrix.fromBlocks (SHO.F w q) 0 (Matrix.of fun _ j => if j = 0 then 1 else 0) 0 with hF
  set L : Matrix (Fin 2 ⊕ Fin (m + 1)) (Fin 1) ℝ := Matrix.fromRows !![0; 1] 0 with hL
  have h : ∀ᶠ σ : ℝ in atTop, ∀ i j : Fin 2 ⊕ Fin (m + 1),
      (∫ u in (0 : ℝ)..s, (NormedSpace.exp (u • F) * (L * (!![2 * w ^ 3 * σ ^ 2 / q] : Matrix (Fin 1) (Fin 1) ℝ) * Lᵀ) *
        (NormedSpace.exp (u • F))ᵀ) i j) = 0 ∨
      1e-14 ≤ |∫ u in (0 : ℝ)..s, (NormedSpace.exp (u • F) * (L * (!![2 * w ^ 3 * σ ^ 2 / q] : Matrix (Fin 1) (Fin 1) ℝ) * Lᵀ) *
        (NormedSpace.exp (u • F))ᵀ) i j| := by
    rw [eventually_all]; intro i; rw [eventually_all]; intro j
    filter_upwards [trunc_eventually (∫ u in (0 : ℝ)..s, (NormedSpace.exp (u • F) *
      (L * (!![2 * w ^ 3 * 1 ^ 2 / q] : Matrix (Fin 1) (Fin 1) ℝ) * Lᵀ) * (NormedSpace.exp (u • F))ᵀ) i j)] with σ hσ
    rw [← scale_noise F L w q i j σ] at hσ
    split_ifs at hσ with h
    · exact .inl hσ.symm
    · exact .inr (not_lt.1 h)
  filter_upwards [h] with σ hσ _ i j
  exact hσ i j

/-- at finitely many times, likewise over all the steps -/
theorem resolves_all_eventually {w q : ℝ} (m : ℕ) (name : String) {S : Set ℝ} (hS : S.Finite) :
    ∀ᶠ σ : ℝ in atTop, ∀ a b, Neighbours S a b → (Kern.integratedSHO w q σ m name).ResolvesIntegrals (b - a) := by
  have h : ∀ᶠ σ : ℝ in atTop, ∀ p ∈ S ×ˢ S, (Kern.integratedSHO w q σ m name).ResolvesIntegrals (p.2 - p.1) :=
    (Filter.eventually_all_finite (hS.prod hS)).2 fun p _ => resolves_eventually m name
  filter_upwards [h] with σ hσ a b hab
  exact hσ (a, b) ⟨hab.1, hab.2.1⟩

/-- an oscillator of quality 3 and a Matérn kernel, three overlapping exposures on two instruments: if the oscillation is large, with
the default, the sequential and the parallel solver the likelihood, the conditioned values and predictions at given times are exact -/
example (s : Option SolverKind) (hs : s = none ∨ s = some .integrated ∨ s = some .parallelIntegrated) (y ts : Arr ℝ) (hy : y.len = 3) :
    ∃ σ : ℝ, ∃ gp lp gp' mu var, GP.new (.sum (.integratedSHO 1 3 σ 1 "osc") (.integratedMatern32 5 3 4 "slow")) (.triple exT exD exI)
        (some (.inl (1 / 10))) none s true = .ok gp ∧ gp.condition y = .ok (lp, gp') ∧ gp'.predict (some (.times ts)) = .ok (mu, var) ∧
      lp = ((gaussLogDensity (obsGram (fun r => covSHO 1 3 σ r + covMatern32 5 3 r) (XArg.triple exT exD exI).coords
        (GP.noiseOf 3 (some (.inl (1 / 10))))) (fun i : Fin 3 => y.get i) : ℝ) : EReal) ∧ ∀ n < ts.len,
      mu.get n = postMean (obsGram (fun r => covSHO 1 3 σ r + covMatern32 5 3 r) (XArg.triple exT exD exI).coords
          (GP.noiseOf 3 (some (.inl (1 / 10))))) (fun i : Fin 3 => y.get i)
        (obsCross (fun r => covSHO 1 3 σ r + covMatern32 5 3 r) (.time (ts.get n)) (XArg.triple exT exD exI).coords) := by
  have hc : ¬ SHO.isCritical 3 := by unfold SHO.isCritical; norm_num [abs_of_pos]
  have h1 := resolves_all_eventually (w := 1) (q := 3) 1 "osc" (edges_finite (XArg.triple exT exD exI).coords)
  have h2 : ∀ᶠ σ : ℝ in atTop, ∀ n ∈ Set.Iio ts.len, ∀ a b, Neighbours (insert (ts.get n) (edges (XArg.triple exT exD exI).coords)) a b →
      (Kern.integratedSHO 1 3 σ 1 "osc").ResolvesIntegrals (b - a) :=
    (Filter.eventually_all_finite (Set.finite_Iio _)).2 fun n _ =>
      resolves_all_eventually 1 "osc" ((edges_finite _).insert (ts.get n))
  obtain ⟨σ, ⟨g1, g2⟩, hσ⟩ := ((h1.and h2).and (Filter.eventually_gt_atTop 0)).exists
  have hk : (Kern.sum (.integratedSHO 1 3 σ 1 "osc") (.integratedMatern32 5 3 4 "slow")).IntegratesAny 1 _ :=
    .sum (.sho one_pos (by norm_num) hc hσ.ne' le_rfl) (.exact (.matern32 (by norm_num) (by norm_num) (by norm_num)))
  have hsol : IntegratedSolver (Kern.sum (.integratedSHO 1 3 σ 1 "osc") (.integratedMatern32 5 3 4 "slow"))
      (XArg.triple exT exD exI).coords s := by
    rcases hs with h | h | h
    · exact .inl h
    · exact .inr (.inl h)
    · exact .inr (.inr ⟨h, ((transitionError_iff true _).1 rfl).2 rfl, by show 0 < 3; norm_num, fun n _ => by rw [ex_get]; exact two_pos⟩)
  have hR : ∀ i < exT.len, 0 < (GP.noiseOf exT.len (some (.inl (1/10 : ℝ)))).get i := fun _ _ => by
    show (0 : ℝ) < 1 / 10
    norm_num
  have hg : ∀ a b, Neighbours (edges (XArg.triple exT exD exI).coords) a b →
      (Kern.sum (.integratedSHO 1 3 σ 1 "osc") (.integratedMatern32 5 3 4 "slow")).ResolvesIntegrals (b - a) := fun a b h =>
    ⟨g1 a b h, trivial⟩
  obtain ⟨gp, hnew, hcond⟩ := C99_succeeds (t := exT) (d := exD) (inst := exI) hk hsol
    (show ["osc", "slow"].Nodup by decide) (some (.inl (1/10))) none
  obtain ⟨⟨lp, gp'⟩, hcd⟩ := hcond (by decide) y
  obtain ⟨mu, var, hp, -, -, hv⟩ := C99_predict hk hsol hnew ex_schedule ex_distinct (by decide) hg hR hcd ts
  have hl := C99_log_probability hk hsol hnew ex_schedule hg hy hR
  have hl' := (C99_condition hk hsol hnew ex_schedule ex_distinct hg hR hcd).1
  rw [hl] at hl'
  exact ⟨σ, gp, lp, gp', mu, var, hnew, hcd, hp, (Except.ok.inj hl').symm, fun n hn => (hv n hn fun a b h => ⟨g2 n hn a b h, trivial⟩).1⟩

end Verif
