import Verif.Model.Innovations
import Verif.Lemmas.Innovate
import Verif.Props.C75_OneMore
import Verif.Props.C77_Probability
import Verif.Props.C69_Limits

/-!
# C89: the innovations of the filter

`solver.Kalman(y, return_v_S=True)` returns `v` and `S`. They are the errors of predicting each measurement from those before it (in the order
of the exposure ends) and the variances of these errors. For measurements which do come from the model, the standardised innovations
`v / sqrt(S)` are independent standard normal variables, so that users can test whether a model describes the data.
-/

namespace Verif
open MeasureTheory ProbabilityTheory Matrix Kern Spec Filter
open scoped ENNReal NNReal

/-! ## Independence of the errors of prediction -/

/-- errors of predicting jointly normal variables one after the other are independent -/
theorem gaussian_innovations {Ω : Type*} [MeasurableSpace Ω] {P : Measure Ω} {N : ℕ} {Y : Fin N → Ω → ℝ} {K : Matrix (Fin N) (Fin N) ℝ}
    (hY : HasGaussianLaw (fun ω i => Y i ω) P) (h0 : ∀ i, P[Y i] = 0) (hc : ∀ i j, cov[Y i, Y j; P] = K i j) (hK : K.PosDef)
    {V : Fin N → Ω → ℝ} (hV : ∀ i, V i = fun ω => Y i ω - postMean (K.submatrix (before i) (before i)) (fun j => Y (before i j) ω)
      fun j => K i (before i j)) :
    iIndepFun V P ∧ ∀ i, P.map (V i) = gaussianReal 0 (postVar (K.submatrix (before i) (before i)) (K i i) fun j => K i (before i j)).toNNReal := by
  have hP := hY.isProbabilityMeasure
  have hB : ∀ i, (K.submatrix (before i) (before i)).PosDef := fun i => hK.submatrix (before_inj i)
  have hres : ∀ i, IndepFun (V i) (fun ω (j : Fin i) => Y (before i j) ω) P ∧
      P.map (V i) = gaussianReal 0 (postVar (K.submatrix (before i) (before i)) (K i i) fun j => K i (before i j)).toNNReal := by
    intro i
    set L : (Fin N → ℝ) →ₗ[ℝ] ℝ × (Fin i → ℝ) := LinearMap.prod (LinearMap.proj i) (LinearMap.pi fun j => LinearMap.proj (before i j)) with hL
    have hj : HasGaussianLaw (fun ω => (Y i ω, fun j : Fin i => Y (before i j) ω)) P := hY.map_fun (LinearMap.toContinuousLinearMap L)
    have hv : Var[Y i; P] = K i i := by rw [← hc, covariance_self (hY.eval i).aemeasurable]
    have r := gaussian_residual hj (h0 i) (fun j => h0 (before i j)) (fun j l => hc _ _) (fun j => hc _ _) hv (hB i)
    rw [hV]
    exact ⟨r.1, r.2.1⟩
  have hBs : ∀ i, (K.submatrix (before i) (before i)).IsSymm := fun i => by
    have := (hB i).isHermitian
    rwa [IsHermitian, conjTranspose_eq_transpose_of_trivial] at this
  have hVw : ∀ i, V i = fun ω => Y i ω - ((K.submatrix (before i) (before i))⁻¹ *ᵥ fun j => K i (before i j)) ⬝ᵥ fun j => Y (before i j) ω := by
    intro i
    rw [hV]
    funext ω
    rw [postMean_eq_weights (hBs i)]
  have hVG : HasGaussianLaw (fun ω i => V i ω) P := by
    set L : (Fin N → ℝ) →ₗ[ℝ] (Fin N → ℝ) :=
      { toFun := fun z i => z i - ((K.submatrix (before i) (before i))⁻¹ *ᵥ fun j => K i (before i j)) ⬝ᵥ fun j => z (before i j)
        map_add' := fun z z' => by
          funext i
          simp only [Pi.add_apply]
          rw [show (fun j : Fin i => z (before i j) + z' (before i j)) = (fun j => z (before i j)) + fun j => z' (before i j) from rfl,
            dotProduct_add]
          ring
        map_smul' := fun a z => by
          funext i
          simp only [Pi.smul_apply, smul_eq_mul, RingHom.id_apply]
          rw [show (fun j : Fin i => a * z (before i j)) = a • fun j => z (before i j) from rfl, dotProduct_smul, smul_eq_mul]
          ring } with hL
    refine (hY.map_fun (LinearMap.toContinuousLinearMap L)).congr (Eventually.of_forall fun ω => ?_)
    funext i
    exact (congrFun (hVw i) ω).symm
  have hlt : ∀ i j : Fin N, j < i → cov[V i, V j; P] = 0 := by
    intro i j hij
    have hcomp : IndepFun (V i) (V j) P := by
      have hf : V j = (fun z : Fin i → ℝ => z ⟨j, hij⟩ - postMean (K.submatrix (before j) (before j))
          (fun l => z ⟨l, l.2.trans hij⟩) fun l => K j (before j l)) ∘ fun ω (l : Fin i) => Y (before i l) ω := by
        rw [hV]
        rfl
      rw [hf]
      refine (hres i).1.comp measurable_id ?_
      refine (measurable_pi_apply _).sub ((measurable_postMean _ _).comp ?_)
      exact measurable_pi_lambda _ fun l => measurable_pi_apply _
    exact IndepFun.covariance_eq_zero hcomp (hVG.eval i).memLp_two (hVG.eval j).memLp_two
  refine ⟨hVG.iIndepFun_of_covariance_eq_zero fun i j hij => ?_, fun i => (hres i).2⟩
  rcases lt_or_gt_of_ne hij with h | h
  · rw [covariance_comm]
    exact hlt j i h
  · exact hlt i j h

/-! ## What the filters return -/

theorem oneStepAhead_kalman {k : SSM} (hk : k.Regular) {X : Arr Coord} {R : Arr ℝ} (hX : Sorted (X.map Coord.sortable))
    (hR : ∀ i < X.len, 0 < R.get i) (hK : (dataGram k X R).PosDef) (y : Arr ℝ) :
    OneStepAhead (dataGram k X R) (Equiv.refl _) (fun i => y.get i) (fun i => ((k.kalman (X.map Coord.sortable) y R).get i).v 0)
      fun i => ((k.kalman (X.map Coord.sortable) y R).get i).S 0 0 := by
  refine Run.oneStep (ob := fun k => k) (kf := fun f => (k.kalman (X.map Coord.sortable) ⟨X.len, f⟩ R).get)
    (fun f => kf_run k.At k.Qt k.Ht R (X.map Coord.sortable) ⟨X.len, f⟩ k.Pinf) (e := fun i => i) (fun i j h => h) (fun _ => rfl)
    (fun _ => rfl) (fun i k hk _ => ⟨⟨k, hk.trans i.2⟩, rfl⟩) hK (fun i => ?_) (fun f => ?_) y.get
  · exact (hk.S_pos hX (by have := i.2; omega) hR i.2).ne'
  · rcases Nat.eq_zero_or_pos X.len with h0 | hN
    · have : IsEmpty (Fin X.len) := by rw [h0]; infer_instance
      simp
    · exact (hk.gram_det (y := ⟨X.len, f⟩) hX hN fun i hi => (hk.S_pos hX hN hR hi).ne').2

/-- the order in which exposures end -/
noncomputable def endOrder (X : Arr Coord) : Fin X.len ≃ Fin X.len := Equiv.ofBijective _ (endPos_bij (X := X))

theorem endOrder_mono (X : Arr Coord) {i j : Fin X.len} (h : i ≤ j) : (X.get (endOrder X i)).stop ≤ (X.get (endOrder X j)).stop := by
  have e : ∀ i : Fin X.len, (X.get (endOrder X i)).stop = (stateCoords X).t.get ((endsIdx (stateCoords X) X.len).get i) := fun i => by
    rw [sc_t, ← endPos_spec, ev_endStep (endPos X i).2, eventTimes_stop]
    rfl
  rw [e, e]
  rcases h.lt_or_eq with h | h
  · exact sc_sorted _ _ (endsIdx_lt_iff h j.2).le (by rw [sc_len]; exact (endsIdx_spec j.2).1)
  · rw [h]

theorem oneStepAhead_integrated {k : SSM} {X : Arr Coord} (hk : k.PsdModel X) {R : Arr ℝ} (hR : ∀ i < X.len, 0 < R.get i)
    (hK : (augmentedGram k X R (endStep X)).PosDef) (y : Arr ℝ) :
    OneStepAhead (augmentedGram k X R (endStep X)) (endOrder X) (fun i => y.get i)
      (fun i => ((k.integratedKalman X y R).get ((endsIdx (stateCoords X) X.len).get i)).v 0)
      fun i => ((k.integratedKalman X y R).get ((endsIdx (stateCoords X) X.len).get i)).S 0 0 := by
  have he : ∀ n < X.len, IsEnd X n (endStep X n) := fun n hn => (isEnd_iff hn).2 rfl
  have hpos : ∀ i : Fin X.len, (endsIdx (stateCoords X) X.len).get i = endStep X (endPos X i) := fun i => (endPos_spec i).symm
  refine Run.oneStep (ob := fun k => (stateCoords X).obsid.get k) (kf := fun f => (k.integratedKalman X ⟨X.len, f⟩ R).get)
    (fun f => ikf_run k.At k.Qt (X.map fun x => k.obsModel x none) k.reset R ⟨X.len, f⟩ (stateCoords X) k.Pinf)
    (e := fun i => (endsIdx (stateCoords X) X.len).get i) (fun i j h => endsIdx_lt_iff h j.2) (fun i => ?_) (fun i => ?_) (fun i l hl hz => ?_) hK
    (fun i => ?_) (fun f => ?_) y.get
  · refine (stateCoords X).resetAt_end k.reset ?_
    rw [sc_stateid, (endsIdx_spec i.2).2]
    omega
  · rfl
  · have hl2 : l < 2 * X.len := hl.trans (endsIdx_spec i.2).1
    have h1 : ev X l % 2 = 1 := by
      by_contra h
      have h0 : (stateCoords X).stateid.get l = 0 := by rw [sc_stateid]; omega
      rw [(stateCoords X).resetAt_start k.reset h0] at hz
      cases hz
    have hn : ev X l / 2 < X.len := by have := ev_lt hl2; omega
    obtain ⟨j, hj⟩ := (endPos_bij (X := X)).2 ⟨ev X l / 2, hn⟩
    refine ⟨j, ?_⟩
    rw [hpos, hj]
    exact (endStep_unique hn hl2 (by omega)).symm
  · rw [hpos]
    exact (hk.S_pos hR (endPos X i).2 (he _ (endPos X i).2)).ne'
  · have hN : 0 < X.len ∨ X.len = 0 := by omega
    rcases hN with hN | h0
    · refine (integrated_gram (y := ⟨X.len, f⟩) hk.symm he hN fun n hn => (hk.S_pos hR hn (he n hn)).ne').2.trans ?_
      refine Eq.trans ((endOrder X).sum_comp fun i : Fin X.len => ((k.integratedKalman X ⟨X.len, f⟩ R).get (endStep X i)).v 0 ^ 2 /
        ((k.integratedKalman X ⟨X.len, f⟩ R).get (endStep X i)).S 0 0).symm ?_
      refine Finset.sum_congr rfl fun i _ => ?_
      rw [hpos]
      rfl
    · have : IsEmpty (Fin X.len) := by rw [h0]; infer_instance
      simp

theorem postVar_before_pos {N : ℕ} {K : Matrix (Fin N) (Fin N) ℝ} (hK : K.PosDef) (i : Fin N) :
    0 < postVar (K.submatrix (before i) (before i)) (K i i) fun j => K i (before i j) := by
  have hinj : Function.Injective fun a : Option (Fin i) => a.elim i (before i) := by
    rintro (_ | a) (_ | b) hab
    · rfl
    · exact absurd hab (before_lt i b).ne'
    · exact absurd hab (before_lt i a).ne
    · exact congrArg some (before_inj i hab)
  have hone : OneMore (some : Fin i → Option (Fin i)) none :=
    ⟨Option.some_injective _, by simp, fun q hq => by cases q with | none => exact absurd rfl hq | some a => exact ⟨a, rfl⟩⟩
  exact hone.innovVar_pos (hK.submatrix hinj)

theorem Spec.OneStepAhead.variance_pos {N : ℕ} {K : Matrix (Fin N) (Fin N) ℝ} {o : Fin N ≃ Fin N} {y v S : Fin N → ℝ} (h : OneStepAhead K o y v S)
    (hK : K.PosDef) (i : Fin N) : 0 < S i := by
  rw [h.variance]
  exact postVar_before_pos (hK.submatrix o.injective) i

theorem normalLogDensity_cholesky {S : ℝ} (hS : 0 < S) (v : ℝ) :
    -(1 / 2) * ((v / √S) ^ 2 + 2 * Real.log (√S) + 1 * Real.log (2 * Real.pi)) = normalLogDensity S v := by
  rw [normalLogDensity_eq hS, div_pow, Real.sq_sqrt hS.le, Real.log_sqrt hS.le, Real.log_mul (by positivity) hS.ne']
  ring

/-- `log_probability` uses the innovations (`gp.py:442-443`) -/
theorem SSM.logProb_eq (k : SSM) (kind : SolverKind) (X : Arr Coord) (y R : Arr ℝ) :
    k.logProb kind X y R = computeLogProb ((k.innovations kind X y R).map fun p _ => p.1) ((k.innovations kind X y R).map fun p => Matrix.of fun _ _ => p.2) := by
  have hv : ∀ v : Fin 1 → ℝ, (fun _ => v 0) = v := fun v => funext fun i => by rw [Subsingleton.elim i 0]
  have hS : ∀ S : Matrix (Fin 1) (Fin 1) ℝ, (Matrix.of fun _ _ => S 0 0) = S := fun S => by
    ext i j
    rw [Subsingleton.elim i 0, Subsingleton.elim j 0]
    rfl
  cases kind <;> simp only [SSM.logProb, SSM.innovations, SSM.logProbability, SSM.parallelLogProbability, SSM.integratedLogProbability,
    SSM.parallelIntegratedLogProbability, Arr.map, Arr.take, hv, hS]

/-! ## The property -/

section
variable {kernel : Kern} {X : XArg} {solver : Option SolverKind} {κ : ℝ → ℝ} {diag : Option (ℝ ⊕ Arr ℝ)} {mean : Option (Coord → ℝ)}
  {u : Bool} {gp : GP} {y : Arr ℝ}

theorem SSM.strip_innovations (k : SSM) (kind : SolverKind) (X : Arr Coord) (y R : Arr ℝ) :
    k.strip.innovations kind X y R = k.innovations kind X y R := by
  cases kind <;> rfl

theorem innovations_of_same {k k' : Kern} (h : k.SameButNames k') (kind : SolverKind) (X : Arr Coord) (y R : Arr ℝ) :
    k.model.innovations kind X y R = k'.model.innovations kind X y R := by
  rw [← SSM.strip_innovations, h.strip, SSM.strip_innovations]

theorem innovations_eq (hnew : GP.new kernel X diag mean solver u = .ok gp) (hrun : gp.runError = none) (y : Arr ℝ) :
    gp.innovations y = .ok (kernel.model.innovations (solver.getD (GP.chooseSolver kernel)) X.coords y (GP.noiseOf X.coords.len diag)) := by
  obtain ⟨-, hs, -, -, -, -, -, hs', -⟩ := GP.new_ok hnew
  unfold GP.innovations
  rw [hrun]
  simp only
  rw [innovations_of_same hs, hs']
  cases X <;> rfl

/-- **C89, meaning.** `v` and `S` returned by `Kalman` of any solver are the errors of predicting the measurements one after the other, each from
those before it, and the variances of these errors. The order is that of the data, for exposures that in which they end. -/
theorem C89_one_step (h : Regression kernel X solver κ) (hnew : GP.new kernel X diag mean solver u = .ok gp)
    (hR : ∀ i < X.coords.len, 0 < (GP.noiseOf X.coords.len diag).get i) :
    ∃ o : Fin X.coords.len ≃ Fin X.coords.len,
      (∀ i j, i ≤ j → (X.coords.get (o i)).stop ≤ (X.coords.get (o j)).stop) ∧ (∀ t, X = .times t → o = Equiv.refl _) ∧
      ∀ y : Arr ℝ, y.len = X.coords.len → ∃ r, gp.innovations y = .ok r ∧ r.len = X.coords.len ∧
        OneStepAhead (obsGram κ X.coords (GP.noiseOf X.coords.len diag)) o (fun i => y.get i) (fun i => (r.get i).1) fun i => (r.get i).2 := by
  have hK := h.gram_pd hR
  cases h with
  | sequential hv hκ hsol ht hN =>
    rename_i t
    refine ⟨Equiv.refl _, fun i j hij => ?_, fun _ _ => rfl, fun y hy => ⟨_, innovations_eq hnew (gp_run hv hsol hnew) y, ?_⟩⟩
    · show t.get i + 0 / 2 ≤ t.get j + 0 / 2
      have := ht i j hij j.2
      linarith
    · rw [sequential_kind hv hsol]
      refine ⟨rfl, ?_⟩
      have e := dataGram_eq_obsGram (R := GP.noiseOf (XArg.times t).coords.len diag) hκ t
      rw [← e]
      rw [← e] at hK
      exact oneStepAhead_kalman hv.builtIn.regular (X := t.map .time) ht hR hK y
  | parallel hv hκ hexp ht hN =>
    rename_i t
    refine ⟨Equiv.refl _, fun i j hij => ?_, fun _ _ => rfl, fun y hy => ⟨_, innovations_eq hnew (parallel_run hv hexp hnew) y, ?_⟩⟩
    · show t.get i + 0 / 2 ≤ t.get j + 0 / 2
      have := ht i j hij j.2
      linarith
    · have hreg := hv.builtIn.regular
      obtain ⟨hl, he⟩ := C06_parallel_filter kernel.model hreg.toProper (t.map .time) y (GP.noiseOf (XArg.times t).coords.len diag) ht hN
        (hreg.toProper.freshOk ht hN hR)
      have hl' : (kernel.model.parallelKalman (t.map .time) y (GP.noiseOf (XArg.times t).coords.len diag)).len = t.len := hl
      refine ⟨hl', ?_⟩
      have e := dataGram_eq_obsGram (R := GP.noiseOf (XArg.times t).coords.len diag) hκ t
      rw [← e]
      rw [← e] at hK
      have main := oneStepAhead_kalman hreg (X := t.map .time) ht hR hK y
      refine ⟨fun i => Eq.trans ?_ (main.error i), fun i => Eq.trans ?_ (main.variance i)⟩
      · show ((kernel.model.parallelKalman (t.map .time) y _).get i).v 0 = _
        rw [he i (by rw [hl']; exact i.2)]
      · show ((kernel.model.parallelKalman (t.map .time) y _).get i).S 0 0 = _
        rw [he i (by rw [hl']; exact i.2)]
  | integrated hk hsol hX hd hN =>
    rename_i t d inst m
    have hk' := hk.toSum.mono (q := SHO.Genuine) fun _ h => h.1
    have hQ : kernel.model.NoiseOnEvents (XArg.triple t d inst).coords := fun _ _ => hk.toSum.noise _
    have hpsd := SSM.NoiseOnEvents.psd hk'.ok hQ
    have he : ∀ n < t.len, IsEnd (XArg.triple t d inst).coords n (endStep (XArg.triple t d inst).coords n) := fun n hn => (isEnd_iff hn).2 rfl
    have e : augmentedGram kernel.model (XArg.triple t d inst).coords (GP.noiseOf (XArg.triple t d inst).coords.len diag)
        (endStep (XArg.triple t d inst).coords) = obsGram κ (XArg.triple t d inst).coords (GP.noiseOf (XArg.triple t d inst).coords.len diag) :=
      augmentedGram_eq hk'.ok hX hQ he _
    rw [← e] at hK
    refine ⟨endOrder _, fun i j hij => endOrder_mono _ hij, fun t' ht' => (by cases ht'), fun y hy =>
      ⟨_, innovations_eq hnew (integrated_run hk hsol hnew) y, ?_⟩⟩
    have main := oneStepAhead_integrated hpsd hR hK y
    rw [e] at main
    rcases integratedSolver_kind hk hsol with e' | ⟨e', hp⟩
    · rw [e']
      unfold SSM.innovations
      rw [hy]
      exact ⟨rfl, main⟩
    · rw [e']
      unfold SSM.innovations
      rw [hy]
      refine ⟨rfl, fun i => Eq.trans ?_ (main.error i), fun i => Eq.trans ?_ (main.variance i)⟩
      all_goals
        obtain ⟨h1, h2⟩ := endsIdx_spec (X := (XArg.triple t d inst).coords) i.2
        have hf := (C12_parallel_filter kernel.model _ hpsd (noise_zero_of_over hk'.ok.zero) y _ hR (first_event_is_start _ hp.nonempty hp.pos) _ h1).2.2.2.2
          (by rw [sc_stateid, h2]; omega)
      · exact congrFun hf.1 0
      · exact congrFun (congrFun hf.2 0) 0

/-- **C89, likelihood.** `log_probability` is the sum of the log densities of the errors of prediction. -/
theorem C89_likelihood (h : Regression kernel X solver κ) (hnew : GP.new kernel X diag mean solver u = .ok gp)
    (hR : ∀ i < X.coords.len, 0 < (GP.noiseOf X.coords.len diag).get i) (hy : y.len = X.coords.len) :
    ∃ r, gp.innovations y = .ok r ∧ r.len = X.coords.len ∧ (∀ i < r.len, 0 < (r.get i).2) ∧
      gp.logProbability y = .ok ((∑ i : Fin r.len, normalLogDensity (r.get i).2 (r.get i).1 : ℝ) : EReal) := by
  obtain ⟨o, -, -, hone⟩ := C89_one_step h hnew hR
  obtain ⟨r, hr, hl, hos⟩ := hone y hy
  have hpos : ∀ i < r.len, 0 < (r.get i).2 := fun i hi => hos.variance_pos (h.gram_pd hR) ⟨i, by rw [← hl]; exact hi⟩
  refine ⟨r, hr, hl, hpos, ?_⟩
  unfold GP.innovations at hr
  unfold GP.logProbability
  cases he : gp.runError with
  | some e => rw [he] at hr; cases hr
  | none =>
    rw [he] at hr
    obtain rfl := Except.ok.inj hr
    simp only
    rw [SSM.logProb_eq, computeLogProb_of_pos _ _ hpos, Finset.sum_range, Finset.mul_sum]
    refine congrArg _ (congrArg _ (Finset.sum_congr rfl fun i _ => ?_))
    exact normalLogDensity_cholesky (hpos i i.2) _

/-- **C89, in terms of the API.** For data in order of time, `v` at a datum is the datum minus the mean which a GP conditioned on the earlier data
predicts there, and `S` is the variance which it predicts plus the noise variance of the datum. -/
theorem C89_predicts {t t' : Arr ℝ} {kernel' : Kern} {solver' : Option SolverKind} {diag' : Option (ℝ ⊕ Arr ℝ)} {mean' : Option (Coord → ℝ)} {u' : Bool}
    {gp' gpc : GP} {lp : EReal} (h : Regression kernel (.times t) solver κ) (h' : Regression kernel' (.times t') solver' κ)
    (hnew : GP.new kernel (.times t) diag mean solver u = .ok gp) (hnew' : GP.new kernel' (.times t') diag' mean' solver' u' = .ok gp')
    (hR : ∀ i < t.len, 0 < (GP.noiseOf t.len diag).get i) (hl : t'.len < t.len) (ht : ∀ j < t'.len, t'.get j = t.get j)
    (hn : ∀ j < t'.len, (GP.noiseOf t'.len diag').get j = (GP.noiseOf t.len diag).get j) (hy : y.len = t.len)
    (hcond : gp'.condition (y.upTo t'.len) = .ok (lp, gpc)) {ts : Arr ℝ} {j : ℕ} (hj : j < ts.len) (hts : ts.get j = t.get t'.len) :
    ∃ r mu var, gp.innovations y = .ok r ∧ gpc.predict (some (.times ts)) = .ok (mu, var) ∧
      (r.get t'.len).1 = y.get t'.len - mu.get j ∧ (r.get t'.len).2 = var.get j + (GP.noiseOf t.len diag).get t'.len := by
  obtain ⟨o, -, ho, hone⟩ := C89_one_step h hnew hR
  obtain rfl := ho t rfl
  obtain ⟨r, hr, -, hos⟩ := hone y hy
  obtain ⟨mu, var, hp, -, -, hm⟩ := C61_predict h' hnew' (fun i hi => lt_of_lt_of_eq (hR i (lt_trans hi hl)) (hn i hi).symm) hcond ts
  obtain ⟨e1, e2⟩ := hm j hj
  have hg : (Matrix.of fun a b : Fin t'.len => obsGram κ (XArg.times t).coords (GP.noiseOf (XArg.times t).coords.len diag)
      (before (⟨t'.len, hl⟩ : Fin t.len) a) (before (⟨t'.len, hl⟩ : Fin t.len) b)) =
      obsGram κ (XArg.times t').coords (GP.noiseOf (XArg.times t').coords.len diag') := by
    ext a b
    simp only [obsGram, noisyGram, Matrix.of_apply]
    congr 1
    · show exposureCov κ (.time (t.get a)) (.time (t.get b)) = exposureCov κ (.time (t'.get a)) (.time (t'.get b))
      rw [ht a a.2, ht b b.2]
    · refine (if_congr (before_inj _).eq_iff (hn a a.2).symm rfl).trans ?_
      rfl
  have hc : (fun a : Fin t'.len => obsGram κ (XArg.times t).coords (GP.noiseOf (XArg.times t).coords.len diag)
      (⟨t'.len, hl⟩ : Fin t.len) (before (⟨t'.len, hl⟩ : Fin t.len) a)) = obsCross κ (.time (ts.get j)) (XArg.times t').coords := by
    funext a
    show exposureCov κ (.time (t.get t'.len)) (.time (t.get a)) + (if (⟨t'.len, hl⟩ : Fin t.len) = before (⟨t'.len, hl⟩ : Fin t.len) a then
      (GP.noiseOf t.len diag).get t'.len else 0) = exposureCov κ (.time (ts.get j)) (.time (t'.get a))
    rw [if_neg (before_lt (⟨t'.len, hl⟩ : Fin t.len) a).ne', add_zero, hts, ht a a.2]
  refine ⟨r, mu, var, hr, hp, ?_, ?_⟩
  · refine (hos.error ⟨t'.len, hl⟩).trans ?_
    rw [e1]
    exact congrArg₂ (fun A c => y.get t'.len - postMean A (fun a : Fin t'.len => y.get a) c) hg hc
  · refine (hos.variance ⟨t'.len, hl⟩).trans ?_
    rw [e2]
    refine (congrArg₂ (fun A c => postVar A (obsGram κ (XArg.times t).coords (GP.noiseOf (XArg.times t).coords.len diag)
      (⟨t'.len, hl⟩ : Fin t.len) (⟨t'.len, hl⟩ : Fin t.len)) c) hg hc).trans ?_
    have e : obsGram κ (XArg.times t).coords (GP.noiseOf (XArg.times t).coords.len diag)
      (⟨t'.len, hl⟩ : Fin t.len) (⟨t'.len, hl⟩ : Fin t.len) = κ 0 + (GP.noiseOf t.len diag).get t'.len := by
      show exposureCov κ (.time (t.get t'.len)) (.time (t.get t'.len)) + (if (⟨t'.len, hl⟩ : Fin t.len) = ⟨t'.len, hl⟩ then
        (GP.noiseOf t.len diag).get t'.len else 0) = _
      rw [if_pos rfl, exposureCov_times, sub_self, abs_zero]
    show postVar _ (obsGram κ (XArg.times t).coords (GP.noiseOf (XArg.times t).coords.len diag) (⟨t'.len, hl⟩ : Fin t.len) (⟨t'.len, hl⟩ : Fin t.len)) _ = _
    rw [e]
    exact add_sub_right_comm _ _ _

/-- **C89, distribution.** If the measurements come from the model, the innovations divided by their standard deviations are independent
standard normal variables, for any solver. So the sum of their squares, which `log_probability` is computed from, has as its mean the number
of data. -/
theorem C89_white {Ω : Type*} [MeasurableSpace Ω] {P : Measure Ω} {T : Set Coord} {g : Coord → Ω → ℝ} {Y : Fin X.coords.len → Ω → ℝ}
    (h : Regression kernel X solver κ) (hnew : GP.new kernel X diag mean solver u = .ok gp)
    (hR : ∀ i < X.coords.len, 0 < (GP.noiseOf X.coords.len diag).get i)
    (hM : Measured P κ T g X.coords (GP.noiseOf X.coords.len diag) Y) :
    ∃ (V : Fin X.coords.len → Ω → ℝ) (S : Fin X.coords.len → ℝ), (∀ i, 0 < S i) ∧
      (∀ (ω : Ω) (y : Arr ℝ), y.len = X.coords.len → (∀ i : Fin X.coords.len, y.get i = Y i ω) →
        ∃ r, gp.innovations y = .ok r ∧ r.len = X.coords.len ∧ ∀ i : Fin X.coords.len, r.get i = (V i ω, S i)) ∧
      iIndepFun (fun i ω => V i ω / √(S i)) P ∧ (∀ i, HasLaw (fun ω => V i ω / √(S i)) (gaussianReal 0 1) P) ∧
      P[fun ω => ∑ i, V i ω ^ 2 / S i] = (X.coords.len : ℝ) := by
  obtain ⟨h0, hc, -⟩ := hM.moments fun i hi => (hR i hi).le
  have hY := (hM.gaussian (hM.coords 0 h.nonempty)).snd
  have hK := h.gram_pd hR
  obtain ⟨o, -, -, hone⟩ := C89_one_step h hnew hR
  set K := obsGram κ X.coords (GP.noiseOf X.coords.len diag) with hKdef
  have hKo : (K.submatrix o o).PosDef := hK.submatrix o.injective
  have hYo : HasGaussianLaw (fun ω i => Y (o i) ω) P := by
    refine (hY.map_fun (LinearMap.toContinuousLinearMap (LinearMap.pi fun i => LinearMap.proj (o i) : (Fin X.coords.len → ℝ) →ₗ[ℝ] _))).congr
      (Eventually.of_forall fun ω => ?_)
    rfl
  set V : Fin X.coords.len → Ω → ℝ := fun i ω => Y (o i) ω - postMean ((K.submatrix o o).submatrix (before i) (before i))
    (fun j => Y (o (before i j)) ω) fun j => (K.submatrix o o) i (before i j) with hVdef
  set S : Fin X.coords.len → ℝ := fun i => postVar ((K.submatrix o o).submatrix (before i) (before i)) ((K.submatrix o o) i i)
    fun j => (K.submatrix o o) i (before i j) with hSdef
  obtain ⟨hind, hlaw⟩ := gaussian_innovations (Y := fun i => Y (o i)) hYo (fun i => h0 (o i)) (fun i j => hc (o i) (o j)) hKo (V := V) fun i => rfl
  have hSpos : ∀ i, 0 < S i := fun i => postVar_before_pos hKo i
  have hVm : ∀ i, AEMeasurable (V i) P := fun i => by
    by_contra hn
    have e := hlaw i
    rw [Measure.map_of_not_aemeasurable hn] at e
    have := congrArg (fun μ : Measure ℝ => μ Set.univ) e
    simp at this
  have hstd : ∀ i, HasLaw (fun ω => V i ω / √(S i)) (gaussianReal 0 1) P := fun i => by
    have hV : HasLaw (V i) (gaussianReal 0 (S i).toNNReal) P := ⟨hVm i, hlaw i⟩
    have := gaussianReal_div_const hV (√(S i))
    convert this using 2
    · simp
    · refine NNReal.coe_injective ?_
      simp only [NNReal.coe_one, NNReal.coe_div, Real.coe_toNNReal _ (hSpos i).le, NNReal.coe_mk, Real.sq_sqrt (hSpos i).le]
      exact (div_self (hSpos i).ne').symm
  refine ⟨V, S, hSpos, fun ω y hy hyY => ?_, ?_, hstd, ?_⟩
  · obtain ⟨r, hr, hl, hos⟩ := hone y hy
    refine ⟨r, hr, hl, fun i => Prod.ext ?_ (hos.variance i)⟩
    refine (hos.error i).trans ?_
    simp only [hyY]
    rfl
  · exact hind.comp (fun i z => z / √(S i)) fun i => measurable_id.div_const _
  · have hsq : ∀ i, P[fun ω => V i ω ^ 2 / S i] = 1 := fun i => by
      have e : (fun ω => V i ω ^ 2 / S i) = fun ω => (V i ω / √(S i)) ^ 2 := by
        funext ω
        rw [div_pow, Real.sq_sqrt (hSpos i).le]
      have hv : Var[fun ω => V i ω / √(S i); P] = 1 := by
        rw [(hstd i).variance_eq, variance_id_gaussianReal, NNReal.coe_one]
      rw [variance_of_integral_eq_zero (hstd i).aemeasurable (by rw [(hstd i).integral_eq, integral_id_gaussianReal])] at hv
      rw [e]
      exact hv
    rw [integral_finsetSum _ fun i _ => ?_]
    · simp only [hsq]
      simp
    · have e : (fun ω => V i ω ^ 2 / S i) = fun ω => (V i ω / √(S i)) ^ 2 := by
        funext ω
        rw [div_pow, Real.sq_sqrt (hSpos i).le]
      rw [e]
      exact (hstd i).hasGaussianLaw.memLp_two.integrable_sq

end

/-! ### Examples -/

section examples

/-- one-step predictions of two data with an exponential kernel: the first is predicted by the prior -/
example (y : Arr ℝ) (hy : y.len = 2) : ∃ gp r, GP.new (.exp 1 1 "a") (.times twoT) (some (.inl 1)) none none false = .ok gp ∧
    gp.innovations y = .ok r ∧ r.len = 2 ∧ r.get 0 = (y.get 0, 2) ∧
    gp.logProbability y = .ok ((∑ i : Fin r.len, normalLogDensity (r.get i).2 (r.get i).1 : ℝ) : EReal) := by
  have hr := exp_regression twoT_sorted (by show 0 < 2; decide)
  obtain ⟨gp, -, -, hnew, -⟩ := exp_gp twoT (by show (2 : ℕ) ≠ 1; decide) (some (.inl 1)) y
  obtain ⟨o, -, ho, hone⟩ := C89_one_step hr hnew fun _ _ => one_pos
  obtain rfl := ho twoT rfl
  obtain ⟨r, h1, hl, hos⟩ := hone y hy
  obtain ⟨r', h1', -, -, hlik⟩ := C89_likelihood hr hnew (fun _ _ => one_pos) hy
  obtain rfl := Except.ok.inj (h1.symm.trans h1')
  refine ⟨gp, r, hnew, h1, hl, Prod.ext ?_ ?_, hlik⟩
  · refine (hos.error ⟨0, by show 0 < 2; decide⟩).trans ?_
    show y.get 0 - postMean (ι := Fin 0) _ _ _ = y.get 0
    simp [postMean]
  · refine (hos.variance ⟨0, by show 0 < 2; decide⟩).trans ?_
    show postVar (ι := Fin 0) _ _ _ = 2
    simp only [postVar, dotProduct_of_isEmpty, sub_zero, obsGram, noisyGram, Matrix.of_apply, if_true]
    show exposureCov (covExp 1 1) (.time (twoT.get 0)) (.time (twoT.get 0)) + 1 = 2
    rw [exposureCov_times]
    simp [covExp]
    norm_num

/-- exposures: `C89_one_step` and `C89_white` apply to two exposures of an integrated kernel -/
example : ∃ gp, GP.new (.integratedMatern32 2 1 0 "a") (.triple tPair (dShort 1) ⟨2, fun _ => 0⟩) (some (.inl 1)) none none false = .ok gp ∧
    ∃ (Ω : Type) (_ : MeasurableSpace Ω) (P : Measure Ω) (Y V : Fin 2 → Ω → ℝ) (S : Fin 2 → ℝ), (∀ i, 0 < S i) ∧
      (∀ (ω : Ω) (y : Arr ℝ), y.len = 2 → (∀ i : Fin 2, y.get i = Y i ω) →
        ∃ r, gp.innovations y = .ok r ∧ r.len = 2 ∧ ∀ i : Fin 2, r.get i = (V i ω, S i)) ∧
      iIndepFun (fun i ω => V i ω / √(S i)) P ∧ ∀ i, HasLaw (fun ω => V i ω / √(S i)) (gaussianReal 0 1) P := by
  have hk : (Kern.integratedMatern32 2 1 0 "a").Integrates False 0 (covMatern32 2 1) := .matern32 two_pos one_ne_zero le_rfl
  obtain ⟨gp, hnew⟩ := (C45_integrated_constructor (t := tPair) (d := dShort 1) (inst := ⟨2, fun _ => 0⟩) hk (.inl rfl) (some (.inl 1)) none).1
  obtain ⟨Ω, hΩ, P, T', g, Y, -, hM, -⟩ := C77_exists (short_regression 1)
    (GP.noiseOf (XArg.triple tPair (dShort 1) ⟨2, fun _ => 0⟩).coords.len (some (.inl 1))) ∅
  obtain ⟨V, S, hS, hV, hi, hlaw, -⟩ := C89_white (short_regression 1) hnew (fun _ _ => one_pos) hM
  exact ⟨gp, hnew, Ω, hΩ, P, Y, V, S, hS, hV, hi, hlaw⟩

/-- the last innovation of three data is the last datum minus its prediction from the first two -/
example (y : Arr ℝ) (hy : y.len = 3) : ∃ gp gp' lp gpc r mu var, GP.new (.exp 1 1 "a") (.times tAll) (some (.inl 1)) none none false = .ok gp ∧
    GP.new (.exp 1 1 "a") (.times (tAll.upTo 2)) (some (.inl 1)) none none false = .ok gp' ∧ gp'.condition (y.upTo 2) = .ok (lp, gpc) ∧
    gp.innovations y = .ok r ∧ gpc.predict (some (.times ⟨1, fun _ => tAll.get 2⟩)) = .ok (mu, var) ∧
    (r.get 2).1 = y.get 2 - mu.get 0 ∧ (r.get 2).2 = var.get 0 + 1 := by
  have tAll_sorted : Sorted tAll := fun i j hij _ => Nat.cast_le.2 hij
  have hs : Sorted (tAll.upTo 2) := fun i j hij hj => tAll_sorted i j hij (lt_trans hj (by show 2 < 3; decide))
  obtain ⟨gp, -, -, hnew, -⟩ := exp_gp tAll (by show (3 : ℕ) ≠ 1; decide) (some (.inl 1)) y
  obtain ⟨gp', lp, gpc, hnew', hcond⟩ := exp_gp (tAll.upTo 2) (by show (2 : ℕ) ≠ 1; decide) (some (.inl 1)) (y.upTo 2)
  obtain ⟨r, mu, var, h1, h2, h3, h4⟩ := C89_predicts (exp_regression tAll_sorted (by show 0 < 3; decide))
    (exp_regression hs (by show 0 < 2; decide)) hnew hnew' (fun _ _ => one_pos) (by show 2 < 3; decide) (fun _ _ => rfl) (fun _ _ => rfl) hy hcond
    (ts := ⟨1, fun _ => tAll.get 2⟩) (j := 0) (by show 0 < 1; decide) rfl
  exact ⟨gp, gp', lp, gpc, r, mu, var, hnew, hnew', hcond, h1, h2, h3, h4⟩

end examples

end Verif
