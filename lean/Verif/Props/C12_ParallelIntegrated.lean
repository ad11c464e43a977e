import Verif.Lemmas.IntRun
import Verif.Lemmas.Congr
import Verif.Props.C18_Causality
import Verif.Props.C56_Simultaneous

/-!
# C12: the parallel integrated solver returns what the sequential integrated solver returns

provided that the first event in time is an exposure start, which holds whenever the exposures have positive length. A first event that
is an exposure end (a measurement of zero length) is not measured by the parallel solver: see the end of the file.
-/

set_option linter.unusedSectionVars false

namespace Verif
open Matrix Spec

/-- If every exposure has positive length, the first event is a start. -/
theorem first_event_is_start (X : Arr Coord) (hN : 0 < X.len) (hd : ∀ n < X.len, 0 < (X.get n).delta) :
    (stateCoords X).stateid.get 0 = 0 := by
  rw [sc_stateid]
  by_contra h
  have hlt := ev_lt (X := X) (k := 0) (by omega)
  have hn : ev X 0 / 2 < X.len := by omega
  have hen : IsEnd X (ev X 0 / 2) 0 := ⟨by omega, rfl, by rw [sc_stateid]; omega⟩
  have := (C13_start_before_end X _ _ _ hn ((isStart_iff hn).2 rfl) hen).2 (hd _ hn)
  omega

section
variable {n : Type} [Fintype n] [DecidableEq n] (Phi Q : ℝ → ℝ → Matrix n n ℝ) (H : Arr (Matrix (Fin 1) n ℝ)) (reset : ℤ → Matrix n n ℝ)
  (R y : Arr ℝ) (sc : StateCoords) (inst : Arr ℤ) (m0 : n → ℝ) (P0 : Matrix n n ℝ)

theorem parIntParams_len (h : 0 < sc.t.len) : (parIntParams Phi Q H reset R y sc inst m0 P0).len = sc.t.len := by
  show 1 + (sc.t.len - 1) = _; omega

theorem parIntParams_zero : (parIntParams Phi Q H reset R y sc inst m0 P0).get 0 =
    ⟨reset (inst.get 0), (reset (inst.get 0) * Phi 0 0) *ᵥ m0,
      (reset (inst.get 0) * Phi 0 0) * P0 * (reset (inst.get 0) * Phi 0 0)ᵀ, 0, 0⟩ := rfl

theorem parIntParams_succ (j : ℕ) : (parIntParams Phi Q H reset R y sc inst m0 P0).get (j + 1) =
    if sc.stateid.get (j + 1) = 0 then
      ⟨reset (inst.get (j + 1)) * Phi 0 (sc.t.get (j + 1) - sc.t.get j), 0,
        reset (inst.get (j + 1)) * Q 0 (sc.t.get (j + 1) - sc.t.get j) * (reset (inst.get (j + 1)))ᵀ, 0, 0⟩
    else KElem.endElem (Phi 0 (sc.t.get (j + 1) - sc.t.get j)) (Q 0 (sc.t.get (j + 1) - sc.t.get j)) (H.get (sc.obsid.get (j + 1)))
      (y.get (sc.obsid.get (j + 1))) (R.get (sc.obsid.get (j + 1))) := rfl

end

theorem perStateInst_get (X : Arr Coord) (j : ℕ) : (perStateInst X).get j = (stateCoords X).instid.get ((stateCoords X).obsid.get j) := rfl

section
variable {k : SSM} {X : Arr Coord} {y R : Arr ℝ}

theorem parInt_scan (hk : k.PsdModel X) (hQ0 : k.Qt 0 0 = 0) (hR : ∀ i < X.len, 0 < R.get i)
    (hfirst : (stateCoords X).stateid.get 0 = 0) (j : ℕ) (hj : j < 2 * X.len) :
    ((k.parIntKalman X y R).get j).m = ((k.integratedKalman X y R).get j).m ∧
    ((k.parIntKalman X y R).get j).P = ((k.integratedKalman X y R).get j).P := by
  have r := ikf_run k.At k.Qt (X.map fun x => k.obsModel x none) k.reset R y (stateCoords X) k.Pinf
  have hlen := parIntParams_len k.At k.Qt (X.map fun x => k.obsModel x none) k.reset R y (stateCoords X) (perStateInst X) 0 k.Pinf
    (by rw [sc_len]; omega)
  rw [sc_len] at hlen
  have hget : ∀ j, (associativeScan KElem.combine (parIntParams k.At k.Qt (X.map fun x => k.obsModel x none) k.reset R y (stateCoords X)
      (perStateInst X) 0 k.Pinf)).get j = assocScanGet KElem.combine (2 * X.len)
        (parIntParams k.At k.Qt (X.map fun x => k.obsModel x none) k.reset R y (stateCoords X) (perStateInst X) 0 k.Pinf).get j := by
    intro j
    rw [associativeScan, hlen]
    rfl
  have hfresh : ∀ i, i + 1 < 2 * X.len → 0 < freshS (k.Qt 0 ((stateCoords X).t.get (i + 1) - (stateCoords X).t.get i))
      ((X.map fun x => k.obsModel x none).get ((stateCoords X).obsid.get (i + 1))) (R.get ((stateCoords X).obsid.get (i + 1))) := by
    intro i hi
    exact add_pos_of_nonneg_of_pos (psd_quad (hk.Q i hi) _) (hR _ (obsid_lt hi))
  have h0 : ((integratedKalmanFilter k.At k.Qt (X.map fun x => k.obsModel x none) k.reset R y (stateCoords X) 0 k.Pinf).get 0).m = 0 ∧
      ((integratedKalmanFilter k.At k.Qt (X.map fun x => k.obsModel x none) k.reset R y (stateCoords X) 0 k.Pinf).get 0).P =
        k.reset ((perStateInst X).get 0) * (k.At 0 0 * k.Pinf * (k.At 0 0)ᵀ) * (k.reset ((perStateInst X).get 0))ᵀ := by
    rw [ikf_start _ _ _ _ _ _ _ _ _ hfirst, ikf_zero_m, ikf_zero_P, hQ0, add_zero, mulVec_zero, mulVec_zero]
    exact ⟨rfl, rfl⟩
  have main := prefix_run r (e := (parIntParams k.At k.Qt (X.map fun x => k.obsModel x none) k.reset R y (stateCoords X)
      (perStateInst X) 0 k.Pinf).get) (N := 2 * X.len) ?_ ?_ ?_ ?_ ?_ j hj
  · rw [← hget] at main
    exact main
  · rw [parIntParams_zero]
    exact ⟨psd_conj hk.P _, Matrix.PosSemidef.zero⟩
  · rw [parIntParams_zero, h0.1, mulVec_zero]
  · rw [parIntParams_zero, h0.2, transpose_mul]
    simp only [Matrix.mul_assoc]
  · intro i hi
    exact ⟨hk.Q i hi, fun _ => ⟨(hR _ (obsid_lt hi)).le, hfresh i hi⟩⟩
  · intro i hi
    rw [parIntParams_succ]
    by_cases h : (stateCoords X).stateid.get (i + 1) = 0
    · rw [if_pos h, (stateCoords X).resetAt_start k.reset h]
      rfl
    · rw [if_neg h, (stateCoords X).resetAt_end k.reset h]
      exact endElem_eq (hk.Q i hi) (hR _ (obsid_lt hi)).le (hfresh i hi)

/-- **C12, filter.** The parallel filter returns, at every event, the filtered and predicted means and covariances of the sequential
integrated filter; at the end of every exposure also its innovation and innovation variance. -/
theorem C12_parallel_filter (k : SSM) (X : Arr Coord) (hk : k.PsdModel X) (hQ0 : k.Qt 0 0 = 0) (y R : Arr ℝ)
    (hR : ∀ i < X.len, 0 < R.get i) (hfirst : (stateCoords X).stateid.get 0 = 0) (j : ℕ) (hj : j < 2 * X.len) :
    ((k.parIntKalman X y R).get j).m = ((k.integratedKalman X y R).get j).m ∧
    ((k.parIntKalman X y R).get j).P = ((k.integratedKalman X y R).get j).P ∧
    ((k.parIntKalman X y R).get j).mPred = ((k.integratedKalman X y R).get j).mPred ∧
    ((k.parIntKalman X y R).get j).PPred = ((k.integratedKalman X y R).get j).PPred ∧
    ((stateCoords X).stateid.get j ≠ 0 → ((k.parIntKalman X y R).get j).v = ((k.integratedKalman X y R).get j).v ∧
      ((k.parIntKalman X y R).get j).S = ((k.integratedKalman X y R).get j).S) := by
  obtain ⟨hm, hP⟩ := parInt_scan (y := y) hk hQ0 hR hfirst j hj
  have hpred : ((k.parIntKalman X y R).get j).mPred = ((k.integratedKalman X y R).get j).mPred ∧
      ((k.parIntKalman X y R).get j).PPred = ((k.integratedKalman X y R).get j).PPred := by
    cases j with
    | zero =>
      have e1 : ((k.integratedKalman X y R).get 0).mPred = k.At 0 0 *ᵥ 0 := ikf_zero_m _ _ _ _ _ _ _ _ _
      have e2 : ((k.integratedKalman X y R).get 0).PPred = k.At 0 0 * k.Pinf * (k.At 0 0)ᵀ + k.Qt 0 0 := ikf_zero_P _ _ _ _ _ _ _ _ _
      rw [e1, e2]
      exact ⟨rfl, rfl⟩
    | succ i =>
      obtain ⟨im, iP⟩ := parInt_scan (y := y) hk hQ0 hR hfirst i (by omega)
      have e1 : ((k.integratedKalman X y R).get (i + 1)).mPred = _ *ᵥ ((k.integratedKalman X y R).get i).m := ikf_succ_m _ _ _ _ _ _ _ _ _ _
      have e2 : ((k.integratedKalman X y R).get (i + 1)).PPred = _ * ((k.integratedKalman X y R).get i).P * _ + _ :=
        ikf_succ_P _ _ _ _ _ _ _ _ _ _
      rw [e1, e2, ← im, ← iP]
      exact ⟨rfl, rfl⟩
  refine ⟨hm, hP, hpred.1, hpred.2, fun h => ?_⟩
  have e := ikf_end k.At k.Qt (X.map fun x => k.obsModel x none) k.reset R y (stateCoords X) 0 k.Pinf h
  change (k.integratedKalman X y R).get j = kalmanUpdate _ _ _ ((k.integratedKalman X y R).get j).mPred
    ((k.integratedKalman X y R).get j).PPred at e
  rw [← hpred.1, ← hpred.2] at e
  rw [e]
  exact ⟨rfl, rfl⟩

/-- **C12, likelihood.** -/
theorem C12_parallel_likelihood (k : SSM) (X : Arr Coord) (hk : k.PsdModel X) (hQ0 : k.Qt 0 0 = 0) (y R : Arr ℝ)
    (hy : y.len = X.len) (hR : ∀ i < X.len, 0 < R.get i) (hfirst : (stateCoords X).stateid.get 0 = 0) :
    k.parallelIntegratedLogProbability X y R = k.integratedLogProbability X y R := by
  have key : ∀ i < X.len, ((k.parIntKalman X y R).get ((endsIdx (stateCoords X) X.len).get i)).v =
        ((k.integratedKalman X y R).get ((endsIdx (stateCoords X) X.len).get i)).v ∧
      ((k.parIntKalman X y R).get ((endsIdx (stateCoords X) X.len).get i)).S =
        ((k.integratedKalman X y R).get ((endsIdx (stateCoords X) X.len).get i)).S := by
    intro i hi
    obtain ⟨h1, h2⟩ := endsIdx_spec (X := X) hi
    exact (C12_parallel_filter k X hk hQ0 y R hR hfirst _ h1).2.2.2.2 (by rw [sc_stateid, h2]; omega)
  unfold SSM.parallelIntegratedLogProbability SSM.integratedLogProbability
  rw [hy]
  exact computeLogProb_congr rfl (fun i hi => (key i hi).1) (fun i hi => (key i hi).2)

/-- **C12, smoother.** Provided no predicted covariance is singular (see C56 for when that holds), the parallel smoother returns the
smoothed means and covariances of the sequential one at every event. -/
theorem C12_parallel_smoother (k : SSM) (X : Arr Coord) (hk : k.PsdModel X) (hQ0 : k.Qt 0 0 = 0) (y R : Arr ℝ)
    (hR : ∀ i < X.len, 0 < R.get i) (hfirst : (stateCoords X).stateid.get 0 = 0)
    (hP : ∀ j, j + 1 < 2 * X.len → IsUnit ((k.integratedKalman X y R).get (j + 1)).PPred.det) (j : ℕ) (hj : j < 2 * X.len) :
    (k.parallelIntegratedCondition X y R).2.get j = (k.integratedCondition X y R).2.get j := by
  have hf := C12_parallel_filter k X hk hQ0 y R hR hfirst
  have r := ikf_run k.At k.Qt (X.map fun x => k.obsModel x none) k.reset R y (stateCoords X) k.Pinf
  have s := irts_back k.At k.reset (stateCoords X) (k.integratedKalman X y R) rfl
  rw [sc_len] at s
  have hlen : (k.parIntKalman X y R).len = 2 * X.len := by
    have := parIntParams_len k.At k.Qt (X.map fun x => k.obsModel x none) k.reset R y (stateCoords X) (perStateInst X) 0 k.Pinf
      (by rw [sc_len]; omega)
    rw [sc_len] at this
    exact this
  have hpsd : ∀ i < 2 * X.len, (Run.base ((stateCoords X).resetAt k.reset) (k.integratedKalman X y R).get i).P.PosSemidef := by
    intro i hi
    obtain ⟨h1, h2⟩ := ikalman_S_pos (y := y) hk hR hi
    unfold Run.base
    by_cases h : (stateCoords X).stateid.get i = 0
    · rw [(stateCoords X).resetAt_start k.reset h]; exact h1
    · rw [(stateCoords X).resetAt_end k.reset h]; exact h2
  set elems : Arr (BElem k.n) := Arr.append
    ⟨(stateCoords X).t.diff.len, fun i =>
      if (stateCoords X).stateid.init.get i = 0 then BElem.generic (k.At 0 ((stateCoords X).t.diff.get i) * k.reset ((perStateInst X).init.get i))
        (k.Qt 0 ((stateCoords X).t.diff.get i)) ((k.parIntKalman X y R).get i).mPred ((k.parIntKalman X y R).get i).PPred
      else BElem.generic (k.At 0 ((stateCoords X).t.diff.get i)) (k.Qt 0 ((stateCoords X).t.diff.get i)) ((k.parIntKalman X y R).get i).m
        ((k.parIntKalman X y R).get i).P⟩
    (Arr.single (BElem.last (k.parIntKalman X y R).last.m (k.parIntKalman X y R).last.P)) with hel
  have hdl : (stateCoords X).t.diff.len = 2 * X.len - 1 := by
    show (stateCoords X).t.len - 1 = _
    rw [sc_len]
  have main := suffix_back (Q := fun i => k.Qt 0 ((stateCoords X).t.get (i + 1) - (stateCoords X).t.get i)) s elems
    (by show (stateCoords X).t.diff.len + 1 = _; rw [hdl]; omega) ?_ ?_ ?_ ?_ ?_ ?_ ?_ j hj
  · obtain ⟨h1, h2⟩ := main
    have e1 : ((k.parallelIntegratedCondition X y R).2.get j).m = ((k.integratedCondition X y R).2.get j).m := h1
    have e2 : ((k.parallelIntegratedCondition X y R).2.get j).P = ((k.integratedCondition X y R).2.get j).P := h2
    generalize (k.parallelIntegratedCondition X y R).2.get j = a at *
    generalize (k.integratedCondition X y R).2.get j = b at *
    cases a; cases b
    simp only at e1 e2
    rw [e1, e2]
  · rw [hel, Arr.append_get_ge _ _ (by rw [hdl])]
    show BElem.last ((k.parIntKalman X y R).get ((k.parIntKalman X y R).len - 1)).m
      ((k.parIntKalman X y R).get ((k.parIntKalman X y R).len - 1)).P = _
    rw [hlen, (hf _ (by omega)).1, (hf _ (by omega)).2.1]
  · intro i hi
    rw [hel, Arr.append_get_lt _ _ (by rw [hdl]; omega)]
    obtain ⟨h1, h2, h3, h4, -⟩ := hf i (by omega)
    unfold Run.base StateCoords.jump
    by_cases h : (stateCoords X).stateid.get i = 0
    · refine (if_pos h).trans ?_
      rw [(stateCoords X).resetAt_start k.reset h, if_pos h, h3, h4]
      rfl
    · refine (if_neg h).trans ?_
      rw [(stateCoords X).resetAt_end k.reset h, if_neg h, h1, h2, Matrix.mul_one]
      rfl
  · intro i hi
    exact psd_symm (hpsd i (by omega))
  · intro i hi
    refine (r.succ_m i).trans ?_
    have hu := r.upd i
    unfold Run.base StateCoords.jump
    by_cases h : (stateCoords X).stateid.get i = 0
    · rw [(stateCoords X).resetAt_start k.reset h] at hu ⊢
      rw [if_pos h, ← mulVec_mulVec]
      exact congrArg _ (congrArg FilterOut.m hu)
    · rw [(stateCoords X).resetAt_end k.reset h, if_neg h, Matrix.mul_one]
      rfl
  · intro i hi
    refine (r.succ_P i).trans ?_
    have hu := r.upd i
    unfold Run.base StateCoords.jump
    by_cases h : (stateCoords X).stateid.get i = 0
    · rw [(stateCoords X).resetAt_start k.reset h] at hu ⊢
      rw [if_pos h, transpose_mul]
      have := congrArg FilterOut.P hu
      refine congrArg (· + _) ?_
      refine (congrArg (fun M => k.At 0 ((stateCoords X).t.get (i + 1) - (stateCoords X).t.get i) * M *
        (k.At 0 ((stateCoords X).t.get (i + 1) - (stateCoords X).t.get i))ᵀ) this).trans ?_
      show _ * (_ * _ * _) * _ = _
      simp only [Matrix.mul_assoc]
      rfl
    · rw [(stateCoords X).resetAt_end k.reset h, if_neg h, Matrix.mul_one]
      rfl
  · intro i hi
    exact psd_symm (ikalman_S_pos (y := y) hk hR hi).1
  · exact hP

/-- **C12, reported rows.** -/
theorem C12_parallel_conditioned (k : SSM) (X : Arr Coord) (hk : k.PsdModel X) (hQ0 : k.Qt 0 0 = 0) (y R : Arr ℝ)
    (hR : ∀ i < X.len, 0 < R.get i) (hfirst : (stateCoords X).stateid.get 0 = 0)
    (hP : ∀ j, j + 1 < 2 * X.len → IsUnit ((k.integratedKalman X y R).get (j + 1)).PPred.det) :
    (k.parallelIntegratedConditionedAtData X y R).Same (k.integratedConditionedAtData X y R) := by
  refine ⟨rfl, fun i hi => ?_⟩
  have hi' : i < X.len := hi
  have he := (isEnd_iff hi').2 rfl
  rw [C14_parallel_results_in_input_order k X y R i _ hi' he, C14_results_in_input_order k X y R i _ hi' he,
    C12_parallel_smoother k X hk hQ0 y R hR hfirst hP _ (endStep_lt hi')]

/-- a prediction only looks at the means and covariances of the filter and the smoother -/
theorem ssPredictPoint_congr {n : Type} [Fintype n] [DecidableEq n] (A Q : ℝ → ℝ → Matrix n n ℝ) (P : Matrix n n ℝ) (t : Arr ℝ)
    (kf kf' : Arr (FilterOut n)) (sm sm' : Arr (StateMP n)) (hN : 0 < t.len)
    (hf : ∀ j < t.len, (kf.get j).m = (kf'.get j).m ∧ (kf.get j).P = (kf'.get j).P ∧ (kf.get j).mPred = (kf'.get j).mPred ∧
      (kf.get j).PPred = (kf'.get j).PPred) (hs : ∀ j < t.len, sm.get j = sm'.get j) (x : ℝ) :
    ssPredictPoint A Q P t kf sm x = ssPredictPoint A Q P t kf' sm' x := by
  rw [predict_branches A Q P t kf sm x _ rfl, predict_branches A Q P t kf' sm' x _ rfl]
  generalize searchsortedRight t x = j
  by_cases h0 : j = 0
  · rw [if_pos h0, if_pos h0, (hf 0 hN).2.2.1, (hf 0 hN).2.2.2, hs 0 hN]
  rw [if_neg h0, if_neg h0]
  by_cases h1 : t.len ≤ j
  · rw [if_pos h1, if_pos h1, (hf (t.len - 1) (by omega)).1, (hf (t.len - 1) (by omega)).2.1]
  rw [if_neg h1, if_neg h1, (hf (j - 1) (by omega)).1, (hf (j - 1) (by omega)).2.1, (hf j (by omega)).2.2.1, (hf j (by omega)).2.2.2,
    hs j (by omega)]

theorem parallelIntegratedPredictAt_len (k : SSM) (X : Arr Coord) (y R : Arr ℝ) (Xtest : Arr Coord) :
    (k.parallelIntegratedPredictAt X y R Xtest).len = Xtest.len := by
  unfold SSM.parallelIntegratedPredictAt; rfl

theorem integratedPredictAt_len (k : SSM) (X : Arr Coord) (y R : Arr ℝ) (Xtest : Arr Coord) :
    (k.integratedPredictAt X y R Xtest).len = Xtest.len := by
  unfold SSM.integratedPredictAt; rfl

/-- the reported predictions for given filter and smoother output -/
theorem parallelIntegratedPredictAt_get (k : SSM) (X : Arr Coord) (y R : Arr ℝ) (Xtest : Arr Coord) (i : ℕ) (s : StateMP k.n)
    (h : ssPredictPoint k.At k.Qt k.Pinf (stateCoords X).t (k.parallelIntegratedCondition X y R).1
      (k.parallelIntegratedCondition X y R).2 (Xtest.get i).sortable = s) :
    (k.parallelIntegratedPredictAt X y R Xtest).get i = ((k.obsModel (Xtest.get i) none *ᵥ s.m) 0,
      (k.obsModel (Xtest.get i) none * s.P * (k.obsModel (Xtest.get i) none)ᵀ) 0 0) := by
  subst h; rfl

theorem integratedPredictAt_get (k : SSM) (X : Arr Coord) (y R : Arr ℝ) (Xtest : Arr Coord) (i : ℕ) (s : StateMP k.n)
    (h : ssPredictPoint k.At k.Qt k.Pinf (stateCoords X).t (k.integratedCondition X y R).1
      (k.integratedCondition X y R).2 (Xtest.get i).sortable = s) :
    (k.integratedPredictAt X y R Xtest).get i = ((k.obsModel (Xtest.get i) none *ᵥ s.m) 0,
      (k.obsModel (Xtest.get i) none * s.P * (k.obsModel (Xtest.get i) none)ᵀ) 0 0) := by
  subst h; rfl

/-- **C12, prediction.** -/
theorem C12_parallel_predict (k : SSM) (X : Arr Coord) (hN : 0 < X.len) (hk : k.PsdModel X) (hQ0 : k.Qt 0 0 = 0) (y R : Arr ℝ)
    (hR : ∀ i < X.len, 0 < R.get i) (hfirst : (stateCoords X).stateid.get 0 = 0)
    (hP : ∀ j, j + 1 < 2 * X.len → IsUnit ((k.integratedKalman X y R).get (j + 1)).PPred.det) (Xtest : Arr Coord) :
    (k.parallelIntegratedPredictAt X y R Xtest).Same (k.integratedPredictAt X y R Xtest) := by
  have hf := C12_parallel_filter k X hk hQ0 y R hR hfirst
  have hs := C12_parallel_smoother k X hk hQ0 y R hR hfirst hP
  refine ⟨(parallelIntegratedPredictAt_len k X y R Xtest).trans (integratedPredictAt_len k X y R Xtest).symm, fun i _ => ?_⟩
  rw [parallelIntegratedPredictAt_get k X y R Xtest i _ rfl, integratedPredictAt_get k X y R Xtest i _ rfl,
    ssPredictPoint_congr _ _ _ _ _ (k.integratedCondition X y R).1 _ (k.integratedCondition X y R).2 (by rw [sc_len]; omega) ?_ ?_]
  · intro j hj
    rw [sc_len] at hj
    obtain ⟨h1, h2, h3, h4, -⟩ := hf j hj
    exact ⟨h1, h2, h3, h4⟩
  · intro j hj
    rw [sc_len] at hj
    exact hs j hj

end

/-! ### Exported kernels, exposures of positive length -/

/-- **C12 with C11.** For every sum of exported integrated kernels and exposures of positive length, in any order and with any overlaps
between instruments, the parallel solver's log likelihood is that of the Gaussian with the doubly averaged kernel, and so is the
sequential one's. -/
theorem C12_likelihood_exact_partial (k : SSM) (κ : ℝ → ℝ) (m : ℕ)
    (hk : IntegratedSum (fun q => SHO.Genuine q ∧ SHO.NotUnderdamped q) m k κ) (X : Arr Coord)
    (hX : Schedule m X) (hd : ∀ n < X.len, 0 < (X.get n).delta) (hN : 0 < X.len) (y R : Arr ℝ) (hy : y.len = X.len)
    (hR : ∀ i < X.len, 0 < R.get i) :
    k.parallelIntegratedLogProbability X y R =
      ((gaussLogDensity (noisyGram (fun i j : Fin X.len => exposureCov κ (X.get i) (X.get j)) fun i => R.get i)
        (fun i => y.get i) : ℝ) : EReal) ∧
    k.parallelIntegratedLogProbability X y R = k.integratedLogProbability X y R := by
  have hk' := hk.mono (q := SHO.Genuine) fun _ h => h.1
  have hQ : k.NoiseOnEvents X := fun _ _ => hk.noise _
  have h := C12_parallel_likelihood k X (SSM.NoiseOnEvents.psd hk'.ok hQ) (noise_zero_of_over hk'.ok.zero) y R hy hR
    (first_event_is_start X hN hd)
  exact ⟨h.trans (C11_likelihood k κ m hk X hX y R hy hR), h⟩

/-- **C12 with C56.** If moreover the exposures start at different times (and the kernels have process noise), the parallel solver's
conditioned means and variances are the exact posterior of the exposure averages. -/
theorem C12_conditioned_exact_partial (k : SSM) (κ : ℝ → ℝ) (m : ℕ)
    (hk : DrivenSum (fun q => SHO.Genuine q ∧ SHO.NotUnderdamped q) m k κ) (X : Arr Coord) (hX : Schedule m X)
    (hd : DistinctStarts X) (y R : Arr ℝ) (hR : ∀ i < X.len, 0 < R.get i) (n : ℕ) (hn : n < X.len) :
    (k.parallelIntegratedConditionedAtData X y R).get n =
      (postMean (noisyGram (fun i j : Fin X.len => exposureCov κ (X.get i) (X.get j)) fun i => R.get i) (fun i => y.get i)
        (fun i => exposureCov κ (X.get n) (X.get i)),
       postVar (noisyGram (fun i j : Fin X.len => exposureCov κ (X.get i) (X.get j)) fun i => R.get i)
        (exposureCov κ (X.get n) (X.get n)) (fun i => exposureCov κ (X.get n) (X.get i))) := by
  have hk' := hk.mono (q := SHO.Genuine) fun _ h => h.1
  have hQ : k.NoiseOnEvents X := fun _ _ => hk.toSum.noise _
  have h := C12_parallel_conditioned k X (SSM.NoiseOnEvents.psd hk'.toSum.ok hQ) (noise_zero_of_over hk'.toSum.ok.zero) y R hR
    (first_event_is_start X (by omega) hd.pos)
    (fun j hj => pd_det (C56_systems_posdef k κ m hk' X hX hd hQ y R hR (j + 1) hj))
  exact (h.2 n hn).trans (C56_conditioned_partial k κ m hk' X hX hd hQ y R hR n hn)

/-- overlapping exposures on two instruments -/
example (y : Arr ℝ) (hy : y.len = 3) :
    ((integratedExp 2 1 1 "a").sum (integratedMatern32 5 3 4 "b")).parallelIntegratedLogProbability threeExposures y ⟨3, fun _ => 1/10⟩ =
      ((gaussLogDensity (noisyGram (fun i j : Fin 3 => exposureCov (fun r => covExp 2 1 r + covMatern32 5 3 r)
        (threeExposures.get i) (threeExposures.get j)) fun _ => 1/10) (fun i => y.get i) : ℝ) : EReal) :=
  (C12_likelihood_exact_partial _ _ 1 (.sum (.exp two_pos le_rfl) (.matern32 (by norm_num) (by norm_num))) threeExposures
    threeExposures_schedule threeExposures_distinct.pos (by show 0 < 3; omega) y _ hy fun _ _ => by norm_num).1

/-! ### Where it fails: a first measurement of zero length -/

theorem assocScanGet_zero {α : Type*} (f : α → α → α) (n : ℕ) (e : ℕ → α) : assocScanGet f n e 0 = e 0 := by
  rw [assocScanGet]
  split_ifs
  · rfl
  · simp

/-- the steps beyond the last event (never used) look like starts -/
theorem ev_beyond {X : Arr Coord} {j : ℕ} (hj : 2 * X.len ≤ j) : ev X j = 0 := by
  unfold ev
  rw [eventOrder_eq]
  simp only [sortedArr, Arr.ofList]
  exact List.getD_eq_default _ _ (by simpa using hj)

/-- **C12, what fails.** If the first event is an exposure end (the earliest measurement `n₀` has zero length), the parallel solver never
uses its value: neither the conditioned means nor the predictions depend on it. -/
theorem C12_first_instantaneous_ignored (k : SSM) (X : Arr Coord) (R y y' : Arr ℝ) (n₀ : ℕ) (h0 : IsEnd X n₀ 0)
    (hyy : ∀ n, n ≠ n₀ → y.get n = y'.get n) :
    k.parallelIntegratedConditionedAtData X y R = k.parallelIntegratedConditionedAtData X y' R ∧
    ∀ Xtest, (k.parallelIntegratedPredictAt X y R Xtest).Same (k.parallelIntegratedPredictAt X y' R Xtest) := by
  have hp : parIntParams k.At k.Qt (X.map fun x => k.obsModel x none) k.reset R y (stateCoords X) (perStateInst X) 0 k.Pinf =
      parIntParams k.At k.Qt (X.map fun x => k.obsModel x none) k.reset R y' (stateCoords X) (perStateInst X) 0 k.Pinf := by
    have hg : ∀ j, (parIntParams k.At k.Qt (X.map fun x => k.obsModel x none) k.reset R y (stateCoords X) (perStateInst X) 0 k.Pinf).get j =
        (parIntParams k.At k.Qt (X.map fun x => k.obsModel x none) k.reset R y' (stateCoords X) (perStateInst X) 0 k.Pinf).get j := by
      intro j
      cases j with
      | zero => rfl
      | succ j =>
        rw [parIntParams_succ, parIntParams_succ]
        by_cases h : (stateCoords X).stateid.get (j + 1) = 0
        · rw [if_pos h, if_pos h]
        · rw [if_neg h, if_neg h]
          have hj : j + 1 < 2 * X.len := by
            by_contra hge
            rw [sc_stateid, ev_beyond (by omega)] at h
            exact h rfl
          rw [hyy _ fun he => ?_]
          have he' : IsEnd X n₀ (j + 1) := ⟨hj, he, by rw [sc_stateid] at h ⊢; omega⟩
          have hn : n₀ < X.len := by rw [← he]; exact obsid_lt hj
          have e1 := (isEnd_iff hn).1 h0
          have e2 := (isEnd_iff hn).1 he'
          omega
    have hgf := funext hg
    have hl : (parIntParams k.At k.Qt (X.map fun x => k.obsModel x none) k.reset R y (stateCoords X) (perStateInst X) 0 k.Pinf).len =
        (parIntParams k.At k.Qt (X.map fun x => k.obsModel x none) k.reset R y' (stateCoords X) (perStateInst X) 0 k.Pinf).len := rfl
    generalize parIntParams k.At k.Qt (X.map fun x => k.obsModel x none) k.reset R y (stateCoords X) (perStateInst X) 0 k.Pinf = a at *
    generalize parIntParams k.At k.Qt (X.map fun x => k.obsModel x none) k.reset R y' (stateCoords X) (perStateInst X) 0 k.Pinf = b at *
    cases a; cases b
    simp only at hgf hl
    rw [hgf, hl]
  have hm : ∀ j, ((k.parIntKalman X y R).get j).m = ((k.parIntKalman X y' R).get j).m ∧
      ((k.parIntKalman X y R).get j).P = ((k.parIntKalman X y' R).get j).P ∧
      ((k.parIntKalman X y R).get j).mPred = ((k.parIntKalman X y' R).get j).mPred ∧
      ((k.parIntKalman X y R).get j).PPred = ((k.parIntKalman X y' R).get j).PPred := by
    intro j
    unfold SSM.parIntKalman parIntKalmanFilter
    rw [hp]
    exact ⟨rfl, rfl, rfl, rfl⟩
  have hl : (k.parIntKalman X y R).len = (k.parIntKalman X y' R).len := rfl
  have hs : (k.parallelIntegratedCondition X y R).2 = (k.parallelIntegratedCondition X y' R).2 := by
    show parIntRtsSmoother k.At k.Qt k.reset (stateCoords X) (perStateInst X) (k.parIntKalman X y R) =
      parIntRtsSmoother k.At k.Qt k.reset (stateCoords X) (perStateInst X) (k.parIntKalman X y' R)
    unfold parIntRtsSmoother Arr.last
    simp only [fun j => (hm j).1, fun j => (hm j).2.1, fun j => (hm j).2.2.1, fun j => (hm j).2.2.2, hl]
  refine ⟨?_, fun Xtest => ?_⟩
  · unfold SSM.parallelIntegratedConditionedAtData
    rw [hs]
  · have hN : 0 < X.len := by have := h0.1; omega
    refine ⟨(parallelIntegratedPredictAt_len k X y R Xtest).trans (parallelIntegratedPredictAt_len k X y' R Xtest).symm, fun i _ => ?_⟩
    rw [parallelIntegratedPredictAt_get k X y R Xtest i _ rfl, parallelIntegratedPredictAt_get k X y' R Xtest i _ rfl,
      ssPredictPoint_congr _ _ _ _ _ (k.parallelIntegratedCondition X y' R).1 _ (k.parallelIntegratedCondition X y' R).2
        (by rw [sc_len]; omega) ?_ ?_]
    · intro j _
      exact hm j
    · intro j _
      rw [hs]

/-! #### one measurement of zero length -/

/-- one measurement at time 0, with zero exposure -/
noncomputable def oneFlash : Arr Coord := Arr.ofList (.time 0) [.exposure 0 0 0]

theorem oneFlash_end : IsEnd oneFlash 0 0 := by
  have hl : oneFlash.len = 1 := rfl
  have hn : 0 < oneFlash.len := by rw [hl]; omega
  have h1 := (isStart_iff hn).2 rfl
  have h2 := (isEnd_iff hn).2 rfl
  have h3 := C13_start_before_end oneFlash 0 _ _ hn h1 h2
  have h4 : ¬ 0 < (oneFlash.get 0).delta := lt_irrefl 0
  have h5 : startStep oneFlash 0 ≠ endStep oneFlash 0 := fun h => by
    have a := h1.2.2
    rw [h, h2.2.2] at a
    omega
  have h6 := startStep_lt hn
  have h7 : endStep oneFlash 0 = 0 := by rw [hl] at h6; by_contra hne; exact h4 (h3.1 (by omega))
  rw [← h7]
  rw [h7] at h2 ⊢
  exact h2

theorem oneFlash_times : (stateCoords oneFlash).t.get 0 = 0 ∧ (stateCoords oneFlash).t.get 1 = 0 := by
  have hl : oneFlash.len = 1 := rfl
  have hg : oneFlash.get 0 = .exposure 0 0 0 := rfl
  obtain ⟨-, -, h⟩ := C13_events_sorted oneFlash
  have : ∀ j < 2 * oneFlash.len, (stateCoords oneFlash).t.get j = 0 := by
    intro j hj
    obtain ⟨n, hn, ⟨-, e⟩ | ⟨-, e⟩⟩ := h j hj
    · obtain rfl : n = 0 := by omega
      rw [e, hg]; simp [Coord.sortable, Coord.delta]
    · obtain rfl : n = 0 := by omega
      rw [e, hg]; simp [Coord.sortable, Coord.delta]
  exact ⟨this 0 (by omega), this 1 (by omega)⟩

/-- `h` reads the latent value, of unit prior variance, and resets do not touch it -/
structure SSM.Flashes (k : SSM) (h : Matrix (Fin 1) k.n ℝ) : Prop where
  row : ∀ i, k.obsModel (.exposure 0 0 i) none = h
  A : k.At 0 0 = 1
  Q : k.Qt 0 0 = 0
  reset : ∀ i, h * k.reset i = h
  reset_col : ∀ i, k.reset i * hᵀ = hᵀ
  P : k.Pinf = 1
  unit : (h * hᵀ) 0 0 = 1

theorem flashes (m : ℕ) : (integratedExp 1 1 m).Flashes (Matrix.of fun _ : Fin 1 => Sum.elim (fun _ => 1) fun _ => 0) where
  row i := by
    refine (defaultObs_none _ _ _).trans ?_
    ext a b
    rcases b with b | b
    · fin_cases b
      simp [integratedSSM.obs]
      rfl
    · simp [integratedSSM.obs]
      rfl
  A := by
    have e : (integratedExp 1 1 m).At 0 0 = NormedSpace.exp ((0 - 0 : ℝ) • (integratedExp 1 1 m).F) :=
      C32_shipped_transition _ (.exp one_pos) (.time 0) (.time 0)
    rw [e, sub_self]
    exact expm_zero _
  Q := noise_zero_of_over ((C32_shipped_noise _ (.exp one_pos)).over 0)
  reset i := by
    refine (Matrix.ext fun a b => ?_)
    refine (Matrix.mul_diagonal _ _ _ _).trans ?_
    rcases b with b | b
    · exact mul_one _
    · exact zero_mul _
  reset_col i := by
    refine (Matrix.ext fun a b => ?_)
    refine (Matrix.diagonal_mul _ _ _ _).trans ?_
    rcases a with a | a
    · exact one_mul _
    · exact mul_zero _
  P := by
    refine Eq.trans ?_ blockDiag_one
    refine congrArg (fun M => blockDiag M 1) ?_
    ext i j; fin_cases i; fin_cases j; simp [expKernel]
    rfl
  unit := by
    rw [Matrix.mul_apply]
    refine (Fintype.sum_sum_type _).trans ?_
    show ∑ _a : Fin 1, (1 * 1 : ℝ) + ∑ _b : Fin (m + 1), (0 * 0 : ℝ) = 1
    simp

theorem SSM.Flashes.update {k : SSM} {h : Matrix (Fin 1) k.n ℝ} (hf : k.Flashes h) (c : ℝ) :
    (kalmanUpdate h 1 c 0 k.Pinf).m = fun a => c / 2 * h 0 a := by
  rw [update_m]
  funext a
  have hs : (h * k.Pinf * hᵀ) 0 0 + 1 = 2 := by rw [hf.P, Matrix.mul_one, hf.unit]; norm_num
  have hg := gain_apply h 1 c 0 k.Pinf a (by rw [hs]; norm_num)
  rw [hs, hf.P, Matrix.one_mul] at hg
  rw [mulVec_zero, Pi.zero_apply, Pi.zero_apply, hf.P]
  change _ * 2 = h 0 a at hg
  rw [← hg]; ring

/-- the sequential answer: half of the datum (prior variance and noise variance being equal) -/
theorem SSM.Flashes.sequential {k : SSM} {h : Matrix (Fin 1) k.n ℝ} (hf : k.Flashes h) (y R : Arr ℝ) (c : ℝ) (hy : y.get 0 = c)
    (hR : R.get 0 = 1) : ((k.integratedConditionedAtData oneFlash y R).get 0).1 = c / 2 := by
  have hl : oneFlash.len = 1 := rfl
  rw [C14_results_in_input_order k oneFlash y R 0 0 (by rw [hl]; omega) oneFlash_end]
  have he : (stateCoords oneFlash).stateid.get 0 ≠ 0 := by rw [oneFlash_end.2.2]; omega
  have h0 : ((k.integratedKalman oneFlash y R).get 0).m = fun a => c / 2 * h 0 a := by
    unfold SSM.integratedKalman
    rw [ikf_end _ _ _ _ _ _ _ _ _ he, ikf_zero_m, ikf_zero_P, oneFlash_end.2.1, hf.A, hf.Q, hR, hy]
    have : (oneFlash.map fun x => k.obsModel x none).get 0 = h := hf.row 0
    rw [this, mulVec_zero, Matrix.one_mul, transpose_one, Matrix.mul_one, add_zero]
    exact hf.update c
  have hs1 : (stateCoords oneFlash).stateid.get 1 = 0 := by
    have h1 := (isStart_iff (X := oneFlash) (n := 0) (by rw [hl]; omega)).2 rfl
    have h2 : startStep oneFlash 0 = 1 := by
      have := h1.1
      rw [hl] at this
      by_contra hne
      have h3 : startStep oneFlash 0 = 0 := by omega
      have := h1.2.2
      rw [h3] at this
      exact he this
    rw [h2] at h1
    exact h1.2.2
  have hp1 : ((k.integratedKalman oneFlash y R).get 1).mPred = ((k.integratedKalman oneFlash y R).get 0).m := by
    have : ((k.integratedKalman oneFlash y R).get (0 + 1)).mPred =
      k.At 0 ((stateCoords oneFlash).t.get (0 + 1) - (stateCoords oneFlash).t.get 0) *ᵥ ((k.integratedKalman oneFlash y R).get 0).m :=
      ikf_succ_m _ _ _ _ _ _ _ _ _ _
    rw [oneFlash_times.1, zero_add, oneFlash_times.2, sub_self, hf.A, one_mulVec] at this
    exact this
  have hm1 : ((k.integratedKalman oneFlash y R).get 1).m = ((k.integratedKalman oneFlash y R).get 0).m := by
    have e : (k.integratedKalman oneFlash y R).get 1 = _ := ikf_start _ _ _ _ _ _ _ _ _ hs1
    have e' := congrArg FilterOut.m e
    refine e'.trans ?_
    show k.reset _ *ᵥ ((k.integratedKalman oneFlash y R).get 1).mPred = _
    rw [hp1, h0]
    funext a
    have := congrFun₂ (hf.reset_col ((stateCoords oneFlash).instid.get ((stateCoords oneFlash).obsid.get 1))) a 0
    rw [Matrix.mul_apply] at this
    show ∑ b, _ * (c / 2 * h 0 b) = c / 2 * h 0 a
    rw [show h 0 a = hᵀ a 0 from rfl, ← this, Finset.mul_sum]
    exact Finset.sum_congr rfl fun b _ => by rw [transpose_apply]; ring
  have hs0 : ((k.integratedCondition oneFlash y R).2.get 0).m = ((k.integratedKalman oneFlash y R).get 0).m := by
    have b := irts_back k.At k.reset (stateCoords oneFlash) (k.integratedKalman oneFlash y R) rfl
    have e1 := b.step_m 0 (by rw [sc_len, hl]; omega)
    have e2 := b.last_m
    rw [sc_len, hl] at e2
    change (_ : StateMP k.n).m = ((k.integratedKalman oneFlash y R).get 1).m at e2
    rw [show 2 * 1 - 1 = 0 + 1 from rfl] at e2
    rw [e2, zero_add, hp1, hm1, sub_self, mulVec_zero, add_zero] at e1
    refine Eq.trans e1 ?_
    unfold Run.base
    rw [(stateCoords oneFlash).resetAt_end k.reset he]
  show (k.obsModel (oneFlash.get 0) none *ᵥ ((k.integratedCondition oneFlash y R).2.get 0).m) 0 = c / 2
  rw [hs0, h0]
  have : k.obsModel (oneFlash.get 0) none = h := hf.row 0
  rw [this]
  have hu := hf.unit
  rw [Matrix.mul_apply] at hu
  show ∑ b, h 0 b * (c / 2 * h 0 b) = c / 2
  refine Eq.trans ?_ ((congrArg (c / 2 * ·) hu).trans (mul_one _))
  show _ = c / 2 * ∑ j, h 0 j * hᵀ j 0
  rw [Finset.mul_sum]
  exact Finset.sum_congr rfl fun b _ => by rw [transpose_apply]; ring

/-- **C12 refuted for conditioning.** With one measurement of zero length, the two solvers' conditioned means differ. -/
theorem C12_conditioned_refuted : ∃ y R : Arr ℝ, y.len = 1 ∧ (∀ i < 1, 0 < R.get i) ∧
    ¬ ((integratedExp 1 1 0).parallelIntegratedConditionedAtData oneFlash y R).Same
      ((integratedExp 1 1 0).integratedConditionedAtData oneFlash y R) := by
  by_contra hall
  push Not at hall
  have hl : oneFlash.len = 1 := rfl
  have hc : ∀ y : Arr ℝ, y.len = 1 →
      (((integratedExp 1 1 0).parallelIntegratedConditionedAtData oneFlash y ⟨1, fun _ => 1⟩).get 0).1 = y.get 0 / 2 :=
    fun y hy => (congrArg Prod.fst ((hall y ⟨1, fun _ => 1⟩ hy fun _ _ => one_pos).2 0
      (by rw [(C14_length _ oneFlash _ _).2, hl]; omega))).trans ((flashes 0).sequential _ _ _ rfl rfl)
  have h01 := (C12_first_instantaneous_ignored (integratedExp 1 1 0) oneFlash ⟨1, fun _ => 1⟩ ⟨1, fun _ => 0⟩
    ⟨1, fun n => if n = 0 then 2 else 0⟩ 0 oneFlash_end (fun n hn => (if_neg hn).symm)).1
  have e0 := hc ⟨1, fun _ => 0⟩ rfl
  have e1 := hc ⟨1, fun n => if n = 0 then 2 else 0⟩ rfl
  rw [h01, e1] at e0
  norm_num at e0

/-! #### the likelihood of two simultaneous measurements of zero length -/

/-- two instruments measure at time 0, with zero exposure -/
noncomputable def twoFlashes : Arr Coord := Arr.ofList (.time 0) [.exposure 0 0 0, .exposure 0 0 1]

theorem twoFlashes_len : twoFlashes.len = 2 := rfl

theorem twoFlashes_get (n : ℕ) (hn : n < 2) : ∃ i, twoFlashes.get n = .exposure 0 0 i := by
  interval_cases n
  · exact ⟨0, rfl⟩
  · exact ⟨1, rfl⟩

theorem twoFlashes_t (j : ℕ) (hj : j < 4) : (stateCoords twoFlashes).t.get j = 0 := by
  obtain ⟨-, -, h⟩ := C13_events_sorted twoFlashes
  obtain ⟨n, hn, ⟨-, e⟩ | ⟨-, e⟩⟩ := h j (by rw [twoFlashes_len]; omega)
  · obtain ⟨i, hg⟩ := twoFlashes_get n hn
    rw [e, hg]; simp [Coord.sortable, Coord.delta]
  · obtain ⟨i, hg⟩ := twoFlashes_get n hn
    rw [e, hg]; simp [Coord.sortable, Coord.delta]

/-- the two ends come first -/
theorem twoFlashes_end (n j : ℕ) (h : IsEnd twoFlashes n j) : j < 2 := by
  have hl := twoFlashes_len
  have h0 := (isStart_iff (X := twoFlashes) (n := 0) (by rw [hl]; omega)).2 rfl
  have h1 := (isStart_iff (X := twoFlashes) (n := 1) (by rw [hl]; omega)).2 rfl
  have a : ∀ b s, IsStart twoFlashes b s → j < s := fun b s hs => by
    refine C13_ends_before_starts _ _ _ _ _ h hs ?_
    have e1 := h.1
    have e2 := hs.1
    rw [hl] at e1 e2
    rw [twoFlashes_t _ e1, twoFlashes_t _ e2]
  have a0 := a _ _ h0
  have a1 := a _ _ h1
  have b0 := h0.1
  have b1 := h1.1
  have hne : startStep twoFlashes 0 ≠ startStep twoFlashes 1 := fun e => by
    have c0 := h0.2.1
    have c1 := h1.2.1
    rw [e] at c0
    omega
  rw [hl] at b0 b1
  omega

theorem twoFlashes_schedule : Schedule 1 twoFlashes where
  delta_nonneg n hn := by
    obtain ⟨i, hg⟩ := twoFlashes_get n hn
    rw [hg]; exact le_rfl
  inst n hn := by
    have hn : n < 2 := hn
    interval_cases n
    · exact ⟨le_rfl, zero_le_one⟩
    · exact ⟨zero_le_one, le_rfl⟩
  disjoint a ha b hb _ _ := by
    obtain ⟨i, hg⟩ := twoFlashes_get a ha
    obtain ⟨j, hg'⟩ := twoFlashes_get b hb
    left
    rw [hg, hg']
    simp [Coord.sortable, Coord.delta]

/-- in the parallel solver the second of the two ends is predicted as if the first had not been measured -/
theorem SSM.Flashes.parallel_vS {k : SSM} {h : Matrix (Fin 1) k.n ℝ} (hf : k.Flashes h) (R : Arr ℝ) (hR : ∀ i < 2, R.get i = 1)
    (j : ℕ) (hj : j < 2) : ((k.parIntKalman twoFlashes ⟨2, fun _ => 0⟩ R).get j).v = 0 ∧
      ((k.parIntKalman twoFlashes ⟨2, fun _ => 0⟩ R).get j).S 0 0 = 2 := by
  have ho : (stateCoords twoFlashes).obsid.get j < 2 := obsid_lt (X := twoFlashes) (by rw [twoFlashes_len]; omega)
  have hH : (twoFlashes.map fun x => k.obsModel x none).get ((stateCoords twoFlashes).obsid.get j) = h := by
    obtain ⟨i, hg⟩ := twoFlashes_get _ ho
    show k.obsModel (twoFlashes.get _) none = h
    rw [hg]; exact hf.row i
  have key : ((k.parIntKalman twoFlashes ⟨2, fun _ => 0⟩ R).get j).mPred = 0 ∧
      (h * ((k.parIntKalman twoFlashes ⟨2, fun _ => 0⟩ R).get j).PPred * hᵀ) 0 0 = 1 := by
    interval_cases j
    · have e1 : ((k.parIntKalman twoFlashes ⟨2, fun _ => 0⟩ R).get 0).mPred = k.At 0 0 *ᵥ (0 : k.n → ℝ) := rfl
      have e2 : ((k.parIntKalman twoFlashes ⟨2, fun _ => 0⟩ R).get 0).PPred = k.At 0 0 * k.Pinf * (k.At 0 0)ᵀ + k.Qt 0 0 := rfl
      refine ⟨e1.trans (mulVec_zero _), ?_⟩
      rw [e2, hf.A, hf.Q, hf.P, transpose_one, Matrix.mul_one, Matrix.mul_one, add_zero, Matrix.mul_one, hf.unit]
    · set p := parIntParams k.At k.Qt (twoFlashes.map fun x => k.obsModel x none) k.reset R ⟨2, fun _ => 0⟩ (stateCoords twoFlashes)
        (perStateInst twoFlashes) 0 k.Pinf
      set d := (stateCoords twoFlashes).t.get (0 + 1) - (stateCoords twoFlashes).t.get 0 with hd
      have hd0 : d = 0 := by rw [hd, twoFlashes_t _ (by omega), twoFlashes_t _ (by omega), sub_zero]
      have e1 : ((k.parIntKalman twoFlashes ⟨2, fun _ => 0⟩ R).get 1).mPred =
        k.At 0 d *ᵥ (assocScanGet KElem.combine p.len p.get 0).b := rfl
      have e2 : ((k.parIntKalman twoFlashes ⟨2, fun _ => 0⟩ R).get 1).PPred =
        k.At 0 d * (assocScanGet KElem.combine p.len p.get 0).C * (k.At 0 d)ᵀ + k.Qt 0 d := rfl
      rw [assocScanGet_zero, hd0, hf.A] at e1 e2
      have e3 : p.get 0 = _ := parIntParams_zero _ _ _ _ _ _ _ _ _ _
      rw [e3] at e1 e2
      refine ⟨by rw [e1]; simp only [mulVec_zero], ?_⟩
      rw [e2]
      simp only [hf.Q, hf.P, hf.A, transpose_one, Matrix.mul_one, Matrix.one_mul, add_zero]
      have e4 := hf.reset ((perStateInst twoFlashes).get 0)
      rw [show h * (k.reset ((perStateInst twoFlashes).get 0) * (k.reset ((perStateInst twoFlashes).get 0))ᵀ) * hᵀ =
        (h * k.reset ((perStateInst twoFlashes).get 0)) * (h * k.reset ((perStateInst twoFlashes).get 0))ᵀ by
          rw [transpose_mul]; simp only [Matrix.mul_assoc], e4, hf.unit]
  constructor
  · funext i
    show 0 - ((twoFlashes.map fun x => k.obsModel x none).get ((stateCoords twoFlashes).obsid.get j) *ᵥ
      ((k.parIntKalman twoFlashes ⟨2, fun _ => 0⟩ R).get j).mPred) i = 0
    rw [key.1, mulVec_zero, Pi.zero_apply, sub_zero]
  · show ((twoFlashes.map fun x => k.obsModel x none).get ((stateCoords twoFlashes).obsid.get j) *
      ((k.parIntKalman twoFlashes ⟨2, fun _ => 0⟩ R).get j).PPred *
      ((twoFlashes.map fun x => k.obsModel x none).get ((stateCoords twoFlashes).obsid.get j))ᵀ) 0 0 + R.get _ = 2
    rw [hH, key.2, hR _ ho]; norm_num

/-- **C12 refuted for the likelihood.** With two simultaneous measurements of zero length the parallel integrated solver treats them as
independent; the sequential one reports the exact likelihood. -/
theorem C12_likelihood_refuted : ∃ y R : Arr ℝ, y.len = 2 ∧ (∀ i < 2, 0 < R.get i) ∧
    (integratedExp 1 1 1).parallelIntegratedLogProbability twoFlashes y R ≠
      (integratedExp 1 1 1).integratedLogProbability twoFlashes y R := by
  refine ⟨⟨2, fun _ => 0⟩, ⟨2, fun _ => 1⟩, rfl, fun _ _ => one_pos, ?_⟩
  have hseq := C11_likelihood (integratedExp 1 1 1) _ 1 (.exp one_pos le_rfl) twoFlashes twoFlashes_schedule ⟨2, fun _ => 0⟩
    ⟨2, fun _ => 1⟩ rfl (fun _ _ => one_pos)
  have hvS := (flashes 1).parallel_vS ⟨2, fun _ => 1⟩ (fun _ _ => rfl)
  have hends : ∀ i < 2, (endsIdx (stateCoords twoFlashes) 2).get i < 2 := fun i hi => by
    obtain ⟨h1, h2⟩ := endsIdx_spec (X := twoFlashes) (i := i) hi
    exact twoFlashes_end _ _ ⟨h1, rfl, by rw [sc_stateid]; exact h2⟩
  rw [hseq]
  unfold SSM.parallelIntegratedLogProbability
  have hlen : ((((integratedExp 1 1 1).parIntKalman twoFlashes ⟨2, fun _ => 0⟩ ⟨2, fun _ => 1⟩).map (·.v)).take
    (endsIdx (stateCoords twoFlashes) 2)).len = 2 := rfl
  rw [computeLogProb_of_pos _ _ ?_]
  · intro h
    have h := EReal.coe_eq_coe_iff.1 h
    rw [hlen, Finset.sum_range_succ, Finset.sum_range_one] at h
    have g0 := hvS _ (hends 0 (by omega))
    have g1 := hvS _ (hends 1 (by omega))
    simp only [Arr.take, Arr.map] at h
    rw [g0.1, g0.2, g1.1, g1.2] at h
    have hc : ∀ i j : Fin twoFlashes.len, exposureCov (covExp 1 1) (twoFlashes.get i) (twoFlashes.get j) = 1 := fun i j => by
      obtain ⟨a, ha⟩ := twoFlashes_get i i.2
      obtain ⟨b, hb⟩ := twoFlashes_get j j.2
      rw [ha, hb]
      simp [exposureCov, Coord.average, Coord.delta, Coord.sortable, covExp]
    have hdet : (noisyGram (fun i j : Fin twoFlashes.len => exposureCov (covExp 1 1) (twoFlashes.get i) (twoFlashes.get j))
        fun _ => 1).det = 3 := by
      simp only [hc]
      refine (Matrix.det_fin_two (noisyGram (fun _ _ : Fin 2 => (1 : ℝ)) fun _ => 1)).trans ?_
      simp [noisyGram]; norm_num
    rw [gaussLogDensity, hdet] at h
    have hcard : Fintype.card (Fin twoFlashes.len) = 2 := Fintype.card_fin 2
    have hz : (fun i : Fin twoFlashes.len => (0 : ℝ)) ⬝ᵥ
      (noisyGram (fun i j : Fin twoFlashes.len => exposureCov (covExp 1 1) (twoFlashes.get i) (twoFlashes.get j))
        fun _ => 1)⁻¹ *ᵥ (fun i : Fin twoFlashes.len => (0 : ℝ)) = 0 := zero_dotProduct _
    rw [hz, hcard] at h
    have hl : 2 * Real.log (Real.sqrt 2) = Real.log 2 := by
      rw [Real.log_sqrt (by norm_num)]; ring
    have hlt : Real.log 3 < Real.log 4 := Real.log_lt_log (by norm_num) (by norm_num)
    have h4 : Real.log 4 = 2 * Real.log 2 := by
      rw [show (4 : ℝ) = 2 ^ 2 by norm_num, Real.log_pow]; norm_num
    simp only [Pi.zero_apply, zero_div, hl] at h
    push_cast at h
    linarith
  · intro i hi
    have := (hvS _ (hends i hi)).2
    show 0 < (((integratedExp 1 1 1).parIntKalman twoFlashes ⟨2, fun _ => 0⟩ ⟨2, fun _ => 1⟩).get
      ((endsIdx (stateCoords twoFlashes) 2).get i)).S 0 0
    rw [this]; norm_num

end Verif
