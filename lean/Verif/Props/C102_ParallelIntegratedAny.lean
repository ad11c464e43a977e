import Verif.Props.C101_ParallelAny
import Verif.Props.C12_ParallelIntegrated

/-!
# C102: the parallel integrated solver agrees with the sequential one wherever no system is singular

C12 compares the two integrated solvers where the process noise is positive semidefinite and the noise of the data is positive. Here the
kernel is any tree, exact or not, and the noise has any sign; some exposure begins before any ends (`C102_otherwise_ignored` shows
what fails otherwise).
-/

set_option linter.unusedSectionVars false
set_option linter.unnecessarySeqFocus false

namespace Verif
open Matrix
open scoped Kronecker

/-! ## No noise accumulates over no time -/

theorem integratedSSM_Q_zero (name : String) (m : ℕ) (base : SSM) (first : base.n) (phibar : ℝ → ℝ → Matrix base.n base.n ℝ)
    (q12 : ℝ → ℝ → base.n → ℝ) (q22 : ℝ → ℝ → ℝ) (h0 : base.Qt 0 0 = 0) (h1 : ∀ a, q12 0 0 a = 0) (h2 : q22 0 0 = 0) :
    (integratedSSM name m base first phibar q12 q22).Qt 0 0 = 0 := by
  have e : base.Q (.time 0) (.time (0 - 0)) = 0 := by rw [sub_zero]; exact h0
  show Matrix.fromBlocks (base.Q (.time 0) (.time (0 - 0))) (Matrix.of fun a _ => q12 0 0 a) (Matrix.of fun _ a => q12 0 0 a)
    (Matrix.of fun _ _ => q22 0 0) = 0
  rw [e, h2]
  simp only [h1]
  exact fromBlocks_zero

theorem IntegratedSHO.iQ12_at_zero (w q : ℝ) (a : Fin 2) : IntegratedSHO.iQ12 w q 0 a = 0 := by
  unfold IntegratedSHO.iQ12
  fin_cases a <;> simp

theorem integratedSHO_Q_zero (w q σ : ℝ) (m : ℕ) (name : String) : (integratedSHO w q σ m name).Qt 0 0 = 0 := by
  refine integratedSSM_Q_zero _ _ _ _ _ _ _ (sho_rest _ _ _ _).Q_zero (fun a => ?_) ?_
  · unfold IntegratedSHO.q12
    split_ifs
    · have e : IntegratedSHO.iQ12 w q (0 - 0) a = 0 := by rw [sub_zero]; exact IntegratedSHO.iQ12_at_zero w q a
      have e' : σ ^ 2 * IntegratedSHO.iQ12 w q (0 - 0) a = 0 := by rw [e, mul_zero]
      exact (congrArg IntegratedSHO.trunc e').trans (by simp [IntegratedSHO.trunc])
    · rw [sub_zero]; exact defaultQ12_zero _ _ a
  · unfold IntegratedSHO.q22
    split_ifs with h
    · rw [sub_zero, IntegratedSHO.iQ22_zero (by have := h.2; norm_num at this; linarith), max_self, mul_zero]
      simp [IntegratedSHO.trunc]
    · rw [sub_zero]; exact defaultQ22_zero _ _

/-- the process noise of every kernel tree vanishes over no time -/
theorem Kern.Q_zero (k : Kern) : k.model.Qt 0 0 = 0 := by
  induction k with
  | constant sigma s => exact (show (Kern.constant sigma s).Instant from fun h => by cases h with | here h => cases h).rest.Q_zero
  | exp l sigma s => exact (show (Kern.exp l sigma s).Instant from fun h => by cases h with | here h => cases h).rest.Q_zero
  | sho w q sigma s => exact (sho_rest _ _ _ _).Q_zero
  | matern32 l sigma s => exact (show (Kern.matern32 l sigma s).Instant from fun h => by cases h with | here h => cases h).rest.Q_zero
  | matern52 l sigma s => exact (show (Kern.matern52 l sigma s).Instant from fun h => by cases h with | here h => cases h).rest.Q_zero
  | cosine l sigma s => exact (show (Kern.cosine l sigma s).Instant from fun h => by cases h with | here h => cases h).rest.Q_zero
  | expSineSquared p g sigma order s =>
    exact (show (Kern.expSineSquared p g sigma order s).Instant from fun h => by cases h with | here h => cases h).rest.Q_zero
  | integratedSHO => exact integratedSHO_Q_zero _ _ _ _ _
  | integratedExp l sigma m s =>
    exact integratedSSM_Q_zero _ _ _ _ _ _ _
      (show (Kern.exp l sigma "Exp").Instant from fun h => by cases h with | here h => cases h).rest.Q_zero (defaultQ12_zero _ _)
      (defaultQ22_zero _ _)
  | integratedMatern32 l sigma m s =>
    exact integratedSSM_Q_zero _ _ _ _ _ _ _
      (show (Kern.matern32 l sigma "Matern32").Instant from fun h => by cases h with | here h => cases h).rest.Q_zero (defaultQ12_zero _ _)
      (defaultQ22_zero _ _)
  | integratedMatern52 l sigma m s =>
    exact integratedSSM_Q_zero _ _ _ _ _ _ _
      (show (Kern.matern52 l sigma "Matern52").Instant from fun h => by cases h with | here h => cases h).rest.Q_zero (defaultQ12_zero _ _)
      (defaultQ22_zero _ _)
  | integratedCosine l sigma m s =>
    exact integratedSSM_Q_zero _ _ _ _ _ _ _
      (show (Kern.cosine l sigma "Cosine").Instant from fun h => by cases h with | here h => cases h).rest.Q_zero (defaultQ12_zero _ _)
      (defaultQ22_zero _ _)
  | scale s k a ih => exact ih
  | sum a b iha ihb =>
    show Matrix.fromBlocks (a.model.Qt 0 0) 0 0 (b.model.Qt 0 0) = 0
    rw [iha, ihb]
    exact fromBlocks_zero
  | prod a b iha ihb =>
    show a.model.Pinf ⊗ₖ b.model.Qt 0 0 + a.model.Qt 0 0 ⊗ₖ b.model.Pinf - a.model.Qt 0 0 ⊗ₖ b.model.Qt 0 0 = 0
    rw [iha, ihb, kronecker_zero, zero_kronecker, zero_kronecker]
    simp

/-! ## The filter and the smoother -/

/-- symmetrising does nothing when the process noise is symmetric -/
theorem endElem_eq_measure {n : Type} [Fintype n] [DecidableEq n] {Phi Q : Matrix n n ℝ} {H : Matrix (Fin 1) n ℝ} {y r : ℝ} (hQ : Qᵀ = Q) :
    KElem.endElem Phi Q H y r = KElem.measure Phi Q H y r := by
  have hC := (measure_sym (Phi := Phi) (H := H) (y := y) (r := r) hQ).1
  have hc : (0.5 : ℝ) • ((KElem.measure Phi Q H y r).C + (KElem.measure Phi Q H y r).Cᵀ) = (KElem.measure Phi Q H y r).C := by
    rw [hC, ← two_smul ℝ, smul_smul]; norm_num
  have hJ : (KElem.endElem Phi Q H y r).J = (KElem.measure Phi Q H y r).J := by
    simp only [KElem.endElem, KElem.measure]
    rw [transpose_mul, transpose_transpose, transpose_transpose]
  have e : KElem.endElem Phi Q H y r = ⟨(KElem.measure Phi Q H y r).A, (KElem.measure Phi Q H y r).b,
      (0.5 : ℝ) • ((KElem.measure Phi Q H y r).C + (KElem.measure Phi Q H y r).Cᵀ), (KElem.measure Phi Q H y r).eta,
      (KElem.endElem Phi Q H y r).J⟩ := rfl
  rw [e, hc, hJ]

/-- No system solved by the parallel integrated filter is singular: neither those of the elements it scans nor those of the pairs it
combines. -/
structure SSM.NoSingularEvents (k : SSM) (X : Arr Coord) (y R : Arr ℝ) : Prop where
  /-- noise variance plus the variance gained since the previous event, at the end of an exposure -/
  ends : ∀ j, j + 1 < 2 * X.len → (stateCoords X).stateid.get (j + 1) ≠ 0 →
    (k.obsModel (X.get ((stateCoords X).obsid.get (j + 1))) none * k.Qt 0 ((stateCoords X).t.get (j + 1) - (stateCoords X).t.get j) *
      (k.obsModel (X.get ((stateCoords X).obsid.get (j + 1))) none)ᵀ) 0 0 + R.get ((stateCoords X).obsid.get (j + 1)) ≠ 0
  /-- the matrix `I + C J` of every combined pair -/
  pairs : ∀ a b, scanCombines KElem.combine (2 * X.len) (parIntParams k.At k.Qt (X.map fun x => k.obsModel x none) k.reset R y
    (stateCoords X) (perStateInst X) 0 k.Pinf).get a b → IsUnit (1 + a.C * b.J).det

section filter
variable {k : SSM} (hQ0 : k.Qt 0 0 = 0) (hs : k.Symm) {X : Arr Coord} {y R : Arr ℝ}
include hs

theorem irun_symm (j : ℕ) : (((k.integratedKalman X y R).get j).PPred)ᵀ = ((k.integratedKalman X y R).get j).PPred ∧
    (((k.integratedKalman X y R).get j).P)ᵀ = ((k.integratedKalman X y R).get j).P := by
  have r := ikf_run k.At k.Qt (X.map fun x => k.obsModel x none) k.reset R y (stateCoords X) k.Pinf
  have h1 : (k.At 0 0 * k.Pinf * (k.At 0 0)ᵀ + k.Qt 0 0)ᵀ = k.At 0 0 * k.Pinf * (k.At 0 0)ᵀ + k.Qt 0 0 := by
    rw [transpose_add, transpose_mul, transpose_mul, transpose_transpose, hs.1, Matrix.mul_assoc]
    exact congrArg _ (hs.2 _ _)
  have h := r.symm h1 (j := j) fun i _ => hs.2 _ _
  refine ⟨h, ?_⟩
  have hu := r.upd j
  change (k.integratedKalman X y R).get j = stepUpdate _ _ _ _ ((k.integratedKalman X y R).get j).mPred
    ((k.integratedKalman X y R).get j).PPred at hu
  change (((k.integratedKalman X y R).get j).PPred)ᵀ = ((k.integratedKalman X y R).get j).PPred at h
  rw [hu]
  unfold stepUpdate
  cases (stateCoords X).resetAt k.reset j with
  | some z =>
    show (z * ((k.integratedKalman X y R).get j).PPred * zᵀ)ᵀ = z * ((k.integratedKalman X y R).get j).PPred * zᵀ
    rw [transpose_mul, transpose_mul, transpose_transpose, h, Matrix.mul_assoc]
  | none => exact update_symm h

include hQ0

/-- the scan holds the filtered means and covariances of the sequential filter -/
theorem parInt_scan_any (h : k.NoSingularEvents X y R) (hS : ∀ n < X.len, ∀ j, IsEnd X n j → ((k.integratedKalman X y R).get j).S 0 0 ≠ 0)
    (hfirst : (stateCoords X).stateid.get 0 = 0) (j : ℕ) (hj : j < 2 * X.len) :
    ((k.parIntKalman X y R).get j).m = ((k.integratedKalman X y R).get j).m ∧
    ((k.parIntKalman X y R).get j).P = ((k.integratedKalman X y R).get j).P := by
  have r := ikf_run k.At k.Qt (X.map fun x => k.obsModel x none) k.reset R y (stateCoords X) k.Pinf
  have hlen := parIntParams_len k.At k.Qt (X.map fun x => k.obsModel x none) k.reset R y (stateCoords X) (perStateInst X) 0 k.Pinf
    (by rw [sc_len]; omega)
  rw [sc_len] at hlen
  have hget : ∀ j, (associativeScan KElem.combine (parIntParams k.At k.Qt (X.map fun x => k.obsModel x none) k.reset R y (stateCoords X)
      (perStateInst X) 0 k.Pinf)).get j = assocScanGet KElem.combine (2 * X.len)
        (parIntParams k.At k.Qt (X.map fun x => k.obsModel x none) k.reset R y (stateCoords X) (perStateInst X) 0 k.Pinf).get j := by
    intro j
    rw [associativeScan, hlen]
    rfl
  have h0 : ((integratedKalmanFilter k.At k.Qt (X.map fun x => k.obsModel x none) k.reset R y (stateCoords X) 0 k.Pinf).get 0).m = 0 ∧
      ((integratedKalmanFilter k.At k.Qt (X.map fun x => k.obsModel x none) k.reset R y (stateCoords X) 0 k.Pinf).get 0).P =
        k.reset ((perStateInst X).get 0) * (k.At 0 0 * k.Pinf * (k.At 0 0)ᵀ) * (k.reset ((perStateInst X).get 0))ᵀ := by
    rw [ikf_start _ _ _ _ _ _ _ _ _ hfirst, ikf_zero_m, ikf_zero_P, hQ0, add_zero, mulVec_zero, mulVec_zero]
    exact ⟨rfl, rfl⟩
  have main := prefix_regular r (e := (parIntParams k.At k.Qt (X.map fun x => k.obsModel x none) k.reset R y (stateCoords X)
      (perStateInst X) 0 k.Pinf).get) (N := 2 * X.len) ?_ ?_ ?_ ?_ ?_ ?_ ?_ h.pairs j hj
  · rw [← hget] at main
    exact main
  · rw [parIntParams_zero]
    refine ⟨?_, transpose_zero⟩
    show (k.reset ((perStateInst X).get 0) * k.At 0 0 * k.Pinf * (k.reset ((perStateInst X).get 0) * k.At 0 0)ᵀ)ᵀ = _
    generalize k.reset ((perStateInst X).get 0) * k.At 0 0 = M
    show (M * k.Pinf * Mᵀ)ᵀ = M * k.Pinf * Mᵀ
    rw [transpose_mul, transpose_mul, transpose_transpose, hs.1, Matrix.mul_assoc]
  · rw [parIntParams_zero, h0.1, mulVec_zero]
  · rw [parIntParams_zero, h0.2, transpose_mul]
    simp only [Matrix.mul_assoc]
  · exact fun i _ => hs.2 _ _
  · exact fun i _ => (irun_symm hs i).2
  · intro i hi hz
    have hend : (stateCoords X).stateid.get (i + 1) ≠ 0 := fun h0 => by
      rw [(stateCoords X).resetAt_start k.reset h0] at hz
      cases hz
    refine ⟨h.ends i hi hend, ?_⟩
    have hS' := hS _ (obsid_lt hi) (i + 1) ⟨hi, rfl, by rw [sc_stateid] at hend ⊢; omega⟩
    have e := ikf_end k.At k.Qt (X.map fun x => k.obsModel x none) k.reset R y (stateCoords X) 0 k.Pinf hend
    change (k.integratedKalman X y R).get (i + 1) = kalmanUpdate _ _ _ ((k.integratedKalman X y R).get (i + 1)).mPred
      ((k.integratedKalman X y R).get (i + 1)).PPred at e
    rw [e] at hS'
    exact hS'
  · intro i hi
    rw [parIntParams_succ]
    by_cases h : (stateCoords X).stateid.get (i + 1) = 0
    · rw [if_pos h, (stateCoords X).resetAt_start k.reset h]
      rfl
    · rw [if_neg h, (stateCoords X).resetAt_end k.reset h]
      exact endElem_eq_measure (hs.2 _ _)

/-- **C102, filter.** The parallel filter returns, at every event, the filtered and predicted means and covariances of the sequential
filter; at the end of every exposure also its innovation and innovation variance. -/
theorem C102_parallel_filter (h : k.NoSingularEvents X y R)
    (hS : ∀ n < X.len, ∀ j, IsEnd X n j → ((k.integratedKalman X y R).get j).S 0 0 ≠ 0)
    (hfirst : (stateCoords X).stateid.get 0 = 0) (j : ℕ) (hj : j < 2 * X.len) :
    ((k.parIntKalman X y R).get j).m = ((k.integratedKalman X y R).get j).m ∧
    ((k.parIntKalman X y R).get j).P = ((k.integratedKalman X y R).get j).P ∧
    ((k.parIntKalman X y R).get j).mPred = ((k.integratedKalman X y R).get j).mPred ∧
    ((k.parIntKalman X y R).get j).PPred = ((k.integratedKalman X y R).get j).PPred ∧
    ((stateCoords X).stateid.get j ≠ 0 → ((k.parIntKalman X y R).get j).v = ((k.integratedKalman X y R).get j).v ∧
      ((k.parIntKalman X y R).get j).S = ((k.integratedKalman X y R).get j).S) := by
  obtain ⟨hm, hP⟩ := parInt_scan_any hQ0 hs h hS hfirst j hj
  have hpred : ((k.parIntKalman X y R).get j).mPred = ((k.integratedKalman X y R).get j).mPred ∧
      ((k.parIntKalman X y R).get j).PPred = ((k.integratedKalman X y R).get j).PPred := by
    cases j with
    | zero =>
      have e1 : ((k.integratedKalman X y R).get 0).mPred = k.At 0 0 *ᵥ 0 := ikf_zero_m _ _ _ _ _ _ _ _ _
      have e2 : ((k.integratedKalman X y R).get 0).PPred = k.At 0 0 * k.Pinf * (k.At 0 0)ᵀ + k.Qt 0 0 := ikf_zero_P _ _ _ _ _ _ _ _ _
      rw [e1, e2]
      exact ⟨rfl, rfl⟩
    | succ i =>
      obtain ⟨im, iP⟩ := parInt_scan_any hQ0 hs h hS hfirst i (by omega)
      have e1 : ((k.integratedKalman X y R).get (i + 1)).mPred = _ *ᵥ ((k.integratedKalman X y R).get i).m := ikf_succ_m _ _ _ _ _ _ _ _ _ _
      have e2 : ((k.integratedKalman X y R).get (i + 1)).PPred = _ * ((k.integratedKalman X y R).get i).P * _ + _ :=
        ikf_succ_P _ _ _ _ _ _ _ _ _ _
      rw [e1, e2, ← im, ← iP]
      exact ⟨rfl, rfl⟩
  refine ⟨hm, hP, hpred.1, hpred.2, fun h => ?_⟩
  have e := ikf_end k.At k.Qt (X.map fun x => k.obsModel x none) k.reset R y (stateCoords X) 0 k.Pinf h
  change (k.integratedKalman X y R).get j = kalmanUpdate _ _ _ ((k.integratedKalman X y R).get j).mPred
    ((k.integratedKalman X y R).get j).PPred at e
  rw [← hpred.1, ← hpred.2] at e
  rw [e]
  exact ⟨rfl, rfl⟩

/-- **C102, smoother.** If moreover no predicted covariance is singular, the smoothed means and covariances agree at every event. -/
theorem C102_parallel_smoother (h : k.NoSingularEvents X y R)
    (hS : ∀ n < X.len, ∀ j, IsEnd X n j → ((k.integratedKalman X y R).get j).S 0 0 ≠ 0)
    (hfirst : (stateCoords X).stateid.get 0 = 0)
    (hP : ∀ j, j + 1 < 2 * X.len → IsUnit ((k.integratedKalman X y R).get (j + 1)).PPred.det) (j : ℕ) (hj : j < 2 * X.len) :
    (k.parallelIntegratedCondition X y R).2.get j = (k.integratedCondition X y R).2.get j := by
  have hf := C102_parallel_filter hQ0 hs h hS hfirst
  have r := ikf_run k.At k.Qt (X.map fun x => k.obsModel x none) k.reset R y (stateCoords X) k.Pinf
  have s := irts_back k.At k.reset (stateCoords X) (k.integratedKalman X y R) rfl
  rw [sc_len] at s
  have hlen : (k.parIntKalman X y R).len = 2 * X.len := by
    have := parIntParams_len k.At k.Qt (X.map fun x => k.obsModel x none) k.reset R y (stateCoords X) (perStateInst X) 0 k.Pinf
      (by rw [sc_len]; omega)
    rw [sc_len] at this
    exact this
  have hsym : ∀ i < 2 * X.len, ((Run.base ((stateCoords X).resetAt k.reset) (k.integratedKalman X y R).get i).P)ᵀ =
      (Run.base ((stateCoords X).resetAt k.reset) (k.integratedKalman X y R).get i).P := by
    intro i hi
    obtain ⟨h1, h2⟩ := irun_symm hs (X := X) (y := y) (R := R) i
    unfold Run.base
    by_cases h : (stateCoords X).stateid.get i = 0
    · rw [(stateCoords X).resetAt_start k.reset h]; exact h1
    · rw [(stateCoords X).resetAt_end k.reset h]; exact h2
  set elems : Arr (BElem k.n) := Arr.append
    ⟨(stateCoords X).t.diff.len, fun i =>
      if (stateCoords X).stateid.init.get i = 0 then BElem.generic (k.At 0 ((stateCoords X).t.diff.get i) * k.reset ((perStateInst X).init.get i))
        (k.Qt 0 ((stateCoords X).t.diff.get i)) ((k.parIntKalman X y R).get i).mPred ((k.parIntKalman X y R).get i).PPred
      else BElem.generic (k.At 0 ((stateCoords X).t.diff.get i)) (k.Qt 0 ((stateCoords X).t.diff.get i)) ((k.parIntKalman X y R).get i).m
        ((k.parIntKalman X y R).get i).P⟩
    (Arr.single (BElem.last (k.parIntKalman X y R).last.m (k.parIntKalman X y R).last.P)) with hel
  have hdl : (stateCoords X).t.diff.len = 2 * X.len - 1 := by
    show (stateCoords X).t.len - 1 = _
    rw [sc_len]
  have main := suffix_back (Q := fun i => k.Qt 0 ((stateCoords X).t.get (i + 1) - (stateCoords X).t.get i)) s elems
    (by show (stateCoords X).t.diff.len + 1 = _; rw [hdl]; omega) ?_ ?_ ?_ ?_ ?_ ?_ ?_ j hj
  · obtain ⟨h1, h2⟩ := main
    exact StateMP.ext' h1 h2
  · rw [hel, Arr.append_get_ge _ _ (by rw [hdl])]
    show BElem.last ((k.parIntKalman X y R).get ((k.parIntKalman X y R).len - 1)).m
      ((k.parIntKalman X y R).get ((k.parIntKalman X y R).len - 1)).P = _
    rw [hlen, (hf _ (by omega)).1, (hf _ (by omega)).2.1]
  · intro i hi
    rw [hel, Arr.append_get_lt _ _ (by rw [hdl]; omega)]
    obtain ⟨h1, h2, h3, h4, -⟩ := hf i (by omega)
    unfold Run.base StateCoords.jump
    by_cases h : (stateCoords X).stateid.get i = 0
    · refine (if_pos h).trans ?_
      rw [(stateCoords X).resetAt_start k.reset h, if_pos h, h3, h4]
      rfl
    · refine (if_neg h).trans ?_
      rw [(stateCoords X).resetAt_end k.reset h, if_neg h, h1, h2, Matrix.mul_one]
      rfl
  · intro i hi
    exact hsym i (by omega)
  · intro i hi
    refine (r.succ_m i).trans ?_
    have hu := r.upd i
    unfold Run.base StateCoords.jump
    by_cases h : (stateCoords X).stateid.get i = 0
    · rw [(stateCoords X).resetAt_start k.reset h] at hu ⊢
      rw [if_pos h, ← mulVec_mulVec]
      exact congrArg _ (congrArg FilterOut.m hu)
    · rw [(stateCoords X).resetAt_end k.reset h, if_neg h, Matrix.mul_one]
      rfl
  · intro i hi
    refine (r.succ_P i).trans ?_
    have hu := r.upd i
    unfold Run.base StateCoords.jump
    by_cases h : (stateCoords X).stateid.get i = 0
    · rw [(stateCoords X).resetAt_start k.reset h] at hu ⊢
      rw [if_pos h, transpose_mul]
      have := congrArg FilterOut.P hu
      refine congrArg (· + _) ?_
      refine (congrArg (fun M => k.At 0 ((stateCoords X).t.get (i + 1) - (stateCoords X).t.get i) * M *
        (k.At 0 ((stateCoords X).t.get (i + 1) - (stateCoords X).t.get i))ᵀ) this).trans ?_
      show _ * (_ * _ * _) * _ = _
      simp only [Matrix.mul_assoc]
      rfl
    · rw [(stateCoords X).resetAt_end k.reset h, if_neg h, Matrix.mul_one]
      rfl
  · intro i hi
    exact (irun_symm hs _).1
  · exact hP

end filter

/-! ## The package interface -/

/-- No exposure ends before some exposure has begun, as is the case if all of them have positive length. Measurements of zero length are
allowed, except at the very beginning. -/
def BeginsFirst (X : Arr Coord) : Prop := ∀ n < X.len, ∃ m < X.len,
  (X.get m).sortable - (X.get m).delta / 2 < (X.get n).sortable + (X.get n).delta / 2

theorem BeginsFirst.of_pos {X : Arr Coord} (h : ∀ n < X.len, 0 < (X.get n).delta) : BeginsFirst X := fun n hn =>
  ⟨n, hn, by linarith [h n hn]⟩

/-- This says that the first step of the filter is the start of an exposure. -/
theorem beginsFirst_iff {X : Arr Coord} (hN : 0 < X.len) : BeginsFirst X ↔ (stateCoords X).stateid.get 0 = 0 := by
  obtain ⟨-, hsort, hev⟩ := C13_events_sorted X
  obtain ⟨n, hn, h⟩ := hev 0 (by omega)
  have time_start : ∀ {m j}, IsStart X m j → (stateCoords X).t.get j = (X.get m).sortable - (X.get m).delta / 2 := by
    intro m j hs
    obtain ⟨n', -, ⟨h1, h2⟩ | ⟨h1, -⟩⟩ := hev j hs.1
    · rw [h2, ← h1.2.1, hs.2.1]
    · have := hs.2.2; have := h1.2.2; omega
  have time_end : ∀ {m j}, IsEnd X m j → (stateCoords X).t.get j = (X.get m).sortable + (X.get m).delta / 2 := by
    intro m j hs
    obtain ⟨n', -, ⟨h1, -⟩ | ⟨h1, h2⟩⟩ := hev j hs.1
    · have := hs.2.2; have := h1.2.2; omega
    · rw [h2, ← h1.2.1, hs.2.1]
  constructor
  · intro hb
    rcases h with ⟨h, -⟩ | ⟨h, e⟩
    · exact h.2.2
    · obtain ⟨m, hm, hlt⟩ := hb n hn
      obtain ⟨j, hj, -⟩ := (C13_one_start_one_end X m hm).1
      have := hsort 0 j (Nat.zero_le _) hj.1
      rw [e, time_start hj] at this
      exact absurd hlt (not_lt.2 this)
  · intro h0 a ha
    rcases h with ⟨h, e⟩ | ⟨h, -⟩
    · refine ⟨n, hn, ?_⟩
      obtain ⟨j, hj, -⟩ := (C13_one_start_one_end X a ha).2
      have hle := hsort 0 j (Nat.zero_le _) hj.1
      rw [← e, ← time_end hj]
      refine lt_of_le_of_ne hle fun heq => ?_
      exact absurd (C13_ends_before_starts X a n j 0 hj h heq.symm) (by omega)
    · have := h.2.2; omega

theorem SSM.NoSingularEvents.strip {a b : SSM} (h : a.strip = b.strip) {X : Arr Coord} {y R : Arr ℝ} (hb : b.NoSingularEvents X y R) :
    a.NoSingularEvents X y R := by
  have h1 : b.strip.NoSingularEvents X y R := ⟨hb.ends, hb.pairs⟩
  rw [← h] at h1
  exact ⟨h1.ends, h1.pairs⟩

/-- No covariance predicted by the sequential integrated filter is singular. -/
def SSM.PredictsRegularEvents (k : SSM) (X : Arr Coord) (y R : Arr ℝ) : Prop :=
  ∀ j, j + 1 < 2 * X.len → IsUnit ((k.integratedKalman X y R).get (j + 1)).PPred.det

theorem SSM.PredictsRegularEvents.strip {a b : SSM} (h : a.strip = b.strip) {X : Arr Coord} {y R : Arr ℝ} (hb : b.PredictsRegularEvents X y R) :
    a.PredictsRegularEvents X y R := by
  have h1 : b.strip.PredictsRegularEvents X y R := hb
  rw [← h] at h1
  exact h1

section interface
variable {kernel : Kern} {X : XArg} {diag : Option (ℝ ⊕ Arr ℝ)} {mean mean' : Option (Coord → ℝ)} {u : Bool}
  {gp gp' g g' : GP} {y : Arr ℝ} {lp lp' : EReal}

/-- the likelihood, from the agreement of the filters -/
theorem parallelIntegrated_logProb {k : SSM} (hQ0 : k.Qt 0 0 = 0) (hs : k.Symm) {X : Arr Coord} {y R : Arr ℝ} (hy : y.len = X.len)
    (h : k.NoSingularEvents X y R) (hS : ∀ n < X.len, ∀ j, IsEnd X n j → ((k.integratedKalman X y R).get j).S 0 0 ≠ 0)
    (hfirst : (stateCoords X).stateid.get 0 = 0) : k.logProb .parallelIntegrated X y R = k.logProb .integrated X y R := by
  have key : ∀ i < X.len, ((k.parIntKalman X y R).get ((endsIdx (stateCoords X) X.len).get i)).v =
        ((k.integratedKalman X y R).get ((endsIdx (stateCoords X) X.len).get i)).v ∧
      ((k.parIntKalman X y R).get ((endsIdx (stateCoords X) X.len).get i)).S =
        ((k.integratedKalman X y R).get ((endsIdx (stateCoords X) X.len).get i)).S := by
    intro i hi
    obtain ⟨h1, h2⟩ := endsIdx_spec (X := X) hi
    exact (C102_parallel_filter hQ0 hs h hS hfirst _ h1).2.2.2.2 (by rw [sc_stateid, h2]; omega)
  show k.parallelIntegratedLogProbability X y R = k.integratedLogProbability X y R
  unfold SSM.parallelIntegratedLogProbability SSM.integratedLogProbability
  rw [hy]
  exact computeLogProb_congr rfl (fun i hi => (key i hi).1) (fun i hi => (key i hi).2)

theorem finite_S_events {k : SSM} {X : Arr Coord} {y R : Arr ℝ} (hy : y.len = X.len) (h : k.logProb .integrated X y R ≠ ⊥) :
    ∀ n < X.len, ∀ j, IsEnd X n j → ((k.integratedKalman X y R).get j).S 0 0 ≠ 0 := by
  rcases C46_integrated_total k X y R hy with ⟨hp, -⟩ | ⟨-, hb⟩
  · exact fun i hi j he => (hp i hi j he).ne'
  · exact absurd hb h

/-- **C102, likelihood.** For every kernel tree, exact or not, and exposures in any order and with any overlaps, one of which begins before any ends: if
`log_probability` of the sequential integrated solver is finite and no system of the parallel one is singular, the parallel integrated
solver returns the same value. -/
theorem C102_log_probability (hnew : GP.new kernel X diag mean (some .integrated) u = .ok gp)
    (hnew' : GP.new kernel X diag mean' (some .parallelIntegrated) u = .ok gp') (hN : 0 < X.len) (hy : y.len = X.len)
    (hd : BeginsFirst X.coords)
    (hns : kernel.model.NoSingularEvents X.coords y (GP.noiseOf X.len diag)) (hl : gp.logProbability y = .ok lp) (hfin : lp ≠ ⊥)
    (hl' : gp'.logProbability y = .ok lp') : lp' = lp := by
  obtain ⟨-, hs0, -, -, -, -, -, hs1, -⟩ := GP.new_ok hnew
  obtain ⟨-, hs0', -, -, -, -, -, hs1', -⟩ := GP.new_ok hnew'
  have e : lp = kernel.model.logProb .integrated X.coords y (GP.noiseOf X.len diag) := by
    unfold GP.logProbability at hl
    split at hl
    · cases hl
    · injection hl with hl
      rw [← hl, ← SSM.strip_logProb, hs0.strip, SSM.strip_logProb, hs1]
      rfl
  have e' : lp' = kernel.model.logProb .parallelIntegrated X.coords y (GP.noiseOf X.len diag) := by
    unfold GP.logProbability at hl'
    split at hl'
    · cases hl'
    · injection hl' with hl'
      rw [← hl', ← SSM.strip_logProb, hs0'.strip, SSM.strip_logProb, hs1']
      rfl
  rw [e']
  rw [e] at hfin ⊢
  have hy' : y.len = X.coords.len := hy.trans X.coords_len.symm
  exact parallelIntegrated_logProb kernel.Q_zero kernel.symm hy' hns (finite_S_events hy' hfin)
    ((beginsFirst_iff (X.coords_len ▸ hN)).1 hd)

/-- **C102, conditioning and prediction.** If moreover no predicted covariance is singular, the two solvers return the same conditioned
means and variances and the same predictions anywhere, of the process and of every component. -/
theorem C102_condition (hnew : GP.new kernel X diag mean (some .integrated) u = .ok gp)
    (hnew' : GP.new kernel X diag mean' (some .parallelIntegrated) u = .ok gp') (hN : 0 < X.len) (hy : y.len = X.len)
    (hd : BeginsFirst X.coords)
    (hns : kernel.model.NoSingularEvents X.coords y (GP.noiseOf X.len diag))
    (hpr : kernel.model.PredictsRegularEvents X.coords y (GP.noiseOf X.len diag))
    (hc : gp.condition y = .ok (lp, g)) (hfin : lp ≠ ⊥) (hc' : gp'.condition y = .ok (lp', g')) :
    lp' = lp ∧ (∀ i < X.len, g'.mean.get i = g.mean.get i) ∧
      (∃ v v', g.var = some v ∧ g'.var = some v' ∧ ∀ i < X.len, v'.get i = v.get i) ∧
      (∀ Xt component r r', g.predict (some Xt) none component = .ok r →
        g'.predict (some Xt) none component = .ok r' → ∀ m, r'.1.get m = r.1.get m ∧ r'.2.get m = r.2.get m) := by
  obtain ⟨hn, hs0, -, -, -, -, -, hs1, -⟩ := GP.new_ok hnew
  obtain ⟨hn', hs0', -, -, -, -, -, hs1', -⟩ := GP.new_ok hnew'
  obtain ⟨-, hl, hk1, hs2, -, -, hm, hv, -, hso, hst, -⟩ := GP.condition_ok hc
  obtain ⟨-, hl', hk1', -, -, -, hm', hv', -, hso', hst', -⟩ := GP.condition_ok hc'
  have hN' : 0 < X.coords.len := X.coords_len ▸ hN
  have hy' : y.len = X.coords.len := hy.trans X.coords_len.symm
  have hfirst := (beginsFirst_iff hN').1 hd
  have e : lp = kernel.model.logProb .integrated X.coords y (GP.noiseOf X.len diag) := by
    rw [hl, ← SSM.strip_logProb, hs0.strip, SSM.strip_logProb, hs1]; rfl
  have e' : lp' = kernel.model.logProb .parallelIntegrated X.coords y (GP.noiseOf X.len diag) := by
    rw [hl', ← SSM.strip_logProb, hs0'.strip, SSM.strip_logProb, hs1']; rfl
  -- the states of the two solvers, whatever the components are called
  have states : ∀ {a : Kern}, a.SameButNames kernel → (∀ j < 2 * X.coords.len,
        ((a.model.states .parallelIntegrated X.coords y (GP.noiseOf X.len diag)).filt.get j).m =
          ((a.model.states .integrated X.coords y (GP.noiseOf X.len diag)).filt.get j).m ∧
        ((a.model.states .parallelIntegrated X.coords y (GP.noiseOf X.len diag)).filt.get j).P =
          ((a.model.states .integrated X.coords y (GP.noiseOf X.len diag)).filt.get j).P ∧
        ((a.model.states .parallelIntegrated X.coords y (GP.noiseOf X.len diag)).filt.get j).mPred =
          ((a.model.states .integrated X.coords y (GP.noiseOf X.len diag)).filt.get j).mPred ∧
        ((a.model.states .parallelIntegrated X.coords y (GP.noiseOf X.len diag)).filt.get j).PPred =
          ((a.model.states .integrated X.coords y (GP.noiseOf X.len diag)).filt.get j).PPred) ∧
      ∀ j < 2 * X.coords.len, (a.model.states .parallelIntegrated X.coords y (GP.noiseOf X.len diag)).smooth.get j =
        (a.model.states .integrated X.coords y (GP.noiseOf X.len diag)).smooth.get j := by
    intro a ha
    have hS : ∀ n < X.coords.len, ∀ j, IsEnd X.coords n j →
        ((a.model.integratedKalman X.coords y (GP.noiseOf X.len diag)).get j).S 0 0 ≠ 0 := by
      refine finite_S_events hy' ?_
      rw [← SSM.strip_logProb, ha.strip, SSM.strip_logProb, ← e]
      exact hfin
    have f := C102_parallel_filter a.Q_zero a.symm (hns.strip ha.strip) hS hfirst
    have s := C102_parallel_smoother a.Q_zero a.symm (hns.strip ha.strip) hS hfirst (hpr.strip ha.strip)
    refine ⟨fun j hj => ?_, fun j hj => s j hj⟩
    obtain ⟨h1, h2, h3, h4, -⟩ := f j hj
    exact ⟨h1, h2, h3, h4⟩
  have key : ∀ i < X.len, (gp'.atData y).get i = (gp.atData y).get i := fun i hi => by
    have hi' : i < X.coords.len := X.coords_len ▸ hi
    rw [atData_of_new hnew, atData_of_new hnew', projectData_scan _ _ _ _ _ hi', projectData_scan _ _ _ _ _ hi']
    have := (states (a := kernel) rfl).2 (endStep X.coords i) (endStep_lt hi')
    change (_, _) = (_, _)
    rw [show (some SolverKind.parallelIntegrated).getD (GP.chooseSolver kernel) = .parallelIntegrated from rfl,
      show (some SolverKind.integrated).getD (GP.chooseSolver kernel) = .integrated from rfl]
    rw [show dataStep SolverKind.parallelIntegrated X.coords i = endStep X.coords i from rfl,
      show dataStep SolverKind.integrated X.coords i = endStep X.coords i from rfl, this]
  refine ⟨?_, fun i hi => ?_, ⟨_, _, hv, hv', fun i hi => congrArg Prod.snd (key i hi)⟩, fun Xt component r r' p p' m => ?_⟩
  · rw [e', e]
    rw [e] at hfin
    exact parallelIntegrated_logProb kernel.Q_zero kernel.symm hy' hns (finite_S_events hy' hfin) hfirst
  · rw [hm, hm']; exact congrArg Prod.fst (key i hi)
  · have hke : gp'.kernel = gp.kernel := by rw [hn] at hn'; injection hn' with e; exact e.symm
    rw [hke, hk1] at hk1'
    injection hk1' with hk1'
    obtain ⟨f, sm⟩ := states (a := g.kernel) (hs2.trans hs0)
    have h := ssPredictPoint_congr g.kernel.model.At g.kernel.model.Qt g.kernel.model.Pinf (stateCoords X.coords).t
      (g.kernel.model.states .parallelIntegrated X.coords y (GP.noiseOf X.len diag)).filt
      (g.kernel.model.states .integrated X.coords y (GP.noiseOf X.len diag)).filt
      (g.kernel.model.states .parallelIntegrated X.coords y (GP.noiseOf X.len diag)).smooth
      (g.kernel.model.states .integrated X.coords y (GP.noiseOf X.len diag)).smooth
      (by rw [sc_len]; omega) (fun j hj => f j (by rwa [sc_len] at hj)) (fun j hj => sm j (by rwa [sc_len] at hj)) (Xt.coords.get m).sortable
    have h2 : (g.kernel.model.projectTest (g.kernel.model.states .parallelIntegrated X.coords y (GP.noiseOf X.len diag))
          (fun x => g.kernel.model.obsModel x component) Xt.coords).get m =
        (g.kernel.model.projectTest (g.kernel.model.states .integrated X.coords y (GP.noiseOf X.len diag))
          (fun x => g.kernel.model.obsModel x component) Xt.coords).get m := by
      rw [projectTest_point, projectTest_point]
      exact congrArg (fun s : StateMP g.kernel.model.n => ((g.kernel.model.obsModel (Xt.coords.get m) component *ᵥ s.m) 0,
        (g.kernel.model.obsModel (Xt.coords.get m) component * s.P * (g.kernel.model.obsModel (Xt.coords.get m) component)ᵀ) 0 0)) h
    rw [GP.predict_rows hst p, GP.predict_rows hst' p', ← hk1', hso, hso', hs1, hs1']
    exact ⟨congrArg Prod.fst h2, congrArg Prod.snd h2⟩

/-- **C102, interpolation.** Hence the parallel integrated solver, too, interpolates an exposure average without noise. -/
theorem C102_interpolation (hnew : GP.new kernel X diag mean (some .integrated) u = .ok gp)
    (hnew' : GP.new kernel X diag mean' (some .parallelIntegrated) u = .ok gp') (hy : y.len = X.len)
    (hd : BeginsFirst X.coords)
    (hns : kernel.model.NoSingularEvents X.coords y (GP.noiseOf X.len diag))
    (hpr : kernel.model.PredictsRegularEvents X.coords y (GP.noiseOf X.len diag))
    (hc : gp.condition y = .ok (lp, g)) (hfin : lp ≠ ⊥) (hc' : gp'.condition y = .ok (lp', g')) {n : ℕ} (hn : n < X.len)
    (h0 : (GP.noiseOf X.len diag).get n = 0) : g'.mean.get n = y.get n ∧ ∃ v, g'.var = some v ∧ v.get n = 0 := by
  obtain ⟨h1, v, hv, h2⟩ := C100_interpolation (.inl rfl) hnew hy hfin hc hn h0
  obtain ⟨-, e1, ⟨w, w', hw, hw', e2⟩, -⟩ := C102_condition hnew hnew' (by omega) hy hd hns hpr hc hfin hc'
  rw [hv] at hw
  injection hw with hw
  subst hw
  exact ⟨by rw [e1 n hn, h1], w', hw', by rw [e2 n hn, h2]⟩

end interface

/-- **C102, the condition on the exposures.** If some measurement ends before or when the first exposure begins, the parallel solver ignores
the value of one measurement: no conditioned value and no prediction depends on it. -/
theorem C102_otherwise_ignored (k : SSM) {X : Arr Coord} (hN : 0 < X.len) (h : ¬ BeginsFirst X) (R : Arr ℝ) :
    ∃ n₀ < X.len, ∀ y y' : Arr ℝ, (∀ n, n ≠ n₀ → y.get n = y'.get n) →
      k.parallelIntegratedConditionedAtData X y R = k.parallelIntegratedConditionedAtData X y' R ∧
      ∀ Xtest, (k.parallelIntegratedPredictAt X y R Xtest).Same (k.parallelIntegratedPredictAt X y' R Xtest) := by
  obtain ⟨n, hn, ⟨h0, -⟩ | ⟨h0, -⟩⟩ := (C13_events_sorted X).2.2 0 (by omega)
  · exact absurd ((beginsFirst_iff hN).2 h0.2.2) h
  · exact ⟨n, hn, fun y y' hyy => C12_first_instantaneous_ignored k X R y y' n h0 hyy⟩

/-- an exposure with an instantaneous measurement at its centre; the same two with the instantaneous measurement at the start -/
example (t : ℝ) : BeginsFirst ⟨2, fun n => if n = 0 then .exposure t 2 0 else .exposure t 0 0⟩ ∧
    ¬ BeginsFirst ⟨2, fun n => if n = 0 then .exposure t 2 0 else .exposure (t - 1) 0 0⟩ := by
  constructor
  · intro n _
    refine ⟨0, two_pos, ?_⟩
    by_cases h : n = 0
    · simp only [h, if_true, Coord.sortable, Coord.delta]; linarith
    · simp only [h, if_true, if_false, Coord.sortable, Coord.delta]; linarith
  · intro h
    obtain ⟨m, -, h⟩ := h 1 one_lt_two
    by_cases hm : m = 0
    · simp only [hm, if_true, one_ne_zero, if_false, Coord.sortable, Coord.delta] at h; linarith
    · simp only [hm, one_ne_zero, if_false, Coord.sortable, Coord.delta] at h; linarith

/-! ## When no system is singular -/

section sufficient
variable {k : SSM} {X : Arr Coord} {y R : Arr ℝ}

/-- **C102, sufficient condition.** With positive noise, no system is singular if the process noise between neighbouring events is positive
semidefinite; it need not be that of an exact transition. The likelihood is finite. -/
theorem C102_positive_noise (hk : k.PsdModel X) (hy : y.len = X.len) (hR : ∀ i < X.len, 0 < R.get i) :
    k.NoSingularEvents X y R ∧ k.logProb .integrated X y R ≠ ⊥ := by
  have hfresh : ∀ i, i + 1 < 2 * X.len → 0 < freshS (k.Qt 0 ((stateCoords X).t.get (i + 1) - (stateCoords X).t.get i))
      ((X.map fun x => k.obsModel x none).get ((stateCoords X).obsid.get (i + 1))) (R.get ((stateCoords X).obsid.get (i + 1))) := by
    intro i hi
    exact add_pos_of_nonneg_of_pos (psd_quad (hk.Q i hi) _) (hR _ (obsid_lt hi))
  refine ⟨⟨fun j hj _ => (hfresh j hj).ne', fun a b h => ?_⟩, ?_⟩
  · have hv : ∀ i < 2 * X.len, ((parIntParams k.At k.Qt (X.map fun x => k.obsModel x none) k.reset R y (stateCoords X) (perStateInst X) 0
        k.Pinf).get i).Valid := by
      intro i hi
      cases i with
      | zero =>
        rw [parIntParams_zero]
        exact ⟨psd_conj hk.P _, Matrix.PosSemidef.zero⟩
      | succ j =>
        rw [parIntParams_succ]
        by_cases h : (stateCoords X).stateid.get (j + 1) = 0
        · rw [if_pos h]
          exact ⟨psd_conj (hk.Q j hi) _, Matrix.PosSemidef.zero⟩
        · rw [if_neg h, endElem_eq_measure (psd_symm (hk.Q j hi))]
          exact measure_valid (hk.Q j hi) (hR _ (obsid_lt hi)).le (hfresh j hi)
    obtain ⟨ha, hb⟩ := scanCombines_valid (2 * X.len) _ hv a b h
    exact psd_mul_kernel ha.1 hb.2
  · show k.integratedLogProbability X y R ≠ ⊥
    rcases C46_integrated_total k X y R hy with ⟨-, x, e⟩ | ⟨⟨n, hn, j, he, hle⟩, -⟩
    · rw [e]; exact EReal.coe_ne_bot x
    · have hend : (stateCoords X).stateid.get j ≠ 0 := by rw [he.2.2]; omega
      have e := ikf_end k.At k.Qt (X.map fun x => k.obsModel x none) k.reset R y (stateCoords X) 0 k.Pinf hend
      change (k.integratedKalman X y R).get j = kalmanUpdate _ _ _ ((k.integratedKalman X y R).get j).mPred
        ((k.integratedKalman X y R).get j).PPred at e
      rw [e] at hle
      exact absurd (innovation_pos (ikalman_S_pos (y := y) hk hR he.1).1 (hR _ (obsid_lt he.1))) (not_lt.2 hle)

end sufficient

/-! ## Concrete cases -/

theorem ex_psd : exKernel.model.PsdModel (XArg.triple exT exD exI).coords := by
  have hk := exKernel_integrates.toDriven
  exact SSM.NoiseOnEvents.psd (hk.mono (q := SHO.Genuine) fun _ h => h.1).toSum.ok fun _ _ => hk.toSum.noise _

/-- A scaled kernel, whose process noise is not scaled (C28): neither solver is exact, but the likelihoods are equal and finite. -/
example (y : Arr ℝ) (hy : y.len = 3) : ∃ gp gp' lp, GP.new (.scale "scaled" exKernel 3) (.triple exT exD exI) (some (.inl (1/10))) none
      (some .integrated) false = .ok gp ∧
    GP.new (.scale "scaled" exKernel 3) (.triple exT exD exI) (some (.inl (1/10))) none (some .parallelIntegrated) false = .ok gp' ∧
    gp.logProbability y = .ok lp ∧ gp'.logProbability y = .ok lp ∧ lp ≠ ⊥ := by
  have hR : ∀ i < exT.len, 0 < (GP.noiseOf exT.len (some (.inl (1/10 : ℝ)))).get i := fun _ _ => by
    show (0 : ℝ) < 1 / 10
    norm_num
  have hpsd : (Kern.scale "scaled" exKernel 3).model.PsdModel (XArg.triple exT exD exI).coords :=
    ⟨ex_psd.P.smul (by norm_num : (0 : ℝ) ≤ 3), ex_psd.Q0, ex_psd.Q⟩
  obtain ⟨gp, hnew⟩ := GP.new_eq (u := false) (kernel := .scale "scaled" exKernel 3) (X := .triple exT exD exI) (some (.inl (1/10))) none
    (solver := some .integrated) rfl (fun _ => rfl) rfl
  obtain ⟨gp', hnew'⟩ := GP.new_eq (u := false) (kernel := .scale "scaled" exKernel 3) (X := .triple exT exD exI) (some (.inl (1/10))) none
    (solver := some .parallelIntegrated) rfl (fun _ => rfl) rfl
  obtain ⟨hns, hfin⟩ := C102_positive_noise (y := y) hpsd hy hR
  have run : ∀ {g : GP} {s}, GP.new (.scale "scaled" exKernel 3) (.triple exT exD exI) (some (.inl (1/10))) none (some s) false = .ok g →
      g.logProbability y = .ok ((Kern.scale "scaled" exKernel 3).model.logProb s (XArg.triple exT exD exI).coords y
        (GP.noiseOf exT.len (some (.inl (1/10))))) := by
    intro g s h
    obtain ⟨-, hs, -, -, -, -, -, hs', -⟩ := GP.new_ok h
    have : g.runError = none := by
      unfold GP.runError
      rw [hs.transitionError]
      rfl
    unfold GP.logProbability
    rw [this]
    simp only
    rw [logProb_of_same hs, hs']
    rfl
  have h1 := run hnew
  have h2 := run hnew'
  refine ⟨gp, gp', _, hnew, hnew', h1, ?_, hfin⟩
  rw [h2, C102_log_probability hnew hnew' (by show 0 < 3; norm_num) hy (.of_pos fun n _ => by rw [ex_get]; exact two_pos) hns h1 hfin h2]

/-- Overlapping exposures on two instruments: the two solvers return the same conditioned means and the same predictions at any times. -/
example (y ts : Arr ℝ) (hy : y.len = 3) : ∃ gp gp' lp g g' mu var mu' var',
    GP.new exKernel (.triple exT exD exI) (some (.inl (1/10))) none (some .integrated) false = .ok gp ∧
    GP.new exKernel (.triple exT exD exI) (some (.inl (1/10))) none (some .parallelIntegrated) false = .ok gp' ∧
    gp.condition y = .ok (lp, g) ∧ gp'.condition y = .ok (lp, g') ∧ (∀ i < 3, g'.mean.get i = g.mean.get i) ∧
    g.predict (some (.times ts)) = .ok (mu, var) ∧ g'.predict (some (.times ts)) = .ok (mu', var') ∧
    ∀ n, mu'.get n = mu.get n ∧ var'.get n = var.get n := by
  have hk := exKernel_integrates
  have hR : ∀ i < exT.len, 0 < (GP.noiseOf exT.len (some (.inl (1/10 : ℝ)))).get i := fun _ _ => by
    show (0 : ℝ) < 1 / 10
    norm_num
  obtain ⟨hns, hfin⟩ := C102_positive_noise (y := y) ex_psd hy hR
  have hdr := hk.toDriven
  have hpr : exKernel.model.PredictsRegularEvents (XArg.triple exT exD exI).coords y (GP.noiseOf 3 (some (.inl (1/10)))) := fun j hj =>
    pd_det (C56_systems_posdef _ _ 1 (hdr.mono fun _ h => h.1) _ ex_schedule ex_distinct (fun _ _ => hdr.toSum.noise _) y _ hR (j + 1) hj)
  have run : ∀ s, s = some SolverKind.integrated ∨ s = some .parallelIntegrated → ∃ gp lp g mu var,
      GP.new exKernel (.triple exT exD exI) (some (.inl (1/10))) none s false = .ok gp ∧ gp.condition y = .ok (lp, g) ∧
      g.predict (some (.times ts)) = .ok (mu, var) := by
    intro s h
    have hs := ex_solver s (.inr h)
    obtain ⟨gp, hnew⟩ := (C45_integrated_constructor hk hs (some (.inl (1/10))) none).1
    have hgk : gp.kernel = exKernel := by
      have := (GP.new_ok hnew).1
      rw [if_neg (by decide)] at this
      exact (Except.ok.inj this).symm
    obtain ⟨⟨lp, gp'⟩, hc⟩ := (C57_integrated_condition_succeeds hk hs hnew y).2
      ⟨by show 3 ≠ 1; norm_num, by rw [hgk]; exact exKernel_names⟩
    obtain ⟨mu, var, hp, -, -, -⟩ := C58_predict hk hs hnew ex_schedule ex_distinct (by show 0 < 3; norm_num) hR hc (.times ts)
      (fun _ _ h => by cases h) (fun _ => rfl)
    exact ⟨gp, lp, gp', mu, var, hnew, hc, hp⟩
  obtain ⟨gp, lp, g, mu, var, hnew, hc, hp⟩ := run _ (.inl rfl)
  obtain ⟨gp', lp', g', mu', var', hnew', hc', hp'⟩ := run _ (.inr rfl)
  have hlp : lp ≠ ⊥ := by
    obtain ⟨-, hs0, -, -, -, -, -, hs1, -⟩ := GP.new_ok hnew
    obtain ⟨-, hl, -⟩ := GP.condition_ok hc
    rw [hl, logProb_of_same hs0, hs1]
    exact hfin
  obtain ⟨e, h1, -, h2⟩ := C102_condition hnew hnew' (by show 0 < 3; norm_num) hy (.of_pos fun n _ => by rw [ex_get]; exact two_pos) hns hpr hc hlp hc'
  subst e
  exact ⟨gp, gp', _, g, g', mu, var, mu', var', hnew, hnew', hc, hc', h1, hp, hp', h2 _ _ _ _ hp hp'⟩

end Verif
