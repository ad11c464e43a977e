import Verif.Lemmas.ParStep
import Verif.Lemmas.Congr
import Verif.Props.C18_Causality

/-!
# C06, C07, C08: the parallel solver returns what the sequential solver returns
-/

set_option linter.unusedSectionVars false

namespace Verif
open Matrix

/-- No system solved while the scan elements are built is singular: noise variances are non-negative, the first innovation variance and,
for every later datum, noise variance plus the variance the signal gains since the previous datum are positive. Implied by positive noise. -/
structure SSM.FreshOk (k : SSM) (X : Arr Coord) (R : Arr ℝ) : Prop where
  nonneg : ∀ i < X.len, 0 ≤ R.get i
  first : 0 < (k.Ht 0 * k.Pinf * (k.Ht 0)ᵀ) 0 0 + R.get 0
  later : ∀ i, i + 1 < X.len → 0 < (k.Ht 0 * k.Qt 0 ((X.get (i + 1)).sortable - (X.get i).sortable) * (k.Ht 0)ᵀ) 0 0 + R.get (i + 1)

section lemmas
variable {k : SSM} (hk : k.Proper) {X : Arr Coord} {y R : Arr ℝ}
include hk

theorem SSM.Proper.freshOk (hX : Sorted (X.map Coord.sortable)) (hN : 0 < X.len) (hR : ∀ i < X.len, 0 < R.get i) : k.FreshOk X R where
  nonneg i hi := (hR i hi).le
  first := by have := psd_quad hk.P_psd (k.Ht 0); have := hR 0 hN; linarith
  later i hi := by
    have := psd_quad (hk.Q_psd _ (sorted_step (t := X.map Coord.sortable) hX hi)) (k.Ht 0)
    have := hR (i + 1) hi
    exact add_pos_of_nonneg_of_pos ‹_› this

theorem SSM.Proper.Qt_zero : k.Qt 0 0 = 0 := by rw [hk.Q_eq 0 le_rfl, hk.A_zero]; simp

theorem parallelParams_zero (Phi Q : ℝ → ℝ → Matrix k.n k.n ℝ) (H : ℝ → Matrix (Fin 1) k.n ℝ) (R t y : Arr ℝ) (m0 : k.n → ℝ)
    (P0 : Matrix k.n k.n ℝ) : (parallelParams Phi Q H R t y m0 P0).get 0 = KElem.first Phi H m0 P0 (y.get 0) (R.get 0) := rfl

theorem parallelParams_succ (Phi Q : ℝ → ℝ → Matrix k.n k.n ℝ) (H : ℝ → Matrix (Fin 1) k.n ℝ) (R t y : Arr ℝ) (m0 : k.n → ℝ)
    (P0 : Matrix k.n k.n ℝ) (i : ℕ) : (parallelParams Phi Q H R t y m0 P0).get (i + 1) =
      KElem.measure (Phi 0 (t.get (i + 1) - t.get i)) (Q 0 (t.get (i + 1) - t.get i)) (H (t.get (i + 1) - t.get i)) (y.get (i + 1))
        (R.get (i + 1)) := rfl

theorem first_eq : (KElem.first k.At k.Ht 0 k.Pinf (y.get 0) (R.get 0)).b =
      (kalmanUpdate (k.Ht 0) (R.get 0) (y.get 0) 0 k.Pinf).m ∧
    (KElem.first k.At k.Ht 0 k.Pinf (y.get 0) (R.get 0)).C = (kalmanUpdate (k.Ht 0) (R.get 0) (y.get 0) 0 k.Pinf).P := by
  unfold KElem.first kalmanUpdate
  simp only [hk.A_zero, transpose_one, Matrix.one_mul, Matrix.mul_one, one_mulVec, and_self]

theorem first_valid (hN : 0 < X.len) (h : k.FreshOk X R) : (KElem.first k.At k.Ht 0 k.Pinf (y.get 0) (R.get 0)).Valid := by
  refine ⟨?_, ?_⟩
  · rw [(first_eq hk).2]
    exact update_psd' hk.P_psd (h.nonneg 0 hN) h.first.ne'
  · have := (measure_valid (Phi := 1) (y := y.get 0) hk.P_psd (h.nonneg 0 hN) h.first).2
    convert this using 1
    unfold KElem.first KElem.measure
    simp only [hk.A_zero, transpose_one, Matrix.one_mul, Matrix.mul_one]

/-- the scan holds the filtered means and covariances of the sequential filter -/
theorem parallel_scan (hX : Sorted (X.map Coord.sortable)) (h : k.FreshOk X R) (i : ℕ) (hi : i < X.len) :
    ((parallelKalmanScan (parallelParams k.At k.Qt k.Ht R (X.map Coord.sortable) y 0 k.Pinf)).get i).b =
      ((k.kalman (X.map Coord.sortable) y R).get i).m ∧
    ((parallelKalmanScan (parallelParams k.At k.Qt k.Ht R (X.map Coord.sortable) y 0 k.Pinf)).get i).C =
      ((k.kalman (X.map Coord.sortable) y R).get i).P := by
  have hH : ∀ s, k.Ht s = k.Ht 0 := fun s => hk.H_const _
  have r := kf_run k.At k.Qt k.Ht R (X.map Coord.sortable) y k.Pinf
  have hlen : (parallelParams k.At k.Qt k.Ht R (X.map Coord.sortable) y 0 k.Pinf).len = X.len := by
    show 1 + (X.len - 1) = X.len
    omega
  have hget : ∀ j, (parallelKalmanScan (parallelParams k.At k.Qt k.Ht R (X.map Coord.sortable) y 0 k.Pinf)).get j =
      assocScanGet KElem.combine X.len (parallelParams k.At k.Qt k.Ht R (X.map Coord.sortable) y 0 k.Pinf).get j := by
    intro j
    rw [parallelKalmanScan, associativeScan, hlen]
    rfl
  rw [hget]
  have h0 : (kalmanFilter k.At k.Qt k.Ht R (X.map Coord.sortable) y 0 k.Pinf).get 0 =
      kalmanUpdate (k.Ht 0) (R.get 0) (y.get 0) 0 k.Pinf := by
    rw [kf_upd, kf_zero_m, kf_zero_P, hk.A_zero, hk.Qt_zero, hH]
    simp
  refine prefix_run r (N := X.len) ?_ ?_ ?_ ?_ ?_ i hi
  · rw [parallelParams_zero hk]; exact first_valid hk (by omega) h
  · rw [parallelParams_zero hk, (first_eq hk).1, h0]
  · rw [parallelParams_zero hk, (first_eq hk).2, h0]
  · intro j hj
    refine ⟨hk.Q_psd _ (sorted_step (t := X.map Coord.sortable) hX hj), fun _ => ⟨h.nonneg _ hj, ?_⟩⟩
    rw [hH]
    exact h.later j hj
  · intro j hj
    rw [parallelParams_succ hk, hH (_ - _)]
    show _ = KElem.measure _ _ (k.Ht _) _ _
    rw [hH ((X.map Coord.sortable).get (j + 1))]

end lemmas

/-- **C06.** For every kernel that is a consistent stationary model and every non-decreasing sequence of times, the parallel filter returns, at
every datum, the filtered and predicted means and covariances, innovations and innovation variances of the sequential filter. -/
theorem C06_parallel_filter (k : SSM) (hk : k.Proper) (X : Arr Coord) (y R : Arr ℝ) (hX : Sorted (X.map Coord.sortable))
    (hN : 0 < X.len) (h : k.FreshOk X R) : (k.parallelKalman X y R).Same (k.kalman (X.map Coord.sortable) y R) := by
  have hlen : (k.parallelKalman X y R).len = X.len := by
    show 1 + (X.len - 1) = X.len
    omega
  refine ⟨hlen, fun i hi => ?_⟩
  rw [hlen] at hi
  have hH : ∀ s, k.Ht s = k.Ht 0 := fun s => hk.H_const _
  obtain ⟨hb, hC⟩ := parallel_scan hk (y := y) hX h i hi
  have hpred : ((k.parallelKalman X y R).get i).mPred = ((k.kalman (X.map Coord.sortable) y R).get i).mPred ∧
      ((k.parallelKalman X y R).get i).PPred = ((k.kalman (X.map Coord.sortable) y R).get i).PPred := by
    cases i with
    | zero =>
      have e1 : ((k.kalman (X.map Coord.sortable) y R).get 0).mPred = k.At 0 0 *ᵥ 0 := kf_zero_m _ _ _ _ _ _ _ _
      have e2 : ((k.kalman (X.map Coord.sortable) y R).get 0).PPred = k.At 0 0 * k.Pinf * (k.At 0 0)ᵀ + k.Qt 0 0 :=
        kf_zero_P _ _ _ _ _ _ _ _
      rw [e1, e2, hk.A_zero, hk.Qt_zero]
      refine ⟨rfl, ?_⟩
      show 1 * k.Pinf * 1ᵀ + 0 = _
      rfl
    | succ j =>
      obtain ⟨jb, jC⟩ := parallel_scan hk (y := y) hX h j (by omega)
      have e1 : ((k.kalman (X.map Coord.sortable) y R).get (j + 1)).mPred = _ := kf_succ_m _ _ _ _ _ _ _ _ _
      have e2 : ((k.kalman (X.map Coord.sortable) y R).get (j + 1)).PPred = _ := kf_succ_P _ _ _ _ _ _ _ _ _
      change _ = _ *ᵥ ((k.kalman (X.map Coord.sortable) y R).get j).m at e1
      change _ = _ * ((k.kalman (X.map Coord.sortable) y R).get j).P * _ + _ at e2
      rw [e1, e2, ← jb, ← jC]
      exact ⟨rfl, rfl⟩
  have hv : ((k.kalman (X.map Coord.sortable) y R).get i).v = fun a => y.get i - (k.Ht 0 *ᵥ ((k.kalman (X.map Coord.sortable) y R).get i).mPred) a := by
    have : ((k.kalman (X.map Coord.sortable) y R).get i).v =
      fun a => y.get i - (k.Ht ((X.map Coord.sortable).get i) *ᵥ ((k.kalman (X.map Coord.sortable) y R).get i).mPred) a := rfl
    rw [this, hH]
  have hS : ((k.kalman (X.map Coord.sortable) y R).get i).S =
      Matrix.of fun a b => (k.Ht 0 * ((k.kalman (X.map Coord.sortable) y R).get i).PPred * (k.Ht 0)ᵀ) a b + R.get i := by
    have : ((k.kalman (X.map Coord.sortable) y R).get i).S = Matrix.of fun a b => (k.Ht ((X.map Coord.sortable).get i) *
      ((k.kalman (X.map Coord.sortable) y R).get i).PPred * (k.Ht ((X.map Coord.sortable).get i))ᵀ) a b + R.get i := rfl
    rw [this, hH]
  have pv : ((k.parallelKalman X y R).get i).v = fun a => y.get i - (k.Ht 0 *ᵥ ((k.parallelKalman X y R).get i).mPred) a := by
    have : ((k.parallelKalman X y R).get i).v =
      fun a => y.get i - (k.obsModel (X.get i) none *ᵥ ((k.parallelKalman X y R).get i).mPred) a := rfl
    rw [this, hk.H_const]
    rfl
  have pS : ((k.parallelKalman X y R).get i).S =
      Matrix.of fun a b => (k.Ht 0 * ((k.parallelKalman X y R).get i).PPred * (k.Ht 0)ᵀ) a b + R.get i := by
    have : ((k.parallelKalman X y R).get i).S = Matrix.of fun a b => (k.obsModel (X.get i) none *
      ((k.parallelKalman X y R).get i).PPred * (k.obsModel (X.get i) none)ᵀ) a b + R.get i := rfl
    rw [this, hk.H_const]
    rfl
  have pb : ((k.parallelKalman X y R).get i).m = ((k.kalman (X.map Coord.sortable) y R).get i).m := hb
  have pC : ((k.parallelKalman X y R).get i).P = ((k.kalman (X.map Coord.sortable) y R).get i).P := hC
  rw [← hpred.1, ← pv] at hv
  rw [← hpred.2, ← pS] at hS
  generalize (k.parallelKalman X y R).get i = a at *
  generalize (k.kalman (X.map Coord.sortable) y R).get i = b at *
  cases a; cases b
  simp only at pb pC hpred hv hS
  obtain ⟨hp1, hp2⟩ := hpred
  subst pb pC hp1 hp2 hv hS
  rfl

/-- **C06, likelihood.** `log_probability` does not depend on whether the parallel or the sequential solver is used. -/
theorem C06_parallel_likelihood (k : SSM) (hk : k.Proper) (X : Arr Coord) (y R : Arr ℝ) (hX : Sorted (X.map Coord.sortable))
    (hN : 0 < X.len) (h : k.FreshOk X R) : k.parallelLogProbability X y R = k.logProbability (X.map Coord.sortable) y R := by
  obtain ⟨hl, he⟩ := C06_parallel_filter k hk X y R hX hN h
  rw [logProbability_def]
  unfold SSM.parallelLogProbability
  refine computeLogProb_congr hl (fun i hi => ?_) (fun i hi => ?_)
  · show ((k.parallelKalman X y R).get i).v = ((k.kalman (X.map Coord.sortable) y R).get i).v
    rw [he i hi]
  · show ((k.parallelKalman X y R).get i).S = ((k.kalman (X.map Coord.sortable) y R).get i).S
    rw [he i hi]

/-- **C06** for every shipped kernel and positive noise. -/
theorem C06_parallel_likelihood_builtin (k : SSM) (hk : BuiltIn k) (X : Arr Coord) (y R : Arr ℝ) (hX : Sorted (X.map Coord.sortable))
    (hN : 0 < X.len) (hR : ∀ i < X.len, 0 < R.get i) :
    k.parallelLogProbability X y R = ((Spec.gaussLogDensity (dataGram k X R) (fun i => y.get i) : ℝ) : EReal) := by
  rw [C06_parallel_likelihood k hk.regular.toProper X y R hX hN (hk.regular.toProper.freshOk hX hN hR)]
  exact C01_likelihood_exact_builtin k hk X y R hX hR

/-- **C07.** The parallel smoother returns the smoothed means and covariances of the sequential smoother, provided no predicted covariance
is singular. -/
theorem C07_parallel_smoother_general (k : SSM) (hk : k.Proper) (X : Arr Coord) (y R : Arr ℝ) (hX : Sorted (X.map Coord.sortable))
    (hN : 0 < X.len) (h : k.FreshOk X R)
    (hP : ∀ i, i + 1 < X.len → IsUnit ((k.kalman (X.map Coord.sortable) y R).get (i + 1)).PPred.det) :
    (k.parallelCondition X y R).2.Same (k.condition (X.map Coord.sortable) y R).2 := by
  obtain ⟨hl, he⟩ := C06_parallel_filter k hk X y R hX hN h
  have hlen : (k.parallelCondition X y R).2.len = X.len := by
    show X.len - 1 + 1 = X.len
    omega
  have hlen' : (k.condition (X.map Coord.sortable) y R).2.len = X.len := rts_len _ _ _ hN
  have hl2 : (k.parallelKalman X y R).len = X.len := hl
  rw [hl2] at he
  refine ⟨hlen.trans hlen'.symm, fun i hi => ?_⟩
  rw [hlen] at hi
  have r := kf_run k.At k.Qt k.Ht R (X.map Coord.sortable) y k.Pinf
  have s := rts_back k.At (X.map Coord.sortable) (k.kalman (X.map Coord.sortable) y R) rfl
  have hS : ∀ j < X.len, 0 < ((k.kalman (X.map Coord.sortable) y R).get j).S 0 0 ∧
      ((k.kalman (X.map Coord.sortable) y R).get j).P.PosSemidef ∧ ((k.kalman (X.map Coord.sortable) y R).get j).PPred.PosSemidef := by
    intro j
    have hH : ∀ s, k.Ht s = k.Ht 0 := fun s => hk.H_const _
    induction j with
    | zero =>
      intro _
      have e2 : ((k.kalman (X.map Coord.sortable) y R).get 0).PPred = k.Pinf := by
        refine (kf_zero_P _ _ _ _ _ _ _ _).trans ?_
        rw [hk.A_zero, hk.Qt_zero]; simp
      have hp : 0 < (k.Ht ((X.map Coord.sortable).get 0) * ((k.kalman (X.map Coord.sortable) y R).get 0).PPred *
          (k.Ht ((X.map Coord.sortable).get 0))ᵀ) 0 0 + R.get 0 := by rw [e2, hH]; exact h.first
      refine ⟨hp, ?_, by rw [e2]; exact hk.P_psd⟩
      have h3 : ((k.kalman (X.map Coord.sortable) y R).get 0).PPred.PosSemidef := by rw [e2]; exact hk.P_psd
      exact update_psd' h3 (h.nonneg 0 hN) hp.ne'
    | succ j ih =>
      intro hj
      obtain ⟨-, i2, -⟩ := ih (by omega)
      have hq := hk.Q_psd _ (sorted_step (t := X.map Coord.sortable) hX hj)
      have hpp : ((k.kalman (X.map Coord.sortable) y R).get (j + 1)).PPred.PosSemidef := by
        have := r.succ_P j
        change ((k.kalman (X.map Coord.sortable) y R).get (j + 1)).PPred = _ at this
        rw [this]
        exact (psd_conj i2 _).add hq
      have hp : 0 < (k.Ht ((X.map Coord.sortable).get (j + 1)) * ((k.kalman (X.map Coord.sortable) y R).get (j + 1)).PPred *
          (k.Ht ((X.map Coord.sortable).get (j + 1)))ᵀ) 0 0 + R.get (j + 1) := by
        have := r.succ_P j
        change ((k.kalman (X.map Coord.sortable) y R).get (j + 1)).PPred = _ at this
        rw [this, hH]
        have h1 := h.later j hj
        have h2 := psd_quad (psd_conj i2 (k.At 0 ((X.map Coord.sortable).get (j + 1) - (X.map Coord.sortable).get j))) (k.Ht 0)
        have e : ∀ (Hm : Matrix (Fin 1) k.n ℝ) (M N : Matrix k.n k.n ℝ), (Hm * (M + N) * Hmᵀ) 0 0 = (Hm * M * Hmᵀ) 0 0 + (Hm * N * Hmᵀ) 0 0 := by
          intro Hm M N; rw [Matrix.mul_add, Matrix.add_mul, Matrix.add_apply]
        rw [e]
        change 0 < (k.Ht 0 * k.Qt 0 ((X.map Coord.sortable).get (j + 1) - (X.map Coord.sortable).get j) * (k.Ht 0)ᵀ) 0 0 + _ at h1
        have h2' : 0 ≤ (k.Ht 0 * (k.At 0 ((X.map Coord.sortable).get (j + 1) - (X.map Coord.sortable).get j) *
          ((kalmanFilter k.At k.Qt k.Ht R (X.map Coord.sortable) y 0 k.Pinf).get j).P *
          (k.At 0 ((X.map Coord.sortable).get (j + 1) - (X.map Coord.sortable).get j))ᵀ) * (k.Ht 0)ᵀ) 0 0 := h2
        linarith
      exact ⟨hp, update_psd' hpp (h.nonneg _ hj) hp.ne', hpp⟩
  have := suffix_back (Q := fun i => k.Qt 0 ((X.map Coord.sortable).get (i + 1) - (X.map Coord.sortable).get i)) s
    (parallelRtsParams k.At k.Qt (X.map Coord.sortable) ((k.parallelKalman X y R).map (·.m)) ((k.parallelKalman X y R).map (·.P)))
    (by show X.len - 1 + 1 = X.len; omega) ?_ ?_ ?_ ?_ ?_ ?_ ?_ i hi
  · obtain ⟨h1, h2⟩ := this
    have e1 : ((k.parallelCondition X y R).2.get i).m = ((k.condition (X.map Coord.sortable) y R).2.get i).m := h1
    have e2 : ((k.parallelCondition X y R).2.get i).P = ((k.condition (X.map Coord.sortable) y R).2.get i).P := h2
    generalize (k.parallelCondition X y R).2.get i = a at *
    generalize (k.condition (X.map Coord.sortable) y R).2.get i = b at *
    cases a; cases b
    simp only at e1 e2
    rw [e1, e2]
  · rw [parallelRtsParams, Arr.append_get_ge _ _ (by show X.len - 1 ≤ _; exact le_rfl)]
    show BElem.last ((k.parallelKalman X y R).get ((k.parallelKalman X y R).len - 1)).m
      ((k.parallelKalman X y R).get ((k.parallelKalman X y R).len - 1)).P = _
    rw [hl2, he _ (by omega)]
    rfl
  · intro j hj
    have hj' : j + 1 < X.len := hj
    rw [parallelRtsParams, Arr.append_get_lt _ _ (by show j < X.len - 1; omega)]
    show BElem.generic _ _ ((k.parallelKalman X y R).get j).m ((k.parallelKalman X y R).get j).P = _
    rw [he j (by omega)]
    rfl
  · intro j hj
    exact psd_symm (hS j (Nat.lt_of_succ_lt hj)).2.1
  · intro j _; exact r.succ_m j
  · intro j _; exact r.succ_P j
  · intro j hj; exact psd_symm (hS _ hj).2.2
  · intro j hj; exact hP j hj

/-- **C07.** Positive noise and a non-degenerate kernel suffice. -/
theorem C07_parallel_smoother (k : SSM) (hk : k.Regular) (X : Arr Coord) (y R : Arr ℝ) (hX : Sorted (X.map Coord.sortable))
    (hN : 0 < X.len) (hR : ∀ i < X.len, 0 < R.get i) :
    (k.parallelCondition X y R).2.Same (k.condition (X.map Coord.sortable) y R).2 :=
  C07_parallel_smoother_general k hk.toProper X y R hX hN (hk.toProper.freshOk hX hN hR)
    (fun _ hi => hk.P_unit hX hN hR hi)

/-- **C07.** The matrices which the parallel smoother hands to a solver for positive definite systems are positive definite. -/
theorem C07_smoother_systems_posdef (k : SSM) (hk : k.Regular) (X : Arr Coord) (y R : Arr ℝ) (hX : Sorted (X.map Coord.sortable))
    (hN : 0 < X.len) (hR : ∀ i < X.len, 0 < R.get i) (i : ℕ) (hi : i + 1 < X.len) :
    (k.At 0 ((X.get (i + 1)).sortable - (X.get i).sortable) * ((k.parallelKalman X y R).get i).P *
      (k.At 0 ((X.get (i + 1)).sortable - (X.get i).sortable))ᵀ + k.Qt 0 ((X.get (i + 1)).sortable - (X.get i).sortable)).PosDef := by
  obtain ⟨hl, he⟩ := C06_parallel_filter k hk.toProper X y R hX hN (hk.toProper.freshOk hX hN hR)
  rw [he i (by rw [hl]; exact Nat.lt_of_succ_lt hi)]
  have h := (kf_pd (t := X.map Coord.sortable) (y := y) (H := k.Ht) (m0 := 0) hX hk.P_pd hk.Q_psd hk.A_unit hR hi).1
  rw [kf_succ_P] at h
  exact h

/-- projection when every state carries a datum -/
theorem projectAtData_all {n : Type} [Fintype n] (obs : Coord → Matrix (Fin 1) n ℝ) (X : Arr Coord) (sm : Arr (StateMP n)) {i : ℕ}
    (hi : i < X.len) : (projectAtData obs X (Arr.arange X.len) ⟨X.len, fun _ => 1⟩ sm).get i =
      ((obs (X.get i) *ᵥ (sm.get i).m) 0, (obs (X.get i) * (sm.get i).P * (obs (X.get i))ᵀ) 0 0) := by
  have h1 : ∀ j < X.len, (nonzeroSize X.len (fun _ => (1 : ℕ) == 1) X.len).get j = j := fun j hj =>
    nonzeroSize_all _ _ (fun _ => rfl) hj
  have h2 : (argsort ((Arr.arange X.len).take (nonzeroSize X.len (fun _ => (1 : ℕ) == 1) X.len))).get i = i := by
    refine argsort_sorted _ (fun a b hab hb => ?_) hi
    have hb' : b < X.len := hb
    show (nonzeroSize X.len _ X.len).get a ≤ (nonzeroSize X.len _ X.len).get b
    rw [h1 a (by omega), h1 b hb']
    exact hab
  have h3 : ((nonzeroSize X.len (fun _ => (1 : ℕ) == 1) X.len).take
      (argsort ((Arr.arange X.len).take (nonzeroSize X.len (fun _ => (1 : ℕ) == 1) X.len)))).get i = i := by
    show (nonzeroSize X.len _ X.len).get _ = i
    rw [h2, h1 i hi]
  have h4 : (projectAtData obs X (Arr.arange X.len) ⟨X.len, fun _ => 1⟩ sm).get i =
      (fun j => ((obs (X.get i) *ᵥ (sm.get j).m) 0, (obs (X.get i) * (sm.get j).P * (obs (X.get i))ᵀ) 0 0))
        (((nonzeroSize X.len (fun _ => (1 : ℕ) == 1) X.len).take
      (argsort ((Arr.arange X.len).take (nonzeroSize X.len (fun _ => (1 : ℕ) == 1) X.len)))).get i) := rfl
  rw [h4, h3]

/-- **C06/C07 at the API.** Conditioned means and variances do not depend on the solver... -/
theorem C07_parallel_conditioned (k : SSM) (hk : k.Regular) (X : Arr Coord) (y R : Arr ℝ) (hX : Sorted (X.map Coord.sortable))
    (hN : 0 < X.len) (hR : ∀ i < X.len, 0 < R.get i) (i : ℕ) (hi : i < X.len) :
    (k.parallelConditionedAtData X y R).get i = (k.conditionedAtData X y R).get i := by
  obtain ⟨hl, he⟩ := C07_parallel_smoother k hk X y R hX hN hR
  have hl' : (k.condition (X.map Coord.sortable) y R).2.len = X.len := rts_len _ _ _ hN
  rw [hl, hl'] at he
  rw [conditionedAtData_get k X y R hi, ← he i hi]
  exact projectAtData_all _ _ _ hi

theorem predict_congr {n : Type} [Fintype n] [DecidableEq n] {A Q : ℝ → ℝ → Matrix n n ℝ} {P : Matrix n n ℝ} {t : Arr ℝ}
    {kf kf' : Arr (FilterOut n)} {sm sm' : Arr (StateMP n)} (hN : 0 < t.len) (hk : ∀ i < t.len, kf.get i = kf'.get i)
    (hs : ∀ i < t.len, sm.get i = sm'.get i) (x : ℝ) : ssPredictPoint A Q P t kf sm x = ssPredictPoint A Q P t kf' sm' x := by
  rw [predict_branches A Q P t kf sm x _ rfl, predict_branches A Q P t kf' sm' x _ rfl]
  generalize searchsortedRight t x = j
  by_cases h0 : j = 0
  · simp only [if_pos h0, hk 0 hN, hs 0 hN]
  · by_cases h1 : t.len ≤ j
    · simp only [if_neg h0, if_pos h1, hk (t.len - 1) (by omega)]
    · simp only [if_neg h0, if_neg h1, hk j (by omega), hs j (by omega), hk (j - 1) (by omega)]

/-- the predicted state is that of the sequential solver -/
theorem parallel_predict_state (k : SSM) (hk : k.Regular) (X : Arr Coord) (y R : Arr ℝ)
    (hX : Sorted (X.map Coord.sortable)) (hN : 0 < X.len) (hR : ∀ i < X.len, 0 < R.get i) (x : ℝ) :
    ssPredictPoint k.At k.Qt k.Pinf (X.map Coord.sortable) (k.parallelKalman X y R) (k.parallelCondition X y R).2 x =
      k.predictPoint (X.map Coord.sortable) y R x := by
  obtain ⟨hl, he⟩ := C07_parallel_smoother k hk X y R hX hN hR
  obtain ⟨hl2, he2⟩ := C06_parallel_filter k hk.toProper X y R hX hN (hk.toProper.freshOk hX hN hR)
  have hl' : (k.condition (X.map Coord.sortable) y R).2.len = X.len := rts_len _ _ _ hN
  have hl2' : (k.parallelKalman X y R).len = X.len := hl2
  rw [hl, hl'] at he
  rw [hl2'] at he2
  exact predict_congr (t := X.map Coord.sortable) hN he2 he _

/-- ... and neither do predictions anywhere. -/
theorem C07_parallel_prediction (k : SSM) (hk : k.Regular) (X : Arr Coord) (y R : Arr ℝ) (Xtest : Arr Coord)
    (hX : Sorted (X.map Coord.sortable)) (hN : 0 < X.len) (hR : ∀ i < X.len, 0 < R.get i) (m : ℕ) :
    (k.parallelPredictAt X y R Xtest).get m = (k.predictAt X y R Xtest).get m := by
  rw [predictAt_get, ← parallel_predict_state k hk X y R hX hN hR]
  rfl

/-- **C08.** Whatever order the filtering elements are combined in, the result is the same, and every linear system solved on the way is
regular. -/
theorem C08_filter_schedule {n : Type} [Fintype n] [DecidableEq n] (e : ℕ → KElem n) (i j : ℕ)
    (he : ∀ m, i ≤ m → m < j → (e m).C.PosSemidef ∧ (e m).J.PosSemidef) (a b : KElem n) (ha : Bracketing KElem.combine e i j a)
    (hb : Bracketing KElem.combine e i j b) : a = b := by
  rw [(Bracketing.eq_fold (V := KElem.Valid) (fun _ _ h h' => KElem.combine_valid h h') (fun _ _ _ h h' h'' => KElem.assoc h h' h'') ha he).1,
    (Bracketing.eq_fold (V := KElem.Valid) (fun _ _ h h' => KElem.combine_valid h h') (fun _ _ _ h h' h'' => KElem.assoc h h' h'') hb he).1]

/-- **C08** for the smoothing elements (no condition needed). -/
theorem C08_smoother_schedule {n : Type} [Fintype n] [DecidableEq n] (e : ℕ → BElem n) (i j : ℕ) (a b : BElem n)
    (ha : Bracketing BElem.combine e i j a) (hb : Bracketing BElem.combine e i j b) : a = b := by
  rw [(Bracketing.eq_fold (V := fun _ => True) (fun _ _ _ _ => trivial) (fun a b c _ _ _ => BElem.assoc a b c) ha (fun _ _ _ => trivial)).1,
    (Bracketing.eq_fold (V := fun _ => True) (fun _ _ _ _ => trivial) (fun a b c _ _ _ => BElem.assoc a b c) hb (fun _ _ _ => trivial)).1]

/-- **C08, regular systems.** In any combination of valid elements no singular system is solved. -/
theorem C08_no_singular_system {n : Type} [Fintype n] [DecidableEq n] (e : ℕ → KElem n) (i m j : ℕ)
    (he : ∀ k, i ≤ k → k < j → (e k).C.PosSemidef ∧ (e k).J.PosSemidef) (a b : KElem n) (ha : Bracketing KElem.combine e i m a)
    (hb : Bracketing KElem.combine e m j b) : IsUnit (1 + a.C * b.J).det ∧ IsUnit (1 + b.J * a.C).det := by
  have l1 := ha.lt
  have l2 := hb.lt
  exact combine_regular
    (Bracketing.eq_fold (V := KElem.Valid) (fun _ _ h h' => KElem.combine_valid h h') (fun _ _ _ h h' h'' => KElem.assoc h h' h'') ha
      (fun k h1 h2 => he k h1 (by omega))).2
    (Bracketing.eq_fold (V := KElem.Valid) (fun _ _ h h' => KElem.combine_valid h h') (fun _ _ _ h h' h'' => KElem.assoc h h' h'') hb
      (fun k h1 h2 => he k (by omega) h2)).2

/-- **C08, the shipped schedule.** The elements the parallel filter scans satisfy the condition, and `jax.lax.associative_scan` computes one of
these bracketings: its `i`-th output is the value of *every* bracketing of the first `i + 1` elements. -/
theorem C08_filter_scan_any_order (k : SSM) (hk : k.Proper) (X : Arr Coord) (y R : Arr ℝ) (hX : Sorted (X.map Coord.sortable))
    (h : k.FreshOk X R) (i : ℕ) (hi : i < X.len) (a : KElem k.n)
    (ha : Bracketing KElem.combine (parallelParams k.At k.Qt k.Ht R (X.map Coord.sortable) y 0 k.Pinf).get 0 (i + 1) a) :
    (parallelKalmanScan (parallelParams k.At k.Qt k.Ht R (X.map Coord.sortable) y 0 k.Pinf)).get i = a := by
  have hlen : (parallelParams k.At k.Qt k.Ht R (X.map Coord.sortable) y 0 k.Pinf).len = X.len := by
    show 1 + (X.len - 1) = X.len
    omega
  have hval : ∀ j < X.len, ((parallelParams k.At k.Qt k.Ht R (X.map Coord.sortable) y 0 k.Pinf).get j).Valid := by
    intro j hj
    cases j with
    | zero => rw [parallelParams_zero hk]; exact first_valid hk (by omega) h
    | succ j =>
      rw [parallelParams_succ hk]
      refine measure_valid (hk.Q_psd _ (sorted_step (t := X.map Coord.sortable) hX hj)) (h.nonneg _ hj) ?_
      have := h.later j hj
      rw [show k.Ht ((X.map Coord.sortable).get (j + 1) - (X.map Coord.sortable).get j) = k.Ht 0 from hk.H_const _]
      exact this
  have hV := fun (a b : KElem k.n) (h : a.Valid) (h' : b.Valid) => KElem.combine_valid h h'
  have hA := fun (a b c : KElem k.n) (h : a.Valid) (h' : b.Valid) (h'' : c.Valid) => KElem.assoc h h' h''
  have e1 : (parallelKalmanScan (parallelParams k.At k.Qt k.Ht R (X.map Coord.sortable) y 0 k.Pinf)).get i =
      assocScanGet KElem.combine X.len (parallelParams k.At k.Qt k.Ht R (X.map Coord.sortable) y 0 k.Pinf).get i := by
    rw [parallelKalmanScan, associativeScan, hlen]
    rfl
  rw [e1, assocScanGet_eq _ KElem.Valid hV hA _ _ hval i hi]
  have := (Bracketing.eq_fold (V := KElem.Valid) hV hA ha (fun m _ hm => hval m (by omega))).1
  rw [this]
  simp

/-! ## Where the two solvers differ -/

/-- two measurements at the same time, the second without noise -/
def repX : Arr Coord := ⟨2, fun _ => .time 0⟩
def repR : Arr ℝ := ⟨2, fun i => if i = 0 then 1 else 0⟩

/-- **C06, limit of the claim.** For data at equal times of which the second has no noise, the sequential filter meets only positive innovation
variances (and so returns the exact likelihood), while the parallel filter has to solve a system with the matrix `0`. -/
theorem C06_noise_free_repeat (y : Arr ℝ) :
    (∀ i < repX.len, 0 < (((matern32 1 1).kalman (repX.map Coord.sortable) y repR).get i).S 0 0) ∧
    ¬ (matern32 1 1).FreshOk repX repR ∧
    (Matrix.of fun i j => ((matern32 1 1).Ht 0 * (matern32 1 1).Qt 0 ((repX.map Coord.sortable).diff.get 0) * ((matern32 1 1).Ht 0)ᵀ) i j +
      repR.tail.get 0 : Matrix (Fin 1) (Fin 1) ℝ) = 0 := by
  have hk : (matern32 1 1).Regular := matern32_regular _ _ _ (by norm_num) (by norm_num)
  have hX : Sorted (repX.map Coord.sortable) := fun _ _ _ _ => le_rfl
  have hz : (repX.map Coord.sortable).diff.get 0 = 0 := by simp [Arr.diff, Arr.map, repX]
  have hzero : (Matrix.of fun i j => ((matern32 1 1).Ht 0 * (matern32 1 1).Qt 0 ((repX.map Coord.sortable).diff.get 0) *
      ((matern32 1 1).Ht 0)ᵀ) i j + repR.tail.get 0 : Matrix (Fin 1) (Fin 1) ℝ) = 0 := by
    rw [hz, hk.toProper.Qt_zero]
    ext i j
    rw [Matrix.of_apply, Matrix.mul_zero, Matrix.zero_mul]
    simp [Arr.tail, repR]
  refine ⟨?_, fun h => ?_, hzero⟩
  · intro i hi
    have hH : ∀ s, (matern32 1 1).Ht s = (matern32 1 1).Ht 0 := fun s => hk.H_const _
    have hP0 : (((matern32 1 1).kalman (repX.map Coord.sortable) y repR).get 0).PPred = (matern32 1 1).Pinf := by
      refine (kf_zero_P _ _ _ _ _ _ _ _).trans ?_
      rw [hk.A_zero, hk.toProper.Qt_zero]; simp
    have hS0 : 0 < ((matern32 1 1).Ht ((repX.map Coord.sortable).get 0) *
        (((matern32 1 1).kalman (repX.map Coord.sortable) y repR).get 0).PPred *
        ((matern32 1 1).Ht ((repX.map Coord.sortable).get 0))ᵀ) 0 0 + repR.get 0 := by
      rw [hP0]
      have := psd_quad hk.P_psd ((matern32 1 1).Ht ((repX.map Coord.sortable).get 0))
      have : repR.get 0 = 1 := rfl
      linarith
    have hpd : (((matern32 1 1).kalman (repX.map Coord.sortable) y repR).get 0).P.PosDef := by
      have h1 : (((matern32 1 1).kalman (repX.map Coord.sortable) y repR).get 0).PPred.PosDef := by rw [hP0]; exact hk.P_pd
      exact update_pd h1 (by show (0:ℝ) < 1; norm_num)
    have hi2 : i = 0 ∨ i = 1 := by have : i < 2 := hi; omega
    rcases hi2 with rfl | rfl
    · exact hS0
    · have hP1 : (((matern32 1 1).kalman (repX.map Coord.sortable) y repR).get 1).PPred =
          (((matern32 1 1).kalman (repX.map Coord.sortable) y repR).get 0).P := by
        refine (kf_succ_P _ _ _ _ _ _ _ _ 0).trans ?_
        have hz' : (repX.map Coord.sortable).get (0 + 1) - (repX.map Coord.sortable).get 0 = 0 := hz
        rw [hz', hk.A_zero, hk.toProper.Qt_zero]
        show 1 * (((matern32 1 1).kalman (repX.map Coord.sortable) y repR).get 0).P * 1ᵀ + 0 = _
        rw [transpose_one, Matrix.mul_one, add_zero, Matrix.one_mul]
      have e : (((matern32 1 1).kalman (repX.map Coord.sortable) y repR).get 1).S 0 0 =
          ((matern32 1 1).Ht ((repX.map Coord.sortable).get 1) * (((matern32 1 1).kalman (repX.map Coord.sortable) y repR).get 1).PPred *
            ((matern32 1 1).Ht ((repX.map Coord.sortable).get 1))ᵀ) 0 0 + repR.get 1 := rfl
      rw [e, hP1, hH]
      have hr : repR.get 1 = 0 := rfl
      rw [hr, add_zero]
      generalize (((matern32 1 1).kalman (repX.map Coord.sortable) y repR).get 0).P = M at hpd
      rw [mul_row_apply]
      refine ((pd_iff M).1 hpd).2 _ fun h0 => ?_
      have := congrFun h0 (0 : Fin 2)
      have h1 : (matern32 1 1).Ht 0 0 (0 : Fin 2) = 1 := by simp [SSM.Ht, matern32, defaultObsModel, keepFactor]
      rw [h1] at this
      exact one_ne_zero this
  · have h1 := h.later 0 (by norm_num [repX])
    have h2 := congrFun (congrFun hzero 0) 0
    rw [Matrix.of_apply] at h2
    change 0 < (((matern32 1 1).Ht 0 * (matern32 1 1).Qt 0 ((repX.map Coord.sortable).diff.get 0) * ((matern32 1 1).Ht 0)ᵀ) 0 0 +
      repR.tail.get 0) at h1
    rw [h2] at h1
    exact lt_irrefl _ h1

section examples

theorem par_ok : (((matern32 2 1).prod (cosine 3 2)).sum (expKernel 1 1)).FreshOk exX exR :=
  ex_builtin.regular.toProper.freshOk exX_sorted (by norm_num [exX]) exR_pos

example := C06_parallel_filter _ ex_builtin.regular.toProper exX exY exR exX_sorted (by norm_num [exX]) par_ok
example := C06_parallel_likelihood _ ex_builtin.regular.toProper exX exY exR exX_sorted (by norm_num [exX]) par_ok
example := C06_parallel_likelihood_builtin _ ex_builtin exX exY exR exX_sorted (by norm_num [exX]) exR_pos
example := C07_parallel_smoother _ ex_builtin.regular exX exY exR exX_sorted (by norm_num [exX]) exR_pos
example := C07_parallel_smoother_general _ ex_builtin.regular.toProper exX exY exR exX_sorted (by norm_num [exX]) par_ok
  (fun i hi => ex_builtin.regular.P_unit exX_sorted (by norm_num [exX]) exR_pos hi)
example := C07_smoother_systems_posdef _ ex_builtin.regular exX exY exR exX_sorted (by norm_num [exX]) exR_pos 0 (by norm_num [exX])
example := C07_parallel_conditioned _ ex_builtin.regular exX exY exR exX_sorted (by norm_num [exX]) exR_pos 2 (by norm_num [exX])
example := C07_parallel_prediction _ ex_builtin.regular exX exY exR ⟨1, fun _ => .time 0.5⟩ exX_sorted (by norm_num [exX]) exR_pos 0
/-- two different bracketings of three elements -/
example (e : ℕ → BElem (Fin 2)) := C08_smoother_schedule e 0 3 _ _
  (.node (.leaf 0) (.node (.leaf 1) (.leaf 2))) (.node (.node (.leaf 0) (.leaf 1)) (.leaf 2))
example := C08_filter_scan_any_order _ ex_builtin.regular.toProper exX exY exR exX_sorted par_ok 2 (by norm_num [exX]) _
  (.node (.leaf 0) (.node (.leaf 1) (.leaf 2)))
end examples

end Verif
