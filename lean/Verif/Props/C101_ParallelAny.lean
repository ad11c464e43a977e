import Verif.Lemmas.ParRegular
import Verif.Props.C06_Parallel
import Verif.Props.C100_AnyKernel

/-!
# C101: the parallel solver agrees with the sequential one wherever no system is singular

C06 and C07 compare the two solvers where the model is exact and the times are sorted. Here the kernel is any tree of the kernels without
exposure integration, oscillators with cut-off noise included, and the times are in any order, so that neither solver need be exact.
-/

set_option linter.unusedSectionVars false
set_option linter.unnecessarySeqFocus false

namespace Verif
open Matrix
open scoped Kronecker

/-- no time passes at lag zero, and the observation row is the same everywhere -/
structure SSM.Rest (k : SSM) : Prop where
  A_zero : k.At 0 0 = 1
  Q_zero : k.Qt 0 0 = 0
  matrix : ∀ X, k.obsMatrix X = k.obsMatrix (.time 0)
  row : ∀ X, k.obsModel X none = k.obsModel (.time 0) none

namespace SSM.Rest
variable {k k1 k2 : SSM}

theorem sum (h1 : k1.Rest) (h2 : k2.Rest) : (k1.sum k2).Rest where
  A_zero := by
    show Matrix.fromBlocks (k1.At 0 0) 0 0 (k2.At 0 0) = 1
    rw [h1.A_zero, h2.A_zero]
    exact fromBlocks_one
  Q_zero := by
    show Matrix.fromBlocks (k1.Qt 0 0) 0 0 (k2.Qt 0 0) = 0
    rw [h1.Q_zero, h2.Q_zero]
    exact fromBlocks_zero
  matrix X := congrArg₂ hstack (h1.matrix X) (h2.matrix X)
  row X := congrArg₂ hstack (h1.row X) (h2.row X)

theorem prod (h1 : k1.Rest) (h2 : k2.Rest) : (k1.prod k2).Rest where
  A_zero := by
    show k1.At 0 0 ⊗ₖ k2.At 0 0 = 1
    rw [h1.A_zero, h2.A_zero]
    exact one_kronecker_one
  Q_zero := by
    show k1.Pinf ⊗ₖ k2.Qt 0 0 + k1.Qt 0 0 ⊗ₖ k2.Pinf - k1.Qt 0 0 ⊗ₖ k2.Qt 0 0 = 0
    rw [h1.Q_zero, h2.Q_zero, kronecker_zero, zero_kronecker, zero_kronecker]
    simp
  matrix X := congrArg₂ kronRow (h1.matrix X) (h2.matrix X)
  row X := congrArg₂ kronRow (h1.row X) (h2.row X)

end SSM.Rest

theorem rotation_zero' : rotation 0 = 1 := by
  ext i j
  fin_cases i <;> fin_cases j <;> simp [rotation]

theorem sho_rest (omega quality sigma : ℝ) (name : String) : (sho omega quality sigma name).Rest where
  A_zero := by
    show SHO.A omega quality (0 - 0) = 1
    rw [sub_zero]
    unfold SHO.A SHO.Acrit SHO.Aunder SHO.Aover
    split_ifs <;> (ext i j; fin_cases i <;> fin_cases j <;> simp)
  Q_zero := by
    show SHO.Q omega quality sigma (0 - 0) = 0
    rw [sub_zero]
    unfold SHO.Q SHO.Qcrit SHO.QunderExact SHO.Qover SHO.truncate
    split_ifs <;> (ext i j; fin_cases i <;> fin_cases j <;> simp)
  matrix _ := rfl
  row _ := rfl

theorem sumTerms_rest (omega scale : ℝ) (j : ℕ) : (ExpSineSquared.sumTerms omega scale j).Rest := by
  have ht : ∀ j, (periodicTerm j omega scale).Rest := fun j =>
    ⟨by show rotation (j * omega * (0 - 0)) = 1; rw [sub_zero, mul_zero, rotation_zero'], rfl, fun _ => rfl, fun _ => rfl⟩
  induction j with
  | zero => exact ht 0
  | succ j ih => exact ih.sum (ht _)

/-- the kernel contains no kernel for exposures -/
def Kern.Instant (k : Kern) : Prop := ¬ Uses (fun a => a.isIntegrated = true) k

theorem Kern.Instant.rest {k : Kern} (h : k.Instant) : k.model.Rest := by
  induction k with
  | constant sigma s => exact ⟨rfl, by ext i j; fin_cases i; fin_cases j; rfl, fun _ => rfl, fun _ => rfl⟩
  | exp l sigma s =>
    refine ⟨?_, ?_, fun _ => rfl, fun _ => rfl⟩
    · show Exp.A l (0 - 0) = 1
      ext i j; fin_cases i; fin_cases j; simp [Exp.A]
    · show Exp.Q l sigma (0 - 0) = 0
      ext i j; fin_cases i; fin_cases j; simp [Exp.Q]
  | sho => exact sho_rest _ _ _ _
  | matern32 l sigma s =>
    refine ⟨?_, ?_, fun _ => rfl, fun _ => rfl⟩
    · show Matern32.A (Matern32.lam l) (0 - 0) = 1
      ext i j; fin_cases i <;> fin_cases j <;> simp [Matern32.A]
    · show Matern32.Q (Matern32.lam l) sigma (0 - 0) = 0
      ext i j; fin_cases i <;> fin_cases j <;> simp [Matern32.Q]
  | matern52 l sigma s =>
    refine ⟨?_, ?_, fun _ => rfl, fun _ => rfl⟩
    · show Matern52.A (Matern52.lam l) (0 - 0) = 1
      ext i j; fin_cases i <;> fin_cases j <;> simp [Matern52.A]
    · show Matern52.Q (Matern52.lam l) sigma (0 - 0) = 0
      ext i j; fin_cases i <;> fin_cases j <;> simp [Matern52.Q]
  | cosine l sigma s =>
    refine ⟨?_, rfl, fun _ => rfl, fun _ => rfl⟩
    show rotation (2 * Real.pi / l * (0 - 0)) = 1
    rw [sub_zero, mul_zero, rotation_zero']
  | expSineSquared p g sigma order s =>
    have r := sumTerms_rest (2 * Real.pi / p) (2 / g) (order - 1)
    exact ⟨r.A_zero, r.Q_zero, r.matrix, fun X => congrArg (keepFactor s none • ·) (r.matrix X)⟩
  | integratedSHO | integratedExp | integratedMatern32 | integratedMatern52 | integratedCosine => exact absurd (.here rfl) h
  | scale s k a ih =>
    have r := ih fun e => h (.inScale e)
    exact ⟨r.A_zero, r.Q_zero, r.matrix, fun X => congrArg (keepFactor s none • ·) (r.matrix X)⟩
  | sum a b iha ihb => exact (iha fun e => h (.inSumLeft e)).sum (ihb fun e => h (.inSumRight e))
  | prod a b iha ihb => exact (iha fun e => h (.inProdLeft e)).prod (ihb fun e => h (.inProdRight e))

/-- No system solved by the parallel filter is singular: neither those of the elements it scans nor those of the pairs it combines. -/
structure SSM.NoSingular (k : SSM) (X : Arr Coord) (y R : Arr ℝ) : Prop where
  /-- noise variance plus the variance gained since the previous datum -/
  later : ∀ i, i + 1 < X.len → (k.Ht 0 * k.Qt 0 ((X.get (i + 1)).sortable - (X.get i).sortable) * (k.Ht 0)ᵀ) 0 0 + R.get (i + 1) ≠ 0
  /-- the matrix `I + C J` of every combined pair -/
  pairs : ∀ a b, scanCombines KElem.combine X.len (parallelParams k.At k.Qt k.Ht R (X.map Coord.sortable) y 0 k.Pinf).get a b →
    IsUnit (1 + a.C * b.J).det

section filter
variable {k : SSM} (hk : k.Rest) (hs : k.Symm) {X : Arr Coord} {y R : Arr ℝ}
include hk hs

theorem run_symm_P (j : ℕ) : (((k.kalman (X.map Coord.sortable) y R).get j).PPred)ᵀ = ((k.kalman (X.map Coord.sortable) y R).get j).PPred ∧
    (((k.kalman (X.map Coord.sortable) y R).get j).P)ᵀ = ((k.kalman (X.map Coord.sortable) y R).get j).P := by
  have r := kf_run k.At k.Qt k.Ht R (X.map Coord.sortable) y k.Pinf
  have h1 : (k.At 0 0 * k.Pinf * (k.At 0 0)ᵀ + k.Qt 0 0)ᵀ = k.At 0 0 * k.Pinf * (k.At 0 0)ᵀ + k.Qt 0 0 := by
    rw [hk.A_zero, hk.Q_zero]
    simpa using hs.1
  have h := r.symm h1 (j := j) fun i _ => hs.2 _ _
  refine ⟨h, ?_⟩
  have hu := r.upd j
  change (k.kalman (X.map Coord.sortable) y R).get j = kalmanUpdate _ _ _ _ ((k.kalman (X.map Coord.sortable) y R).get j).PPred at hu
  rw [hu]
  exact update_symm h

/-- the scan holds the filtered means and covariances of the sequential filter -/
theorem parallel_scan_any (h : k.NoSingular X y R) (hS : ∀ i < X.len, ((k.kalman (X.map Coord.sortable) y R).get i).S 0 0 ≠ 0) (i : ℕ)
    (hi : i < X.len) :
    ((parallelKalmanScan (parallelParams k.At k.Qt k.Ht R (X.map Coord.sortable) y 0 k.Pinf)).get i).b =
      ((k.kalman (X.map Coord.sortable) y R).get i).m ∧
    ((parallelKalmanScan (parallelParams k.At k.Qt k.Ht R (X.map Coord.sortable) y 0 k.Pinf)).get i).C =
      ((k.kalman (X.map Coord.sortable) y R).get i).P := by
  have hH : ∀ s, k.Ht s = k.Ht 0 := fun s => hk.row _
  have r := kf_run k.At k.Qt k.Ht R (X.map Coord.sortable) y k.Pinf
  have hlen : (parallelParams k.At k.Qt k.Ht R (X.map Coord.sortable) y 0 k.Pinf).len = X.len := by
    show 1 + (X.len - 1) = X.len
    omega
  have hget : ∀ j, (parallelKalmanScan (parallelParams k.At k.Qt k.Ht R (X.map Coord.sortable) y 0 k.Pinf)).get j =
      assocScanGet KElem.combine X.len (parallelParams k.At k.Qt k.Ht R (X.map Coord.sortable) y 0 k.Pinf).get j := by
    intro j
    rw [parallelKalmanScan, associativeScan, hlen]
    rfl
  rw [hget]
  have h0 : (kalmanFilter k.At k.Qt k.Ht R (X.map Coord.sortable) y 0 k.Pinf).get 0 =
      kalmanUpdate (k.Ht 0) (R.get 0) (y.get 0) 0 k.Pinf := by
    rw [kf_upd, kf_zero_m, kf_zero_P, hk.A_zero, hk.Q_zero, hH]
    simp
  have f0 : (parallelParams k.At k.Qt k.Ht R (X.map Coord.sortable) y 0 k.Pinf).get 0 =
      KElem.first k.At k.Ht 0 k.Pinf (y.get 0) (R.get 0) := rfl
  have fb : (KElem.first k.At k.Ht 0 k.Pinf (y.get 0) (R.get 0)).b = (kalmanUpdate (k.Ht 0) (R.get 0) (y.get 0) 0 k.Pinf).m ∧
      (KElem.first k.At k.Ht 0 k.Pinf (y.get 0) (R.get 0)).C = (kalmanUpdate (k.Ht 0) (R.get 0) (y.get 0) 0 k.Pinf).P := by
    unfold KElem.first kalmanUpdate
    simp only [hk.A_zero, transpose_one, Matrix.one_mul, Matrix.mul_one, one_mulVec, and_self]
  refine prefix_regular r (N := X.len) ?_ ?_ ?_ ?_ ?_ ?_ ?_ h.pairs i hi
  · rw [f0]
    refine ⟨?_, ?_⟩
    · rw [fb.2]; exact update_symm hs.1
    · have := (measure_sym (Phi := 1) (H := k.Ht 0) (y := y.get 0) (r := R.get 0) hs.1).2
      have e : (KElem.first k.At k.Ht 0 k.Pinf (y.get 0) (R.get 0)).J = (KElem.measure 1 k.Pinf (k.Ht 0) (y.get 0) (R.get 0)).J := by
        unfold KElem.first KElem.measure
        simp only [hk.A_zero, transpose_one, Matrix.one_mul, Matrix.mul_one]
      rw [e]
      exact this
  · rw [f0, fb.1, h0]
  · rw [f0, fb.2, h0]
  · exact fun j _ => hs.2 _ _
  · exact fun j _ => (run_symm_P hk hs j).2
  · intro j hj _
    refine ⟨?_, hS _ hj⟩
    rw [hH]
    exact h.later j hj
  · intro j hj
    show KElem.measure _ _ (k.Ht _) _ _ = KElem.measure _ _ (k.Ht _) _ _
    rw [hH ((X.map Coord.sortable).get (j + 1)), hH (Arr.get _ _)]
    rfl

/-- **C101, filter.** The parallel filter returns, at every datum, what the sequential filter returns. -/
theorem C101_parallel_filter (hN : 0 < X.len) (h : k.NoSingular X y R)
    (hS : ∀ i < X.len, ((k.kalman (X.map Coord.sortable) y R).get i).S 0 0 ≠ 0) :
    (k.parallelKalman X y R).Same (k.kalman (X.map Coord.sortable) y R) := by
  have hlen : (k.parallelKalman X y R).len = X.len := by
    show 1 + (X.len - 1) = X.len
    omega
  refine ⟨hlen, fun i hi => ?_⟩
  rw [hlen] at hi
  have hH : ∀ s, k.Ht s = k.Ht 0 := fun s => hk.row _
  obtain ⟨hb, hC⟩ := parallel_scan_any hk hs h hS i hi
  have hpred : ((k.parallelKalman X y R).get i).mPred = ((k.kalman (X.map Coord.sortable) y R).get i).mPred ∧
      ((k.parallelKalman X y R).get i).PPred = ((k.kalman (X.map Coord.sortable) y R).get i).PPred := by
    cases i with
    | zero =>
      have e1 : ((k.kalman (X.map Coord.sortable) y R).get 0).mPred = k.At 0 0 *ᵥ 0 := kf_zero_m _ _ _ _ _ _ _ _
      have e2 : ((k.kalman (X.map Coord.sortable) y R).get 0).PPred = k.At 0 0 * k.Pinf * (k.At 0 0)ᵀ + k.Qt 0 0 :=
        kf_zero_P _ _ _ _ _ _ _ _
      rw [e1, e2, hk.A_zero, hk.Q_zero]
      refine ⟨rfl, ?_⟩
      show 1 * k.Pinf * 1ᵀ + 0 = _
      rfl
    | succ j =>
      obtain ⟨jb, jC⟩ := parallel_scan_any hk hs h hS j (by omega)
      have e1 : ((k.kalman (X.map Coord.sortable) y R).get (j + 1)).mPred = _ := kf_succ_m _ _ _ _ _ _ _ _ _
      have e2 : ((k.kalman (X.map Coord.sortable) y R).get (j + 1)).PPred = _ := kf_succ_P _ _ _ _ _ _ _ _ _
      change _ = _ *ᵥ ((k.kalman (X.map Coord.sortable) y R).get j).m at e1
      change _ = _ * ((k.kalman (X.map Coord.sortable) y R).get j).P * _ + _ at e2
      rw [e1, e2, ← jb, ← jC]
      exact ⟨rfl, rfl⟩
  have hv : ((k.kalman (X.map Coord.sortable) y R).get i).v = fun a => y.get i - (k.Ht 0 *ᵥ ((k.kalman (X.map Coord.sortable) y R).get i).mPred) a := by
    have : ((k.kalman (X.map Coord.sortable) y R).get i).v =
      fun a => y.get i - (k.Ht ((X.map Coord.sortable).get i) *ᵥ ((k.kalman (X.map Coord.sortable) y R).get i).mPred) a := rfl
    rw [this, hH]
  have hSS : ((k.kalman (X.map Coord.sortable) y R).get i).S =
      Matrix.of fun a b => (k.Ht 0 * ((k.kalman (X.map Coord.sortable) y R).get i).PPred * (k.Ht 0)ᵀ) a b + R.get i := by
    have : ((k.kalman (X.map Coord.sortable) y R).get i).S = Matrix.of fun a b => (k.Ht ((X.map Coord.sortable).get i) *
      ((k.kalman (X.map Coord.sortable) y R).get i).PPred * (k.Ht ((X.map Coord.sortable).get i))ᵀ) a b + R.get i := rfl
    rw [this, hH]
  have pv : ((k.parallelKalman X y R).get i).v = fun a => y.get i - (k.Ht 0 *ᵥ ((k.parallelKalman X y R).get i).mPred) a := by
    have : ((k.parallelKalman X y R).get i).v =
      fun a => y.get i - (k.obsModel (X.get i) none *ᵥ ((k.parallelKalman X y R).get i).mPred) a := rfl
    rw [this, hk.row]
    rfl
  have pS : ((k.parallelKalman X y R).get i).S =
      Matrix.of fun a b => (k.Ht 0 * ((k.parallelKalman X y R).get i).PPred * (k.Ht 0)ᵀ) a b + R.get i := by
    have : ((k.parallelKalman X y R).get i).S = Matrix.of fun a b => (k.obsModel (X.get i) none *
      ((k.parallelKalman X y R).get i).PPred * (k.obsModel (X.get i) none)ᵀ) a b + R.get i := rfl
    rw [this, hk.row]
    rfl
  have pb : ((k.parallelKalman X y R).get i).m = ((k.kalman (X.map Coord.sortable) y R).get i).m := hb
  have pC : ((k.parallelKalman X y R).get i).P = ((k.kalman (X.map Coord.sortable) y R).get i).P := hC
  rw [← hpred.1, ← pv] at hv
  rw [← hpred.2, ← pS] at hSS
  clear hS
  generalize (k.parallelKalman X y R).get i = a at *
  generalize (k.kalman (X.map Coord.sortable) y R).get i = b at *
  cases a; cases b
  simp only at pb pC hpred hv hSS
  obtain ⟨hp1, hp2⟩ := hpred
  subst pb pC hp1 hp2 hv hSS
  rfl

/-- **C101, smoother.** If moreover no predicted covariance is singular, the parallel smoother returns the smoothed means and covariances of
the sequential smoother. -/
theorem C101_parallel_smoother (hN : 0 < X.len) (h : k.NoSingular X y R)
    (hS : ∀ i < X.len, ((k.kalman (X.map Coord.sortable) y R).get i).S 0 0 ≠ 0)
    (hP : ∀ i, i + 1 < X.len → IsUnit ((k.kalman (X.map Coord.sortable) y R).get (i + 1)).PPred.det) :
    (k.parallelCondition X y R).2.Same (k.condition (X.map Coord.sortable) y R).2 := by
  obtain ⟨hl, he⟩ := C101_parallel_filter hk hs hN h hS
  have hlen : (k.parallelCondition X y R).2.len = X.len := by
    show X.len - 1 + 1 = X.len
    omega
  have hlen' : (k.condition (X.map Coord.sortable) y R).2.len = X.len := rts_len _ _ _ hN
  have hl2 : (k.parallelKalman X y R).len = X.len := hl
  rw [hl2] at he
  refine ⟨hlen.trans hlen'.symm, fun i hi => ?_⟩
  rw [hlen] at hi
  have r := kf_run k.At k.Qt k.Ht R (X.map Coord.sortable) y k.Pinf
  have s := rts_back k.At (X.map Coord.sortable) (k.kalman (X.map Coord.sortable) y R) rfl
  have := suffix_back (Q := fun i => k.Qt 0 ((X.map Coord.sortable).get (i + 1) - (X.map Coord.sortable).get i)) s
    (parallelRtsParams k.At k.Qt (X.map Coord.sortable) ((k.parallelKalman X y R).map (·.m)) ((k.parallelKalman X y R).map (·.P)))
    (by show X.len - 1 + 1 = X.len; omega) ?_ ?_ ?_ ?_ ?_ ?_ ?_ i hi
  · obtain ⟨h1, h2⟩ := this
    exact StateMP.ext' h1 h2
  · rw [parallelRtsParams, Arr.append_get_ge _ _ (by show X.len - 1 ≤ _; exact le_rfl)]
    show BElem.last ((k.parallelKalman X y R).get ((k.parallelKalman X y R).len - 1)).m
      ((k.parallelKalman X y R).get ((k.parallelKalman X y R).len - 1)).P = _
    rw [hl2, he _ (by omega)]
    rfl
  · intro j hj
    have hj' : j + 1 < X.len := hj
    rw [parallelRtsParams, Arr.append_get_lt _ _ (by show j < X.len - 1; omega)]
    show BElem.generic _ _ ((k.parallelKalman X y R).get j).m ((k.parallelKalman X y R).get j).P = _
    rw [he j (by omega)]
    rfl
  · exact fun j _ => (run_symm_P hk hs j).2
  · exact fun j _ => r.succ_m j
  · exact fun j _ => r.succ_P j
  · exact fun j _ => (run_symm_P hk hs _).1
  · exact fun j hj => hP j hj

end filter

/-! ## The package interface -/

theorem SSM.NoSingular.strip {a b : SSM} (h : a.strip = b.strip) {X : Arr Coord} {y R : Arr ℝ} (hb : b.NoSingular X y R) : a.NoSingular X y R := by
  have h1 : b.strip.NoSingular X y R := ⟨hb.later, hb.pairs⟩
  rw [← h] at h1
  exact ⟨h1.later, h1.pairs⟩

theorem SSM.Rest.strip {a b : SSM} (h : a.strip = b.strip) (hb : b.Rest) : a.Rest where
  A_zero := by
    have h1 : b.strip.At 0 0 = 1 := hb.A_zero
    rw [← h] at h1; exact h1
  Q_zero := by
    have h1 : b.strip.Qt 0 0 = 0 := hb.Q_zero
    rw [← h] at h1; exact h1
  matrix := by
    have h1 : ∀ X, b.strip.obsMatrix X = b.strip.obsMatrix (.time 0) := hb.matrix
    rw [← h] at h1; exact h1
  row := by
    have h1 : ∀ X, b.strip.obsModel X none = b.strip.obsModel (.time 0) none := hb.row
    rw [← h] at h1; exact h1

/-- No covariance predicted by the sequential filter is singular. -/
def SSM.PredictsRegular (k : SSM) (X : Arr Coord) (y R : Arr ℝ) : Prop :=
  ∀ i, i + 1 < X.len → IsUnit ((k.kalman (X.map Coord.sortable) y R).get (i + 1)).PPred.det

theorem SSM.PredictsRegular.strip {a b : SSM} (h : a.strip = b.strip) {X : Arr Coord} {y R : Arr ℝ} (hb : b.PredictsRegular X y R) :
    a.PredictsRegular X y R := by
  have h1 : b.strip.PredictsRegular X y R := hb
  rw [← h] at h1
  exact h1

section interface
variable {kernel : Kern} {X : XArg} {diag : Option (ℝ ⊕ Arr ℝ)} {mean mean' : Option (Coord → ℝ)} {u : Bool}
  {gp gp' g g' : GP} {y : Arr ℝ} {lp lp' : EReal}

/-- the likelihood, from the agreement of the filters -/
theorem parallel_logProb {k : SSM} {X : Arr Coord} {y R : Arr ℝ} (h : (k.parallelKalman X y R).Same (k.kalman (X.map Coord.sortable) y R)) :
    k.logProb .parallel X y R = k.logProb .stateSpace X y R := by
  obtain ⟨hl, he⟩ := h
  show k.parallelLogProbability X y R = k.logProbability (X.map Coord.sortable) y R
  rw [logProbability_def]
  unfold SSM.parallelLogProbability
  refine computeLogProb_congr hl (fun i hi => ?_) (fun i hi => ?_)
  · show ((k.parallelKalman X y R).get i).v = ((k.kalman (X.map Coord.sortable) y R).get i).v
    rw [he i hi]
  · show ((k.parallelKalman X y R).get i).S = ((k.kalman (X.map Coord.sortable) y R).get i).S
    rw [he i hi]

theorem finite_S {k : SSM} {X : Arr Coord} {y R : Arr ℝ} (h : k.logProb .stateSpace X y R ≠ ⊥) :
    ∀ i < X.len, ((k.kalman (X.map Coord.sortable) y R).get i).S 0 0 ≠ 0 := by
  rcases C46_total k (X.map Coord.sortable) y R with ⟨hp, -⟩ | ⟨-, hb⟩
  · exact fun i hi => (hp i hi).ne'
  · exact absurd hb h

/-- **C101, likelihood.** For every kernel tree without kernels for exposures, exact or not, and times in any order: if `log_probability` of
the sequential solver is finite and no system of the parallel solver is singular, the parallel solver returns the same value. -/
theorem C101_log_probability (hk : kernel.Instant) (hnew : GP.new kernel X diag mean (some .stateSpace) u = .ok gp)
    (hnew' : GP.new kernel X diag mean' (some .parallel) u = .ok gp') (hN : 0 < X.len)
    (hns : kernel.model.NoSingular X.coords y (GP.noiseOf X.len diag)) (hl : gp.logProbability y = .ok lp) (hfin : lp ≠ ⊥)
    (hl' : gp'.logProbability y = .ok lp') : lp' = lp := by
  obtain ⟨-, hs0, -, -, -, -, -, hs1, -⟩ := GP.new_ok hnew
  obtain ⟨-, hs0', -, -, -, -, -, hs1', -⟩ := GP.new_ok hnew'
  have e : lp = kernel.model.logProb .stateSpace X.coords y (GP.noiseOf X.len diag) := by
    unfold GP.logProbability at hl
    split at hl
    · cases hl
    · injection hl with hl
      rw [← hl, ← SSM.strip_logProb, hs0.strip, SSM.strip_logProb, hs1]
      rfl
  have e' : lp' = kernel.model.logProb .parallel X.coords y (GP.noiseOf X.len diag) := by
    unfold GP.logProbability at hl'
    split at hl'
    · cases hl'
    · injection hl' with hl'
      rw [← hl', ← SSM.strip_logProb, hs0'.strip, SSM.strip_logProb, hs1']
      rfl
  rw [e']
  rw [e] at hfin ⊢
  exact parallel_logProb (C101_parallel_filter hk.rest kernel.symm (X.coords_len ▸ hN) hns (finite_S hfin))

/-- **C101, conditioning and prediction.** If moreover no predicted covariance is singular, the two solvers return the same conditioned
means and variances and the same predictions anywhere, of the process and of every component. -/
theorem C101_condition (hk : kernel.Instant) (hnew : GP.new kernel X diag mean (some .stateSpace) u = .ok gp)
    (hnew' : GP.new kernel X diag mean' (some .parallel) u = .ok gp')
    (hns : kernel.model.NoSingular X.coords y (GP.noiseOf X.len diag)) (hpr : kernel.model.PredictsRegular X.coords y (GP.noiseOf X.len diag))
    (hc : gp.condition y = .ok (lp, g)) (hfin : lp ≠ ⊥) (hc' : gp'.condition y = .ok (lp', g')) (hN : 0 < X.len) :
    lp' = lp ∧ (∀ i < X.len, g'.mean.get i = g.mean.get i) ∧
      (∃ v v', g.var = some v ∧ g'.var = some v' ∧ ∀ i < X.len, v'.get i = v.get i) ∧
      (∀ Xt component r r', g.predict (some Xt) none component = .ok r →
        g'.predict (some Xt) none component = .ok r' → ∀ m, r'.1.get m = r.1.get m ∧ r'.2.get m = r.2.get m) := by
  obtain ⟨hn, hs0, -, -, -, -, -, hs1, -⟩ := GP.new_ok hnew
  obtain ⟨hn', hs0', -, -, -, -, -, hs1', -⟩ := GP.new_ok hnew'
  obtain ⟨-, hl, hk1, hs2, -, -, hm, hv, -, hso, hst, -⟩ := GP.condition_ok hc
  obtain ⟨-, hl', hk1', -, -, -, hm', hv', -, hso', hst', -⟩ := GP.condition_ok hc'
  have hN' : 0 < X.coords.len := X.coords_len ▸ hN
  have e : lp = kernel.model.logProb .stateSpace X.coords y (GP.noiseOf X.len diag) := by
    rw [hl, ← SSM.strip_logProb, hs0.strip, SSM.strip_logProb, hs1]; rfl
  have e' : lp' = kernel.model.logProb .parallel X.coords y (GP.noiseOf X.len diag) := by
    rw [hl', ← SSM.strip_logProb, hs0'.strip, SSM.strip_logProb, hs1']; rfl
  -- the states of the two solvers, whatever the components are called
  have states : ∀ {a : Kern}, a.SameButNames kernel → (∀ j < X.coords.len,
        (a.model.states .parallel X.coords y (GP.noiseOf X.len diag)).filt.get j =
          (a.model.states .stateSpace X.coords y (GP.noiseOf X.len diag)).filt.get j) ∧
      ∀ j < X.coords.len, (a.model.states .parallel X.coords y (GP.noiseOf X.len diag)).smooth.get j =
        (a.model.states .stateSpace X.coords y (GP.noiseOf X.len diag)).smooth.get j := by
    intro a ha
    have hS : ∀ i < X.coords.len, ((a.model.kalman (X.coords.map Coord.sortable) y (GP.noiseOf X.len diag)).get i).S 0 0 ≠ 0 := by
      refine finite_S ?_
      rw [← SSM.strip_logProb, ha.strip, SSM.strip_logProb, ← e]
      exact hfin
    obtain ⟨f1, f2⟩ := C101_parallel_filter (hk.rest.strip ha.strip) a.symm hN' (hns.strip ha.strip) hS
    obtain ⟨s1, s2⟩ := C101_parallel_smoother (hk.rest.strip ha.strip) a.symm hN' (hns.strip ha.strip) hS (hpr.strip ha.strip)
    have l1 : (a.model.parallelKalman X.coords y (GP.noiseOf X.len diag)).len = X.coords.len := f1
    have l2 : (a.model.parallelCondition X.coords y (GP.noiseOf X.len diag)).2.len = X.coords.len := by
      show X.coords.len - 1 + 1 = X.coords.len
      omega
    exact ⟨fun j hj => f2 j (by rw [l1]; exact hj), fun j hj => s2 j (by rw [l2]; exact hj)⟩
  have key : ∀ i < X.len, (gp'.atData y).get i = (gp.atData y).get i := fun i hi => by
    have hi' : i < X.coords.len := X.coords_len ▸ hi
    rw [atData_of_new hnew, atData_of_new hnew', projectData_scan _ _ _ _ _ hi', projectData_scan _ _ _ _ _ hi']
    have := (states (a := kernel) rfl).2 i hi'
    change (_, _) = (_, _)
    rw [show (some SolverKind.parallel).getD (GP.chooseSolver kernel) = .parallel from rfl,
      show (some SolverKind.stateSpace).getD (GP.chooseSolver kernel) = .stateSpace from rfl]
    change (((_ : Matrix _ _ ℝ) *ᵥ ((kernel.model.states .parallel X.coords y (GP.noiseOf X.len diag)).smooth.get i).m) 0, _) =
      ((_ *ᵥ ((kernel.model.states .stateSpace X.coords y (GP.noiseOf X.len diag)).smooth.get i).m) 0, _)
    rw [show dataStep SolverKind.parallel X.coords i = i from rfl, show dataStep SolverKind.stateSpace X.coords i = i from rfl, this]
  refine ⟨?_, fun i hi => ?_, ⟨_, _, hv, hv', fun i hi => congrArg Prod.snd (key i hi)⟩, fun Xt component r r' p p' m => ?_⟩
  · rw [e', e]
    rw [e] at hfin
    exact parallel_logProb (C101_parallel_filter hk.rest kernel.symm hN' hns (finite_S hfin))
  · rw [hm, hm']; exact congrArg Prod.fst (key i hi)
  · have hke : gp'.kernel = gp.kernel := by rw [hn] at hn'; injection hn' with e; exact e.symm
    rw [hke, hk1] at hk1'
    injection hk1' with hk1'
    obtain ⟨f, sm⟩ := states (a := g.kernel) (hs2.trans hs0)
    have h := predict_congr (A := g.kernel.model.At) (Q := g.kernel.model.Qt) (P := g.kernel.model.Pinf) (t := X.coords.map Coord.sortable)
      hN' f sm (Xt.coords.get m).sortable
    have h2 : (g.kernel.model.projectTest (g.kernel.model.states .parallel X.coords y (GP.noiseOf X.len diag))
          (fun x => g.kernel.model.obsModel x component) Xt.coords).get m =
        (g.kernel.model.projectTest (g.kernel.model.states .stateSpace X.coords y (GP.noiseOf X.len diag))
          (fun x => g.kernel.model.obsModel x component) Xt.coords).get m := by
      rw [projectTest_point, projectTest_point]
      exact congrArg (fun s : StateMP g.kernel.model.n => ((g.kernel.model.obsModel (Xt.coords.get m) component *ᵥ s.m) 0,
        (g.kernel.model.obsModel (Xt.coords.get m) component * s.P * (g.kernel.model.obsModel (Xt.coords.get m) component)ᵀ) 0 0)) h
    rw [GP.predict_rows hst p, GP.predict_rows hst' p', ← hk1', hso, hso', hs1, hs1']
    exact ⟨congrArg Prod.fst h2, congrArg Prod.snd h2⟩

/-- **C101, interpolation.** Hence the parallel solver, too, interpolates a datum without noise. -/
theorem C101_interpolation (hk : kernel.Instant) (hX : ∀ t d i, X ≠ .triple t d i)
    (hnew : GP.new kernel X diag mean (some .stateSpace) u = .ok gp) (hnew' : GP.new kernel X diag mean' (some .parallel) u = .ok gp')
    (hns : kernel.model.NoSingular X.coords y (GP.noiseOf X.len diag)) (hpr : kernel.model.PredictsRegular X.coords y (GP.noiseOf X.len diag))
    (hc : gp.condition y = .ok (lp, g)) (hfin : lp ≠ ⊥) (hc' : gp'.condition y = .ok (lp', g')) (hy : y.len = X.len) {n : ℕ} (hn : n < X.len)
    (h0 : (GP.noiseOf X.len diag).get n = 0) : g'.mean.get n = y.get n ∧ ∃ v, g'.var = some v ∧ v.get n = 0 := by
  obtain ⟨h1, v, hv, h2⟩ := C100_interpolation (.inr ⟨rfl, hX⟩) hnew hy hfin hc hn h0
  obtain ⟨-, e1, ⟨w, w', hw, hw', e2⟩, -⟩ := C101_condition hk hnew hnew' hns hpr hc hfin hc' (by omega)
  rw [hv] at hw
  injection hw with hw
  subst hw
  exact ⟨by rw [e1 n hn, h1], w', hw', by rw [e2 n hn, h2]⟩

end interface

/-! ## When no system is singular -/

/-- elements with positive semidefinite covariances are combined to such elements -/
theorem scanCombines_valid {n : Type} [Fintype n] [DecidableEq n] (N : ℕ) : ∀ e : ℕ → KElem n, (∀ i < N, (e i).Valid) → ∀ a b,
    scanCombines KElem.combine N e a b → a.Valid ∧ b.Valid := by
  induction N using Nat.strong_induction_on with
  | _ N ih =>
    intro e he a b hab
    rw [scanCombines] at hab
    by_cases h2 : N < 2
    · simp only [h2, dif_pos] at hab
    · simp only [h2, dif_neg, not_false_eq_true] at hab
      have hp : ∀ i < N / 2, (KElem.combine (e (2 * i)) (e (2 * i + 1))).Valid := fun i hi =>
        KElem.combine_valid (he _ (by omega)) (he _ (by omega))
      rcases hab with ⟨i, hi, rfl, rfl⟩ | h | ⟨i, hi, h2i, rfl, rfl⟩
      · exact ⟨he _ (by omega), he _ (by omega)⟩
      · exact ih (N / 2) (by omega) _ hp a b h
      · refine ⟨?_, he _ h2i⟩
        exact scan_blocks KElem.combine (fun _ _ a => a.Valid) (N / 2) _ id (fun _ _ _ _ _ ha hb _ => KElem.combine_valid ha hb) hp (i - 1) (by omega)

section sufficient
variable {k : SSM} {X : Arr Coord} {y R : Arr ℝ}

/-- **C101, sufficient condition.** With positive noise, no system is singular if the process noise of every step is positive semidefinite;
it need not be that of an exact transition. -/
theorem C101_positive_noise (hk : k.Rest) (hP : k.Pinf.PosSemidef) (hN : 0 < X.len) (hR : ∀ i < X.len, 0 < R.get i)
    (hQ : ∀ i, i + 1 < X.len → (k.Qt 0 ((X.get (i + 1)).sortable - (X.get i).sortable)).PosSemidef) : k.NoSingular X y R := by
  refine ⟨fun i hi => ?_, fun a b h => ?_⟩
  · exact (add_pos_of_nonneg_of_pos (psd_quad (hQ i hi) _) (hR _ hi)).ne'
  · have hv : ∀ i < X.len, ((parallelParams k.At k.Qt k.Ht R (X.map Coord.sortable) y 0 k.Pinf).get i).Valid := by
      intro i hi
      cases i with
      | zero =>
        show (KElem.first k.At k.Ht 0 k.Pinf (y.get 0) (R.get 0)).Valid
        have hpos : 0 < (k.Ht 0 * k.Pinf * (k.Ht 0)ᵀ) 0 0 + R.get 0 := add_pos_of_nonneg_of_pos (psd_quad hP _) (hR 0 hN)
        have e1 : (KElem.first k.At k.Ht 0 k.Pinf (y.get 0) (R.get 0)).C = (kalmanUpdate (k.Ht 0) (R.get 0) (y.get 0) 0 k.Pinf).P := by
          unfold KElem.first kalmanUpdate
          simp only [hk.A_zero, transpose_one, Matrix.one_mul, Matrix.mul_one]
        have e2 : (KElem.first k.At k.Ht 0 k.Pinf (y.get 0) (R.get 0)).J = (KElem.measure 1 k.Pinf (k.Ht 0) (y.get 0) (R.get 0)).J := by
          unfold KElem.first KElem.measure
          simp only [hk.A_zero, transpose_one, Matrix.one_mul, Matrix.mul_one]
        refine ⟨?_, ?_⟩
        · rw [e1]; exact update_psd' hP (hR 0 hN).le hpos.ne'
        · rw [e2]; exact (measure_valid hP (hR 0 hN).le hpos).2
      | succ j => exact measure_valid (hQ j hi) (hR _ hi).le (add_pos_of_nonneg_of_pos (psd_quad (hQ j hi) _) (hR _ hi))
    obtain ⟨ha, hb⟩ := scanCombines_valid X.len _ hv a b h
    exact psd_mul_kernel ha.1 hb.2

/-- then the likelihood is finite as well -/
theorem positive_noise_S (hk : k.Rest) (hP : k.Pinf.PosSemidef) (hR : ∀ i < X.len, 0 < R.get i)
    (hQ : ∀ i, i + 1 < X.len → (k.Qt 0 ((X.get (i + 1)).sortable - (X.get i).sortable)).PosSemidef) :
    k.logProb .stateSpace X y R ≠ ⊥ := by
  have hpp : ∀ i < X.len, ((k.kalman (X.map Coord.sortable) y R).get i).PPred.PosSemidef := by
    intro i
    induction i with
    | zero =>
      intro _
      have e2 : ((k.kalman (X.map Coord.sortable) y R).get 0).PPred = k.Pinf := by
        refine (kf_zero_P _ _ _ _ _ _ _ _).trans ?_
        rw [hk.A_zero, hk.Q_zero]; simp
      rw [e2]
      exact hP
    | succ j ih =>
      intro hj
      have h1 := ih (by omega)
      have h2 : ((k.kalman (X.map Coord.sortable) y R).get j).P.PosSemidef := by
        have hR' := hR j (by omega)
        exact update_psd' h1 hR'.le (innovation_pos h1 hR').ne'
      have := (kf_run k.At k.Qt k.Ht R (X.map Coord.sortable) y k.Pinf).succ_P j
      change ((k.kalman (X.map Coord.sortable) y R).get (j + 1)).PPred = _ at this
      rw [this]
      exact (psd_conj h2 _).add (hQ j hj)
  show k.logProbability (X.map Coord.sortable) y R ≠ ⊥
  rcases C46_total k (X.map Coord.sortable) y R with ⟨-, x, e⟩ | ⟨⟨i, hi, hle⟩, -⟩
  · rw [e]; exact EReal.coe_ne_bot x
  · exact absurd (innovation_pos (hpp i hi) (hR i hi)) (not_lt.2 hle)

/-- Two data: the system of the only combined pair is regular when the innovation variance of the second datum is not zero. -/
theorem C101_two_data (hk : k.Rest) (hX : X.len = 2)
    (hl : (k.Ht 0 * k.Qt 0 ((X.get 1).sortable - (X.get 0).sortable) * (k.Ht 0)ᵀ) 0 0 + R.get 1 ≠ 0)
    (hS : ((k.kalman (X.map Coord.sortable) y R).get 1).S 0 0 ≠ 0) : k.NoSingular X y R := by
  have hH : ∀ s, k.Ht s = k.Ht 0 := fun s => hk.row _
  refine ⟨fun i hi => ?_, fun a b h => ?_⟩
  · have : i = 0 := by omega
    subst this
    exact hl
  · rw [hX, scanCombines] at h
    simp only [lt_irrefl, dif_neg, not_false_eq_true] at h
    rcases h with ⟨i, hi, rfl, rfl⟩ | h | ⟨i, hi, h2i, -⟩
    · have : i = 0 := by omega
      subst this
      set t := X.map Coord.sortable with ht
      have e0 : ((parallelParams k.At k.Qt k.Ht R t y 0 k.Pinf).get (2 * 0)).C = ((k.kalman t y R).get 0).P := by
        show (KElem.first k.At k.Ht 0 k.Pinf (y.get 0) (R.get 0)).C = ((kalmanFilter k.At k.Qt k.Ht R t y 0 k.Pinf).get 0).P
        rw [kf_upd, kf_zero_m, kf_zero_P, hk.A_zero, hk.Q_zero, hH]
        unfold KElem.first kalmanUpdate
        simp only [hk.A_zero, transpose_one, Matrix.one_mul, Matrix.mul_one, add_zero]
      set Phi := k.At 0 (t.get 1 - t.get 0) with hPhi
      set Q := k.Qt 0 (t.get 1 - t.get 0) with hQ
      have e1 : ((parallelParams k.At k.Qt k.Ht R t y 0 k.Pinf).get (2 * 0 + 1)).J =
          (k.Ht 0 * Phi)ᵀ * (((k.Ht 0 * Q * (k.Ht 0)ᵀ) 0 0 + R.get 1)⁻¹ • (k.Ht 0 * Phi)) := by
        show (KElem.measure Phi Q (k.Ht (t.get 1 - t.get 0)) (y.get 1) (R.get 1)).J = _
        rw [hH]
        unfold KElem.measure
        simp only [solve_fin_one, transpose_mul, transpose_transpose, of_apply]
      have eP : ((k.kalman t y R).get 1).PPred = Phi * ((k.kalman t y R).get 0).P * Phiᵀ + Q := kf_succ_P _ _ _ _ _ _ _ _ 0
      have eS : ((k.kalman t y R).get 1).S 0 0 = (k.Ht 0 * ((k.kalman t y R).get 1).PPred * (k.Ht 0)ᵀ) 0 0 + R.get 1 := by
        have : ((k.kalman t y R).get 1).S 0 0 = (k.Ht (t.get 1) * ((k.kalman t y R).get 1).PPred * (k.Ht (t.get 1))ᵀ) 0 0 + R.get 1 := rfl
        rw [this, hH]
      rw [eS, eP, Matrix.mul_add, Matrix.add_mul, Matrix.add_apply, add_assoc] at hS
      change (k.Ht 0 * Q * (k.Ht 0)ᵀ) 0 0 + R.get 1 ≠ 0 at hl
      rw [e0, e1, ← Matrix.mul_assoc, det_one_add_mul_comm, isUnit_iff_ne_zero, det_fin_one, Matrix.add_apply, Matrix.one_apply_eq,
        Matrix.smul_mul, Matrix.smul_apply, smul_eq_mul, transpose_mul]
      have e2 : (k.Ht 0 * Phi * (((k.kalman t y R).get 0).P * (Phiᵀ * (k.Ht 0)ᵀ))) 0 0 =
          (k.Ht 0 * (Phi * ((k.kalman t y R).get 0).P * Phiᵀ) * (k.Ht 0)ᵀ) 0 0 := by simp only [Matrix.mul_assoc]
      rw [e2]
      generalize (k.Ht 0 * (Phi * ((k.kalman t y R).get 0).P * Phiᵀ) * (k.Ht 0)ᵀ) 0 0 = a at hS
      generalize (k.Ht 0 * Q * (k.Ht 0)ᵀ) 0 0 + R.get 1 = b at hS hl
      intro h
      apply hS
      field_simp at h
      linarith
    · rw [scanCombines] at h
      simp at h
    · omega

end sufficient

/-! ## Concrete cases -/

section examples

theorem logProbability_of_new {kernel : Kern} {X : XArg} {diag : Option (ℝ ⊕ Arr ℝ)} {mean : Option (Coord → ℝ)} {kind : SolverKind} {u : Bool}
    {gp : GP} (hnew : GP.new kernel X diag mean (some kind) u = .ok gp) (y : Arr ℝ)
    (he : kernel.transitionError kind.callsWithPyScalars = none) :
    gp.logProbability y = .ok (kernel.model.logProb kind X.coords y (GP.noiseOf X.len diag)) := by
  obtain ⟨-, hs0, -, -, -, -, -, hs1, -⟩ := GP.new_ok hnew
  have hr : gp.runError = none := by
    unfold GP.runError
    rw [hs0.transitionError, hs1]
    exact he
  unfold GP.logProbability
  rw [hr, ← SSM.strip_logProb, hs0.strip, SSM.strip_logProb, hs1]
  rfl

/-- an underdamped oscillator of amplitude below the cut-off, for which neither solver is exact (C28), and any number of data: the two
solvers return the same likelihood -/
example (t y : Arr ℝ) (ht : Sorted t) (hN : 0 < t.len) (r : ℝ) (hr : 0 < r) :
    ∃ gp gp' lp, GP.new (.sho 1 1 1e-8 "osc") (.times t) (some (.inl r)) none (some .stateSpace) true = .ok gp ∧
      GP.new (.sho 1 1 1e-8 "osc") (.times t) (some (.inl r)) none (some .parallel) true = .ok gp' ∧
      gp.logProbability y = .ok lp ∧ gp'.logProbability y = .ok lp ∧ lp ≠ ⊥ := by
  have hc : ¬ SHO.isCritical 1 := by unfold SHO.isCritical; norm_num [abs_of_pos]
  have hk : (Kern.sho 1 1 1e-8 "osc").AnyDamping := .sho one_pos (by norm_num) hc (by norm_num)
  have hi : (Kern.sho 1 1 1e-8 "osc").Instant := fun h => by cases h with | here h => cases h
  have hn : (Kern.sho 1 1 1e-8 "osc").componentNames.Nodup := by simp [Kern.componentNames, Kern.extractLeafKernels, Kern.name]
  obtain ⟨gp, hnew, -⟩ := C97_succeeds hk (solver := some .stateSpace) (.inl (.inr rfl)) hn t (some (.inl r)) none
  obtain ⟨gp', hnew', -⟩ := C97_succeeds hk (solver := some .parallel) (.inr ⟨rfl, ((transitionError_iff true _).1 rfl).2 rfl⟩) hn t
    (some (.inl r)) none
  have e := logProbability_of_new hnew y rfl
  have e' := logProbability_of_new hnew' y rfl
  have hQ : ∀ i, i + 1 < ((XArg.times t).coords).len → ((Kern.sho 1 1 1e-8 "osc").model.Qt 0
      ((((XArg.times t).coords).get (i + 1)).sortable - (((XArg.times t).coords).get i).sortable)).PosSemidef := fun i hi => by
    have h := (C22_sho_truncated 1 1 1e-8 "osc" one_pos (by norm_num) hc (by norm_num) (by norm_num) (by norm_num)).1 (.time 0)
      (.time (t.get (i + 1) - t.get i)) (sub_nonneg.2 (ht i (i + 1) (Nat.le_succ i) hi))
    show ((sho 1 1 1e-8 "osc").Q (.time 0) (.time (t.get (i + 1) - t.get i))).PosSemidef
    rw [h]
    exact PosSemidef.zero
  have hR : ∀ i < ((XArg.times t).coords).len, 0 < (GP.noiseOf (XArg.times t).len (some (.inl r))).get i := fun _ _ => hr
  have hfin := positive_noise_S (y := y) hi.rest hk.P_pd.posSemidef hR hQ
  have hns := C101_positive_noise (y := y) hi.rest hk.P_pd.posSemidef hN hR hQ
  have := C101_log_probability hi hnew hnew' hN hns e hfin e'
  exact ⟨gp, gp', _, hnew, hnew', e, by rw [e', this], hfin⟩

theorem row_entry (M : Matrix (Fin 2) (Fin 2) ℝ) :
    ((!![1, 0] : Matrix (Fin 1) (Fin 2) ℝ) * M * (!![1, 0] : Matrix (Fin 1) (Fin 2) ℝ)ᵀ) 0 0 = M 0 0 := by
  simp [Matrix.mul_apply, Matrix.vecMul, dotProduct, Fin.sum_univ_two]

theorem unit_update (y : ℝ) (m : Fin 2 → ℝ) : (kalmanUpdate !![1, 0] 1 y m 1).P = !![1 / 2, 0; 0, 1] := by
  have hS : ((!![1, 0] : Matrix (Fin 1) (Fin 2) ℝ) * (1 : Matrix (Fin 2) (Fin 2) ℝ) * (!![1, 0] : Matrix (Fin 1) (Fin 2) ℝ)ᵀ) 0 0 = 1 := by rw [row_entry, one_apply_eq]
  unfold kalmanUpdate
  simp only [solve_fin_one, transpose_apply, of_apply, hS]
  ext i j; fin_cases i <;> fin_cases j <;> simp [Matrix.mul_apply] <;> norm_num

theorem unit_step (E : ℝ) : (!![0, -E; E, 2 * E] : Matrix (Fin 2) (Fin 2) ℝ) * !![1 / 2, 0; 0, 1] * (!![0, -E; E, 2 * E] : Matrix (Fin 2) (Fin 2) ℝ)ᵀ +
    !![1 - E ^ 2, 2 * E ^ 2; 2 * E ^ 2, 1 - 5 * E ^ 2] = !![1, 0; 0, 1 - E ^ 2 / 2] := by
  ext i j; fin_cases i <;> fin_cases j <;> simp [Matrix.vecMul, dotProduct, Fin.sum_univ_two] <;> ring

/-- the first two times in the wrong order: the predicted covariance is not even positive semidefinite, and the two solvers still agree -/
example (y : Arr ℝ) : ∃ gp gp' lp g g', GP.new (.matern32 (Real.sqrt 3) 1 "m") (.times ⟨2, fun i => if i = 0 then 1 else 0⟩)
        (some (.inl 1)) none (some .stateSpace) true = .ok gp ∧
      GP.new (.matern32 (Real.sqrt 3) 1 "m") (.times ⟨2, fun i => if i = 0 then 1 else 0⟩) (some (.inl 1)) none (some .parallel) true = .ok gp' ∧
      gp.condition y = .ok (lp, g) ∧ gp'.condition y = .ok (lp, g') ∧ ∀ i < 2, g'.mean.get i = g.mean.get i := by
  have h3 : (0 : ℝ) < Real.sqrt 3 := Real.sqrt_pos.2 (by norm_num)
  have hlam : Matern32.lam (Real.sqrt 3) = 1 := div_self h3.ne'
  have hk : (Kern.matern32 (Real.sqrt 3) 1 "m").AnyDamping := .valid (.matern32 h3 one_ne_zero)
  have hi : (Kern.matern32 (Real.sqrt 3) 1 "m").Instant := fun h => by cases h with | here h => cases h
  have hn : (Kern.matern32 (Real.sqrt 3) 1 "m").componentNames.Nodup := by simp [Kern.componentNames, Kern.extractLeafKernels, Kern.name]
  obtain ⟨gp, hnew, h1⟩ := C97_succeeds hk (solver := some .stateSpace) (.inl (.inr rfl)) hn ⟨2, fun i => if i = 0 then 1 else 0⟩
    (some (.inl 1)) none
  obtain ⟨gp', hnew', h1'⟩ := C97_succeeds hk (solver := some .parallel) (.inr ⟨rfl, ((transitionError_iff true _).1 rfl).2 rfl⟩) hn
    ⟨2, fun i => if i = 0 then 1 else 0⟩ (some (.inl 1)) none
  obtain ⟨⟨lp, g⟩, hc⟩ := h1 (by decide) y
  obtain ⟨⟨lp', g'⟩, hc'⟩ := h1' (by decide) y
  set X := (XArg.times ⟨2, fun i => if i = 0 then 1 else 0⟩).coords with hX
  set R := GP.noiseOf (XArg.times ⟨2, fun i => if i = 0 then (1 : ℝ) else 0⟩).len (some (.inl 1)) with hR
  set k := (Kern.matern32 (Real.sqrt 3) 1 "m").model with hkm
  set E := Real.exp 1 with hE
  have hE1 : 2 < E ^ 2 := by
    have : 2 ≤ E := by have := Real.add_one_le_exp (1 : ℝ); rw [hE]; linarith
    nlinarith
  have hH : ∀ s, k.Ht s = !![1, 0] := fun s => by
    show keepFactor "m" none • (!![1, 0] : Matrix (Fin 1) (Fin 2) ℝ) = _
    exact one_smul _ _
  have hdt : (X.get 1).sortable - (X.get 0).sortable = -1 := by
    show (0 : ℝ) - 1 = -1
    norm_num
  have eA : k.At 0 (-1) = !![0, -E; E, 2 * E] := by
    show Matern32.A (Matern32.lam (Real.sqrt 3)) (-1 - 0) = _
    rw [hlam]
    unfold Matern32.A
    rw [show (-1 : ℝ) * (-1 - 0) = 1 by norm_num, ← hE]
    ext i j; fin_cases i <;> fin_cases j <;> simp <;> ring
  have eQ : k.Qt 0 (-1) = !![1 - E ^ 2, 2 * E ^ 2; 2 * E ^ 2, 1 - 5 * E ^ 2] := by
    show Matern32.Q (Matern32.lam (Real.sqrt 3)) 1 (-1 - 0) = _
    rw [hlam]
    unfold Matern32.Q
    have e2 : Real.exp (-(2 * 1 * (-1 - 0))) = E ^ 2 := by rw [hE, ← Real.exp_nat_mul]; norm_num
    dsimp only
    rw [e2]
    ext i j; fin_cases i <;> fin_cases j <;> simp <;> ring
  have eP : k.Pinf = 1 := by
    show Matern32.Pinf (Matern32.lam (Real.sqrt 3)) 1 = 1
    rw [hlam]
    ext i j; fin_cases i <;> fin_cases j <;> simp [Matern32.Pinf]
  have p0 : ((k.kalman (X.map Coord.sortable) y R).get 0).PPred = 1 := by
    refine (kf_zero_P _ _ _ _ _ _ _ _).trans ?_
    rw [hi.rest.A_zero, hi.rest.Q_zero, eP]; simp
  have f0 : ((k.kalman (X.map Coord.sortable) y R).get 0).P = !![1 / 2, 0; 0, 1] := by
    have : ((k.kalman (X.map Coord.sortable) y R).get 0).P =
      (kalmanUpdate (k.Ht ((X.map Coord.sortable).get 0)) (R.get 0) (y.get 0) ((k.kalman (X.map Coord.sortable) y R).get 0).mPred
        ((k.kalman (X.map Coord.sortable) y R).get 0).PPred).P := rfl
    rw [this, p0, hH]
    have hR0 : R.get 0 = 1 := rfl
    rw [hR0]
    exact unit_update _ _
  have p1 : ((k.kalman (X.map Coord.sortable) y R).get 1).PPred = !![1, 0; 0, 1 - E ^ 2 / 2] := by
    have : ((k.kalman (X.map Coord.sortable) y R).get 1).PPred = k.At 0 ((X.get 1).sortable - (X.get 0).sortable) *
      ((k.kalman (X.map Coord.sortable) y R).get 0).P * (k.At 0 ((X.get 1).sortable - (X.get 0).sortable))ᵀ +
      k.Qt 0 ((X.get 1).sortable - (X.get 0).sortable) := kf_succ_P _ _ _ _ _ _ _ _ 0
    rw [this, hdt, f0, eA, eQ]
    exact unit_step E
  have hS : ∀ i < 2, 0 < ((k.kalman (X.map Coord.sortable) y R).get i).S 0 0 := by
    intro i hi
    have : ((k.kalman (X.map Coord.sortable) y R).get i).S 0 0 = (k.Ht ((X.map Coord.sortable).get i) *
      ((k.kalman (X.map Coord.sortable) y R).get i).PPred * (k.Ht ((X.map Coord.sortable).get i))ᵀ) 0 0 + 1 := rfl
    rw [this, hH]
    interval_cases i
    · rw [p0]
      have := row_entry 1
      rw [one_apply_eq] at this
      exact (by rw [this]; norm_num : (0 : ℝ) < ((!![1, 0] : Matrix (Fin 1) (Fin 2) ℝ) * (1 : Matrix (Fin 2) (Fin 2) ℝ) * (!![1, 0] : Matrix (Fin 1) (Fin 2) ℝ)ᵀ) 0 0 + 1)
    · rw [p1]
      have : _ = (1 : ℝ) := row_entry !![1, 0; 0, 1 - E ^ 2 / 2]
      exact (by rw [this]; norm_num : (0 : ℝ) <
        ((!![1, 0] : Matrix (Fin 1) (Fin 2) ℝ) * (!![1, 0; 0, 1 - E ^ 2 / 2] : Matrix (Fin 2) (Fin 2) ℝ) * (!![1, 0] : Matrix (Fin 1) (Fin 2) ℝ)ᵀ) 0 0 + 1)
  have hns : k.NoSingular X y R := by
    refine C101_two_data hi.rest rfl ?_ (hS 1 (by decide)).ne'
    have hR1 : R.get 1 = 1 := rfl
    rw [hdt, eQ, hH, hR1]
    have : _ = 1 - E ^ 2 := row_entry !![1 - E ^ 2, 2 * E ^ 2; 2 * E ^ 2, 1 - 5 * E ^ 2]
    exact (by rw [this]; intro h; linarith : ((!![1, 0] : Matrix (Fin 1) (Fin 2) ℝ) * (!![1 - E ^ 2, 2 * E ^ 2; 2 * E ^ 2, 1 - 5 * E ^ 2] : Matrix (Fin 2) (Fin 2) ℝ) *
      (!![1, 0] : Matrix (Fin 1) (Fin 2) ℝ)ᵀ) 0 0 + 1 ≠ 0)
  have hpr : k.PredictsRegular X y R := by
    intro i hi
    have : i = 0 := by have : i + 1 < 2 := hi; omega
    subst this
    rw [p1]
    have : (!![1, 0; 0, 1 - E ^ 2 / 2] : Matrix (Fin 2) (Fin 2) ℝ).det = 1 - E ^ 2 / 2 := by rw [det_fin_two_of]; ring
    exact (by rw [this, isUnit_iff_ne_zero]; intro h; linarith : IsUnit (!![1, 0; 0, 1 - E ^ 2 / 2] : Matrix (Fin 2) (Fin 2) ℝ).det)
  have hfin : lp ≠ ⊥ := by
    obtain ⟨-, hl, -⟩ := GP.condition_ok hc
    obtain ⟨-, hs0, -, -, -, -, -, hs1, -⟩ := GP.new_ok hnew
    rw [hl, ← SSM.strip_logProb, hs0.strip, SSM.strip_logProb, hs1]
    show k.logProbability (X.map Coord.sortable) y R ≠ ⊥
    rcases C46_total k (X.map Coord.sortable) y R with ⟨-, x, e⟩ | ⟨⟨i, hi, hle⟩, -⟩
    · rw [e]; exact EReal.coe_ne_bot x
    · exact absurd (hS i hi) (not_lt.2 hle)
  obtain ⟨e1, e2, -⟩ := C101_condition hi hnew hnew' hns hpr hc hfin hc' (by decide)
  exact ⟨gp, gp', lp, g, g', hnew, hnew', hc, by rw [hc', e1], e2⟩

end examples

end Verif
