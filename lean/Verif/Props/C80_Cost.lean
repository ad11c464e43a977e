import Verif.Lemmas.ScanCost
import Verif.Lemmas.IntCongr
import Verif.Props.C12_ParallelIntegrated

/-!
# C80: the parallel solvers need logarithmic time and linear work

`Spec/Cost.lean` says what depth and work are. The unit is one combination of two elements (a fixed number of products and solutions of systems of the size
of the state). The same plan `c` serves for all data of a given size; it is a calculation for arbitrary operations, so that nothing can be hidden in it.
-/

namespace Verif
open Matrix Spec

/-- the sequential filter, in contrast: the state after datum `j` is computed by `j + 1` steps, each from the previous one -/
theorem C80_sequential_filter (k : SSM) (t y R : Arr ℝ) (j : ℕ) :
    (((k.kalman t y R).get j).m, ((k.kalman t y R).get j).P) =
      (List.range (j + 1)).foldl (fun s i => (kalmanStep k.At k.Qt k.Ht R t y s i).1) (0, k.Pinf) := by
  have key : ∀ i, scanCarry (kalmanStep k.At k.Qt k.Ht R t y) (0, k.Pinf) (Arr.arange t.len) i =
      (List.range i).foldl (fun s i => (kalmanStep k.At k.Qt k.Ht R t y s i).1) (0, k.Pinf) := by
    intro i
    induction i with
    | zero => rfl
    | succ i ih =>
      rw [List.range_succ, List.foldl_append, ← ih]
      rfl
  rw [← key]
  rfl

/-- **C80.** Depth, work and order of the plan. The parallel filter follows it from the first datum on, the smoother from the last one back. -/
theorem C80_parallel (N : ℕ) (hN : 0 < N) : ∃ c : ℕ → Calc,
    (∀ j < N, (c j).depth ≤ 2 * Nat.log 2 N) ∧ work N c ≤ (2 * N : ℕ) ∧ (∀ j < N, (c j).inputs = List.range (j + 1)) ∧
    ∀ (k : SSM) (X : Arr Coord) (y R : Arr ℝ), X.len = N →
      let t := X.map Coord.sortable
      let kf := k.parallelKalman X y R
      (∀ j < N, (kf.get j).m = ((c j).eval KElem.combine (parallelParams k.At k.Qt k.Ht R t y 0 k.Pinf).get).b ∧
        (kf.get j).P = ((c j).eval KElem.combine (parallelParams k.At k.Qt k.Ht R t y 0 k.Pinf).get).C) ∧
      ∀ j < N, let s := (c (N - 1 - j)).eval BElem.combine fun i => (parallelRtsParams k.At k.Qt t (kf.map (·.m)) (kf.map (·.P))).get (N - 1 - i)
        ((k.parallelCondition X y R).2.get j).m = s.g ∧ ((k.parallelCondition X y R).2.get j).P = s.L := by
  obtain ⟨he, hd, hw, hi⟩ := scanPlan_spec.{0} N
  refine ⟨scanPlan N, hd, hw, hi, fun k X y R hX => ?_⟩
  have hlen : (parallelParams k.At k.Qt k.Ht R (X.map Coord.sortable) y 0 k.Pinf).len = N := by
    show 1 + (X.len - 1) = N
    omega
  refine ⟨fun j _ => ?_, fun j hj => ?_⟩
  · rw [← (scanPlan_spec N).1, ← hlen]
    exact ⟨rfl, rfl⟩
  · have hlen2 : (parallelRtsParams k.At k.Qt (X.map Coord.sortable) ((k.parallelKalman X y R).map (·.m)) ((k.parallelKalman X y R).map (·.P))).len = N := by
      show (X.len - 1) + 1 = N
      omega
    simp only
    rw [← (scanPlan_spec N).1, ← hlen2]
    exact ⟨rfl, rfl⟩

/-- **C80, one element per datum.** The element of datum `i` is computed from datum `i` and the time before it alone. -/
theorem C80_elements (k : SSM) (X X' : Arr Coord) (y y' R R' : Arr ℝ) (i : ℕ) (hX : X.get i = X'.get i)
    (hX' : 0 < i → X.get (i - 1) = X'.get (i - 1)) (hy : y.get i = y'.get i) (hR : R.get i = R'.get i) :
    (parallelParams k.At k.Qt k.Ht R (X.map Coord.sortable) y 0 k.Pinf).get i =
      (parallelParams k.At k.Qt k.Ht R' (X'.map Coord.sortable) y' 0 k.Pinf).get i := by
  rcases i with _ | i
  · show KElem.first _ _ _ _ (y.get 0) (R.get 0) = KElem.first _ _ _ _ (y'.get 0) (R'.get 0)
    rw [hy, hR]
  · have e := hX' (Nat.succ_pos i)
    rw [Nat.add_sub_cancel] at e
    show KElem.measure (k.At 0 ((X.get (i + 1)).sortable - (X.get i).sortable)) (k.Qt 0 ((X.get (i + 1)).sortable - (X.get i).sortable))
      (k.Ht ((X.get (i + 1)).sortable - (X.get i).sortable)) (y.get (i + 1)) (R.get (i + 1)) = KElem.measure
      (k.At 0 ((X'.get (i + 1)).sortable - (X'.get i).sortable)) (k.Qt 0 ((X'.get (i + 1)).sortable - (X'.get i).sortable))
      (k.Ht ((X'.get (i + 1)).sortable - (X'.get i).sortable)) (y'.get (i + 1)) (R'.get (i + 1))
    rw [hX, e, hy, hR]

/-- **C80, exposures.** The filter of the parallel integrated solver: the plan for the `2 N` starts and ends. -/
theorem C80_parallel_integrated (N : ℕ) (hN : 0 < N) : ∃ c : ℕ → Calc,
    (∀ j < 2 * N, (c j).depth ≤ 2 * Nat.log 2 N + 2) ∧ work (2 * N) c ≤ (4 * N : ℕ) ∧ (∀ j < 2 * N, (c j).inputs = List.range (j + 1)) ∧
    ∀ (k : SSM) (X : Arr Coord) (y R : Arr ℝ), X.len = N →
      ∀ j < 2 * N,
        let s := (c j).eval KElem.combine
          (parIntParams k.At k.Qt (X.map fun x => k.obsModel x none) k.reset R y (stateCoords X) (perStateInst X) 0 k.Pinf).get
        ((k.parIntKalman X y R).get j).m = s.b ∧ ((k.parIntKalman X y R).get j).P = s.C := by
  obtain ⟨he, hd, hw, hi⟩ := scanPlan_spec.{0} (2 * N)
  have hlog : Nat.log 2 (2 * N) = Nat.log 2 N + 1 := by
    rw [Nat.log_of_one_lt_of_le one_lt_two (by omega), Nat.mul_div_cancel_left N two_pos]
  refine ⟨scanPlan (2 * N), fun j hj => ?_, hw.trans (Nat.cast_le.2 (by omega)), hi, fun k X y R hX j hj => ?_⟩
  · have := hd j hj
    omega
  · have hlen := parIntParams_len k.At k.Qt (X.map fun x => k.obsModel x none) k.reset R y (stateCoords X) (perStateInst X) 0 k.Pinf
      (by rw [sc_len]; omega)
    rw [sc_len, hX] at hlen
    simp only
    rw [← (scanPlan_spec (2 * N)).1, ← hlen]
    exact ⟨rfl, rfl⟩

/-- **C80, exposures.** Its smoother, from the last event back. -/
theorem C80_parallel_integrated_smoother (N : ℕ) (hN : 0 < N) : ∃ c : ℕ → Calc,
    (∀ j < 2 * N, (c j).depth ≤ 2 * Nat.log 2 N + 2) ∧ work (2 * N) c ≤ (4 * N : ℕ) ∧ (∀ j < 2 * N, (c j).inputs = List.range (j + 1)) ∧
    ∀ (k : SSM) (X : Arr Coord) (y R : Arr ℝ), X.len = N →
      let kf := k.parIntKalman X y R
      let sc := stateCoords X
      let e : ℕ → BElem k.n := fun i =>
        if i = 2 * N - 1 then BElem.last (kf.get i).m (kf.get i).P
        else if sc.stateid.get i = 0 then BElem.generic (k.At 0 (sc.t.get (i + 1) - sc.t.get i) * k.reset ((perStateInst X).get i))
          (k.Qt 0 (sc.t.get (i + 1) - sc.t.get i)) (kf.get i).mPred (kf.get i).PPred
        else BElem.generic (k.At 0 (sc.t.get (i + 1) - sc.t.get i)) (k.Qt 0 (sc.t.get (i + 1) - sc.t.get i)) (kf.get i).m (kf.get i).P
      ∀ j < 2 * N, let s := (c (2 * N - 1 - j)).eval BElem.combine fun i => e (2 * N - 1 - i)
        ((k.parallelIntegratedCondition X y R).2.get j).m = s.g ∧ ((k.parallelIntegratedCondition X y R).2.get j).P = s.L := by
  obtain ⟨he, hd, hw, hi⟩ := scanPlan_spec.{0} (2 * N)
  have hlog : Nat.log 2 (2 * N) = Nat.log 2 N + 1 := by
    rw [Nat.log_of_one_lt_of_le one_lt_two (by omega), Nat.mul_div_cancel_left N two_pos]
  refine ⟨scanPlan (2 * N), fun j hj => ?_, hw.trans (Nat.cast_le.2 (by omega)), hi, fun k X y R hX => ?_⟩
  · have := hd j hj
    omega
  intro kf sc e j hj
  have hsc : sc.t.len = 2 * N := by rw [← hX]; exact sc_len
  have hkf : kf.len = 2 * N := by
    show (parIntParams k.At k.Qt (X.map fun x => k.obsModel x none) k.reset R y (stateCoords X) (perStateInst X) 0 k.Pinf).len = _
    rw [parIntParams_len _ _ _ _ _ _ _ _ _ _ (by rw [sc_len]; omega), sc_len, hX]
  simp only
  rw [← (scanPlan_spec (2 * N)).1]
  set el : Arr (BElem k.n) := Arr.append
    ⟨sc.t.diff.len, fun i =>
      let PhiDt := k.At 0 (sc.t.diff.get i)
      let QDt := k.Qt 0 (sc.t.diff.get i)
      let Reset := k.reset ((perStateInst X).init.get i)
      if sc.stateid.init.get i = 0 then BElem.generic (PhiDt * Reset) QDt (kf.get i).mPred (kf.get i).PPred
      else BElem.generic PhiDt QDt (kf.get i).m (kf.get i).P⟩
    (Arr.single (BElem.last kf.last.m kf.last.P)) with hel
  have hlen : el.len = 2 * N := by
    show (sc.t.len - 1) + 1 = _
    omega
  have hge : ∀ i < 2 * N, el.get (2 * N - 1 - i) = e (2 * N - 1 - i) := by
    intro i hi
    show (if 2 * N - 1 - i < sc.t.len - 1 then _ else BElem.last kf.last.m kf.last.P) = if 2 * N - 1 - i = 2 * N - 1 then _ else _
    rw [hsc]
    by_cases h0 : i = 0
    · rw [if_neg (by omega), if_pos (by omega)]
      show BElem.last (kf.get (kf.len - 1)).m (kf.get (kf.len - 1)).P = _
      rw [hkf, h0]
      rfl
    · rw [if_pos (by omega), if_neg (by omega)]
      rfl
  have hr : (k.parallelIntegratedCondition X y R).2.get j =
      ⟨(assocScanGet BElem.combine el.len (fun i => el.get (el.len - 1 - i)) (el.len - 1 - j)).g,
        (assocScanGet BElem.combine el.len (fun i => el.get (el.len - 1 - i)) (el.len - 1 - j)).L⟩ := rfl
  rw [hr, hlen, assocScanGet_congr BElem.combine (2 * N) _ _ hge _ (by omega)]
  exact ⟨rfl, rfl⟩

section examples

/-- the plan for eight data: the last prefix takes three steps in a row, not seven -/
example : (scanPlan 8 7).depth = 3 := by simp [scanPlan, assocScanGet, Calc.depth]

end examples

end Verif
