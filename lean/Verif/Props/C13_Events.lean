import Verif.Lemmas.Events

/-!
# C13, C14: the order of exposure events and of the results

`stateCoords X` is the `state_coords` of the integrated solvers: at step `k` it holds the event time `t`, the measurement `obsid`
and the kind `stateid` (0 start, 1 end).
-/

namespace Verif
open Matrix

/-- step `k` is the end of exposure `n` -/
def IsEnd (X : Arr Coord) (n k : ℕ) : Prop :=
  k < 2 * X.len ∧ (stateCoords X).obsid.get k = n ∧ (stateCoords X).stateid.get k = 1

/-- step `k` is the start of exposure `n` -/
def IsStart (X : Arr Coord) (n k : ℕ) : Prop :=
  k < 2 * X.len ∧ (stateCoords X).obsid.get k = n ∧ (stateCoords X).stateid.get k = 0

theorem isEnd_iff {X : Arr Coord} {n k : ℕ} (hn : n < X.len) : IsEnd X n k ↔ k = endStep X n := by
  unfold IsEnd
  rw [sc_obsid, sc_stateid]
  constructor
  · rintro ⟨h1, h2, h3⟩
    exact endStep_unique hn h1 (by omega)
  · rintro rfl
    rw [ev_endStep hn]
    exact ⟨endStep_lt hn, by omega, by omega⟩

theorem isStart_iff {X : Arr Coord} {n k : ℕ} (hn : n < X.len) : IsStart X n k ↔ k = startStep X n := by
  unfold IsStart
  rw [sc_obsid, sc_stateid]
  constructor
  · rintro ⟨h1, h2, h3⟩
    exact ev_inj h1 (startStep_lt hn) (by rw [ev_startStep hn]; omega)
  · rintro rfl
    rw [ev_startStep hn]
    exact ⟨startStep_lt hn, by omega, by omega⟩

/-- **C13.** There are two events per measurement, processed in non-decreasing time; each step is the start or the end of one of
the measurements, at the time of that start or end. -/
theorem C13_events_sorted (X : Arr Coord) :
    (stateCoords X).t.len = 2 * X.len ∧
    (∀ i j, i ≤ j → j < 2 * X.len → (stateCoords X).t.get i ≤ (stateCoords X).t.get j) ∧
    ∀ k < 2 * X.len, ∃ n < X.len, (IsStart X n k ∧ (stateCoords X).t.get k = (X.get n).sortable - (X.get n).delta / 2) ∨
      (IsEnd X n k ∧ (stateCoords X).t.get k = (X.get n).sortable + (X.get n).delta / 2) := by
  refine ⟨sc_len, fun i j hij hj => sc_sorted i j hij (by rw [sc_len]; exact hj), fun k hk => ?_⟩
  have hlt := ev_lt hk
  refine ⟨ev X k / 2, by omega, ?_⟩
  rcases Nat.mod_two_eq_zero_or_one (ev X k) with h | h
  · left
    refine ⟨⟨hk, rfl, h⟩, ?_⟩
    rw [sc_t]
    conv_lhs => rw [show ev X k = 2 * (ev X k / 2) by omega]
    exact eventTimes_start _
  · right
    refine ⟨⟨hk, rfl, h⟩, ?_⟩
    rw [sc_t]
    conv_lhs => rw [show ev X k = 2 * (ev X k / 2) + 1 by omega]
    exact eventTimes_stop _

/-- **C13.** Every measurement contributes exactly one start and exactly one end. -/
theorem C13_one_start_one_end (X : Arr Coord) (n : ℕ) (hn : n < X.len) :
    (∃! k, IsStart X n k) ∧ ∃! k, IsEnd X n k :=
  ⟨⟨startStep X n, (isStart_iff hn).2 rfl, fun _ h => (isStart_iff hn).1 h⟩,
   ⟨endStep X n, (isEnd_iff hn).2 rfl, fun _ h => (isEnd_iff hn).1 h⟩⟩

/-- **C13.** At equal times ends are processed before starts. -/
theorem C13_ends_before_starts (X : Arr Coord) (a b i j : ℕ) (hi : IsEnd X a i) (hj : IsStart X b j)
    (h : (stateCoords X).t.get i = (stateCoords X).t.get j) : i < j := by
  by_contra hne
  have hij : i ≠ j := by rintro rfl; have := hi.2.2; have := hj.2.2; omega
  rcases ev_sorted (X := X) (i := j) (j := i) (by omega) hi.1 with h' | h'
  · rw [sc_t, sc_t] at h; linarith
  · have h1 := hi.2.2
    have h2 := hj.2.2
    rw [sc_stateid] at h1 h2
    omega

/-- **C13.** A measurement of positive length starts before it ends; one of zero (or negative) length ends before it starts. -/
theorem C13_start_before_end (X : Arr Coord) (n i j : ℕ) (hn : n < X.len) (hi : IsStart X n i) (hj : IsEnd X n j) :
    i < j ↔ 0 < (X.get n).delta := by
  rw [isStart_iff hn] at hi
  rw [isEnd_iff hn] at hj
  subst hi hj
  refine ⟨fun h => ?_, start_before_end hn⟩
  rcases ev_sorted h (endStep_lt hn) with h' | h'
  · rw [ev_endStep hn, ev_startStep hn, eventTimes_start, eventTimes_stop] at h'
    unfold Coord.start Coord.stop at h'
    linarith
  · rw [ev_endStep hn, ev_startStep hn] at h'
    omega

/-- two exposures that touch at time 1: the first one ends before the second one starts -/
example : ∃ i j, IsEnd (Arr.ofList (.time 0) [.exposure (1/2) 1 0, .exposure (3/2) 1 0]) 0 i ∧
    IsStart (Arr.ofList (.time 0) [.exposure (1/2) 1 0, .exposure (3/2) 1 0]) 1 j ∧ i < j := by
  set X : Arr Coord := Arr.ofList (.time 0) [.exposure (1/2) 1 0, .exposure (3/2) 1 0] with hX
  have hl : X.len = 2 := rfl
  have h1 := (isEnd_iff (X := X) (n := 0) (by rw [hl]; omega)).2 rfl
  have h2 := (isStart_iff (X := X) (n := 1) (by rw [hl]; omega)).2 rfl
  refine ⟨_, _, h1, h2, C13_ends_before_starts X 0 1 _ _ h1 h2 ?_⟩
  rw [sc_t, sc_t, ev_endStep (by rw [hl]; omega), ev_startStep (by rw [hl]; omega), eventTimes_start, eventTimes_stop]
  have e1 : X.get 0 = .exposure (1/2) 1 0 := rfl
  have e2 : X.get 1 = .exposure (3/2) 1 0 := rfl
  rw [e1, e2]
  simp only [Coord.start, Coord.stop, Coord.sortable, Coord.delta]
  norm_num

/-- **C14.** `condition(y)` reports, at position `n`, the projection of the smoothed state at the end of exposure `n`. -/
theorem C14_results_in_input_order (k : SSM) (X : Arr Coord) (y R : Arr ℝ) (n e : ℕ) (hn : n < X.len) (he : IsEnd X n e) :
    (k.integratedConditionedAtData X y R).get n =
      ((k.obsModel (X.get n) none *ᵥ ((k.integratedCondition X y R).2.get e).m) 0,
       (k.obsModel (X.get n) none * ((k.integratedCondition X y R).2.get e).P * (k.obsModel (X.get n) none)ᵀ) 0 0) := by
  rw [(isEnd_iff hn).1 he]
  rfl

/-- **C14**, the parallel integrated solver. -/
theorem C14_parallel_results_in_input_order (k : SSM) (X : Arr Coord) (y R : Arr ℝ) (n e : ℕ) (hn : n < X.len) (he : IsEnd X n e) :
    (k.parallelIntegratedConditionedAtData X y R).get n =
      ((k.obsModel (X.get n) none *ᵥ ((k.parallelIntegratedCondition X y R).2.get e).m) 0,
       (k.obsModel (X.get n) none * ((k.parallelIntegratedCondition X y R).2.get e).P * (k.obsModel (X.get n) none)ᵀ) 0 0) := by
  rw [(isEnd_iff hn).1 he]
  rfl

/-- one row per measurement -/
theorem C14_length (k : SSM) (X : Arr Coord) (y R : Arr ℝ) : (k.integratedConditionedAtData X y R).len = X.len ∧
    (k.parallelIntegratedConditionedAtData X y R).len = X.len := ⟨rfl, rfl⟩

end Verif
