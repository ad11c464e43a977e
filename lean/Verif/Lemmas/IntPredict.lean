import Verif.Lemmas.Insert
import Verif.Props.C56_Simultaneous

/-!
# Predictions of the integrated solver at a time between, before or after the events
-/

set_option linter.unusedSectionVars false

namespace Verif
open Matrix Spec

section line
variable (X : Arr Coord) (x : ℝ)

/-- the number of events not after `x` -/
noncomputable abbrev testPos : ℕ := searchsortedRight (stateCoords X).t x

/-- the events' times with `x` inserted -/
noncomputable def testLine : ℕ → ℝ :=
  ins (testPos X x) x fun i => if i < testPos X x then evTime X i else max x (evTime X i)

/-- which instrument is reset at an event -/
noncomputable def evReset (i : ℕ) : Option ℤ :=
  if i < 2 * X.len ∧ (stateCoords X).stateid.get i = 0 then some ((stateCoords X).instid.get ((stateCoords X).obsid.get i)) else none

noncomputable def testReset : ℕ → Option ℤ := ins (testPos X x) none (evReset X)

variable {X x}

theorem testPos_le : testPos X x ≤ 2 * X.len := by
  have := searchsorted_le (t := (stateCoords X).t) x
  rwa [sc_len] at this

theorem testPos_before {i : ℕ} (h : i < testPos X x) : (stateCoords X).t.get i ≤ x :=
  (searchsorted_lt_iff sc_sorted x (by rw [sc_len]; exact h.trans_le testPos_le)).1 h

theorem testPos_after {i : ℕ} (h : testPos X x ≤ i) (hi : i < 2 * X.len) : x ≤ (stateCoords X).t.get i := by
  by_contra hlt
  have := (searchsorted_lt_iff sc_sorted x (by rw [sc_len]; exact hi)).2 (not_le.1 hlt).le
  exact absurd this (not_lt.2 h)

theorem testLine_insIdx {i : ℕ} (hi : i < 2 * X.len) : testLine X x (insIdx (testPos X x) i) = (stateCoords X).t.get i := by
  unfold testLine
  rw [ins_insIdx]
  split_ifs with h
  · exact evTime_lt hi
  · rw [evTime_lt hi, max_eq_right (testPos_after (by omega) hi)]

theorem testLine_pos : testLine X x (testPos X x) = x := ins_eq

theorem testLine_lt {i : ℕ} (h : i < testPos X x) : testLine X x i = (stateCoords X).t.get i := by
  have := testLine_insIdx (x := x) (h.trans_le testPos_le)
  rwa [insIdx, if_pos h] at this

theorem testLine_succ {i : ℕ} (h : testPos X x ≤ i) (hi : i < 2 * X.len) : testLine X x (i + 1) = (stateCoords X).t.get i := by
  have := testLine_insIdx (x := x) hi
  rwa [insIdx, if_neg (by omega)] at this

/-- after the last event nothing happens any more -/
theorem testLine_beyond {i : ℕ} (hN : 0 < X.len) (hi : 2 * X.len ≤ i) : testLine X x (i + 1) = testLine X x i := by
  have hp : testPos X x ≤ 2 * X.len := testPos_le
  have hev : ∀ j, 2 * X.len - 1 ≤ j → evTime X j = (stateCoords X).t.get (2 * X.len - 1) := by
    intro j hj
    unfold evTime
    rw [sc_len, min_eq_right hj]
  rcases (show testPos X x < i ∨ testPos X x = i by omega) with h | h
  · obtain ⟨l, rfl⟩ : ∃ l, i = l + 1 := ⟨i - 1, by omega⟩
    unfold testLine
    rw [ins_succ (by omega), ins_succ (by omega), if_neg (by omega), if_neg (by omega), hev _ (by omega), hev _ (by omega)]
  · have h2 : (stateCoords X).t.get (2 * X.len - 1) ≤ x := testPos_before (by omega)
    have e : testLine X x i = x := by rw [← h]; exact testLine_pos
    rw [e]
    unfold testLine
    rw [ins_succ (by omega), if_neg (by omega), hev _ (by omega), max_eq_left h2]

theorem testLine_step (hN : 0 < X.len) {P : ℝ → Prop} (h0 : P 0)
    (hQ : ∀ j, j + 1 < 2 * X.len → P ((stateCoords X).t.get (j + 1) - (stateCoords X).t.get j))
    (h1 : 0 < testPos X x → P (x - (stateCoords X).t.get (testPos X x - 1)))
    (h2 : testPos X x < 2 * X.len → P ((stateCoords X).t.get (testPos X x) - x)) (j : ℕ) :
    P (testLine X x (j + 1) - testLine X x j) := by
  have hp : testPos X x ≤ 2 * X.len := testPos_le
  by_cases hj : 2 * X.len ≤ j
  · rw [testLine_beyond hN hj, sub_self]; exact h0
  rcases lt_trichotomy (j + 1) (testPos X x) with h | h | h
  · rw [testLine_lt h, testLine_lt (by omega)]
    exact hQ j (by omega)
  · rw [testLine_lt (i := j) (by omega), h, testLine_pos]
    have := h1 (by omega)
    rwa [← h, Nat.add_sub_cancel] at this
  · rw [testLine_succ (by omega) (by omega)]
    rcases (show testPos X x = j ∨ testPos X x < j by omega) with h' | h'
    · have e : testLine X x j = x := by rw [← h']; exact testLine_pos
      rw [e, ← h']
      exact h2 (by omega)
    · obtain ⟨l, rfl⟩ : ∃ l, j = l + 1 := ⟨j - 1, by omega⟩
      rw [testLine_succ (by omega) (by omega)]
      exact hQ l (by omega)

theorem testLine_mono (hN : 0 < X.len) : Monotone (testLine X x) :=
  monotone_nat_of_le_succ fun j => sub_nonneg.1 (testLine_step (P := fun s => 0 ≤ s) hN le_rfl
    (fun j hj => sub_nonneg.2 (sc_sorted _ _ (Nat.le_succ j) (by rw [sc_len]; exact hj)))
    (fun h => sub_nonneg.2 (testPos_before (by omega))) (fun h => sub_nonneg.2 (testPos_after le_rfl h)) j)

theorem testReset_insIdx (i : ℕ) : testReset X x (insIdx (testPos X x) i) = evReset X i := ins_insIdx

theorem testLine_ok {m : ℕ} (hX : Schedule m X) (hN : 0 < X.len) : LineOk m (testLine X x) (testReset X x) where
  mono := testLine_mono hN
  inst j i h := by
    by_cases hj : j = testPos X x
    · rw [hj] at h
      unfold testReset at h
      rw [ins_eq] at h
      cases h
    · obtain ⟨l, rfl⟩ := insIdx_surj hj
      rw [testReset_insIdx] at h
      unfold evReset at h
      split_ifs at h with hl
      have := hX.inst _ (obsid_lt hl.1)
      rw [← Option.some.inj h]
      exact this

theorem testLine_latent {c : Coord} (hc : c.delta = 0) (hx : c.sortable = x) : LineProbe (testLine X x) (testReset X x) (testPos X x) c :=
  .latent hc (testLine_pos.trans hx.symm)

theorem testLine_measurement {m : ℕ} (hX : Schedule m X) {i : ℕ} (hi : i < X.len) :
    LineProbe (testLine X x) (testReset X x) (insIdx (testPos X x) (endStep X i)) (X.get i) := by
  have he : IsEnd X i (endStep X i) := (isEnd_iff hi).2 rfl
  have ha : IsStart X i (startStep X i) := (isStart_iff hi).2 rfl
  have te : testLine X x (insIdx (testPos X x) (endStep X i)) = (X.get i).stop := by
    rw [testLine_insIdx he.1, ← evTime_lt he.1, evTime_end hi he]
  rcases (hX.delta_nonneg i hi).lt_or_eq with hd | hd
  · refine .exposure (a := insIdx (testPos X x) (startStep X i)) hd (insIdx_lt_iff.2 (start_before_end hi hd)) ?_ ?_ te ?_
    · rw [testReset_insIdx]
      unfold evReset
      rw [if_pos ⟨ha.1, ha.2.2⟩, ha.2.1, sc_instid]
    · rw [testLine_insIdx ha.1, ← evTime_lt ha.1, evTime_start hi ha]
    · intro l h1 h2 h3
      by_cases hl : l = testPos X x
      · rw [hl] at h3
        unfold testReset at h3
        rw [ins_eq] at h3
        cases h3
      · obtain ⟨l, rfl⟩ := insIdx_surj hl
        have h1 := insIdx_lt_iff.1 h1
        have h2 := insIdx_lt_iff.1 h2
        rw [testReset_insIdx] at h3
        unfold evReset at h3
        split_ifs at h3 with h0
        have := slot_undisturbed hX hi ha he h1 h2 (by
          unfold resetSlot
          rw [if_pos h0.2, Option.some.inj h3])
        rwa [evTime_lt h0.1, evTime_lt ha.1, ← testLine_insIdx (x := x) h0.1, ← testLine_insIdx (x := x) ha.1] at this
  · refine .latent hd.symm ?_
    rw [te]
    unfold Coord.stop
    rw [← hd]; simp

end line

/-! ### the inserted chain -/

section chain
variable {k : SSM} {X : Arr Coord} {y R : Arr ℝ} {x : ℝ}

theorem jumpOf_evReset {i : ℕ} (hi : i < 2 * X.len) : k.jumpOf (evReset X i) = (stateCoords X).jump k.reset i := by
  unfold evReset StateCoords.jump
  by_cases h : (stateCoords X).stateid.get i = 0
  · rw [if_pos ⟨hi, h⟩, if_pos h]; rfl
  · rw [if_neg (fun hh => h hh.2), if_neg h]; rfl

theorem testLine_T_lt {i : ℕ} (h : i + 1 < testPos X x) :
    k.lineT (testLine X x) (testReset X x) i = (stateCoords X).transition k.At k.reset i := by
  have hp : testPos X x ≤ 2 * X.len := testPos_le
  unfold SSM.lineT StateCoords.transition
  rw [testLine_lt h, testLine_lt (by omega), (stateCoords X).gap_eq (by rw [sc_len]; omega), ← jumpOf_evReset (by omega)]
  unfold testReset
  rw [ins_lt (by omega)]

theorem testLine_T_ge {i : ℕ} (h : testPos X x ≤ i) (hi : i + 1 < 2 * X.len) :
    k.lineT (testLine X x) (testReset X x) (i + 1) = (stateCoords X).transition k.At k.reset i := by
  unfold SSM.lineT StateCoords.transition
  rw [testLine_succ (by omega) hi, testLine_succ h (by omega), (stateCoords X).gap_eq (by rw [sc_len]; omega), ← jumpOf_evReset (by omega)]
  unfold testReset
  rw [ins_succ h]

theorem testLine_T_pos (hi : testPos X x < 2 * X.len) :
    k.lineT (testLine X x) (testReset X x) (testPos X x) = k.At 0 ((stateCoords X).t.get (testPos X x) - x) := by
  unfold SSM.lineT
  rw [testLine_succ le_rfl hi, testLine_pos]
  unfold testReset
  rw [ins_eq]
  exact Matrix.mul_one _

theorem testLine_T_prev (h : 0 < testPos X x) :
    k.lineT (testLine X x) (testReset X x) (testPos X x - 1) =
      k.At 0 (x - (stateCoords X).t.get (testPos X x - 1)) * (stateCoords X).jump k.reset (testPos X x - 1) := by
  have hp : testPos X x ≤ 2 * X.len := testPos_le
  unfold SSM.lineT
  rw [Nat.sub_add_cancel h, testLine_lt (i := testPos X x - 1) (by omega), testLine_pos, ← jumpOf_evReset (by omega)]
  unfold testReset
  rw [ins_lt (by omega)]

theorem testLine_Q_lt {i : ℕ} (h : i + 1 < testPos X x) : k.lineQ (testLine X x) i = (stateCoords X).noise k.Qt i := by
  have hp : testPos X x ≤ 2 * X.len := testPos_le
  unfold SSM.lineQ StateCoords.noise
  rw [testLine_lt h, testLine_lt (by omega), (stateCoords X).gap_eq (by rw [sc_len]; omega)]

theorem testLine_Q_ge {i : ℕ} (h : testPos X x ≤ i) (hi : i + 1 < 2 * X.len) :
    k.lineQ (testLine X x) (i + 1) = (stateCoords X).noise k.Qt i := by
  unfold SSM.lineQ StateCoords.noise
  rw [testLine_succ (by omega) hi, testLine_succ h (by omega), (stateCoords X).gap_eq (by rw [sc_len]; omega)]

theorem testLine_Q_pos (hi : testPos X x < 2 * X.len) :
    k.lineQ (testLine X x) (testPos X x) = k.Qt 0 ((stateCoords X).t.get (testPos X x) - x) := by
  unfold SSM.lineQ
  rw [testLine_succ le_rfl hi, testLine_pos]

theorem testLine_Q_prev (h : 0 < testPos X x) :
    k.lineQ (testLine X x) (testPos X x - 1) = k.Qt 0 (x - (stateCoords X).t.get (testPos X x - 1)) := by
  unfold SSM.lineQ
  rw [Nat.sub_add_cancel h, testLine_lt (i := testPos X x - 1) (by omega), testLine_pos]

/-- the chain of events with the test time inserted -/
noncomputable def SSM.testChain (k : SSM) (X : Arr Coord) (y R : Arr ℝ) (x : ℝ) (hQ : ∀ j, (k.lineQ (testLine X x) j)ᵀ = k.lineQ (testLine X x) j)
    (hP : k.Pinfᵀ = k.Pinf) :=
  discreteChain (T := k.lineT (testLine X x) (testReset X x)) hQ hP
    (ins (testPos X x) false fun i => (stateCoords X).stateid.get i != 0)
    (ins (testPos X x) 0 fun i => (X.map fun x => k.obsModel x none).get ((stateCoords X).obsid.get i))
    (ins (testPos X x) 0 fun i => R.get ((stateCoords X).obsid.get i))
    (ins (testPos X x) 0 fun i => y.get ((stateCoords X).obsid.get i))

theorem testChain_inserted (hk : k.SymmModel X) (hN : 0 < X.len) (hQ : ∀ j, (k.lineQ (testLine X x) j)ᵀ = k.lineQ (testLine X x) j)
    (hA0 : k.At 0 0 = 1) (hQ0 : k.Qt 0 0 = 0) (hp : 0 < testPos X x)
    (hc : testPos X x < 2 * X.len → k.StepsCompose (x - (stateCoords X).t.get (testPos X x - 1)) ((stateCoords X).t.get (testPos X x) - x)) :
    (k.chain X y R hk hN).Inserted (k.testChain X y R x hQ hk.P) (testPos X x) (2 * X.len) := by
  have eT' : ∀ i, (k.testChain X y R x hQ hk.P).T i = k.lineT (testLine X x) (testReset X x) i := discreteChain_T _ _ _ _ _ _
  have eQ' : ∀ i, (k.testChain X y R x hQ hk.P).Q i = k.lineQ (testLine X x) i := discreteChain_Q _ _ _ _ _ _
  have eT : ∀ i, (k.chain X y R hk hN).T i = (stateCoords X).transition k.At k.reset i := discreteChain_T _ _ _ _ _ _
  have eQ : ∀ i, (k.chain X y R hk hN).Q i = (stateCoords X).noise k.Qt i := discreteChain_Q _ _ _ _ _ _
  have egap : testPos X x < 2 * X.len → (stateCoords X).gap (testPos X x - 1) =
      (x - (stateCoords X).t.get (testPos X x - 1)) + ((stateCoords X).t.get (testPos X x) - x) := by
    intro h
    rw [(stateCoords X).gap_eq (by rw [sc_len]; omega), Nat.sub_add_cancel hp]
    ring
  exact
    { pos := hp
      le := testPos_le
      x0 := fun a b => by
        refine (discreteChain_xx _ _ _ _ _ _ 0 0 a b).trans (Eq.trans ?_ (discreteChain_xx _ _ _ _ _ _ 0 0 a b).symm)
        simp [stateCov, marginalCov, propagator, hA0, hQ0]
      T_lt := fun i h => by rw [eT', eT, testLine_T_lt h]
      T_ge := fun i h hi => by rw [eT', eT, testLine_T_ge h hi]
      T_mid := fun h => by
        rw [eT', eT', eT, testLine_T_pos h, testLine_T_prev hp, ← Matrix.mul_assoc, ← (hc h).A, ← egap h]
        rfl
      Q_lt := fun i h => by rw [eQ', eQ, testLine_Q_lt h]
      Q_ge := fun i h hi => by rw [eQ', eQ, testLine_Q_ge h hi]
      Q_mid := fun h => by
        rw [eT', eQ', eQ', eQ, testLine_T_pos h, testLine_Q_prev hp, testLine_Q_pos h, ← (hc h).Q, ← egap h]
        rfl
      isObs := fun i => rfl
      H := fun i _ => ins_insIdx (p := testPos X x) (s := 0) (f := fun i => (X.map fun x => k.obsModel x none).get ((stateCoords X).obsid.get i))
      R := fun i _ => ins_insIdx (p := testPos X x) (s := 0) (f := fun i => R.get ((stateCoords X).obsid.get i))
      y := fun i _ => ins_insIdx (p := testPos X x) (s := 0) (f := fun i => y.get ((stateCoords X).obsid.get i)) }

/-- covariance of a linear function of the state at the test time with measurement `i` -/
noncomputable def testCross (k : SSM) (X : Arr Coord) (x : ℝ) (h : Matrix (Fin 1) k.n ℝ) (i : ℕ) : ℝ :=
  (h * k.lineCov (testLine X x) (testReset X x) (testPos X x) (insIdx (testPos X x) (endStep X i)) * (k.obsModel (X.get i) none)ᵀ) 0 0

/-- covariance of two measurements -/
noncomputable def testGram (k : SSM) (X : Arr Coord) (x : ℝ) (R : Arr ℝ) : Matrix (Fin X.len) (Fin X.len) ℝ :=
  noisyGram (fun i j : Fin X.len => (k.obsModel (X.get i) none *
    k.lineCov (testLine X x) (testReset X x) (insIdx (testPos X x) (endStep X i)) (insIdx (testPos X x) (endStep X j)) *
    (k.obsModel (X.get j) none)ᵀ) 0 0) fun i => R.get i

theorem obsid_endStep {i : ℕ} (hi : i < X.len) : (stateCoords X).obsid.get (endStep X i) = i := ((isEnd_iff hi).2 rfl).2.1

noncomputable abbrev testB (k : SSM) (X : Arr Coord) (R : Arr ℝ) (x : ℝ) (hQ : ∀ j, (k.lineQ (testLine X x) j)ᵀ = k.lineQ (testLine X x) j)
    (hP : k.Pinfᵀ = k.Pinf) :=
  (discreteGM (k.lineT (testLine X x) (testReset X x)) (k.lineQ (testLine X x)) k.Pinf hQ hP).B
    (ins (testPos X x) 0 fun i => R.get ((stateCoords X).obsid.get i))

noncomputable abbrev testPhi (k : SSM) (X : Arr Coord) (y : Arr ℝ) (x : ℝ) :=
  GM.φ k.n (ins (testPos X x) 0 fun i => y.get ((stateCoords X).obsid.get i))

/-- an estimate of the state at the inserted step, as a dense posterior -/
theorem testChain_dense (hk : k.SymmModel X) (hN : 0 < X.len) (hQ : ∀ j, (k.lineQ (testLine X x) j)ᵀ = k.lineQ (testLine X x) j)
    (hins : (k.chain X y R hk hN).Inserted (k.testChain X y R x hQ hk.P) (testPos X x) (2 * X.len))
    (hunit : IsUnit (testGram k X x R).det) {mu : k.n → ℝ} {P : Matrix k.n k.n ℝ}
    (hest : ∃ Xh, IsEst (testB k X R x hQ hk.P) (testPhi k X y x) ((k.testChain X y R x hQ hk.P).U (2 * X.len + 1)) ((k.testChain X y R x hQ hk.P).x (testPos X x)) Xh mu P)
    (h : Matrix (Fin 1) k.n ℝ) :
    (h *ᵥ mu) 0 = postMean (testGram k X x R) (fun i => y.get i) (fun i => testCross k X x h i) ∧
    (h * P * hᵀ) 0 0 = postVar (testGram k X x R)
      ((h * k.lineCov (testLine X x) (testReset X x) (testPos X x) (testPos X x) * hᵀ) 0 0) (fun i => testCross k X x h i) := by
  obtain ⟨Xh, hest⟩ := hest
  have hlen : (stateCoords X).t.len = 2 * X.len := sc_len
  let eqv : Fin X.len ≃ Chain.Obs (k.chain X y R hk hN) (2 * X.len) := hlen ▸ endEquiv (y := y) (R := R) hk hN
  have heqv : ∀ i, ((eqv i).1 : ℕ) = endStep X i := by
    intro i
    have : ∀ (N : ℕ) (hl : (stateCoords X).t.len = N),
        (((hl ▸ endEquiv (y := y) (R := R) hk hN : Fin X.len ≃ Chain.Obs (k.chain X y R hk hN) N) i).1 : ℕ) = endStep X i := by
      rintro N rfl
      rfl
    exact this _ hlen
  have hspan := hins.span eqv
  simp only [heqv] at hspan
  have hH : ∀ i : Fin X.len, (k.testChain X y R x hQ hk.P).H (insIdx (testPos X x) (endStep X i)) = k.obsModel (X.get i) none := by
    intro i
    refine (ins_insIdx (p := testPos X x) (s := 0)
      (f := fun i => (X.map fun x => k.obsModel x none).get ((stateCoords X).obsid.get i))).trans ?_
    show k.obsModel (X.get ((stateCoords X).obsid.get (endStep X i))) none = _
    rw [obsid_endStep i.2]
  have main := IsEst.dense_scalar (k.testChain X y R x hQ hk.P).symm _
    (Eq.mp (congrArg (fun W => IsEst _ _ W _ _ _ _) hspan) hest) (testGram k X x R) (fun i j => ?_) hunit h
  · have e1 : ∀ i : Fin X.len, testPhi k X y x
        ((k.testChain X y R x hQ hk.P).Y (insIdx (testPos X x) (endStep X i))) = y.get i := by
      intro i
      refine ((k.testChain X y R x hQ hk.P).hy _).trans ?_
      refine (ins_insIdx (p := testPos X x) (s := 0) (f := fun i => y.get ((stateCoords X).obsid.get i))).trans ?_
      rw [obsid_endStep i.2]
    have e2 : ∀ i : Fin X.len, testB k X R x hQ hk.P (lin h ((k.testChain X y R x hQ hk.P).x (testPos X x)) 0)
        ((k.testChain X y R x hQ hk.P).Y (insIdx (testPos X x) (endStep X i))) = testCross k X x h i := by
      intro i
      refine (discreteChain_xY hQ hk.P _ _ _ _ h (testPos X x) (insIdx (testPos X x) (endStep X i))).trans ?_
      unfold testCross
      rw [← hH i]
      rfl
    have e3 : testB k X R x hQ hk.P (lin h ((k.testChain X y R x hQ hk.P).x (testPos X x)) 0)
        (lin h ((k.testChain X y R x hQ hk.P).x (testPos X x)) 0) = _ :=
      B_lin_lin _ h h _ _ _ (fun a b => discreteChain_xx hQ hk.P _ _ _ _ (testPos X x) (testPos X x) a b)
    rw [funext e1, funext e2, e3] at main
    exact main
  · refine Eq.symm (Eq.trans (discreteChain_YY _ _ _ _ _ _ _ _) ?_)
    refine congrArg₂ (· + ·) ?_ ?_
    · exact congrArg₂ (fun a b : Matrix (Fin 1) k.n ℝ => (a * k.lineCov (testLine X x) (testReset X x) (insIdx (testPos X x) (endStep X i))
        (insIdx (testPos X x) (endStep X j)) * bᵀ) 0 0) (hH i) (hH j)
    by_cases hij : i = j
    · rw [if_pos hij, if_pos (by rw [hij]), ins_insIdx, obsid_endStep i.2]
    · rw [if_neg hij, if_neg fun hh => hij (Fin.ext (endStep_inj i.2 j.2 (insIdx_inj hh)))]

theorem hS_events {e : ℕ → ℕ} (he : ∀ n < X.len, IsEnd X n (e n)) (hS : ∀ n < X.len, ((k.integratedKalman X y R).get (e n)).S 0 0 ≠ 0) :
    ∀ j < (stateCoords X).t.len, (stateCoords X).stateid.get j ≠ 0 → ((k.integratedKalman X y R).get j).S 0 0 ≠ 0 := by
  intro j hj h
  rw [sc_len] at hj
  have hend : IsEnd X ((stateCoords X).obsid.get j) j := ⟨hj, rfl, by rw [sc_stateid] at h ⊢; omega⟩
  have h1 := hS _ (obsid_lt hj)
  rwa [(isEnd_iff (obsid_lt hj)).1 (he _ (obsid_lt hj)), ← (isEnd_iff (obsid_lt hj)).1 hend] at h1

theorem integrated_isFilter (hk : k.SymmModel X) (hN : 0 < X.len)
    (hS : ∀ n < X.len, ((k.integratedKalman X y R).get (endStep X n)).S 0 0 ≠ 0) :
    (k.chain X y R hk hN).Filter (2 * X.len) (fun j => ((k.integratedKalman X y R).get j).mPred)
      (fun j => ((k.integratedKalman X y R).get j).PPred) (preM (stateCoords X) (k.integratedKalman X y R))
      (preP (stateCoords X) (k.integratedKalman X y R)) := by
  have hf := ifilter_isFilter (H := X.map fun x => k.obsModel x none) (reset := k.reset) (R := R) (y := y) (hk.noise hN) hk.init
    (hS_events (fun n hn => (isEnd_iff hn).2 rfl) hS)
  rw [sc_len] at hf
  exact hf

theorem integrated_isSmoother (hk : k.SymmModel X) (hN : 0 < X.len)
    (hP : ∀ j, j + 1 < 2 * X.len → IsUnit ((k.integratedKalman X y R).get (j + 1)).PPred.det)
    (hlast : (stateCoords X).stateid.get (2 * X.len - 1) = 1) :
    (k.chain X y R hk hN).Smoother (2 * X.len) (fun j => ((k.integratedKalman X y R).get j).mPred)
      (fun j => ((k.integratedKalman X y R).get j).PPred) (preM (stateCoords X) (k.integratedKalman X y R))
      (preP (stateCoords X) (k.integratedKalman X y R)) (fun j => ((k.integratedCondition X y R).2.get j).m)
      (fun j => ((k.integratedCondition X y R).2.get j).P) := by
  have hs := irts_isSmoother (H := X.map fun x => k.obsModel x none) (reset := k.reset) (R := R) (y := y) (hk.noise hN) hk.init
    (by rw [sc_len, hlast]; omega) (fun j hj => hP j (by rwa [sc_len] at hj))
  rw [sc_len] at hs
  exact hs

theorem jump_preM (j : ℕ) : (stateCoords X).jump k.reset j *ᵥ preM (stateCoords X) (k.integratedKalman X y R) j =
    ((k.integratedKalman X y R).get j).m := by
  unfold StateCoords.jump preM SSM.integratedKalman
  by_cases h : (stateCoords X).stateid.get j = 0
  · rw [if_pos h, if_pos h, ikf_start _ _ _ _ _ _ _ _ _ h]
  · rw [if_neg h, if_neg h, one_mulVec]

theorem jump_preP (j : ℕ) : (stateCoords X).jump k.reset j * preP (stateCoords X) (k.integratedKalman X y R) j *
    ((stateCoords X).jump k.reset j)ᵀ = ((k.integratedKalman X y R).get j).P := by
  unfold StateCoords.jump preP SSM.integratedKalman
  by_cases h : (stateCoords X).stateid.get j = 0
  · rw [if_pos h, if_pos h, ikf_start _ _ _ _ _ _ _ _ _ h]
  · rw [if_neg h, if_neg h, transpose_one, Matrix.mul_one, Matrix.one_mul]

/-- between events, or after the last one -/
theorem predict_after (hk : k.SymmModel X) (hN : 0 < X.len) (hQ : ∀ j, (k.lineQ (testLine X x) j)ᵀ = k.lineQ (testLine X x) j)
    (hA0 : k.At 0 0 = 1) (hQ0 : k.Qt 0 0 = 0) (hp : 0 < testPos X x)
    (hc : testPos X x < 2 * X.len → k.StepsCompose (x - (stateCoords X).t.get (testPos X x - 1)) ((stateCoords X).t.get (testPos X x) - x))
    (hS : ∀ n < X.len, ((k.integratedKalman X y R).get (endStep X n)).S 0 0 ≠ 0)
    (hP : ∀ j, j + 1 < 2 * X.len → IsUnit ((k.integratedKalman X y R).get (j + 1)).PPred.det)
    (hlast : (stateCoords X).stateid.get (2 * X.len - 1) = 1)
    (hunit : IsUnit (testGram k X x R).det) (h : Matrix (Fin 1) k.n ℝ) :
    (h *ᵥ (ssPredictPoint k.At k.Qt k.Pinf (stateCoords X).t (k.integratedCondition X y R).1 (k.integratedCondition X y R).2 x).m) 0 =
      postMean (testGram k X x R) (fun i => y.get i) (fun i => testCross k X x h i) ∧
    (h * (ssPredictPoint k.At k.Qt k.Pinf (stateCoords X).t (k.integratedCondition X y R).1 (k.integratedCondition X y R).2 x).P * hᵀ) 0 0 =
      postVar (testGram k X x R)
        ((h * k.lineCov (testLine X x) (testReset X x) (testPos X x) (testPos X x) * hᵀ) 0 0) (fun i => testCross k X x h i) := by
  have hins := testChain_inserted (y := y) (R := R) hk hN hQ hA0 hQ0 hp hc
  refine testChain_dense hk hN hQ hins hunit ?_ h
  have hf := integrated_isFilter hk hN hS
  have hs := integrated_isSmoother hk hN hP hlast
  have eT : ∀ i, (k.testChain X y R x hQ hk.P).T i = k.lineT (testLine X x) (testReset X x) i := discreteChain_T _ _ _ _ _ _
  have eQ : ∀ i, (k.testChain X y R x hQ hk.P).Q i = k.lineQ (testLine X x) i := discreteChain_Q _ _ _ _ _ _
  have em : Chain.Inserted.mStar (k.testChain X y R x hQ hk.P) (testPos X x) (preM (stateCoords X) (k.integratedKalman X y R)) =
      k.At 0 (x - (stateCoords X).t.get (testPos X x - 1)) *ᵥ ((k.integratedKalman X y R).get (testPos X x - 1)).m := by
    unfold Chain.Inserted.mStar
    rw [eT, testLine_T_prev hp, ← mulVec_mulVec, jump_preM]
  have eP : Chain.Inserted.PStar (k.testChain X y R x hQ hk.P) (testPos X x) (preP (stateCoords X) (k.integratedKalman X y R)) =
      k.At 0 (x - (stateCoords X).t.get (testPos X x - 1)) * ((k.integratedKalman X y R).get (testPos X x - 1)).P *
        (k.At 0 (x - (stateCoords X).t.get (testPos X x - 1)))ᵀ + k.Qt 0 (x - (stateCoords X).t.get (testPos X x - 1)) := by
    unfold Chain.Inserted.PStar
    rw [eT, eQ, testLine_T_prev hp, testLine_Q_prev hp, transpose_mul, ← jump_preP]
    simp only [Matrix.mul_assoc]
  unfold ssPredictPoint
  simp only
  rw [if_neg (Nat.pos_iff_ne_zero.1 hp), sc_len]
  by_cases hlt : 2 * X.len ≤ testPos X x
  · rw [if_pos hlt]
    have hpe : testPos X x = 2 * X.len := le_antisymm testPos_le hlt
    have := hins.est_last hpe hf
    rw [em, eP] at this
    have e1 : 2 * X.len - 1 = testPos X x - 1 := by rw [hpe]
    rw [e1]
    exact this
  · rw [if_neg hlt]
    have hu := hP (testPos X x - 1) (by omega)
    rw [Nat.sub_add_cancel hp] at hu
    have hG := solve_gain hu (M := (k.At 0 (x - (stateCoords X).t.get (testPos X x - 1)) * ((k.integratedKalman X y R).get (testPos X x - 1)).P *
        (k.At 0 (x - (stateCoords X).t.get (testPos X x - 1)))ᵀ + k.Qt 0 (x - (stateCoords X).t.get (testPos X x - 1))) *
        (k.At 0 ((stateCoords X).t.get (testPos X x) - x))ᵀ) rfl
    rw [← eP, ← testLine_T_pos (by omega), ← eT] at hG
    have := hins.est_mid (by omega) hf hs hG
    rw [em, eP, eT, testLine_T_pos (by omega)] at this
    exact this

/-- before the first event -/
theorem predict_before (hk : k.SymmModel X) (hN : 0 < X.len) (hA0 : k.At 0 0 = 1) (hQ0 : k.Qt 0 0 = 0) (hp : testPos X x = 0)
    (hS : ∀ n < X.len, ((k.integratedKalman X y R).get (endStep X n)).S 0 0 ≠ 0)
    (hP : ∀ j, j < 2 * X.len → IsUnit ((k.integratedKalman X y R).get j).PPred.det)
    (hlast : (stateCoords X).stateid.get (2 * X.len - 1) = 1) (h : Matrix (Fin 1) k.n ℝ) :
    (h *ᵥ (ssPredictPoint k.At k.Qt k.Pinf (stateCoords X).t (k.integratedCondition X y R).1 (k.integratedCondition X y R).2 x).m) 0 =
      postMean (augmentedGram k X R (endStep X)) (fun i => y.get i) (fun i => testCross k X x h i) ∧
    (h * (ssPredictPoint k.At k.Qt k.Pinf (stateCoords X).t (k.integratedCondition X y R).1 (k.integratedCondition X y R).2 x).P * hᵀ) 0 0 =
      postVar (augmentedGram k X R (endStep X)) ((h * k.Pinf * hᵀ) 0 0) (fun i => testCross k X x h i) := by
  have he : ∀ n < X.len, IsEnd X n (endStep X n) := fun n hn => (isEnd_iff hn).2 rfl
  have hm0 : ((k.integratedKalman X y R).get 0).mPred = 0 := by
    unfold SSM.integratedKalman
    rw [ikf_zero_m, mulVec_zero]
  have hP0 : ((k.integratedKalman X y R).get 0).PPred = k.Pinf := by
    unfold SSM.integratedKalman
    rw [ikf_zero_P, hA0, hQ0]
    simp
  have hinit : k.At 0 0 * k.Pinf * (k.At 0 0)ᵀ + k.Qt 0 0 = k.Pinf := by rw [hA0, hQ0]; simp
  have hG := solve_gain (hP 0 (by omega)) (M := k.Pinf * (k.At 0 ((stateCoords X).t.get 0 - x))ᵀ) rfl
  unfold ssPredictPoint
  simp only
  rw [if_pos hp]
  show (h *ᵥ (0 + (solve ((k.integratedKalman X y R).get 0).PPredᵀ (k.Pinf * (k.At 0 ((stateCoords X).t.get 0 - x))ᵀ)ᵀ)ᵀ *ᵥ
      (((k.integratedCondition X y R).2.get 0).m - ((k.integratedKalman X y R).get 0).mPred))) 0 = _ ∧
    (h * (k.Pinf + (solve ((k.integratedKalman X y R).get 0).PPredᵀ (k.Pinf * (k.At 0 ((stateCoords X).t.get 0 - x))ᵀ)ᵀ)ᵀ *
      (((k.integratedCondition X y R).2.get 0).P - ((k.integratedKalman X y R).get 0).PPred) *
      ((solve ((k.integratedKalman X y R).get 0).PPredᵀ (k.Pinf * (k.At 0 ((stateCoords X).t.get 0 - x))ᵀ)ᵀ)ᵀ)ᵀ) * hᵀ) 0 0 = _
  generalize (solve ((k.integratedKalman X y R).get 0).PPredᵀ (k.Pinf * (k.At 0 ((stateCoords X).t.get 0 - x))ᵀ)ᵀ)ᵀ = G at hG ⊢
  rw [hP0] at hG
  rw [hm0, hP0, sub_zero, zero_add]
  obtain ⟨c1, c2⟩ := C10_integrated_smoothing_exact k X hk y R _ he hS (fun j hj => hP _ hj) hlast 0 (by omega) (h * G)
  have hprop : ∀ e, e < 2 * X.len → propagator (k.lineT (testLine X x) (testReset X x)) 0 (e + 1) =
      propagator ((stateCoords X).transition k.At k.reset) 0 e * k.At 0 ((stateCoords X).t.get 0 - x) := by
    intro e
    induction e with
    | zero =>
      intro _
      have := testLine_T_pos (k := k) (X := X) (x := x) (by omega)
      rw [hp] at this
      rw [propagator_one, propagator_self, Matrix.one_mul, this]
    | succ e ih =>
      intro h
      rw [propagator_succ (i := 0) (j := e + 1) _ (Nat.zero_le _), propagator_succ (i := 0) (j := e) ((stateCoords X).transition k.At k.reset)
        (Nat.zero_le _), ih (by omega), testLine_T_ge (by omega) (by omega), Matrix.mul_assoc]
  have hcross : (fun i : Fin X.len => (h * G * k.eventCov X 0 (endStep X i) * (k.obsModel (X.get i) none)ᵀ) 0 0) =
      fun i : Fin X.len => testCross k X x h i := by
    funext i
    unfold testCross SSM.eventCov SSM.lineCov stateCov
    rw [hp, if_pos (Nat.zero_le _), if_pos (Nat.zero_le _), hinit]
    have e1 : insIdx 0 (endStep X i) = endStep X i + 1 := if_neg (by omega)
    rw [e1, hprop _ (endStep_lt i.2), transpose_mul]
    have e2 : marginalCov ((stateCoords X).transition k.At k.reset) ((stateCoords X).noise k.Qt) k.Pinf 0 = k.Pinf := rfl
    have e3 : marginalCov (k.lineT (testLine X x) (testReset X x)) (k.lineQ (testLine X x)) k.Pinf 0 = k.Pinf := rfl
    rw [e2, e3]
    rw [← Matrix.mul_assoc, Matrix.mul_assoc h G, hG]
    simp only [Matrix.mul_assoc]
  have hself : k.eventCov X 0 0 = k.Pinf := by
    unfold SSM.eventCov stateCov
    rw [if_pos le_rfl, hinit, propagator_self, transpose_one, Matrix.mul_one]
    rfl
  rw [hcross] at c1 c2
  rw [hself] at c2
  constructor
  · rw [mulVec_mulVec, c1]
  · have e : h * (k.Pinf + G * (((k.integratedCondition X y R).2.get 0).P - k.Pinf) * Gᵀ) * hᵀ =
        h * k.Pinf * hᵀ + (h * G * ((k.integratedCondition X y R).2.get 0).P * (h * G)ᵀ - h * G * k.Pinf * (h * G)ᵀ) := by
      rw [transpose_mul]
      simp only [Matrix.mul_add, Matrix.add_mul, Matrix.mul_sub, Matrix.sub_mul, Matrix.mul_assoc]
    rw [e, Matrix.add_apply, Matrix.sub_apply, c2]
    unfold postVar
    ring

end chain

end Verif
