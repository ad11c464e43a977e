import Verif.Lemmas.Discrete
import Verif.Lemmas.Exact
import Verif.Lemmas.ExactSSM
import Verif.Lemmas.Events
import Verif.Spec.Augmented

/-!
# The integrated solver computes best linear estimates of the augmented model
-/

set_option linter.unusedSectionVars false

namespace Verif
open Matrix Spec

section filter
variable {n : Type} [Fintype n] [DecidableEq n]
variable (A Q : ℝ → ℝ → Matrix n n ℝ) (H : Arr (Matrix (Fin 1) n ℝ)) (reset : ℤ → Matrix n n ℝ) (R y : Arr ℝ) (sc : StateCoords)
  (m0 : n → ℝ) (P0 : Matrix n n ℝ)

theorem ikf_len : (integratedKalmanFilter A Q H reset R y sc m0 P0).len = sc.t.len := rfl

theorem ikf_get (k : ℕ) : (integratedKalmanFilter A Q H reset R y sc m0 P0).get k =
    if sc.stateid.get k = 0 then
      { m := reset (sc.instid.get (sc.obsid.get k)) *ᵥ ((integratedKalmanFilter A Q H reset R y sc m0 P0).get k).mPred
        P := reset (sc.instid.get (sc.obsid.get k)) * ((integratedKalmanFilter A Q H reset R y sc m0 P0).get k).PPred *
          (reset (sc.instid.get (sc.obsid.get k)))ᵀ
        mPred := ((integratedKalmanFilter A Q H reset R y sc m0 P0).get k).mPred
        PPred := ((integratedKalmanFilter A Q H reset R y sc m0 P0).get k).PPred
        v := 0
        S := 0 }
    else kalmanUpdate (H.get (sc.obsid.get k)) (R.get (sc.obsid.get k)) (y.get (sc.obsid.get k))
      ((integratedKalmanFilter A Q H reset R y sc m0 P0).get k).mPred
      ((integratedKalmanFilter A Q H reset R y sc m0 P0).get k).PPred := by
  have h : ∀ c : (n → ℝ) × Matrix n n ℝ, (integratedKalmanStep A Q H reset R y sc c k).2 =
    if sc.stateid.get k = 0 then
      { m := reset (sc.instid.get (sc.obsid.get k)) *ᵥ (integratedKalmanStep A Q H reset R y sc c k).2.mPred
        P := reset (sc.instid.get (sc.obsid.get k)) * (integratedKalmanStep A Q H reset R y sc c k).2.PPred *
          (reset (sc.instid.get (sc.obsid.get k)))ᵀ
        mPred := (integratedKalmanStep A Q H reset R y sc c k).2.mPred
        PPred := (integratedKalmanStep A Q H reset R y sc c k).2.PPred
        v := 0
        S := 0 }
    else kalmanUpdate (H.get (sc.obsid.get k)) (R.get (sc.obsid.get k)) (y.get (sc.obsid.get k))
      (integratedKalmanStep A Q H reset R y sc c k).2.mPred (integratedKalmanStep A Q H reset R y sc c k).2.PPred := by
    intro c
    simp only [integratedKalmanStep]
    split_ifs <;> rfl
  exact h _

theorem ikfStep_mPred (c : (n → ℝ) × Matrix n n ℝ) (k : ℕ) : (integratedKalmanStep A Q H reset R y sc c k).2.mPred =
    A 0 (if k > 0 then sc.t.get k - sc.t.get (k - 1) else 0) *ᵥ c.1 := by
  simp only [integratedKalmanStep]
  by_cases h : sc.stateid.get k = 0
  · rw [if_pos h]
  · rw [if_neg h]; rfl

theorem ikfStep_PPred (c : (n → ℝ) × Matrix n n ℝ) (k : ℕ) : (integratedKalmanStep A Q H reset R y sc c k).2.PPred =
    A 0 (if k > 0 then sc.t.get k - sc.t.get (k - 1) else 0) * c.2 * (A 0 (if k > 0 then sc.t.get k - sc.t.get (k - 1) else 0))ᵀ +
      Q 0 (if k > 0 then sc.t.get k - sc.t.get (k - 1) else 0) := by
  simp only [integratedKalmanStep]
  by_cases h : sc.stateid.get k = 0
  · rw [if_pos h]
  · rw [if_neg h]; rfl

theorem ikf_zero_m : ((integratedKalmanFilter A Q H reset R y sc m0 P0).get 0).mPred = A 0 0 *ᵥ m0 := by
  have := ikfStep_mPred A Q H reset R y sc (m0, P0) 0
  rw [if_neg (by omega)] at this
  exact this

theorem ikf_zero_P : ((integratedKalmanFilter A Q H reset R y sc m0 P0).get 0).PPred = A 0 0 * P0 * (A 0 0)ᵀ + Q 0 0 := by
  have := ikfStep_PPred A Q H reset R y sc (m0, P0) 0
  rw [if_neg (by omega)] at this
  exact this

theorem ikf_succ_m (k : ℕ) : ((integratedKalmanFilter A Q H reset R y sc m0 P0).get (k + 1)).mPred =
    A 0 (sc.t.get (k + 1) - sc.t.get k) *ᵥ ((integratedKalmanFilter A Q H reset R y sc m0 P0).get k).m := by
  have := ikfStep_mPred A Q H reset R y sc
    (scanCarry (integratedKalmanStep A Q H reset R y sc) (m0, P0) (Arr.arange sc.t.len) (k + 1)) (k + 1)
  rw [if_pos (by omega), Nat.add_sub_cancel] at this
  exact this

theorem ikf_succ_P (k : ℕ) : ((integratedKalmanFilter A Q H reset R y sc m0 P0).get (k + 1)).PPred =
    A 0 (sc.t.get (k + 1) - sc.t.get k) * ((integratedKalmanFilter A Q H reset R y sc m0 P0).get k).P *
      (A 0 (sc.t.get (k + 1) - sc.t.get k))ᵀ + Q 0 (sc.t.get (k + 1) - sc.t.get k) := by
  have := ikfStep_PPred A Q H reset R y sc
    (scanCarry (integratedKalmanStep A Q H reset R y sc) (m0, P0) (Arr.arange sc.t.len) (k + 1)) (k + 1)
  rw [if_pos (by omega), Nat.add_sub_cancel] at this
  exact this

theorem ikf_start {k : ℕ} (h : sc.stateid.get k = 0) : (integratedKalmanFilter A Q H reset R y sc m0 P0).get k =
      { m := reset (sc.instid.get (sc.obsid.get k)) *ᵥ ((integratedKalmanFilter A Q H reset R y sc m0 P0).get k).mPred
        P := reset (sc.instid.get (sc.obsid.get k)) * ((integratedKalmanFilter A Q H reset R y sc m0 P0).get k).PPred *
          (reset (sc.instid.get (sc.obsid.get k)))ᵀ
        mPred := ((integratedKalmanFilter A Q H reset R y sc m0 P0).get k).mPred
        PPred := ((integratedKalmanFilter A Q H reset R y sc m0 P0).get k).PPred
        v := 0
        S := 0 } := (ikf_get A Q H reset R y sc m0 P0 k).trans (if_pos h)

theorem ikf_end {k : ℕ} (h : sc.stateid.get k ≠ 0) : (integratedKalmanFilter A Q H reset R y sc m0 P0).get k =
    kalmanUpdate (H.get (sc.obsid.get k)) (R.get (sc.obsid.get k)) (y.get (sc.obsid.get k))
      ((integratedKalmanFilter A Q H reset R y sc m0 P0).get k).mPred
      ((integratedKalmanFilter A Q H reset R y sc m0 P0).get k).PPred := (ikf_get A Q H reset R y sc m0 P0 k).trans (if_neg h)

end filter

section rts
variable {n : Type} [Fintype n] [DecidableEq n]
variable (A : ℝ → ℝ → Matrix n n ℝ) (reset : ℤ → Matrix n n ℝ) (sc : StateCoords) (kf : Arr (FilterOut n))

theorem irts_len (h : 0 < sc.t.len) : (integratedRtsSmoother A reset sc kf).len = sc.t.len := by
  simp only [integratedRtsSmoother, scan, Arr.append, Arr.rev, Arr.single, Arr.arangeDown]
  omega

theorem irts_last : (integratedRtsSmoother A reset sc kf).get (sc.t.len - 1) = ⟨kf.last.m, kf.last.P⟩ := by
  simp [integratedRtsSmoother, scan, Arr.append, Arr.rev, Arr.single, Arr.arangeDown]

theorem irts_step (k : ℕ) (hk : k + 1 < sc.t.len) : (integratedRtsSmoother A reset sc kf).get k =
    (integratedRtsStep A reset sc kf ((integratedRtsSmoother A reset sc kf).get (k + 1)) k).1 := by
  have key : ∀ j, j + 1 < sc.t.len → (integratedRtsSmoother A reset sc kf).get j =
      scanCarry (integratedRtsStep A reset sc kf) ⟨kf.last.m, kf.last.P⟩ (Arr.arangeDown sc.t.len) (sc.t.len - 1 - j) := by
    intro j hj
    rw [integratedRtsSmoother, Arr.append_get_lt _ _ (by show j < sc.t.len - 1; omega)]
    show (integratedRtsStep A reset sc kf (scanCarry _ _ _ (sc.t.len - 1 - 1 - j)) _).1 = _
    have : sc.t.len - 1 - j = (sc.t.len - 1 - 1 - j) + 1 := by omega
    rw [this]
    rfl
  rw [key k hk]
  have e : sc.t.len - 1 - k = (sc.t.len - 1 - (k + 1)) + 1 := by omega
  rw [e, scanCarry]
  have e2 : (Arr.arangeDown sc.t.len).get (sc.t.len - 1 - (k + 1)) = k := by
    simp only [Arr.arangeDown]; omega
  rw [e2]
  by_cases h : k + 1 + 1 < sc.t.len
  · rw [key (k + 1) h]
  · have : k + 1 = sc.t.len - 1 := by omega
    rw [this, irts_last]
    simp [scanCarry]

end rts

theorem StateCoords.gap_eq (sc : StateCoords) {k : ℕ} (h : k + 1 < sc.t.len) : sc.gap k = sc.t.get (k + 1) - sc.t.get k := by
  unfold StateCoords.gap
  rw [Nat.min_eq_left (by omega), Nat.min_eq_left (by omega)]

theorem StateCoords.gap_nonneg (sc : StateCoords) (h : Sorted sc.t) (hN : 0 < sc.t.len) (k : ℕ) : 0 ≤ sc.gap k := by
  unfold StateCoords.gap
  exact sub_nonneg.2 (h _ _ (by omega) (by omega))

section connect
variable {n : Type} [Fintype n] [DecidableEq n]
variable {A Q : ℝ → ℝ → Matrix n n ℝ} {H : Arr (Matrix (Fin 1) n ℝ)} {reset : ℤ → Matrix n n ℝ} {R y : Arr ℝ} {sc : StateCoords}
  {P0 : Matrix n n ℝ}

/-- the chain of states just before each event -/
noncomputable def eventChain (A Q : ℝ → ℝ → Matrix n n ℝ) (H : Arr (Matrix (Fin 1) n ℝ)) (reset : ℤ → Matrix n n ℝ) (R y : Arr ℝ)
    (sc : StateCoords) (P0 : Matrix n n ℝ) (hQ : ∀ j, (sc.noise Q j)ᵀ = sc.noise Q j)
    (h0 : (A 0 0 * P0 * (A 0 0)ᵀ + Q 0 0)ᵀ = A 0 0 * P0 * (A 0 0)ᵀ + Q 0 0) :=
  discreteChain (T := sc.transition A reset) hQ h0 (fun k => sc.stateid.get k != 0) (fun k => H.get (sc.obsid.get k))
    (fun k => R.get (sc.obsid.get k)) (fun k => y.get (sc.obsid.get k))

/-- the state just before the next event is predicted from: pre-reset at starts, updated at ends -/
noncomputable def preM (sc : StateCoords) (kf : Arr (FilterOut n)) (k : ℕ) : n → ℝ :=
  if sc.stateid.get k = 0 then (kf.get k).mPred else (kf.get k).m
noncomputable def preP (sc : StateCoords) (kf : Arr (FilterOut n)) (k : ℕ) : Matrix n n ℝ :=
  if sc.stateid.get k = 0 then (kf.get k).PPred else (kf.get k).P

theorem ifilter_isFilter (hQ : ∀ j, (sc.noise Q j)ᵀ = sc.noise Q j)
    (h0 : (A 0 0 * P0 * (A 0 0)ᵀ + Q 0 0)ᵀ = A 0 0 * P0 * (A 0 0)ᵀ + Q 0 0)
    (hS : ∀ k < sc.t.len, sc.stateid.get k ≠ 0 → ((integratedKalmanFilter A Q H reset R y sc 0 P0).get k).S 0 0 ≠ 0) :
    (eventChain A Q H reset R y sc P0 hQ h0).Filter sc.t.len
      (fun k => ((integratedKalmanFilter A Q H reset R y sc 0 P0).get k).mPred)
      (fun k => ((integratedKalmanFilter A Q H reset R y sc 0 P0).get k).PPred)
      (preM sc (integratedKalmanFilter A Q H reset R y sc 0 P0))
      (preP sc (integratedKalmanFilter A Q H reset R y sc 0 P0)) where
  m0 := by
    show ((integratedKalmanFilter A Q H reset R y sc 0 P0).get 0).mPred = 0
    rw [ikf_zero_m, mulVec_zero]
  P0 a b := by
    rw [eventChain, discreteChain_xx]
    show ((integratedKalmanFilter A Q H reset R y sc 0 P0).get 0).PPred a b = _
    rw [ikf_zero_P]
    simp [stateCov, marginalCov, propagator]
  mp_succ k hk := by
    rw [eventChain, discreteChain_T]
    show ((integratedKalmanFilter A Q H reset R y sc 0 P0).get (k + 1)).mPred = _
    rw [ikf_succ_m, StateCoords.transition, sc.gap_eq hk, StateCoords.jump, preM]
    by_cases h : sc.stateid.get k = 0
    · rw [if_pos h, if_pos h, ← mulVec_mulVec, ikf_start A Q H reset R y sc 0 P0 h]
    · rw [if_neg h, if_neg h, Matrix.mul_one]
  Pp_succ k hk := by
    rw [eventChain, discreteChain_T, discreteChain_Q]
    show ((integratedKalmanFilter A Q H reset R y sc 0 P0).get (k + 1)).PPred = _
    rw [ikf_succ_P, StateCoords.transition, StateCoords.noise, sc.gap_eq hk, StateCoords.jump, preP]
    by_cases h : sc.stateid.get k = 0
    · rw [if_pos h, if_pos h, ikf_start A Q H reset R y sc 0 P0 h, transpose_mul]
      simp only [Matrix.mul_assoc]
    · rw [if_neg h, if_neg h, Matrix.mul_one]
  upd k hk ho := by
    have h : sc.stateid.get k ≠ 0 := by simpa [eventChain, discreteChain] using ho
    refine ⟨gain (H.get (sc.obsid.get k)) (R.get (sc.obsid.get k)) (y.get (sc.obsid.get k))
      ((integratedKalmanFilter A Q H reset R y sc 0 P0).get k).mPred
      ((integratedKalmanFilter A Q H reset R y sc 0 P0).get k).PPred, fun a => ?_, ?_, ?_⟩
    · have := hS k hk h
      rw [ikf_end A Q H reset R y sc 0 P0 h, update_S] at this
      exact gain_apply _ _ _ _ _ _ this
    · rw [preM, if_neg h, ikf_end A Q H reset R y sc 0 P0 h, update_m]; rfl
    · rw [preP, if_neg h, ikf_end A Q H reset R y sc 0 P0 h, update_P]; rfl
  noupd k hk ho := by
    have h : sc.stateid.get k = 0 := by simpa [eventChain, discreteChain] using ho
    rw [preM, preP, if_pos h, if_pos h]
    exact ⟨rfl, rfl⟩

theorem irts_isSmoother (hQ : ∀ j, (sc.noise Q j)ᵀ = sc.noise Q j)
    (h0 : (A 0 0 * P0 * (A 0 0)ᵀ + Q 0 0)ᵀ = A 0 0 * P0 * (A 0 0)ᵀ + Q 0 0)
    (hlast : sc.stateid.get (sc.t.len - 1) ≠ 0)
    (hP : ∀ k, k + 1 < sc.t.len → IsUnit ((integratedKalmanFilter A Q H reset R y sc 0 P0).get (k + 1)).PPred.det) :
    (eventChain A Q H reset R y sc P0 hQ h0).Smoother sc.t.len
      (fun k => ((integratedKalmanFilter A Q H reset R y sc 0 P0).get k).mPred)
      (fun k => ((integratedKalmanFilter A Q H reset R y sc 0 P0).get k).PPred)
      (preM sc (integratedKalmanFilter A Q H reset R y sc 0 P0))
      (preP sc (integratedKalmanFilter A Q H reset R y sc 0 P0))
      (fun k => ((integratedRtsSmoother A reset sc (integratedKalmanFilter A Q H reset R y sc 0 P0)).get k).m)
      (fun k => ((integratedRtsSmoother A reset sc (integratedKalmanFilter A Q H reset R y sc 0 P0)).get k).P) where
  last_m := by simp only [irts_last, preM]; rw [if_neg hlast]; rfl
  last_P := by simp only [irts_last, preP]; rw [if_neg hlast]; rfl
  step k hk := by
    rw [eventChain, discreteChain_T, StateCoords.transition, sc.gap_eq hk, StateCoords.jump]
    rw [irts_step A reset sc _ k hk]
    have hu := hP k hk
    generalize (integratedRtsSmoother A reset sc (integratedKalmanFilter A Q H reset R y sc 0 P0)).get (k + 1) = c
    generalize integratedKalmanFilter A Q H reset R y sc 0 P0 = kf at hu ⊢
    simp only [integratedRtsStep, preM, preP]
    by_cases h : sc.stateid.get k = 0
    · simp only [if_pos h]
      exact ⟨_, solve_gain hu rfl, rfl, rfl⟩
    · simp only [if_neg h, Matrix.mul_one]
      exact ⟨_, solve_gain hu rfl, rfl, rfl⟩

end connect

end Verif
