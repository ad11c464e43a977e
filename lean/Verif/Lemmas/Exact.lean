import Verif.Lemmas.GM
import Verif.Lemmas.PosDef
import Verif.Model.GPCore
import Verif.Lemmas.ArrLemmas

/-!
# The sequential solver computes best linear estimates
-/

set_option linter.unusedSectionVars false

namespace Verif
open Matrix

theorem Arr.append_get_lt {α : Type*} (a b : Arr α) {i : ℕ} (h : i < a.len) :
    (Arr.append a b).get i = a.get i := if_pos h

theorem Arr.append_get_ge {α : Type*} (a b : Arr α) {i : ℕ} (h : a.len ≤ i) :
    (Arr.append a b).get i = b.get (i - a.len) := if_neg (by omega)

section filter
variable {n : Type} [Fintype n] [DecidableEq n]
variable (A Q : ℝ → ℝ → Matrix n n ℝ) (H : ℝ → Matrix (Fin 1) n ℝ) (R t y : Arr ℝ)
  (m0 : n → ℝ) (P0 : Matrix n n ℝ)

theorem kalmanFilter_len : (kalmanFilter A Q H R t y m0 P0).len = t.len := rfl

theorem kf_zero_m : ((kalmanFilter A Q H R t y m0 P0).get 0).mPred = A 0 0 *ᵥ m0 := by
  simp [kalmanFilter, scan, kalmanStep, kalmanUpdate, scanCarry, Arr.arange]

theorem kf_zero_P : ((kalmanFilter A Q H R t y m0 P0).get 0).PPred = A 0 0 * P0 * (A 0 0)ᵀ + Q 0 0 := by
  simp [kalmanFilter, scan, kalmanStep, kalmanUpdate, scanCarry, Arr.arange]

theorem kf_succ_m (k : ℕ) : ((kalmanFilter A Q H R t y m0 P0).get (k + 1)).mPred =
    A 0 (t.get (k + 1) - t.get k) *ᵥ ((kalmanFilter A Q H R t y m0 P0).get k).m := by
  simp only [kalmanFilter, scan, kalmanStep, kalmanUpdate, scanCarry, Arr.arange, id]
  simp

theorem kf_succ_P (k : ℕ) : ((kalmanFilter A Q H R t y m0 P0).get (k + 1)).PPred =
    A 0 (t.get (k + 1) - t.get k) * ((kalmanFilter A Q H R t y m0 P0).get k).P *
      (A 0 (t.get (k + 1) - t.get k))ᵀ + Q 0 (t.get (k + 1) - t.get k) := by
  simp only [kalmanFilter, scan, kalmanStep, kalmanUpdate, scanCarry, Arr.arange, id]
  simp

theorem kf_upd (k : ℕ) : (kalmanFilter A Q H R t y m0 P0).get k =
    kalmanUpdate (H (t.get k)) (R.get k) (y.get k) ((kalmanFilter A Q H R t y m0 P0).get k).mPred
      ((kalmanFilter A Q H R t y m0 P0).get k).PPred := rfl

end filter

section rts
variable {n : Type} [Fintype n] [DecidableEq n]
variable (A : ℝ → ℝ → Matrix n n ℝ) (t : Arr ℝ) (kf : Arr (FilterOut n))

theorem rts_len (h : 0 < t.len) : (rtsSmoother A t kf).len = t.len := by
  simp only [rtsSmoother, scan, Arr.append, Arr.rev, Arr.single, Arr.arangeDown]
  omega

theorem rts_last : (rtsSmoother A t kf).get (t.len - 1) = ⟨kf.last.m, kf.last.P⟩ := by
  simp [rtsSmoother, scan, Arr.append, Arr.rev, Arr.single, Arr.arangeDown]

theorem rts_step (k : ℕ) (hk : k + 1 < t.len) : (rtsSmoother A t kf).get k =
    (rtsStep A t kf ((rtsSmoother A t kf).get (k + 1)) k).1 := by
  have key : ∀ j, j + 1 < t.len → (rtsSmoother A t kf).get j =
      scanCarry (rtsStep A t kf) ⟨kf.last.m, kf.last.P⟩ (Arr.arangeDown t.len) (t.len - 1 - j) := by
    intro j hj
    rw [rtsSmoother, Arr.append_get_lt _ _ (by show j < t.len - 1; omega)]
    show (rtsStep A t kf (scanCarry _ _ _ (t.len - 1 - 1 - j)) _).1 = _
    have : t.len - 1 - j = (t.len - 1 - 1 - j) + 1 := by omega
    rw [this]
    rfl
  rw [key k hk]
  have e : t.len - 1 - k = (t.len - 1 - (k + 1)) + 1 := by omega
  rw [e, scanCarry]
  have e2 : (Arr.arangeDown t.len).get (t.len - 1 - (k + 1)) = k := by
    simp only [Arr.arangeDown]; omega
  rw [e2]
  by_cases h : k + 1 + 1 < t.len
  · rw [key (k + 1) h]
  · have : k + 1 = t.len - 1 := by omega
    rw [this, rts_last]
    simp [scanCarry]

end rts

/-- Consistency of transition matrices, process noise and stationary covariance: what makes
`(A, Q, Pinf)` the discretisation of a stationary process. -/
structure StatModel {n : Type*} [Fintype n] [DecidableEq n] (A Q : ℝ → Matrix n n ℝ)
    (Pinf : Matrix n n ℝ) : Prop where
  zero : A 0 = 1
  add : ∀ s t, 0 ≤ s → 0 ≤ t → A (s + t) = A t * A s
  noise : ∀ s, 0 ≤ s → Q s = Pinf - A s * Pinf * (A s)ᵀ
  symm : Pinfᵀ = Pinf

namespace StatModel
variable {n : Type} [Fintype n] [DecidableEq n] {A Q : ℝ → Matrix n n ℝ} {Pinf : Matrix n n ℝ}
  (sm : StatModel A Q Pinf)
include sm

theorem Q_zero : Q 0 = 0 := by rw [sm.noise 0 le_rfl, sm.zero]; simp

/-- the Gauss-Markov process of a stationary model -/
def gm : GM n where
  A s t := A (t - s)
  P _ := Pinf
  A_self t := by rw [sub_self, sm.zero]
  A_comp s t u h1 h2 := by
    rw [← sm.add _ _ (sub_nonneg.2 h1) (sub_nonneg.2 h2)]
    congr 1; ring
  P_symm _ := sm.symm

theorem gm_Q {s t : ℝ} (h : s ≤ t) : sm.gm.Q s t = Q (t - s) := by
  rw [sm.noise _ (sub_nonneg.2 h)]; rfl

end StatModel

/-- times extended beyond the array by the last one -/
def tau (t : Arr ℝ) (k : ℕ) : ℝ := t.get (min k (t.len - 1))

theorem tau_mono {t : Arr ℝ} (ht : Sorted t) (hN : 0 < t.len) : Monotone (tau t) := by
  intro i j hij
  exact ht _ _ (min_le_min_right _ hij) (by omega)

theorem tau_eq (t : Arr ℝ) {k : ℕ} (hk : k < t.len) : tau t k = t.get k := by
  unfold tau; congr 1; omega

section connect
variable {n : Type} [Fintype n] [DecidableEq n]
variable {A Q : ℝ → ℝ → Matrix n n ℝ} {H : ℝ → Matrix (Fin 1) n ℝ} {R t y : Arr ℝ}
  {Pinf : Matrix n n ℝ} (sm : StatModel (A 0) (Q 0) Pinf)

/-- the chain belonging to the data -/
noncomputable def dataChain (sm : StatModel (A 0) (Q 0) Pinf) (H : ℝ → Matrix (Fin 1) n ℝ) (R t y : Arr ℝ)
    (ht : Sorted t) (hN : 0 < t.len) : Chain (sm.gm.B R.get) (GM.φ n y.get) n :=
  sm.gm.chain R.get y.get (tau t) (tau_mono ht hN) (fun k => H (t.get k))

theorem filter_isFilter (ht : Sorted t) (hN : 0 < t.len)
    (hS : ∀ k < t.len, (((kalmanFilter A Q H R t y 0 Pinf).get k).S 0 0) ≠ 0) :
    (dataChain sm H R t y ht hN).Filter t.len
      (fun k => ((kalmanFilter A Q H R t y 0 Pinf).get k).mPred)
      (fun k => ((kalmanFilter A Q H R t y 0 Pinf).get k).PPred)
      (fun k => ((kalmanFilter A Q H R t y 0 Pinf).get k).m)
      (fun k => ((kalmanFilter A Q H R t y 0 Pinf).get k).P) where
  m0 := by
    show ((kalmanFilter A Q H R t y 0 Pinf).get 0).mPred = 0
    rw [kf_zero_m, mulVec_zero]
  P0 a b := by
    show ((kalmanFilter A Q H R t y 0 Pinf).get 0).PPred a b = sm.gm.B _ (GM.x _ a) (GM.x _ b)
    rw [GM.B_xx, GM.C_self, kf_zero_P, sm.zero, sm.Q_zero]
    simp [StatModel.gm]
  mp_succ k hk := by
    show ((kalmanFilter A Q H R t y 0 Pinf).get (k + 1)).mPred = A 0 (tau t (k + 1) - tau t k) *ᵥ _
    rw [kf_succ_m, tau_eq t hk, tau_eq t (by omega)]
  Pp_succ k hk := by
    show ((kalmanFilter A Q H R t y 0 Pinf).get (k + 1)).PPred =
      A 0 (tau t (k + 1) - tau t k) * _ * (A 0 (tau t (k + 1) - tau t k))ᵀ + sm.gm.Q (tau t k) (tau t (k + 1))
    rw [kf_succ_P, sm.gm_Q (tau_mono ht hN (Nat.le_succ k)), tau_eq t hk, tau_eq t (by omega)]
  upd k hk _ := by
    refine ⟨gain (H (t.get k)) (R.get k) (y.get k) ((kalmanFilter A Q H R t y 0 Pinf).get k).mPred
      ((kalmanFilter A Q H R t y 0 Pinf).get k).PPred, fun a => ?_, ?_, ?_⟩
    · have := hS k hk
      rw [kf_upd, update_S] at this
      exact gain_apply _ _ _ _ _ _ this
    · show ((kalmanFilter A Q H R t y 0 Pinf).get k).m = _
      rw [kf_upd, update_m]; rfl
    · show ((kalmanFilter A Q H R t y 0 Pinf).get k).P = _
      rw [kf_upd, update_P]; rfl
  noupd k _ h := by cases h

/-- solving with the transposed predicted covariance gives the smoothing gain -/
theorem solve_gain {P M X : Matrix n n ℝ} (h : IsUnit P.det) (hX : X = (solve Pᵀ Mᵀ)ᵀ) : X * P = M := by
  rw [hX]; unfold solve
  rw [transpose_mul, transpose_transpose, transpose_nonsing_inv, transpose_transpose, Matrix.mul_assoc,
    Matrix.nonsing_inv_mul _ h, Matrix.mul_one]

theorem rts_isSmoother (ht : Sorted t) (hN : 0 < t.len)
    (hP : ∀ k, k + 1 < t.len → IsUnit ((kalmanFilter A Q H R t y 0 Pinf).get (k + 1)).PPred.det) :
    (dataChain sm H R t y ht hN).Smoother t.len
      (fun k => ((kalmanFilter A Q H R t y 0 Pinf).get k).mPred)
      (fun k => ((kalmanFilter A Q H R t y 0 Pinf).get k).PPred)
      (fun k => ((kalmanFilter A Q H R t y 0 Pinf).get k).m)
      (fun k => ((kalmanFilter A Q H R t y 0 Pinf).get k).P)
      (fun k => ((rtsSmoother A t (kalmanFilter A Q H R t y 0 Pinf)).get k).m)
      (fun k => ((rtsSmoother A t (kalmanFilter A Q H R t y 0 Pinf)).get k).P) where
  last_m := by simp only [rts_last]; rfl
  last_P := by simp only [rts_last]; rfl
  step k hk := by
    rw [rts_step A t _ k hk]
    refine ⟨_, ?_, rfl, rfl⟩
    show _ * _ = _ * (A 0 (tau t (k + 1) - tau t k))ᵀ
    rw [tau_eq t hk, tau_eq t (by omega)]
    exact solve_gain (hP k hk) rfl

end connect

section positivity
variable {n : Type} [Fintype n] [DecidableEq n]
variable {A Q : ℝ → ℝ → Matrix n n ℝ} {H : ℝ → Matrix (Fin 1) n ℝ} {R t y : Arr ℝ} {m0 : n → ℝ}
  {P0 : Matrix n n ℝ}

theorem sorted_step (ht : Sorted t) {k : ℕ} (hk : k + 1 < t.len) : 0 ≤ t.get (k + 1) - t.get k :=
  sub_nonneg.2 (ht _ _ (Nat.le_succ k) hk)

theorem kf_psd (ht : Sorted t) (hP0 : P0.PosSemidef) (hQ : ∀ s, 0 ≤ s → (Q 0 s).PosSemidef)
    (hR : ∀ k < t.len, 0 < R.get k) {k : ℕ} (hk : k < t.len) :
    ((kalmanFilter A Q H R t y m0 P0).get k).PPred.PosSemidef ∧
      ((kalmanFilter A Q H R t y m0 P0).get k).P.PosSemidef := by
  have upd : ∀ k < t.len, ((kalmanFilter A Q H R t y m0 P0).get k).PPred.PosSemidef →
      ((kalmanFilter A Q H R t y m0 P0).get k).P.PosSemidef := by
    intro k hk h
    rw [kf_upd]
    exact update_psd h (hR k hk)
  induction k with
  | zero =>
    have h0 : ((kalmanFilter A Q H R t y m0 P0).get 0).PPred.PosSemidef := by
      rw [kf_zero_P]
      exact (psd_conj hP0 _).add (hQ 0 le_rfl)
    exact ⟨h0, upd 0 hk h0⟩
  | succ k ih =>
    have h0 : ((kalmanFilter A Q H R t y m0 P0).get (k + 1)).PPred.PosSemidef := by
      rw [kf_succ_P]
      exact (psd_conj (ih (by omega)).2 _).add (hQ _ (sorted_step ht hk))
    exact ⟨h0, upd _ hk h0⟩

theorem kf_pd (ht : Sorted t) (hP0 : P0.PosDef) (hQ : ∀ s, 0 ≤ s → (Q 0 s).PosSemidef)
    (hA : ∀ s, 0 ≤ s → IsUnit (A 0 s).det)
    (hR : ∀ k < t.len, 0 < R.get k) {k : ℕ} (hk : k < t.len) :
    ((kalmanFilter A Q H R t y m0 P0).get k).PPred.PosDef ∧
      ((kalmanFilter A Q H R t y m0 P0).get k).P.PosDef := by
  have upd : ∀ k < t.len, ((kalmanFilter A Q H R t y m0 P0).get k).PPred.PosDef →
      ((kalmanFilter A Q H R t y m0 P0).get k).P.PosDef := by
    intro k hk h
    rw [kf_upd]
    exact update_pd h (hR k hk)
  induction k with
  | zero =>
    have h0 : ((kalmanFilter A Q H R t y m0 P0).get 0).PPred.PosDef := by
      rw [kf_zero_P]
      exact (pd_conj hP0 (hA 0 le_rfl)).add_posSemidef (hQ 0 le_rfl)
    exact ⟨h0, upd 0 hk h0⟩
  | succ k ih =>
    have h0 : ((kalmanFilter A Q H R t y m0 P0).get (k + 1)).PPred.PosDef := by
      rw [kf_succ_P]
      exact (pd_conj (ih (by omega)).2 (hA _ (sorted_step ht hk))).add_posSemidef (hQ _ (sorted_step ht hk))
    exact ⟨h0, upd _ hk h0⟩

theorem kf_S_pos (ht : Sorted t) (hP0 : P0.PosSemidef) (hQ : ∀ s, 0 ≤ s → (Q 0 s).PosSemidef)
    (hR : ∀ k < t.len, 0 < R.get k) {k : ℕ} (hk : k < t.len) :
    0 < ((kalmanFilter A Q H R t y m0 P0).get k).S 0 0 := by
  rw [kf_upd, update_S]
  exact innovation_pos (kf_psd ht hP0 hQ hR hk).1 (hR k hk)

end positivity

end Verif
