import Verif.Lemmas.Exact

/-!
# Smoothed states and predictions of the sequential solver are best linear estimates
-/

set_option linter.unusedSectionVars false

namespace Verif
open Matrix

namespace GM
variable {n : Type*} [Fintype n] [DecidableEq n] (g : GM n)

theorem Q_comp {s t u : ℝ} (h1 : s ≤ t) (h2 : t ≤ u) :
    g.Q s u = g.A t u * g.Q s t * (g.A t u)ᵀ + g.Q t u := by
  unfold Q
  rw [g.A_comp s t u h1 h2, transpose_mul]
  simp only [Matrix.mul_sub, Matrix.sub_mul, Matrix.mul_assoc]
  abel

theorem pred_comp {s t u : ℝ} (h1 : s ≤ t) (h2 : t ≤ u) (P : Matrix n n ℝ) :
    g.A s u * P * (g.A s u)ᵀ + g.Q s u =
      g.A t u * (g.A s t * P * (g.A s t)ᵀ + g.Q s t) * (g.A t u)ᵀ + g.Q t u := by
  rw [g.Q_comp h1 h2, g.A_comp s t u h1 h2, transpose_mul]
  simp only [Matrix.mul_add, Matrix.add_mul, Matrix.mul_assoc]
  abel

end GM

variable {n : Type} [Fintype n] [DecidableEq n]
variable {A Q : ℝ → ℝ → Matrix n n ℝ} {H : ℝ → Matrix (Fin 1) n ℝ} {R t y : Arr ℝ}
  {Pinf : Matrix n n ℝ} (sm : StatModel (A 0) (Q 0) Pinf)

theorem smoothed_est (ht : Sorted t) (hN : 0 < t.len)
    (hS : ∀ k < t.len, (((kalmanFilter A Q H R t y 0 Pinf).get k).S 0 0) ≠ 0)
    (hP : ∀ k, k + 1 < t.len → IsUnit ((kalmanFilter A Q H R t y 0 Pinf).get (k + 1)).PPred.det)
    {k : ℕ} (hk : k < t.len) :
    ∃ Xh, IsEst (sm.gm.B R.get) (GM.φ n y.get) ((dataChain sm H R t y ht hN).U t.len) (GM.x (t.get k)) Xh
      ((rtsSmoother A t (kalmanFilter A Q H R t y 0 Pinf)).get k).m
      ((rtsSmoother A t (kalmanFilter A Q H R t y 0 Pinf)).get k).P := by
  have := (rts_isSmoother sm ht hN hP).est (filter_isFilter sm ht hN hS) hk
  have e : (dataChain sm H R t y ht hN).x k = GM.x (t.get k) := by
    show GM.x (tau t k) = _
    rw [tau_eq t hk]
  rwa [e] at this

theorem predict_est (ht : Sorted t) (hN : 0 < t.len)
    (hS : ∀ k < t.len, (((kalmanFilter A Q H R t y 0 Pinf).get k).S 0 0) ≠ 0)
    (hP : ∀ k < t.len, IsUnit ((kalmanFilter A Q H R t y 0 Pinf).get k).PPred.det)
    (x : ℝ) :
    ∃ Xh, IsEst (sm.gm.B R.get) (GM.φ n y.get) ((dataChain sm H R t y ht hN).U t.len) (GM.x x) Xh
      (ssPredictPoint A Q Pinf t (kalmanFilter A Q H R t y 0 Pinf)
        (rtsSmoother A t (kalmanFilter A Q H R t y 0 Pinf)) x).m
      (ssPredictPoint A Q Pinf t (kalmanFilter A Q H R t y 0 Pinf)
        (rtsSmoother A t (kalmanFilter A Q H R t y 0 Pinf)) x).P := by
  set c := dataChain sm H R t y ht hN with hc
  set kf := kalmanFilter A Q H R t y 0 Pinf with hkf
  have hf := filter_isFilter sm ht hN hS
  have hxk : ∀ k < t.len, c.x k = GM.x (t.get k) := by
    intro k hk
    show GM.x (tau t k) = _
    rw [tau_eq t hk]
  have hle : searchsortedRight t x ≤ t.len := searchsorted_le x
  -- prediction from the last filtered state not after `x`
  have hpred : ∀ k < t.len, t.get k ≤ x → ∃ zh, IsEst (sm.gm.B R.get) (GM.φ n y.get) (c.U (k + 1)) (GM.x x) zh
      (A 0 (x - t.get k) *ᵥ (kf.get k).m)
      (A 0 (x - t.get k) * (kf.get k).P * (A 0 (x - t.get k))ᵀ + Q 0 (x - t.get k)) := by
    intro k hk hkx
    obtain ⟨Xh, h⟩ := hf.est_filt hk
    rw [← hc, hxk k hk] at h
    have hx : (GM.x x : n → GM.Space n) = fun a => lin (A 0 (x - t.get k)) (GM.x (t.get k)) a
        + sm.gm.q (t.get k) x a := funext fun a => sm.gm.x_eq (t.get k) x a
    rw [hx]
    refine ⟨_, (h.linMap _).addNoise c.symm (fun a => ?_) (fun a b => ?_) (fun a b => ?_)⟩
    · refine c.orth_U (fun j hj b => ?_) (fun j _ => sm.gm.B_qr R.get _ _ a j)
      rw [hxk j (by omega)]
      exact sm.gm.B_qx R.get (ht _ _ (by omega) hk) hkx a b
    · rw [B_lin_right]
      exact Finset.sum_eq_zero fun j _ => by rw [sm.gm.B_qx R.get le_rfl hkx, mul_zero]
    · rw [sm.gm.B_qq R.get hkx, sm.gm_Q hkx]
  have hsmooth : ∀ k < t.len, x ≤ t.get k → ∀ (mz : n → ℝ) (Pz : Matrix n n ℝ),
      (∃ zh, IsEst (sm.gm.B R.get) (GM.φ n y.get) (c.U k) (GM.x x) zh mz Pz) →
      (∀ j < k, t.get j ≤ x) →
      (kf.get k).mPred = A 0 (t.get k - x) *ᵥ mz →
      (kf.get k).PPred = A 0 (t.get k - x) * Pz * (A 0 (t.get k - x))ᵀ + Q 0 (t.get k - x) →
      ∃ zh, IsEst (sm.gm.B R.get) (GM.φ n y.get) (c.U t.len) (GM.x x) zh
        (mz + (solve (kf.get k).PPredᵀ (Pz * (A 0 (t.get k - x))ᵀ)ᵀ)ᵀ *ᵥ
          (((rtsSmoother A t kf).get k).m - (kf.get k).mPred))
        (Pz + (solve (kf.get k).PPredᵀ (Pz * (A 0 (t.get k - x))ᵀ)ᵀ)ᵀ *
          (((rtsSmoother A t kf).get k).P - (kf.get k).PPred) *
          (solve (kf.get k).PPredᵀ (Pz * (A 0 (t.get k - x))ᵀ)ᵀ)ᵀᵀ) := by
    rintro k hk hkx mz Pz ⟨zh, hz⟩ hj hm hPp
    obtain ⟨Xh, hs⟩ := smoothed_est sm ht hN hS (fun k hk => hP _ hk) hk
    have hG := solve_gain (hP k hk) (M := Pz * (A 0 (t.get k - x))ᵀ) rfl
    generalize (solve (kf.get k).PPredᵀ (Pz * (A 0 (t.get k - x))ᵀ)ᵀ)ᵀ = G at hG ⊢
    rw [hPp] at hG
    rw [hm, hPp]
    rw [← hxk k hk] at hs
    refine c.smooth_at hk.le hz (q2 := sm.gm.q x (t.get k)) (fun a => ?_) (fun a => ?_) (fun a b => ?_)
      (fun a b => ?_) (fun j hj a b => ?_) (fun j hj b => ?_) hs G hG
    · rw [hxk k hk]; exact sm.gm.x_eq x (t.get k) a
    · refine c.orth_U (fun j hjk b => ?_) (fun j _ => sm.gm.B_qr R.get _ _ a j)
      rw [hxk j (by omega)]
      exact sm.gm.B_qx R.get (hj j hjk) hkx a b
    · exact sm.gm.B_qx R.get le_rfl hkx a b
    · rw [sm.gm.B_qq R.get hkx, sm.gm_Q hkx]
    · refine sm.gm.B_qx R.get (u := x) ?_ (tau_mono ht hN (Nat.le_succ j)) a b
      refine hkx.trans ?_
      rw [← tau_eq t hk]
      exact tau_mono ht hN hj
    · exact sm.gm.B_rx R.get _ b j
  unfold ssPredictPoint
  simp only
  split_ifs with h0 h1
  · -- retrodiction
    have hx0 : x ≤ t.get 0 := by
      by_contra hlt
      have := (searchsorted_lt_iff ht x hN).2 (not_le.1 hlt).le
      omega
    refine hsmooth 0 hN hx0 0 Pinf ⟨fun _ => 0, ?_⟩ (by intro j hj; omega) ?_ ?_
    · exact IsEst.prior _ _ (fun a b => by rw [GM.B_xx, GM.C_self]; rfl)
    · rw [hkf, kf_zero_m, mulVec_zero, mulVec_zero]
    · rw [hkf, kf_zero_P, sm.zero, sm.Q_zero, sm.noise _ (sub_nonneg.2 hx0)]
      simp
  · -- extrapolation
    have hlast : t.get (t.len - 1) ≤ x :=
      (searchsorted_lt_iff ht x (by omega)).1 (by omega)
    have := hpred (t.len - 1) (by omega) hlast
    rwa [Nat.sub_add_cancel hN] at this
  · -- interpolation
    set k := searchsortedRight t x with hk
    have hkl : k < t.len := by omega
    have hkx : x ≤ t.get k := by
      by_contra hlt
      have := (searchsorted_lt_iff ht x hkl).2 (not_le.1 hlt).le
      omega
    have hkp : t.get (k - 1) ≤ x := (searchsorted_lt_iff ht x (by omega)).1 (by omega)
    have hk1 : k - 1 + 1 = k := by omega
    have hp := hpred (k - 1) (by omega) hkp
    rw [hk1] at hp
    refine hsmooth k hkl hkx _ _ hp (fun j hj => (searchsorted_lt_iff ht x (by omega)).1 (by omega)) ?_ ?_
    · have := kf_succ_m A Q H R t y 0 Pinf (k - 1)
      rw [hk1, ← hkf] at this
      rw [this, mulVec_mulVec]
      congr 1
      exact sm.gm.A_comp (t.get (k - 1)) x (t.get k) hkp hkx
    · have := kf_succ_P A Q H R t y 0 Pinf (k - 1)
      rw [hk1, ← hkf] at this
      rw [this]
      have := sm.gm.pred_comp hkp hkx (kf.get (k - 1)).P
      rw [sm.gm_Q hkp, sm.gm_Q hkx, sm.gm_Q (hkp.trans hkx)] at this
      exact this

end Verif
