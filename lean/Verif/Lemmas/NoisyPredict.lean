import Verif.Lemmas.NoisyBound
import Verif.Lemmas.NearPosterior
import Verif.Lemmas.Predict

/-! # Predictions when the process noise is slightly off -/

set_option linter.unusedSectionVars false

namespace Verif
open Matrix Spec

namespace GM
variable {n : Type*} [Fintype n] [DecidableEq n] (g : GM n) (R : ℕ → ℝ)

theorem B_lin_lin (h h' : Matrix (Fin 1) n ℝ) (s u : ℝ) : g.B R (lin h (x s) 0) (lin h' (x u) 0) = (h * g.C s u * h'ᵀ) 0 0 := by
  rw [Matrix.mul_assoc, Matrix.mul_apply, B_lin_left]
  refine Finset.sum_congr rfl fun i _ => ?_
  rw [B_lin_right, Matrix.mul_apply]
  congr 1
  exact Finset.sum_congr rfl fun j _ => by rw [B_xx, transpose_apply, mul_comm]

theorem B_xY (h h' : Matrix (Fin 1) n ℝ) (s u : ℝ) (j : ℕ) :
    g.B R (lin h (x s) 0) (lin h' (x u) 0 + r j) = (h * g.C s u * h'ᵀ) 0 0 := by
  have : g.B R (lin h (x s) 0) (r j) = 0 := by
    rw [B_lin_left]
    exact Finset.sum_eq_zero fun a _ => by rw [B_xr, mul_zero]
  rw [map_add, this, add_zero, B_lin_lin]

theorem B_YY (h h' : Matrix (Fin 1) n ℝ) (s u : ℝ) (i j : ℕ) :
    g.B R (lin h (x s) 0 + r i) (lin h' (x u) 0 + r j) = (h * g.C s u * h'ᵀ) 0 0 + if i = j then R i else 0 := by
  have : g.B R (r i) (lin h' (x u) 0) = 0 := by
    rw [B_lin_right]
    exact Finset.sum_eq_zero fun a _ => by rw [B_rx, mul_zero]
  rw [LinearMap.map_add₂, B_xY, map_add, this, zero_add, B_rr]

end GM

/-- prior variance minus explained variance is not negative -/
theorem explained_le {ι : Type*} [Fintype ι] [DecidableEq ι] {b : ι → ι → ℝ} {R cr : ι → ℝ} {v : ℝ} (hR : ∀ i, 0 < R i)
    (hG : (noisyGram b R).PosDef) (hq : ∀ w : ι → ℝ, 0 ≤ v - 2 * (cr ⬝ᵥ w) + w ⬝ᵥ Matrix.of b *ᵥ w) :
    cr ⬝ᵥ (noisyGram b R)⁻¹ *ᵥ cr ≤ v := by
  set w := (noisyGram b R)⁻¹ *ᵥ cr with hw
  have h1 : noisyGram b R *ᵥ w = cr := solve_spec hG _
  have e : noisyGram b R = Matrix.of b + diagonal R := by
    ext a c
    by_cases h : a = c <;> simp [noisyGram, h]
  have h2 : w ⬝ᵥ Matrix.of b *ᵥ w ≤ cr ⬝ᵥ w := by
    have h3 : w ⬝ᵥ noisyGram b R *ᵥ w = cr ⬝ᵥ w := by rw [h1, dotProduct_comm]
    rw [← h3, e, add_mulVec, dotProduct_add]
    have : 0 ≤ w ⬝ᵥ diagonal R *ᵥ w := ((psd_iff _).1 (Matrix.PosSemidef.diagonal fun i => (hR i).le)).2 w
    linarith
  have := hq w
  linarith

theorem SSM.CovModel.extended {k : SSM} {G : Matrix k.n k.n ℝ} (hG : k.CovModel G) {N : ℕ} (X : Fin N → Coord) (x : Coord) (w : Fin N → ℝ) :
    0 ≤ k.evaluate x x - 2 * ((fun j => k.evaluate x (X j)) ⬝ᵥ w) + w ⬝ᵥ (Matrix.of fun i j => k.evaluate (X i) (X j)) *ᵥ w := by
  have h := hG.gram_psd (Fin.cons x X)
  have hs : ∀ j, k.evaluate (X j) x = k.evaluate x (X j) := fun j => by
    have := congrFun (congrFun (psd_symm h) 0) j.succ
    simpa using this
  have h2 := ((psd_iff _).1 h).2 (Fin.cons 1 fun i => - w i)
  simp only [dotProduct, mulVec, of_apply, Fin.sum_univ_succ, Fin.cons_zero, Fin.cons_succ, hs, one_mul, mul_one, mul_neg, neg_mul,
    Finset.sum_neg_distrib] at h2 ⊢
  simp only [mul_add, mul_neg, Finset.sum_add_distrib, Finset.sum_neg_distrib] at h2
  have e1 : ∑ i, w i * k.evaluate x (X i) = ∑ i, k.evaluate x (X i) * w i := Finset.sum_congr rfl fun i _ => mul_comm _ _
  rw [e1] at h2
  linarith

/-- covariance of the state at time `x` in the system that filter and prediction work with: the last state at a data time not after `x`,
moved to `x` -/
noncomputable def liveP (k : SSM) (t : Arr ℝ) (x : ℝ) : Matrix k.n k.n ℝ :=
  if searchsortedRight t x = 0 then k.Pinf
  else k.At 0 (x - t.get (searchsortedRight t x - 1)) * marginalCov (gapA k t) (gapQ k t) k.Pinf (searchsortedRight t x - 1) *
    (k.At 0 (x - t.get (searchsortedRight t x - 1)))ᵀ + k.Qt 0 (x - t.get (searchsortedRight t x - 1))

section
variable {k : SSM} {ε : ℝ} (hq : k.NoiseWithin ε) {G : Matrix k.n k.n ℝ} (hG : k.CovModel G) {t : Arr ℝ} (ht : Sorted t) (hN : 0 < t.len)
include hq hG ht hN

theorem marginalCov_noisy_symm (i : ℕ) : (marginalCov (gapA k t) (gapQ k t) k.Pinf i)ᵀ = marginalCov (gapA k t) (gapQ k t) k.Pinf i := by
  induction i with
  | zero => exact psd_symm hG.P_psd
  | succ i ih =>
    show (gapA k t i * marginalCov (gapA k t) (gapQ k t) k.Pinf i * (gapA k t i)ᵀ + gapQ k t i)ᵀ = _
    rw [transpose_add, transpose_mul, transpose_mul, transpose_transpose, ih, gapQ_symm hq ht hN, ← Matrix.mul_assoc]
    rfl

/-- the state does not change between equal times -/
theorem marginalCov_tie {i j : ℕ} (hij : i ≤ j) (h : tau t i = tau t j) :
    marginalCov (gapA k t) (gapQ k t) k.Pinf j = marginalCov (gapA k t) (gapQ k t) k.Pinf i := by
  induction j, hij using Nat.le_induction with
  | base => rfl
  | succ j hj ih =>
    have h1 : tau t j = tau t (j + 1) :=
      le_antisymm (tau_mono ht hN (Nat.le_succ j)) (h ▸ tau_mono ht hN hj)
    show gapA k t j * marginalCov (gapA k t) (gapQ k t) k.Pinf j * (gapA k t j)ᵀ + gapQ k t j = _
    have e1 : gapA k t j = 1 := by unfold gapA; rw [h1, sub_self, hG.At_zero]
    have e2 : gapQ k t j = 0 := by unfold gapQ; rw [h1, sub_self, hq.zero]
    rw [e1, e2, ih (h.trans h1.symm)]
    simp

theorem before_live {x : ℝ} (h0 : searchsortedRight t x ≠ 0) :
    searchsortedRight t x - 1 < t.len ∧ t.get (searchsortedRight t x - 1) ≤ x := by
  have hle : searchsortedRight t x ≤ t.len := searchsorted_le x
  exact ⟨by omega, (searchsorted_lt_iff ht x (by omega)).1 (by omega)⟩

theorem liveP_symm (x : ℝ) : (liveP k t x)ᵀ = liveP k t x := by
  unfold liveP
  split_ifs with h0
  · exact psd_symm hG.P_psd
  · obtain ⟨-, hx⟩ := before_live hq hG ht hN h0
    rw [transpose_add, transpose_mul, transpose_mul, transpose_transpose, marginalCov_noisy_symm hq hG ht hN,
      hq.symm _ (sub_nonneg.2 hx), ← Matrix.mul_assoc]

/-- at the data -/
theorem liveP_data {i : ℕ} (hi : i < t.len) : liveP k t (t.get i) = marginalCov (gapA k t) (gapQ k t) k.Pinf i := by
  have h1 : i < searchsortedRight t (t.get i) := (searchsorted_lt_iff ht _ hi).2 le_rfl
  have h0 : searchsortedRight t (t.get i) ≠ 0 := by omega
  obtain ⟨hp, hx⟩ := before_live hq hG ht hN h0
  unfold liveP
  rw [if_neg h0]
  set p := searchsortedRight t (t.get i) - 1 with hpd
  have hip : i ≤ p := by omega
  have e : t.get p = t.get i := le_antisymm hx (ht _ _ hip hp)
  rw [e, sub_self, hG.At_zero, hq.zero, marginalCov_tie hq hG ht hN hip (by rw [tau_eq t hi, tau_eq t hp, e])]
  simp

/-- the process, at all times, that filter and prediction work with -/
noncomputable def noisyGM : GM k.n where
  A s u := k.At 0 (u - s)
  P := liveP k t
  A_self s := by rw [sub_self, hG.At_zero]
  A_comp s u w h1 h2 := by
    rw [← hG.At_add (sub_nonneg.2 h1) (sub_nonneg.2 h2)]
    congr 1; ring
  P_symm := liveP_symm hq hG ht hN

variable (R y : Arr ℝ)

/-- its data -/
noncomputable def noisyLive : Chain ((noisyGM hq hG ht hN).B R.get) (GM.φ k.n y.get) k.n :=
  (noisyGM hq hG ht hN).chain R.get y.get (tau t) (tau_mono ht hN) fun i => k.Ht (t.get i)

variable {R y}

theorem noisyLive_x {i : ℕ} (hi : i < t.len) : (noisyLive hq hG ht hN R y).x i = GM.x (t.get i) := by
  show GM.x (tau t i) = _
  rw [tau_eq t hi]

theorem noisyLive_Q {j : ℕ} (hj : j + 1 < t.len) : (noisyLive hq hG ht hN R y).Q j = gapQ k t j := by
  show liveP k t (tau t (j + 1)) - gapA k t j * liveP k t (tau t j) * (gapA k t j)ᵀ = _
  rw [tau_eq t hj, tau_eq t (by omega : j < t.len), liveP_data hq hG ht hN hj, liveP_data hq hG ht hN (by omega : j < t.len)]
  show gapA k t j * marginalCov (gapA k t) (gapQ k t) k.Pinf j * (gapA k t j)ᵀ + gapQ k t j - _ = _
  abel

theorem noisyLive_C {i j : ℕ} (hi : i < t.len) (hj : j < t.len) :
    (noisyGM hq hG ht hN).C (t.get i) (t.get j) = stateCov (gapA k t) (gapQ k t) k.Pinf i j := by
  unfold stateCov
  split_ifs with hij
  · rw [GM.C_of_le _ (ht _ _ hij hj), gap_propagator hG ht hN hij, tau_eq t hi, tau_eq t hj]
    show liveP k t (t.get i) * _ = _
    rw [liveP_data hq hG ht hN hi]; rfl
  · rw [GM.C_of_ge _ (ht _ _ (by omega) hi), gap_propagator hG ht hN (by omega), tau_eq t hi, tau_eq t hj]
    show _ * liveP k t (t.get j) = _
    rw [liveP_data hq hG ht hN hj]; rfl

theorem noisyLive_Y {i : ℕ} (hi : i < t.len) : (noisyLive hq hG ht hN R y).Y i = lin (k.Ht (t.get i)) (GM.x (t.get i)) 0 + GM.r i := by
  show lin (k.Ht (t.get i)) (GM.x (tau t i)) 0 + GM.r i = _
  rw [tau_eq t hi]

theorem noisyLive_data (i j : Fin t.len) : noisyData k t R i j =
    (noisyGM hq hG ht hN).B R.get ((noisyLive hq hG ht hN R y).Y i) ((noisyLive hq hG ht hN R y).Y j) := by
  rw [noisyLive_Y hq hG ht hN i.2, noisyLive_Y hq hG ht hN j.2, GM.B_YY, noisyLive_C hq hG ht hN i.2 j.2]
  simp [noisyData, noisyGram, Fin.ext_iff]

theorem noisyLive_filter (hpd : (noisyData k t R).PosDef) : (noisyLive hq hG ht hN R y).Filter t.len
    (fun j => ((k.kalman t y R).get j).mPred) (fun j => ((k.kalman t y R).get j).PPred)
    (fun j => ((k.kalman t y R).get j).m) (fun j => ((k.kalman t y R).get j).P) where
  m0 := noisy_m0 hq hG ht hN
  P0 a b := by
    rw [noisyLive_x hq hG ht hN hN, GM.B_xx, GM.C_self]
    show _ = liveP k t (t.get 0) a b
    rw [liveP_data hq hG ht hN hN]
    unfold SSM.kalman
    rw [kf_zero_P, hG.At_zero, hq.zero]
    simp [marginalCov]
  mp_succ j hj := by
    have := noisy_mp (R := R) (y := y) hq hG ht hN j hj
    rw [show (noisyChain hq hG ht hN R y).T j = gapA k t j from discreteChain_T ..] at this
    exact this
  Pp_succ j hj := by
    have := noisy_Pp (R := R) (y := y) hq hG ht hN j hj
    rw [show (noisyChain hq hG ht hN R y).T j = gapA k t j from discreteChain_T ..,
      show (noisyChain hq hG ht hN R y).Q j = gapQ k t j from discreteChain_Q ..] at this
    rw [noisyLive_Q hq hG ht hN hj]
    exact this
  upd j hj _ := noisy_upd hq hG ht hN j (noisy_S_pos hq hG ht hN hpd hj).ne'
  noupd j _ h := by cases h

theorem noisyLive_span : (noisyLive hq hG ht hN R y).U t.len =
    Submodule.span ℝ (Set.range fun i : Fin t.len => (noisyLive hq hG ht hN R y).Y i) :=
  Chain.U_eq_span_equiv (c := noisyLive hq hG ht hN R y) (Equiv.subtypeUnivEquiv (fun _ => rfl)).symm

end

section
variable {k : SSM} {ε : ℝ} (hq : k.NoiseWithin ε) {G : Matrix k.n k.n ℝ} (hG : k.CovModel G) {t : Arr ℝ} (ht : Sorted t) (hN : 0 < t.len)
  {R y : Arr ℝ} (hpd : (noisyData k t R).PosDef) (hP : ∀ i < t.len, IsUnit ((k.kalman t y R).get i).PPred.det)
include hq hG ht hN hpd hP

theorem noisyLive_smoother : (noisyLive hq hG ht hN R y).Smoother t.len
    (fun j => ((k.kalman t y R).get j).mPred) (fun j => ((k.kalman t y R).get j).PPred)
    (fun j => ((k.kalman t y R).get j).m) (fun j => ((k.kalman t y R).get j).P)
    (fun j => ((rtsSmoother k.At t (k.kalman t y R)).get j).m) (fun j => ((rtsSmoother k.At t (k.kalman t y R)).get j).P) where
  last_m := by rw [rts_last]; rfl
  last_P := by rw [rts_last]; rfl
  step j hj := by
    have e := rts_step k.At t (k.kalman t y R) j hj
    rw [e]
    refine ⟨_, ?_, rfl, rfl⟩
    show _ * _ = _ * (k.At 0 (tau t (j + 1) - tau t j))ᵀ
    rw [tau_eq t hj, tau_eq t (by omega)]
    exact solve_gain (hP _ hj) rfl

/-- the predicted state is the best linear estimate in the system that filter and prediction work with -/
theorem noisy_predict_est (x : ℝ) :
    ∃ Xh, IsEst ((noisyGM hq hG ht hN).B R.get) (GM.φ k.n y.get) ((noisyLive hq hG ht hN R y).U t.len) (GM.x x) Xh
      (ssPredictPoint k.At k.Qt k.Pinf t (k.kalman t y R) (rtsSmoother k.At t (k.kalman t y R)) x).m
      (ssPredictPoint k.At k.Qt k.Pinf t (k.kalman t y R) (rtsSmoother k.At t (k.kalman t y R)) x).P := by
  set g := noisyGM hq hG ht hN with hg
  set c : Chain (g.B R.get) (GM.φ k.n y.get) k.n := noisyLive hq hG ht hN R y with hc
  set kf := k.kalman t y R with hkf
  have hf := noisyLive_filter (y := y) hq hG ht hN hpd
  have hxk : ∀ i < t.len, c.x i = GM.x (t.get i) := fun i hi => noisyLive_x hq hG ht hN hi
  have hle : searchsortedRight t x ≤ t.len := searchsorted_le x
  have hpred : searchsortedRight t x ≠ 0 → ∃ zh, IsEst (g.B R.get) (GM.φ k.n y.get) (c.U (searchsortedRight t x - 1 + 1)) (GM.x x) zh
      (k.At 0 (x - t.get (searchsortedRight t x - 1)) *ᵥ (kf.get (searchsortedRight t x - 1)).m)
      (k.At 0 (x - t.get (searchsortedRight t x - 1)) * (kf.get (searchsortedRight t x - 1)).P *
        (k.At 0 (x - t.get (searchsortedRight t x - 1)))ᵀ + k.Qt 0 (x - t.get (searchsortedRight t x - 1))) := by
    intro h0
    obtain ⟨hi, hix⟩ := before_live hq hG ht hN h0
    have hP : liveP k t x = _ := if_neg h0
    set i := searchsortedRight t x - 1 with hidef
    obtain ⟨Xh, h⟩ := hf.est_filt hi
    have h : IsEst (g.B R.get) (GM.φ k.n y.get) (c.U (i + 1)) (c.x i) Xh (kf.get i).m (kf.get i).P := h
    rw [hxk i hi] at h
    have hx : (GM.x x : k.n → GM.Space k.n) = fun a => lin (k.At 0 (x - t.get i)) (GM.x (t.get i)) a
        + g.q (t.get i) x a := funext fun a => g.x_eq (t.get i) x a
    rw [hx]
    refine ⟨_, (h.linMap _).addNoise c.symm (fun a => ?_) (fun a b => ?_) (fun a b => ?_)⟩
    · refine c.orth_U (fun j hj b => ?_) (fun j _ => g.B_qr R.get _ _ a j)
      rw [hxk j (by omega)]
      exact g.B_qx R.get (ht _ _ (by omega) hi) hix a b
    · rw [B_lin_right]
      exact Finset.sum_eq_zero fun j _ => by rw [g.B_qx R.get le_rfl hix, mul_zero]
    · rw [g.B_qq R.get hix]
      refine congrFun (congrFun ?_ a) b
      show _ = liveP k t x - k.At 0 (x - t.get i) * liveP k t (t.get i) * (k.At 0 (x - t.get i))ᵀ
      rw [liveP_data hq hG ht hN hi, hP]
      abel
  have hsmooth : ∀ i < t.len, x ≤ t.get i → ∀ (mz : k.n → ℝ) (Pz : Matrix k.n k.n ℝ),
      (∃ zh, IsEst (g.B R.get) (GM.φ k.n y.get) (c.U i) (GM.x x) zh mz Pz) →
      (∀ j < i, t.get j ≤ x) →
      (kf.get i).mPred = k.At 0 (t.get i - x) *ᵥ mz →
      (kf.get i).PPred = k.At 0 (t.get i - x) * Pz * (k.At 0 (t.get i - x))ᵀ + g.Q x (t.get i) →
      ∃ zh, IsEst (g.B R.get) (GM.φ k.n y.get) (c.U t.len) (GM.x x) zh
        (mz + (solve (kf.get i).PPredᵀ (Pz * (k.At 0 (t.get i - x))ᵀ)ᵀ)ᵀ *ᵥ
          (((rtsSmoother k.At t kf).get i).m - (kf.get i).mPred))
        (Pz + (solve (kf.get i).PPredᵀ (Pz * (k.At 0 (t.get i - x))ᵀ)ᵀ)ᵀ *
          (((rtsSmoother k.At t kf).get i).P - (kf.get i).PPred) *
          (solve (kf.get i).PPredᵀ (Pz * (k.At 0 (t.get i - x))ᵀ)ᵀ)ᵀᵀ) := by
    rintro i hi hix mz Pz ⟨zh, hz⟩ hj hm hPp
    obtain ⟨Xh, hs⟩ := (noisyLive_smoother hq hG ht hN hpd hP).est hf hi
    have hGain := solve_gain (hP i hi) (M := Pz * (k.At 0 (t.get i - x))ᵀ) rfl
    generalize (solve (kf.get i).PPredᵀ (Pz * (k.At 0 (t.get i - x))ᵀ)ᵀ)ᵀ = W at hGain ⊢
    rw [hPp] at hGain
    rw [hm, hPp]
    refine c.smooth_at hi.le hz (q2 := g.q x (t.get i)) (fun a => ?_) (fun a => ?_) (fun a b => ?_)
      (fun a b => ?_) (fun j hj a b => ?_) (fun j hj b => ?_) hs W hGain
    · rw [hxk i hi]; exact g.x_eq x (t.get i) a
    · refine c.orth_U (fun j hji b => ?_) (fun j _ => g.B_qr R.get _ _ a j)
      rw [hxk j (by omega)]
      exact g.B_qx R.get (hj j hji) hix a b
    · exact g.B_qx R.get le_rfl hix a b
    · rw [g.B_qq R.get hix]
    · refine g.B_qx R.get (u := x) ?_ (tau_mono ht hN (Nat.le_succ j)) a b
      refine hix.trans ?_
      rw [← tau_eq t hi]
      exact tau_mono ht hN hj
    · exact g.B_rx R.get _ b j
  unfold ssPredictPoint
  simp only
  split_ifs with h0 h1
  · have hx0 : x ≤ t.get 0 := by
      by_contra hlt
      have := (searchsorted_lt_iff ht x hN).2 (not_le.1 hlt).le
      omega
    have hPx : liveP k t x = k.Pinf := if_pos h0
    refine hsmooth 0 hN hx0 0 k.Pinf ⟨fun _ => 0, ?_⟩ (by intro j hj; omega) ?_ ?_
    · exact IsEst.prior _ _ (fun a b => by
        rw [GM.B_xx, GM.C_self]
        show _ = liveP k t x a b
        rw [hPx])
    · rw [hkf]
      unfold SSM.kalman
      rw [kf_zero_m, mulVec_zero, mulVec_zero]
    · show _ = _ + (liveP k t (t.get 0) - k.At 0 (t.get 0 - x) * liveP k t x * (k.At 0 (t.get 0 - x))ᵀ)
      rw [hPx, liveP_data hq hG ht hN hN, hkf]
      unfold SSM.kalman
      rw [kf_zero_P, hG.At_zero, hq.zero]
      simp [marginalCov]
  · have hp := hpred (by omega)
    have e : searchsortedRight t x = t.len := by omega
    rw [e, Nat.sub_add_cancel hN] at hp
    exact hp
  · have hp := hpred (by omega)
    obtain ⟨hi1, hix1⟩ := before_live hq hG ht hN (x := x) (by omega)
    have hPx : liveP k t x = _ := if_neg (by omega)
    set i := searchsortedRight t x with hidef
    have hil : i < t.len := by omega
    have hix : x ≤ t.get i := by
      by_contra hlt
      have := (searchsorted_lt_iff ht x hil).2 (not_le.1 hlt).le
      omega
    have hi1' : i - 1 + 1 = i := by omega
    rw [hi1'] at hp
    refine hsmooth i hil hix _ _ hp (fun j hj => (searchsorted_lt_iff ht x (by omega)).1 (by omega)) ?_ ?_
    · have := kf_succ_m k.At k.Qt k.Ht R t y 0 k.Pinf (i - 1)
      rw [hi1'] at this
      rw [mulVec_mulVec]
      refine this.trans ?_
      congr 1
      exact g.A_comp (t.get (i - 1)) x (t.get i) hix1 hix
    · have := kf_succ_P k.At k.Qt k.Ht R t y 0 k.Pinf (i - 1)
      rw [hi1'] at this
      refine this.trans ?_
      have e1 : g.Q (t.get (i - 1)) (t.get i) = k.Qt 0 (t.get i - t.get (i - 1)) := by
        have := noisyLive_Q (R := R) (y := y) hq hG ht hN (j := i - 1) (by omega)
        unfold gapQ at this
        rw [hi1', tau_eq t hil, tau_eq t hi1] at this
        rw [← this]
        show _ = g.Q (tau t (i - 1)) (tau t (i - 1 + 1))
        rw [hi1', tau_eq t hil, tau_eq t hi1]
      have e2 : g.Q (t.get (i - 1)) x = k.Qt 0 (x - t.get (i - 1)) := by
        show liveP k t x - k.At 0 (x - t.get (i - 1)) * liveP k t (t.get (i - 1)) * (k.At 0 (x - t.get (i - 1)))ᵀ = _
        rw [liveP_data hq hG ht hN hi1, hPx]
        abel
      have := g.pred_comp hix1 hix (kf.get (i - 1)).P
      rw [e1, e2] at this
      exact this

/-- predictions in the system that filter and prediction work with -/
theorem noisy_predicted (x : ℝ) (h : Matrix (Fin 1) k.n ℝ) :
    (h *ᵥ (ssPredictPoint k.At k.Qt k.Pinf t (k.kalman t y R) (rtsSmoother k.At t (k.kalman t y R)) x).m) 0 =
      postMean (noisyData k t R) (fun j => y.get j) (fun j : Fin t.len => (h * (noisyGM hq hG ht hN).C x (t.get j) * (k.Ht (t.get j))ᵀ) 0 0) ∧
    (h * (ssPredictPoint k.At k.Qt k.Pinf t (k.kalman t y R) (rtsSmoother k.At t (k.kalman t y R)) x).P * hᵀ) 0 0 =
      postVar (noisyData k t R) ((h * liveP k t x * hᵀ) 0 0)
        (fun j : Fin t.len => (h * (noisyGM hq hG ht hN).C x (t.get j) * (k.Ht (t.get j))ᵀ) 0 0) := by
  obtain ⟨Xh, hest⟩ := noisy_predict_est hq hG ht hN hpd hP x
  rw [noisyLive_span] at hest
  have := IsEst.dense_scalar (noisyLive hq hG ht hN R y).symm _ hest (noisyData k t R) (fun i j => noisyLive_data hq hG ht hN i j)
    (pd_det hpd) h
  have e1 : ∀ j : Fin t.len, (noisyGM hq hG ht hN).B R.get (lin h (GM.x x) 0) ((noisyLive hq hG ht hN R y).Y j) =
      (h * (noisyGM hq hG ht hN).C x (t.get j) * (k.Ht (t.get j))ᵀ) 0 0 := fun j => by
    rw [noisyLive_Y hq hG ht hN j.2, GM.B_xY]
  have e2 : (noisyGM hq hG ht hN).B R.get (lin h (GM.x x) 0) (lin h (GM.x x) 0) = (h * liveP k t x * hᵀ) 0 0 := by
    rw [GM.B_lin_lin, GM.C_self]; rfl
  have e3 : ∀ j : Fin t.len, GM.φ k.n y.get ((noisyLive hq hG ht hN R y).Y j) = y.get j := fun j =>
    (noisyLive hq hG ht hN R y).hy j
  simp only [e1, e2, e3] at this
  exact this

end

section
variable {k : SSM} {ε : ℝ} (hε : 0 ≤ ε) (hq : k.NoiseWithin ε) {G : Matrix k.n k.n ℝ} (hG : k.CovModel G) {t : Arr ℝ} (ht : Sorted t)
  (hN : 0 < t.len)
include hε hq hG ht hN

/-- the state at any time differs from the stationary one by the errors made up to that time -/
theorem live_perturb (x : ℝ) {u v : Matrix (Fin 1) k.n ℝ} {b b' : ℝ} (hu : ∀ s : ℝ, 0 ≤ s → ∑ a, |(u * k.At 0 s) 0 a| ≤ b)
    (hv : ∀ s : ℝ, 0 ≤ s → ∑ a, |(v * k.At 0 s) 0 a| ≤ b') : |(u * (liveP k t x - k.Pinf) * vᵀ) 0 0| ≤ t.len * (ε * b * b') := by
  have hb : 0 ≤ b := (Finset.sum_nonneg fun _ _ => abs_nonneg _).trans (hu 0 le_rfl)
  have hb' : 0 ≤ b' := (Finset.sum_nonneg fun _ _ => abs_nonneg _).trans (hv 0 le_rfl)
  unfold liveP
  split_ifs with h0
  · simp only [sub_self, Matrix.mul_zero, Matrix.zero_mul, Matrix.zero_apply, abs_zero]
    positivity
  · obtain ⟨hi, hix⟩ := before_live hq hG ht hN h0
    set i := searchsortedRight t x - 1
    set A1 := k.At 0 (x - t.get i) with hA1
    have hs := sub_nonneg.2 hix
    have hrow : ∀ {w : Matrix (Fin 1) k.n ℝ} {d : ℝ}, (∀ s : ℝ, 0 ≤ s → ∑ a, |(w * k.At 0 s) 0 a| ≤ d) →
        ∀ l ≤ i, ∑ a, |(w * A1 * propagator (gapA k t) l i) 0 a| ≤ d := fun hw l hl => by
      have h1 := sub_nonneg.2 (tau_mono ht hN hl)
      rw [gap_propagator hG ht hN hl, Matrix.mul_assoc, hA1, ← hG.At_add h1 hs]
      exact hw _ (by positivity)
    have h1 := marginalCov_perturb (T := gapA k t) (Q := gapQ0 k t) (Q' := gapQ k t) (P0 := k.Pinf) hε (k := i)
      (fun l _ a b => hq.near _ (sub_nonneg.2 (tau_mono ht hN (Nat.le_succ l))) a b) le_rfl le_rfl (hrow hu) (hrow hv)
    rw [propagator_self, Matrix.mul_one, Matrix.mul_one, ideal_marginalCov hG ht hN] at h1
    have h2 := abs_row_form_le (hq.near _ hs) u v
    have s1 := hu 0 le_rfl
    have s2 := hv 0 le_rfl
    rw [hG.At_zero, Matrix.mul_one] at s1 s2
    have n1 : 0 ≤ ∑ a, |v 0 a| := Finset.sum_nonneg fun _ _ => abs_nonneg _
    have h3 : ε * (∑ a, |u 0 a|) * (∑ a, |v 0 a|) ≤ ε * b * b' :=
      mul_le_mul (mul_le_mul_of_nonneg_left s1 hε) s2 n1 (mul_nonneg hε hb)
    have e : u * (A1 * marginalCov (gapA k t) (gapQ k t) k.Pinf i * A1ᵀ + k.Qt 0 (x - t.get i) - k.Pinf) * vᵀ =
        u * A1 * (marginalCov (gapA k t) (gapQ k t) k.Pinf i - k.Pinf) * (v * A1)ᵀ +
        u * (k.Qt 0 (x - t.get i) - (k.Pinf - A1 * k.Pinf * A1ᵀ)) * vᵀ := by
      simp only [transpose_mul, Matrix.mul_sub, Matrix.sub_mul, Matrix.mul_add, Matrix.add_mul, Matrix.mul_assoc]
      abel
    rw [e, Matrix.add_apply]
    refine (abs_add_le _ _).trans ((add_le_add h1 (h2.trans h3)).trans ?_)
    have : (i : ℝ) + 1 ≤ t.len := by exact_mod_cast hi
    have := mul_le_mul_of_nonneg_right this (mul_nonneg (mul_nonneg hε hb) hb')
    linarith

variable {c : ℝ} (hc : 0 < c) (hlow : LowerBound c k.Pinf)
include hc hlow

omit hε hq ht hN in
theorem row_bounds : ∀ s : ℝ, 0 ≤ s → ∑ a, |(k.Ht 0 * k.At 0 s) 0 a| ≤
    Real.sqrt (Fintype.card k.n * k.evaluate (.time 0) (.time 0) / c) := fun s hs => by
  rw [CovModel_evaluate_self hG 0]
  exact row_bound_sqrt hG hc hlow (k.Ht 0) hs

omit hε hq ht hN hlow in
theorem bound_eq (N : ℕ) : (N : ℝ) * (ε * Real.sqrt (Fintype.card k.n * k.evaluate (.time 0) (.time 0) / c) *
    Real.sqrt (Fintype.card k.n * k.evaluate (.time 0) (.time 0) / c)) = N * ε * Fintype.card k.n * k.evaluate (.time 0) (.time 0) / c := by
  have h0 : 0 ≤ k.evaluate (.time 0) (.time 0) := by
    rw [CovModel_evaluate_self hG 0]
    exact (abs_nonneg _).trans (CovModel_evaluate_abs hG 0 0)
  rw [mul_assoc ε, Real.mul_self_sqrt (by positivity)]
  ring

theorem noisy_cross (x : ℝ) (j : ℕ) :
    |(k.Ht x * (noisyGM hq hG ht hN).C x (t.get j) * (k.Ht (t.get j))ᵀ) 0 0 - k.evaluate (.time x) (.time (t.get j))| ≤
      t.len * ε * Fintype.card k.n * k.evaluate (.time 0) (.time 0) / c := by
  have hr := row_bounds hG hc hlow
  rw [← bound_eq (ε := ε) hG hc, CovModel_Ht hG ht hN x, CovModel_Ht hG ht hN (t.get j)]
  generalize Real.sqrt (Fintype.card k.n * k.evaluate (.time 0) (.time 0) / c) = b at hr ⊢
  have hmove : ∀ s : ℝ, 0 ≤ s → ∀ s' : ℝ, 0 ≤ s' → ∑ a, |(k.Ht 0 * k.At 0 s * k.At 0 s') 0 a| ≤ b := fun s hs s' hs' => by
    rw [Matrix.mul_assoc, ← hG.At_add hs' hs]
    exact hr _ (add_nonneg hs' hs)
  have hA : ∀ s u, k.A (.time s) (.time u) = k.At 0 (u - s) := fun s u => hG.ideal_proper.shift_A (.time s) (.time u)
  have hH : ∀ s, k.obsModel (.time s) none = k.Ht 0 := fun s => hG.ideal_proper.H_const (.time s)
  unfold SSM.evaluate
  simp only [hH, hA, Coord.sortable]
  split_ifs with hlt
  · have hs := sub_nonneg.2 hlt.le
    refine le_trans (le_of_eq ?_) (live_perturb hε hq hG ht hN x hr (hmove _ hs))
    rw [GM.C_of_le _ hlt.le, ← Matrix.sub_apply]
    refine congrArg (fun M : Matrix (Fin 1) (Fin 1) ℝ => |M 0 0|) ?_
    show k.Ht 0 * (liveP k t x * (k.At 0 (t.get j - x))ᵀ) * _ - _ = _
    simp only [transpose_mul, Matrix.mul_sub, Matrix.sub_mul, Matrix.mul_assoc]
  · have hs := sub_nonneg.2 (not_lt.1 hlt)
    refine le_trans (le_of_eq ?_) (live_perturb hε hq hG ht hN (t.get j) (hmove _ hs) hr)
    rw [GM.C_of_ge _ (not_lt.1 hlt), ← Matrix.sub_apply]
    refine congrArg (fun M : Matrix (Fin 1) (Fin 1) ℝ => |M 0 0|) ?_
    show k.Ht 0 * (k.At 0 (x - t.get j) * liveP k t (t.get j)) * _ - _ = _
    simp only [Matrix.mul_sub, Matrix.sub_mul, Matrix.mul_assoc]

theorem noisy_self (x : ℝ) :
    |(k.Ht x * liveP k t x * (k.Ht x)ᵀ) 0 0 - k.evaluate (.time x) (.time x)| ≤
      t.len * ε * Fintype.card k.n * k.evaluate (.time 0) (.time 0) / c := by
  have hr := row_bounds hG hc hlow
  rw [← bound_eq (ε := ε) hG hc, CovModel_Ht hG ht hN x, CovModel_evaluate_self hG x]
  refine le_trans (le_of_eq ?_) (live_perturb hε hq hG ht hN x hr hr)
  rw [← Matrix.sub_apply, Matrix.mul_sub, Matrix.sub_mul]

variable {R y : Arr ℝ} {r : ℝ} (hr : 0 < r) (hR : ∀ i < t.len, r ≤ R.get i)
  (hcond : 4 * t.len * ε * Fintype.card k.n * (2 * t.len * k.evaluate (.time 0) (.time 0) + r) < c * r)
include hr hR hcond

/-- distance between the predictions and the exact ones -/
theorem noisy_predicted_near {θ : ℝ} (hθ : θ = t.len ^ 2 * ε * Fintype.card k.n * k.evaluate (.time 0) (.time 0) / (c * r)) (x : ℝ) :
    |(k.Ht x *ᵥ (ssPredictPoint k.At k.Qt k.Pinf t (k.kalman t y R) (rtsSmoother k.At t (k.kalman t y R)) x).m) 0 -
        postMean (noisyGram (fun i j : Fin t.len => k.evaluate (.time (t.get i)) (.time (t.get j))) fun i => R.get i) (fun j => y.get j)
          (fun j => k.evaluate (.time x) (.time (t.get j)))| ≤
      2 * θ * (Real.sqrt (k.evaluate (.time 0) (.time 0)) + Real.sqrt (r / t.len)) *
        Real.sqrt ((fun i : Fin t.len => y.get i) ⬝ᵥ (noisyGram (fun i j : Fin t.len => k.evaluate (.time (t.get i)) (.time (t.get j)))
          fun i => R.get i)⁻¹ *ᵥ fun i => y.get i) ∧
    |(k.Ht x * (ssPredictPoint k.At k.Qt k.Pinf t (k.kalman t y R) (rtsSmoother k.At t (k.kalman t y R)) x).P * (k.Ht x)ᵀ) 0 0 -
        postVar (noisyGram (fun i j : Fin t.len => k.evaluate (.time (t.get i)) (.time (t.get j))) fun i => R.get i)
          (k.evaluate (.time x) (.time x)) (fun j => k.evaluate (.time x) (.time (t.get j)))| ≤
      2 * θ * (Real.sqrt (k.evaluate (.time 0) (.time 0)) + Real.sqrt (r / t.len)) ^ 2 := by
  set κ := k.evaluate (.time 0) (.time 0) with hκ
  have hself := CovModel_evaluate_self hG
  have hκe : κ = (k.Ht 0 * k.Pinf * (k.Ht 0)ᵀ) 0 0 := hself 0
  have hκ0 : 0 ≤ κ := by rw [hκe]; exact (abs_nonneg _).trans (CovModel_evaluate_abs hG 0 0)
  have hN1 : (1 : ℝ) ≤ t.len := by exact_mod_cast hN
  have hn0 : (0 : ℝ) ≤ Fintype.card k.n := Nat.cast_nonneg _
  have hnear := noisy_near hε hq hG ht hN hc hlow hr hR (by
    rw [← hκe]
    have h1 : (0 : ℝ) ≤ 4 * t.len * ε * Fintype.card k.n * r := by positivity
    have h2 : (0 : ℝ) ≤ t.len ^ 2 * ε * Fintype.card k.n * κ := by positivity
    nlinarith)
  rw [← hκe, ← hθ] at hnear
  have hP : ∀ i < t.len, IsUnit ((k.kalman t y R).get i).PPred.det := fun i hi =>
    pd_det (noisy_PPred_pd hq hG ht hN hε hc hlow hr hR (by rw [← hκe]; exact hcond) hnear.pd' hi)
  obtain ⟨hm, hv⟩ := noisy_predicted hq hG ht hN hnear.pd' hP x (k.Ht x)
  rw [hm, hv]
  set K := noisyGram (fun i j : Fin t.len => k.evaluate (.time (t.get i)) (.time (t.get j))) fun i => R.get i with hK
  set d := t.len * ε * Fintype.card k.n * κ / c with hd
  have hd0 : 0 ≤ d := by positivity
  have hdθ : d = θ * (r / t.len) := by
    rw [hθ, hd]; field_simp
  have hlowK : ∀ v : Fin t.len → ℝ, r * (v ⬝ᵥ v) ≤ v ⬝ᵥ K *ᵥ v := fun v => by
    have e : K = (Matrix.of fun i j : Fin t.len => k.evaluate (.time (t.get i)) (.time (t.get j))) + diagonal fun i : Fin t.len => R.get i := by
      ext a b
      by_cases h : a = b <;> simp [hK, noisyGram, h]
    rw [e, add_mulVec, dotProduct_add]
    have p := ((psd_iff _).1 (hG.gram_psd (fun i : Fin t.len => Coord.time (t.get i)))).2 v
    have q : r * (v ⬝ᵥ v) ≤ v ⬝ᵥ (diagonal fun i : Fin t.len => R.get i) *ᵥ v := by
      simp only [dotProduct, mulVec_diagonal, Finset.mul_sum]
      refine Finset.sum_le_sum fun i _ => ?_
      nlinarith [hR i i.2, mul_self_nonneg (v i)]
    linarith
  have hkx : k.evaluate (.time x) (.time x) = κ := (hself x).trans (hself 0).symm
  set g := θ * Real.sqrt (r / t.len) with hgdef
  have hθ0 := hnear.nonneg
  have hθ2 := hnear.half
  have hcr := explained_le (R := fun i : Fin t.len => R.get i) (fun i => lt_of_lt_of_le hr (hR i i.2)) hnear.pd
    (hG.extended (fun j : Fin t.len => .time (t.get j)) (.time x))
  rw [hkx] at hcr ⊢
  have hdd : ((fun j : Fin t.len => (k.Ht x * (noisyGM hq hG ht hN).C x (t.get j) * (k.Ht (t.get j))ᵀ) 0 0) -
      fun j : Fin t.len => k.evaluate (.time x) (.time (t.get j))) ⬝ᵥ K⁻¹ *ᵥ
      ((fun j : Fin t.len => (k.Ht x * (noisyGM hq hG ht hN).C x (t.get j) * (k.Ht (t.get j))ᵀ) 0 0) -
      fun j : Fin t.len => k.evaluate (.time x) (.time (t.get j))) ≤ g ^ 2 := by
    refine (inv_le_of_low hnear.pd hr hlowK _).trans ?_
    have h1 : ∀ D : Fin t.len → ℝ, (∀ j, |D j| ≤ d) → D ⬝ᵥ D ≤ t.len * d ^ 2 := fun D hD => by
      have : D ⬝ᵥ D ≤ ∑ _j : Fin t.len, d ^ 2 := Finset.sum_le_sum fun j _ => by
        rw [← sq, ← sq_abs]
        exact pow_le_pow_left₀ (abs_nonneg _) (hD j) 2
      simpa using this
    refine (div_le_div_of_nonneg_right (h1 _ fun j => noisy_cross hε hq hG ht hN hc hlow x j) hr.le).trans (le_of_eq ?_)
    rw [hgdef, mul_pow, Real.sq_sqrt (by positivity), hdθ]
    field_simp
  obtain ⟨p1, p2⟩ := hnear.posterior (v' := (k.Ht x * liveP k t x * (k.Ht x)ᵀ) 0 0) (mul_nonneg hθ0 (Real.sqrt_nonneg _)) hcr hdd
    (fun j => y.get j)
  refine ⟨p1.trans (le_of_eq ?_), p2.trans ?_⟩
  · ring
  · have h1 := noisy_self hε hq hG ht hN hc hlow x
    rw [hkx, ← hκ, ← hd, hdθ] at h1
    have hs1 := Real.sq_sqrt hκ0
    have hs2 : Real.sqrt (r / t.len) ^ 2 = r / t.len := Real.sq_sqrt (by positivity)
    have hr0 : 0 ≤ r / t.len := by positivity
    have e : (θ * Real.sqrt (r / t.len)) ^ 2 = θ * (θ * (r / t.len)) := by rw [mul_pow, hs2]; ring
    have h2 : θ * (θ * (r / t.len)) ≤ 1 / 2 * (θ * (r / t.len)) := mul_le_mul_of_nonneg_right hθ2 (by positivity)
    rw [e, add_sq, hs1, hs2]
    linarith

end

end Verif
