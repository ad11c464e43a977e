import Verif.Props.C24_Values
import Verif.Lemmas.Loewner
import Verif.Lemmas.Exact
import Verif.Props.C01_Exact

/-!
# C16, C17: covariances are covariances, and data never increase uncertainty (sequential solver)
-/

namespace Verif
open Matrix

namespace SSM.Proper
variable {k : SSM} (hk : k.Proper) {t y R : Arr ℝ} (ht : Sorted t)
  (hR : ∀ i < t.len, 0 ≤ R.get i) (hS : ∀ i < t.len, ((k.kalman t y R).get i).S 0 0 ≠ 0)
include hk ht hR hS

/-- the covariance recursion of the filter -/
theorem covRec : CovRec t.len (fun i => k.At 0 (t.get (i + 1) - t.get i)) (fun i => k.Qt 0 (t.get (i + 1) - t.get i))
    (fun i => ((k.kalman t y R).get i).PPred) (fun i => ((k.kalman t y R).get i).P) where
  init := by
    show ((kalmanFilter k.At k.Qt k.Ht R t y 0 k.Pinf).get 0).PPred.PosSemidef
    rw [kf_zero_P]
    exact (psd_conj hk.P_psd _).add (hk.Q_psd 0 le_rfl)
  Q_psd i hi := hk.Q_psd _ (sorted_step ht hi)
  pred i hi := kf_succ_P k.At k.Qt k.Ht R t y 0 k.Pinf i
  filt i hi h := by
    have hs := hS i hi
    constructor
    · show ((kalmanFilter k.At k.Qt k.Ht R t y 0 k.Pinf).get i).P.PosSemidef
      rw [kf_upd]; exact update_psd' h (hR i hi) hs
    · show Loewner ((kalmanFilter k.At k.Qt k.Ht R t y 0 k.Pinf).get i).P _
      rw [kf_upd]; exact update_le h (hR i hi) hs

theorem smooth_cov (hP : ∀ i, i + 1 < t.len → IsUnit ((k.kalman t y R).get (i + 1)).PPred.det) {i : ℕ} (hi : i < t.len) :
    ((k.condition t y R).2.get i).P.PosSemidef ∧
    Loewner ((k.condition t y R).2.get i).P ((k.kalman t y R).get i).P := by
  refine (hk.covRec ht hR hS).smooth (Ps := fun i => ((k.condition t y R).2.get i).P) ?_ ?_ hi
  · show ((rtsSmoother k.At t (k.kalman t y R)).get (t.len - 1)).P = _
    rw [rts_last]; rfl
  · intro j hj
    refine ⟨_, solve_gain (hP j hj) rfl, ?_⟩
    show ((rtsSmoother k.At t (k.kalman t y R)).get j).P = _
    rw [rts_step _ _ _ _ hj]
    rfl

omit hR hS in
theorem step_stationary {i : ℕ} (hi : i + 1 < t.len) :
    Loewner (k.At 0 (t.get (i + 1) - t.get i) * k.Pinf * (k.At 0 (t.get (i + 1) - t.get i))ᵀ +
      k.Qt 0 (t.get (i + 1) - t.get i)) k.Pinf := by
  rw [hk.Q_eq _ (sorted_step ht hi), add_sub_cancel]
  exact Loewner.refl _

theorem pred_le_prior {i : ℕ} (hi : i < t.len) : Loewner ((k.kalman t y R).get i).PPred k.Pinf := by
  refine (hk.covRec ht hR hS).le_prior (P := k.Pinf) ?_ (fun j hj => hk.step_stationary ht hj) hi
  show Loewner ((kalmanFilter k.At k.Qt k.Ht R t y 0 k.Pinf).get 0).PPred _
  rw [kf_zero_P, hk.A_zero, hk.Q_eq 0 le_rfl, hk.A_zero]
  simp only [Matrix.one_mul, transpose_one, Matrix.mul_one, sub_self, add_zero]
  exact Loewner.refl _

/-- predicted states: positive semidefinite, and below the prior -/
theorem predict_cov (hN : 0 < t.len) (hP : ∀ i < t.len, IsUnit ((k.kalman t y R).get i).PPred.det) (x : ℝ) :
    (ssPredictPoint k.At k.Qt k.Pinf t (k.condition t y R).1 (k.condition t y R).2 x).P.PosSemidef ∧
    Loewner (ssPredictPoint k.At k.Qt k.Pinf t (k.condition t y R).1 (k.condition t y R).2 x).P k.Pinf := by
  have hrec := hk.covRec ht hR hS
  have hsm : ∀ i < t.len, _ := fun i hi => hk.smooth_cov ht hR hS (fun i hi => hP (i + 1) hi) hi
  have hcomp : ∀ a b : ℝ, 0 ≤ a → 0 ≤ b → ∀ P : Matrix k.n k.n ℝ,
      k.At 0 (a + b) * P * (k.At 0 (a + b))ᵀ + k.Qt 0 (a + b) =
        k.At 0 b * (k.At 0 a * P * (k.At 0 a)ᵀ + k.Qt 0 a) * (k.At 0 b)ᵀ + k.Qt 0 b := by
    intro a b ha hb P
    rw [hk.Q_eq _ (add_nonneg ha hb), hk.Q_eq _ ha, hk.Q_eq _ hb, hk.A_add _ _ ha hb, transpose_mul]
    simp only [Matrix.mul_add, Matrix.add_mul, Matrix.mul_sub, Matrix.sub_mul, Matrix.mul_assoc]
    abel
  have hpred : ∀ i < t.len, ∀ s, 0 ≤ s →
      (k.At 0 s * ((k.kalman t y R).get i).P * (k.At 0 s)ᵀ + k.Qt 0 s).PosSemidef ∧
      Loewner (k.At 0 s * ((k.kalman t y R).get i).P * (k.At 0 s)ᵀ + k.Qt 0 s) k.Pinf := by
    intro i hi s hs
    refine ⟨(psd_conj (hrec.psd hi).2 _).add (hk.Q_psd s hs), ?_⟩
    have h1 := (hrec.filt_le hi).trans (hk.pred_le_prior ht hR hS hi)
    have h2 := (h1.conj (k.At 0 s)).add_right (k.Qt 0 s)
    rw [hk.Q_eq s hs, add_sub_cancel] at h2
    rw [hk.Q_eq s hs]
    exact h2
  have hA : ∀ i, (k.condition t y R).1.get i = (k.kalman t y R).get i := fun _ => rfl
  set kn := searchsortedRight t x with hkn
  have hle : kn ≤ t.len := searchsorted_le x
  by_cases h0 : kn = 0
  · have hlt : x < t.get 0 := by
      by_contra h
      have := (searchsorted_lt_iff ht x hN).2 (not_lt.1 h)
      omega
    have e : (ssPredictPoint k.At k.Qt k.Pinf t (k.condition t y R).1 (k.condition t y R).2 x).P =
        k.Pinf + (solve ((k.kalman t y R).get 0).PPredᵀ (k.Pinf * (k.At 0 (t.get 0 - x))ᵀ)ᵀ)ᵀ *
          (((k.condition t y R).2.get 0).P - ((k.kalman t y R).get 0).PPred) *
          ((solve ((k.kalman t y R).get 0).PPredᵀ (k.Pinf * (k.At 0 (t.get 0 - x))ᵀ)ᵀ)ᵀ)ᵀ := by
      unfold ssPredictPoint
      simp only [← hkn, h0, if_true]
      rfl
    have hP0 : ((k.kalman t y R).get 0).PPred = k.At 0 (t.get 0 - x) * k.Pinf * (k.At 0 (t.get 0 - x))ᵀ + k.Qt 0 (t.get 0 - x) := by
      show ((kalmanFilter k.At k.Qt k.Ht R t y 0 k.Pinf).get 0).PPred = _
      rw [kf_zero_P, hk.A_zero, hk.Q_eq 0 le_rfl, hk.A_zero, hk.Q_eq _ (sub_nonneg.2 hlt.le)]
      simp
    rw [e]
    exact ⟨rts_psd hk.P_psd (hk.Q_psd _ (sub_nonneg.2 hlt.le)) hP0 (solve_gain (hP 0 hN) rfl) (hsm 0 hN).1,
      rts_le ((hsm 0 hN).2.trans (hrec.filt_le hN))⟩
  · by_cases h1 : t.len ≤ kn
    · have e : (ssPredictPoint k.At k.Qt k.Pinf t (k.condition t y R).1 (k.condition t y R).2 x).P =
          k.At 0 (x - t.get (t.len - 1)) * ((k.kalman t y R).get (t.len - 1)).P * (k.At 0 (x - t.get (t.len - 1)))ᵀ +
            k.Qt 0 (x - t.get (t.len - 1)) := by
        unfold ssPredictPoint
        simp only [← hkn, h0, if_false, h1, if_true]
        rfl
      have hge : 0 ≤ x - t.get (t.len - 1) :=
        sub_nonneg.2 ((searchsorted_lt_iff ht x (i := t.len - 1) (by omega)).1 (by omega))
      rw [e]
      exact hpred _ (by omega) _ hge
    · have hlt : kn < t.len := not_le.1 h1
      obtain ⟨j, hj⟩ : ∃ j, kn = j + 1 := ⟨kn - 1, by omega⟩
      have ha : 0 ≤ x - t.get j := sub_nonneg.2 ((searchsorted_lt_iff ht x (i := j) (by omega)).1 (by omega))
      have hb : 0 ≤ t.get (j + 1) - x := by
        by_contra h
        have := (searchsorted_lt_iff ht x (i := j + 1) (by omega)).2 (by linarith)
        omega
      have e : (ssPredictPoint k.At k.Qt k.Pinf t (k.condition t y R).1 (k.condition t y R).2 x).P =
          (k.At 0 (x - t.get j) * ((k.kalman t y R).get j).P * (k.At 0 (x - t.get j))ᵀ + k.Qt 0 (x - t.get j)) +
          (solve ((k.kalman t y R).get (j + 1)).PPredᵀ ((k.At 0 (x - t.get j) * ((k.kalman t y R).get j).P *
            (k.At 0 (x - t.get j))ᵀ + k.Qt 0 (x - t.get j)) * (k.At 0 (t.get (j + 1) - x))ᵀ)ᵀ)ᵀ *
          (((k.condition t y R).2.get (j + 1)).P - ((k.kalman t y R).get (j + 1)).PPred) *
          ((solve ((k.kalman t y R).get (j + 1)).PPredᵀ ((k.At 0 (x - t.get j) * ((k.kalman t y R).get j).P *
            (k.At 0 (x - t.get j))ᵀ + k.Qt 0 (x - t.get j)) * (k.At 0 (t.get (j + 1) - x))ᵀ)ᵀ)ᵀ)ᵀ := by
        unfold ssPredictPoint
        simp only [← hkn, h0, if_false, h1]
        simp only [hj, Nat.add_sub_cancel]
        rfl
      have hPn : ((k.kalman t y R).get (j + 1)).PPred = k.At 0 (t.get (j + 1) - x) *
          (k.At 0 (x - t.get j) * ((k.kalman t y R).get j).P * (k.At 0 (x - t.get j))ᵀ + k.Qt 0 (x - t.get j)) *
          (k.At 0 (t.get (j + 1) - x))ᵀ + k.Qt 0 (t.get (j + 1) - x) := by
        rw [← hcomp _ _ ha hb]
        have : x - t.get j + (t.get (j + 1) - x) = t.get (j + 1) - t.get j := by ring
        rw [this]
        exact kf_succ_P k.At k.Qt k.Ht R t y 0 k.Pinf j
      obtain ⟨p1, p2⟩ := hpred j (by omega) _ ha
      rw [e]
      exact ⟨rts_psd p1 (hk.Q_psd _ hb) hPn (solve_gain (hP (j + 1) (by omega)) rfl) (hsm (j + 1) (by omega)).1,
        (rts_le ((hsm (j + 1) (by omega)).2.trans (hrec.filt_le (by omega)))).trans p2⟩

end SSM.Proper

/-- **C16, states.** In every run of the filter and smoother that divides by no zero, all predicted, filtered and smoothed
covariances are symmetric positive semidefinite and the innovation variances are positive. Zero noise is allowed. -/
theorem C16_state_covariances_psd (k : SSM) (hk : k.Proper) (t y R : Arr ℝ) (ht : Sorted t)
    (hR : ∀ i < t.len, 0 ≤ R.get i) (hS : ∀ i < t.len, ((k.kalman t y R).get i).S 0 0 ≠ 0)
    (hP : ∀ i, i + 1 < t.len → IsUnit ((k.kalman t y R).get (i + 1)).PPred.det) (i : ℕ) (hi : i < t.len) :
    ((k.condition t y R).1.get i).PPred.PosSemidef ∧ ((k.condition t y R).1.get i).P.PosSemidef ∧
      ((k.condition t y R).2.get i).P.PosSemidef ∧ 0 < ((k.condition t y R).1.get i).S 0 0 := by
  have h := (hk.covRec ht hR hS).psd hi
  refine ⟨h.1, h.2, (hk.smooth_cov ht hR hS hP hi).1, lt_of_le_of_ne ?_ (hS i hi).symm⟩
  have : ((k.kalman t y R).get i).S 0 0 = (k.Ht (t.get i) * ((k.kalman t y R).get i).PPred * (k.Ht (t.get i))ᵀ) 0 0 + R.get i := rfl
  show 0 ≤ ((k.kalman t y R).get i).S 0 0
  rw [this]
  exact add_nonneg (psd_quad h.1 _) (hR i hi)

/-- **C16, reported variances.** For kernels built from the shipped classes and positive noise, every variance reported by
`condition` and by `predict` is non-negative. -/
theorem C16_variances_nonneg (k : SSM) (hk : BuiltIn k) (X : Arr Coord) (y R : Arr ℝ) (Xtest : Arr Coord)
    (hX : Sorted (X.map Coord.sortable)) (hN : 0 < X.len) (hR : ∀ i < X.len, 0 < R.get i) :
    (∀ i < X.len, 0 ≤ ((k.conditionedAtData X y R).get i).2) ∧ ∀ m, 0 ≤ ((k.predictAt X y R Xtest).get m).2 := by
  have hr := hk.regular
  have hS : ∀ i < X.len, ((k.kalman (X.map Coord.sortable) y R).get i).S 0 0 ≠ 0 := fun i hi => (hr.S_pos hX hN hR hi).ne'
  have hP : ∀ i < X.len, IsUnit ((k.kalman (X.map Coord.sortable) y R).get i).PPred.det := fun i hi => hr.P_unit hX hN hR hi
  constructor
  · intro i hi
    rw [conditionedAtData_get k X y R hi]
    exact psd_quad (hr.smooth_cov hX (fun i hi => (hR i hi).le) hS (fun i hi => hP _ hi) hi).1 _
  · intro m
    exact psd_quad (hr.predict_cov hX (fun i hi => (hR i hi).le) hS hN hP _).1 _

/-! ## C17 -/

/-- **C17, states.** Filtering does not increase the predicted covariance, smoothing does not increase the filtered one, and
neither exceeds the stationary covariance. -/
theorem C17_states_shrink (k : SSM) (hk : k.Proper) (t y R : Arr ℝ) (ht : Sorted t)
    (hR : ∀ i < t.len, 0 ≤ R.get i) (hS : ∀ i < t.len, ((k.kalman t y R).get i).S 0 0 ≠ 0)
    (hP : ∀ i, i + 1 < t.len → IsUnit ((k.kalman t y R).get (i + 1)).PPred.det) (i : ℕ) (hi : i < t.len) :
    Loewner ((k.condition t y R).1.get i).PPred k.Pinf ∧
      Loewner ((k.condition t y R).1.get i).P ((k.condition t y R).1.get i).PPred ∧
      Loewner ((k.condition t y R).2.get i).P ((k.condition t y R).1.get i).P :=
  ⟨hk.pred_le_prior ht hR hS hi, (hk.covRec ht hR hS).filt_le hi, (hk.smooth_cov ht hR hS hP hi).2⟩

theorem SSM.Proper.evaluate_self {k : SSM} (hk : k.Proper) (X : Coord) :
    k.evaluate X X = (k.obsModel X none * k.Pinf * (k.obsModel X none)ᵀ) 0 0 := by
  unfold SSM.evaluate
  simp only [lt_irrefl, if_false]
  rw [hk.shift_A, sub_self, hk.A_zero, Matrix.mul_one]

/-- **C17, reported variances.** Posterior variances never exceed the prior variance `kernel(X, X)`. -/
theorem C17_variances_le_prior (k : SSM) (hk : BuiltIn k) (X : Arr Coord) (y R : Arr ℝ) (Xtest : Arr Coord)
    (hX : Sorted (X.map Coord.sortable)) (hN : 0 < X.len) (hR : ∀ i < X.len, 0 < R.get i) :
    (∀ i < X.len, ((k.conditionedAtData X y R).get i).2 ≤ k.evaluate (X.get i) (X.get i)) ∧
      ∀ m, ((k.predictAt X y R Xtest).get m).2 ≤ k.evaluate (Xtest.get m) (Xtest.get m) := by
  have hr := hk.regular
  have hS : ∀ i < X.len, ((k.kalman (X.map Coord.sortable) y R).get i).S 0 0 ≠ 0 := fun i hi => (hr.S_pos hX hN hR hi).ne'
  have hP : ∀ i < X.len, IsUnit ((k.kalman (X.map Coord.sortable) y R).get i).PPred.det := fun i hi => hr.P_unit hX hN hR hi
  constructor
  · intro i hi
    rw [conditionedAtData_get k X y R hi, hr.evaluate_self]
    have h := C17_states_shrink k hr.toProper _ y R hX (fun i hi => (hR i hi).le) hS (fun i hi => hP _ hi) i hi
    exact (h.2.2.trans (h.2.1.trans h.1)).quad _
  · intro m
    rw [hr.evaluate_self]
    exact (hr.predict_cov hX (fun i hi => (hR i hi).le) hS hN hP _).2.quad _

/-! ### More data, less uncertainty -/

section dense
variable {ι κ : Type*} [Fintype ι] [DecidableEq ι] [Fintype κ] [DecidableEq κ]

/-- the posterior variance is the smallest mean squared error of a linear predictor -/
theorem postVar_le {K : Matrix ι ι ℝ} (hK : K.PosDef) (v : ℝ) (c w : ι → ℝ) :
    Spec.postVar K v c ≤ v - 2 * (w ⬝ᵥ c) + w ⬝ᵥ K *ᵥ w := by
  have hu := pd_det hK
  have hs := psd_symm hK.posSemidef
  have h := ((psd_iff K).1 hK.posSemidef).2 (w - K⁻¹ *ᵥ c)
  have e1 : K *ᵥ (K⁻¹ *ᵥ c) = c := by rw [mulVec_mulVec, Matrix.mul_nonsing_inv _ hu, one_mulVec]
  have e2 : (K⁻¹ *ᵥ c) ⬝ᵥ K *ᵥ w = w ⬝ᵥ c := by rw [symm_dot hs, e1]
  rw [mulVec_sub, e1, sub_dotProduct, dotProduct_sub, dotProduct_sub, e2, dotProduct_comm (K⁻¹ *ᵥ c) c] at h
  unfold Spec.postVar
  linarith

theorem postVar_eq {K : Matrix ι ι ℝ} (hK : K.PosDef) (v : ℝ) (c : ι → ℝ) :
    Spec.postVar K v c = v - 2 * ((K⁻¹ *ᵥ c) ⬝ᵥ c) + (K⁻¹ *ᵥ c) ⬝ᵥ K *ᵥ (K⁻¹ *ᵥ c) := by
  have hu := pd_det hK
  have e1 : K *ᵥ (K⁻¹ *ᵥ c) = c := by rw [mulVec_mulVec, Matrix.mul_nonsing_inv _ hu, one_mulVec]
  rw [e1, Spec.postVar, dotProduct_comm (K⁻¹ *ᵥ c) c]
  ring

theorem postVar_sub {K : Matrix ι ι ℝ} (hK : K.PosDef) (v : ℝ) (c : ι → ℝ) (f : κ → ι) (hf : Function.Injective f) :
    Spec.postVar K v c ≤ Spec.postVar (K.submatrix f f) v (c ∘ f) := by
  have hK' : (K.submatrix f f).PosDef := hK.submatrix hf
  rw [postVar_eq hK']
  set u := (K.submatrix f f)⁻¹ *ᵥ (c ∘ f)
  set w : ι → ℝ := fun i => ∑ j, if f j = i then u j else 0 with hw
  have hsum : ∀ g : ι → ℝ, w ⬝ᵥ g = u ⬝ᵥ (g ∘ f) := by
    intro g
    simp only [dotProduct, hw, Function.comp]
    simp_rw [Finset.sum_mul]
    rw [Finset.sum_comm]
    refine Finset.sum_congr rfl fun j _ => ?_
    simp [ite_mul]
  have h := postVar_le hK v c w
  rw [hsum, hsum] at h
  have e : (K *ᵥ w) ∘ f = K.submatrix f f *ᵥ u := by
    funext j
    show K (f j) ⬝ᵥ w = _
    rw [dotProduct_comm, hsum]
    simp only [mulVec, dotProduct, submatrix_apply, Function.comp]
    exact Finset.sum_congr rfl fun i _ => mul_comm _ _
  rwa [e] at h

end dense

theorem BuiltIn.leafCombos {k : SSM} (h : BuiltIn k) : Combos (Leaf SHO.Any) k := by
  induction h with
  | exp hs _ => exact .leaf (.exp hs)
  | matern32 hs _ => exact .leaf (.matern32 hs)
  | matern52 hs _ => exact .leaf (.matern52 hs)
  | matern hd hs _ => exact .leaf (.matern hd hs)
  | cosine hs _ => exact .leaf (.cosine hs)
  | expSineSquared hp hg _ => exact .leaf (.expSineSquared hp hg)
  | sho hw hq _ _ => exact .leaf (.sho hw hq trivial)
  | sum _ _ h1 h2 => exact .sum h1 h2
  | prod _ _ h1 h2 => exact .prod h1 h2

theorem dataGram_pd {k : SSM} (hk : BuiltIn k) (X : Arr Coord) (R : Arr ℝ) (hR : ∀ i < X.len, 0 < R.get i) :
    (dataGram k X R).PosDef := by
  have e : dataGram k X R = (Matrix.of fun i j : Fin X.len => k.evaluate (X.get i) (X.get j)) +
      Matrix.diagonal (fun i : Fin X.len => R.get i) := by
    ext i j
    simp [dataGram, Spec.noisyGram, Matrix.diagonal_apply]
  rw [e]
  exact Matrix.PosDef.posSemidef_add (C26_gram_psd k hk.leafCombos (fun i : Fin X.len => X.get i))
    (Matrix.PosDef.diagonal fun i => hR i i.2)

/-- **C17, more data.** Conditioning on a data set that contains the data `X` (in the same time order, possibly
interleaved with further measurements) gives predictive variances that are no larger, at every test coordinate. -/
theorem C17_more_data (k : SSM) (hk : BuiltIn k) (X X' : Arr Coord) (y R y' R' : Arr ℝ) (Xtest : Arr Coord)
    (hX : Sorted (X.map Coord.sortable)) (hX' : Sorted (X'.map Coord.sortable)) (hN : 0 < X.len)
    (hR' : ∀ i < X'.len, 0 < R'.get i) (f : Fin X.len → Fin X'.len) (hf : Function.Injective f)
    (hfX : ∀ i : Fin X.len, X.get i = X'.get (f i)) (hfR : ∀ i : Fin X.len, R.get i = R'.get (f i)) (m : ℕ) :
    ((k.predictAt X' y' R' Xtest).get m).2 ≤ ((k.predictAt X y R Xtest).get m).2 := by
  have hR : ∀ i < X.len, 0 < R.get i := fun i hi => by
    rw [hfR ⟨i, hi⟩]; exact hR' _ (f ⟨i, hi⟩).2
  have hN' : 0 < X'.len := lt_of_le_of_lt (Nat.zero_le _) (f ⟨0, hN⟩).2
  rw [C04_prediction_exact k hk.regular X y R Xtest hX hN hR m, C04_prediction_exact k hk.regular X' y' R' Xtest hX' hN' hR' m]
  have e1 : dataGram k X R = (dataGram k X' R').submatrix f f := by
    ext i j
    simp only [dataGram, Spec.noisyGram, Matrix.of_apply, submatrix_apply, hfX, hfR, hf.eq_iff]
  have e2 : (fun j : Fin X.len => k.evaluate (Xtest.get m) (X.get j)) =
      (fun j : Fin X'.len => k.evaluate (Xtest.get m) (X'.get j)) ∘ f := by
    funext j; simp only [Function.comp, hfX]
  show Spec.postVar _ _ _ ≤ Spec.postVar _ _ _
  rw [e1, e2]
  exact postVar_sub (dataGram_pd hk X' R' hR') _ _ f hf

section examples
example := C16_variances_nonneg _ ex_builtin exX exY exR exX exX_sorted (by norm_num [exX]) exR_pos
example := C16_state_covariances_psd _ ex_builtin.regular.toProper _ exY exR exX_sorted (fun i hi => (exR_pos i hi).le)
  (fun i hi => (ex_builtin.regular.S_pos exX_sorted (by norm_num [exX]) exR_pos hi).ne')
  (fun i hi => ex_builtin.regular.P_unit exX_sorted (by norm_num [exX]) exR_pos hi) 1 (by norm_num [exX, Arr.map])
example := C17_states_shrink _ ex_builtin.regular.toProper _ exY exR exX_sorted (fun i hi => (exR_pos i hi).le)
  (fun i hi => (ex_builtin.regular.S_pos exX_sorted (by norm_num [exX]) exR_pos hi).ne')
  (fun i hi => ex_builtin.regular.P_unit exX_sorted (by norm_num [exX]) exR_pos hi) 1 (by norm_num [exX, Arr.map])
example := C17_variances_le_prior _ ex_builtin exX exY exR exX exX_sorted (by norm_num [exX]) exR_pos
/-- the first two of the three data points -/
example (Xtest : Arr Coord) := C17_more_data _ ex_builtin ⟨2, exX.get⟩ exX exY exR exY exR Xtest
  (fun i j hij hj => exX_sorted i j hij (by have : j < 2 := hj; show j < 3; omega)) exX_sorted (by norm_num) exR_pos
  (fun i => ⟨i.1, by have := i.2; show i.1 < 3; have : i.1 < 2 := i.2; omega⟩)
  (fun i j h => Fin.ext (by simpa using h)) (fun _ => rfl) (fun _ => rfl) 0
end examples

end Verif
