import Verif.Lemmas.RowExact
import Verif.Model.UserKernel
import Verif.Model.GPCore
import Verif.Lemmas.LogProb

/-!
# Exactness of the sequential solver when the observation row varies with time
-/

set_option linter.unusedSectionVars false

namespace Verif
open Matrix

/-- a kernel whose state is that of a regular kernel and whose observation row is a function of time -/
structure SSM.Moving (k : SSM) (h : ℝ → Matrix (Fin 1) k.n ℝ) : Prop where
  frozen : (SSM.observing "" k fun _ => 0).Regular
  H_time : ∀ X : Coord, k.obsModel X none = h X.sortable

/-- the covariance of the noise-free observations at two times -/
noncomputable def SSM.timeCov (k : SSM) (s t : ℝ) : ℝ := if s < t then k.evaluate (.time t) (.time s) else k.evaluate (.time s) (.time t)

namespace SSM.Moving
variable {k : SSM} {h : ℝ → Matrix (Fin 1) k.n ℝ} (hk : k.Moving h)
include hk

theorem stat : StatModel (k.At 0) (k.Qt 0) k.Pinf := hk.frozen.toProper.stat

theorem Ht_eq (t : ℝ) : k.Ht t = h t := hk.H_time (.time t)

theorem evaluate_of_ge {X1 X2 : Coord} (hle : X2.sortable ≤ X1.sortable) :
    k.evaluate X1 X2 = (h X1.sortable * k.At 0 (X1.sortable - X2.sortable) * k.Pinf * (h X2.sortable)ᵀ) 0 0 := by
  unfold SSM.evaluate
  have e : k.A X2 X1 = k.At 0 (X1.sortable - X2.sortable) := hk.frozen.shift_A X2 X1
  simp only [hk.H_time, if_neg (not_lt.2 hle), e]

theorem timeCov_symm (s t : ℝ) : k.timeCov s t = k.timeCov t s := by
  unfold SSM.timeCov
  rcases lt_trichotomy s t with hl | rfl | hl
  · rw [if_pos hl, if_neg (not_lt.2 hl.le)]
  · rfl
  · rw [if_pos hl, if_neg (not_lt.2 hl.le)]

theorem timeCov_eq (R : ℕ → ℝ) (s t : ℝ) : k.timeCov s t =
    hk.stat.gm.B R (lin (h s) (GM.x s) 0) (lin (h t) (GM.x t) 0) := by
  have key : ∀ s t, t ≤ s → k.evaluate (.time s) (.time t) = hk.stat.gm.B R (lin (h s) (GM.x s) 0) (lin (h t) (GM.x t) 0) := fun s t hst => by
    have e := hk.frozen.toProper.B_rows R (h s) (h t) s t
    rw [GM.C_of_ge _ hst] at e
    rw [hk.evaluate_of_ge (X1 := .time s) (X2 := .time t) hst]
    refine Eq.trans ?_ e.symm
    exact congrFun (congrFun (congrArg (· * (h t)ᵀ) (Matrix.mul_assoc (h s) (k.At 0 (s - t)) k.Pinf)) 0) 0
  unfold SSM.timeCov
  split_ifs with hlt
  · rw [key _ _ hlt.le, GM.B_symm]
  · exact key _ _ (not_lt.1 hlt)

variable {X : Arr Coord} {y R : Arr ℝ} (hX : Sorted (X.map Coord.sortable)) (hN : 0 < X.len)
include hX hN

theorem chain_Y {i : ℕ} (hi : i < X.len) :
    (dataChain hk.stat k.Ht R (X.map Coord.sortable) y hX hN).Y i = lin (h (X.get i).sortable) (GM.x (X.get i).sortable) 0 + GM.r i := by
  show lin (k.Ht _) (GM.x (tau (X.map Coord.sortable) i)) 0 + GM.r i = _
  rw [tau_eq _ (by exact hi), hk.Ht_eq]
  rfl

theorem chain_cov (i j : Fin X.len) :
    Spec.noisyGram (fun i j : Fin X.len => k.timeCov (X.get i).sortable (X.get j).sortable) (fun i => R.get i) i j =
    hk.stat.gm.B R.get ((dataChain hk.stat k.Ht R (X.map Coord.sortable) y hX hN).Y i)
      ((dataChain hk.stat k.Ht R (X.map Coord.sortable) y hX hN).Y j) := by
  rw [hk.chain_Y hX hN i.2, hk.chain_Y hX hN j.2]
  simp only [map_add, LinearMap.add_apply]
  rw [← hk.timeCov_eq, GM.B_rr, GM.B_symm _ _ (lin _ _ _) (GM.r _), B_lin_right, B_lin_right]
  simp only [GM.B_rx, mul_zero, Finset.sum_const_zero, zero_add, add_zero]
  simp [Spec.noisyGram, Fin.ext_iff]

theorem chain_cross (s : ℝ) (j : Fin X.len) :
    k.timeCov s (X.get j).sortable =
    hk.stat.gm.B R.get (lin (h s) (GM.x s) 0) ((dataChain hk.stat k.Ht R (X.map Coord.sortable) y hX hN).Y j) := by
  rw [hk.chain_Y hX hN j.2, map_add, ← hk.timeCov_eq, GM.B_symm, B_lin_right]
  simp [GM.B_rx]

/-- all steps are observed -/
def obsEquiv : Fin X.len ≃ Chain.Obs (dataChain hk.stat k.Ht R (X.map Coord.sortable) y hX hN) X.len :=
  (Equiv.subtypeUnivEquiv (fun _ => rfl)).symm

theorem S_pos (hR : ∀ i < X.len, 0 < R.get i) {i : ℕ} (hi : i < X.len) :
    0 < ((k.kalman (X.map Coord.sortable) y R).get i).S 0 0 :=
  kf_S_pos (t := X.map Coord.sortable) hX hk.frozen.P_psd hk.frozen.Q_psd hR hi

theorem P_unit (hR : ∀ i < X.len, 0 < R.get i) {i : ℕ} (hi : i < X.len) :
    IsUnit ((k.kalman (X.map Coord.sortable) y R).get i).PPred.det :=
  pd_det (kf_pd (t := X.map Coord.sortable) hX hk.frozen.P_pd hk.frozen.Q_psd hk.frozen.A_unit hR hi).1

theorem gram_det (hS : ∀ i < X.len, ((k.kalman (X.map Coord.sortable) y R).get i).S 0 0 ≠ 0) :
    (Spec.noisyGram (fun i j : Fin X.len => k.timeCov (X.get i).sortable (X.get j).sortable) (fun i => R.get i)).det =
      ∏ i : Fin X.len, ((k.kalman (X.map Coord.sortable) y R).get i).S 0 0 ∧
    (fun i : Fin X.len => y.get i) ⬝ᵥ
      (Spec.noisyGram (fun i j : Fin X.len => k.timeCov (X.get i).sortable (X.get j).sortable) (fun i => R.get i))⁻¹ *ᵥ
      (fun i : Fin X.len => y.get i) =
      ∑ i : Fin X.len, (((k.kalman (X.map Coord.sortable) y R).get i).v 0) ^ 2 /
        ((k.kalman (X.map Coord.sortable) y R).get i).S 0 0 := by
  have hf := filter_isFilter (t := X.map Coord.sortable) (R := R) (y := y) (H := k.Ht) hk.stat hX hN
    hS
  exact hf.likelihood_equiv (hk.obsEquiv hX hN)
    (fun i => ((k.kalman (X.map Coord.sortable) y R).get i).S 0 0)
    (fun i => ((k.kalman (X.map Coord.sortable) y R).get i).v 0)
    (fun i _ _ => rfl) (fun i _ _ => rfl) (fun i hi _ => hS i hi) _
    (fun i j => hk.chain_cov hX hN i j)

theorem gram_unit (hS : ∀ i < X.len, ((k.kalman (X.map Coord.sortable) y R).get i).S 0 0 ≠ 0) :
    IsUnit (Spec.noisyGram (fun i j : Fin X.len => k.timeCov (X.get i).sortable (X.get j).sortable) (fun i => R.get i)).det := by
  rw [(hk.gram_det (y := y) hX hN hS).1]
  exact isUnit_iff_ne_zero.2 (Finset.prod_ne_zero_iff.2 fun i _ => hS i i.2)

theorem log_probability (hR : ∀ i < X.len, 0 < R.get i) : k.logProbability (X.map Coord.sortable) y R =
    ((Spec.gaussLogDensity (Spec.noisyGram (fun i j : Fin X.len => k.timeCov (X.get i).sortable (X.get j).sortable) (fun i => R.get i))
      (fun i => y.get i) : ℝ) : EReal) := by
  have hS : ∀ i < X.len, 0 < ((k.kalman (X.map Coord.sortable) y R).get i).S 0 0 := fun i hi => hk.S_pos hX hN hR hi
  have hlp : k.logProbability (X.map Coord.sortable) y R = ((-(1 / 2) * ∑ i : Fin X.len,
      ((((k.kalman (X.map Coord.sortable) y R).get i).v 0 /
        Real.sqrt (((k.kalman (X.map Coord.sortable) y R).get i).S 0 0)) ^ 2 +
      2 * Real.log (Real.sqrt (((k.kalman (X.map Coord.sortable) y R).get i).S 0 0)) +
      1 * Real.log (2 * Real.pi)) : ℝ) : EReal) := by
    exact computeLogProb_eq ((k.kalman (X.map Coord.sortable) y R).map FilterOut.v)
      ((k.kalman (X.map Coord.sortable) y R).map FilterOut.S) hS
  rw [hlp]
  congr 1
  obtain ⟨h1, h2⟩ := hk.gram_det (y := y) (R := R) hX hN (fun i hi => (hS i hi).ne')
  exact (logDensity_of_innovations (fun i : Fin X.len => hS i i.2) h1 h2).symm

/-- projected smoothed states are the dense posterior -/
theorem smoothed_dense (hR : ∀ i < X.len, 0 < R.get i) {i : ℕ} (hi : i < X.len) :
    (k.obsModel (X.get i) none *ᵥ ((k.condition (X.map Coord.sortable) y R).2.get i).m) 0 =
      Spec.postMean (Spec.noisyGram (fun i j : Fin X.len => k.timeCov (X.get i).sortable (X.get j).sortable) (fun i => R.get i))
        (fun i => y.get i) (fun j => k.timeCov (X.get i).sortable (X.get j).sortable) ∧
    (k.obsModel (X.get i) none * ((k.condition (X.map Coord.sortable) y R).2.get i).P * (k.obsModel (X.get i) none)ᵀ) 0 0 =
      Spec.postVar (Spec.noisyGram (fun i j : Fin X.len => k.timeCov (X.get i).sortable (X.get j).sortable) (fun i => R.get i))
        (k.timeCov (X.get i).sortable (X.get i).sortable) (fun j => k.timeCov (X.get i).sortable (X.get j).sortable) := by
  have hS : ∀ i < X.len, ((k.kalman (X.map Coord.sortable) y R).get i).S 0 0 ≠ 0 := fun i hi => (hk.S_pos hX hN hR hi).ne'
  obtain ⟨Xh, he⟩ := smoothed_est (t := X.map Coord.sortable) (R := R) (y := y) (H := k.Ht) hk.stat hX hN
    hS (fun i hi => hk.P_unit hX hN hR hi) (k := i) hi
  have hspan := Chain.U_eq_span_equiv (hk.obsEquiv (R := R) (y := y) hX hN)
  have := IsEst.dense_scalar (hk.stat.gm.B_symm R.get) _
    (Eq.mp (congrArg (fun W => IsEst _ _ W _ _ _ _) hspan) he) _
    (fun i j => hk.chain_cov hX hN i j) (hk.gram_unit hX hN hS) (h (X.get i).sortable)
  have e1 : (fun j : Fin X.len => hk.stat.gm.B R.get
      (lin (h (X.get i).sortable) (GM.x (X.get i).sortable) 0)
      ((dataChain hk.stat k.Ht R (X.map Coord.sortable) y hX hN).Y j)) =
      fun j : Fin X.len => k.timeCov (X.get i).sortable (X.get j).sortable := funext fun j => (hk.chain_cross hX hN _ j).symm
  have e2 : (fun j : Fin X.len => GM.φ k.n y.get
      ((dataChain hk.stat k.Ht R (X.map Coord.sortable) y hX hN).Y j)) = fun j : Fin X.len => y.get j :=
    funext fun j => (dataChain hk.stat k.Ht R (X.map Coord.sortable) y hX hN).hy j
  have e3 := hk.timeCov_eq R.get (X.get i).sortable (X.get i).sortable
  rw [hk.H_time, e3, ← e1, ← e2]
  exact this

/-- projected predictions are the dense posterior -/
theorem predicted_dense (hR : ∀ i < X.len, 0 < R.get i) (Xs : Coord) :
    (k.obsModel Xs none *ᵥ (ssPredictPoint k.At k.Qt k.Pinf (X.map Coord.sortable)
      (k.condition (X.map Coord.sortable) y R).1 (k.condition (X.map Coord.sortable) y R).2 Xs.sortable).m) 0 =
      Spec.postMean (Spec.noisyGram (fun i j : Fin X.len => k.timeCov (X.get i).sortable (X.get j).sortable) (fun i => R.get i))
        (fun i => y.get i) (fun j => k.timeCov Xs.sortable (X.get j).sortable) ∧
    (k.obsModel Xs none * (ssPredictPoint k.At k.Qt k.Pinf (X.map Coord.sortable)
      (k.condition (X.map Coord.sortable) y R).1 (k.condition (X.map Coord.sortable) y R).2 Xs.sortable).P *
      (k.obsModel Xs none)ᵀ) 0 0 =
      Spec.postVar (Spec.noisyGram (fun i j : Fin X.len => k.timeCov (X.get i).sortable (X.get j).sortable) (fun i => R.get i))
        (k.timeCov Xs.sortable Xs.sortable) (fun j => k.timeCov Xs.sortable (X.get j).sortable) := by
  have hS : ∀ i < X.len, ((k.kalman (X.map Coord.sortable) y R).get i).S 0 0 ≠ 0 := fun i hi => (hk.S_pos hX hN hR hi).ne'
  obtain ⟨Xh, he⟩ := predict_est (t := X.map Coord.sortable) (R := R) (y := y) (H := k.Ht) hk.stat hX hN
    hS (fun i hi => hk.P_unit hX hN hR hi) Xs.sortable
  have hspan := Chain.U_eq_span_equiv (hk.obsEquiv (R := R) (y := y) hX hN)
  have := IsEst.dense_scalar (hk.stat.gm.B_symm R.get) _
    (Eq.mp (congrArg (fun W => IsEst _ _ W _ _ _ _) hspan) he) _
    (fun i j => hk.chain_cov hX hN i j) (hk.gram_unit hX hN hS) (h Xs.sortable)
  have e1 : (fun j : Fin X.len => hk.stat.gm.B R.get
      (lin (h Xs.sortable) (GM.x Xs.sortable) 0)
      ((dataChain hk.stat k.Ht R (X.map Coord.sortable) y hX hN).Y j)) =
      fun j : Fin X.len => k.timeCov Xs.sortable (X.get j).sortable := funext fun j => (hk.chain_cross hX hN _ j).symm
  have e2 : (fun j : Fin X.len => GM.φ k.n y.get
      ((dataChain hk.stat k.Ht R (X.map Coord.sortable) y hX hN).Y j)) = fun j : Fin X.len => y.get j :=
    funext fun j => (dataChain hk.stat k.Ht R (X.map Coord.sortable) y hX hN).hy j
  have e3 := hk.timeCov_eq R.get Xs.sortable Xs.sortable
  rw [hk.H_time, e3, ← e1, ← e2]
  exact this

end SSM.Moving
end Verif
