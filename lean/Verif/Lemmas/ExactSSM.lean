import Verif.Lemmas.Predict
import Verif.Spec.Proper

/-!
# Exactness of the sequential solver for a proper kernel
-/

set_option linter.unusedSectionVars false

namespace Verif
open Matrix

namespace Chain
variable {V : Type*} [AddCommGroup V] [Module ℝ V] {n : Type*} [Fintype n] [DecidableEq n]
  {B : LinearMap.BilinForm ℝ V} {φ : V →ₗ[ℝ] ℝ} {c : Chain B φ n}
  {N : ℕ} {mp mf : ℕ → n → ℝ} {Pp Pf : ℕ → Matrix n n ℝ}

/-- `Filter.likelihood` with any enumeration of the observed steps. -/
theorem Filter.likelihood_equiv {ι : Type*} [Fintype ι] [DecidableEq ι] (e : ι ≃ Obs c N)
    (f : c.Filter N mp Pp mf Pf)
    (S v : ℕ → ℝ) (hS : ∀ k < N, c.isObs k = true → S k = (c.H k * Pp k * (c.H k)ᵀ) 0 0 + c.R k)
    (hv : ∀ k < N, c.isObs k = true → v k = c.y k - (c.H k *ᵥ mp k) 0)
    (hS0 : ∀ k < N, c.isObs k = true → S k ≠ 0)
    (K : Matrix ι ι ℝ) (hK : ∀ i j, K i j = B (c.Y (e i).1) (c.Y (e j).1)) :
    K.det = ∏ i : ι, S (e i).1 ∧
    (fun i : ι => c.y (e i).1) ⬝ᵥ K⁻¹ *ᵥ (fun i : ι => c.y (e i).1) = ∑ i : ι, (v (e i).1) ^ 2 / S (e i).1 := by
  obtain ⟨h1, h2⟩ := f.likelihood S v hS hv hS0 (K.submatrix e.symm e.symm) (fun i j => by
    rw [submatrix_apply, hK, e.apply_symm_apply, e.apply_symm_apply])
  constructor
  · rw [← Matrix.det_submatrix_equiv_self e.symm K, h1, ← e.prod_comp]
  · rw [← e.sum_comp] at h2
    rw [← h2, Matrix.inv_submatrix_equiv]
    have : (K⁻¹).submatrix e.symm e.symm *ᵥ (fun i : Obs c N => c.y i.1)
        = fun i => (K⁻¹ *ᵥ (fun i : ι => c.y (e i).1)) (e.symm i) := by
      funext i
      simp only [mulVec, dotProduct, submatrix_apply]
      rw [← e.sum_comp]
      simp
    rw [this]
    simp only [dotProduct]
    rw [← e.sum_comp]
    simp

theorem U_eq_span_equiv {ι : Type*} (e : ι ≃ Obs c N) :
    c.U N = Submodule.span ℝ (Set.range fun i : ι => c.Y (e i).1) := by
  rw [U_eq_span_range]
  congr 1
  exact (e.surjective.range_comp (fun k : Obs c N => c.Y k.1)).symm

end Chain

/-- sum of innovation terms is the Gaussian log density -/
theorem logDensity_of_innovations {ι : Type*} [Fintype ι] [DecidableEq ι] {K : Matrix ι ι ℝ} {y : ι → ℝ}
    {S v : ι → ℝ} (hS : ∀ i, 0 < S i) (hdet : K.det = ∏ i, S i)
    (hq : y ⬝ᵥ K⁻¹ *ᵥ y = ∑ i, v i ^ 2 / S i) :
    Spec.gaussLogDensity K y = -(1 / 2) * ∑ i, ((v i / Real.sqrt (S i)) ^ 2 + 2 * Real.log (Real.sqrt (S i)) +
      1 * Real.log (2 * Real.pi)) := by
  unfold Spec.gaussLogDensity
  rw [hdet, hq, Real.log_prod (fun i _ => (hS i).ne')]
  simp only [Finset.sum_add_distrib, Finset.sum_const, Finset.card_univ, nsmul_eq_mul]
  have : ∀ i, (v i / Real.sqrt (S i)) ^ 2 = v i ^ 2 / S i := fun i => by
    rw [div_pow, Real.sq_sqrt (hS i).le]
  simp only [this]
  have : ∀ i, 2 * Real.log (Real.sqrt (S i)) = Real.log (S i) := fun i => by
    rw [Real.log_sqrt (hS i).le]; ring
  simp only [this]
  ring

namespace SSM.Proper
variable {k : SSM} (hk : k.Proper)
include hk

theorem stat : StatModel (k.At 0) (k.Qt 0) k.Pinf where
  zero := hk.A_zero
  add := hk.A_add
  noise := hk.Q_eq
  symm := psd_symm hk.P_psd

/-- the kernel function is the covariance of the projected states -/
theorem evaluate_eq (R : ℕ → ℝ) (X1 X2 : Coord) : k.evaluate X1 X2 =
    hk.stat.gm.B R (lin (k.obsModel X1 none) (GM.x X1.sortable) 0) (lin (k.obsModel X2 none) (GM.x X2.sortable) 0) := by
  have e1 := hk.H_const X1
  have e2 := hk.H_const X2
  set h := k.obsModel (.time 0) none with hh
  have key : hk.stat.gm.B R (lin h (GM.x X1.sortable) 0) (lin h (GM.x X2.sortable) 0)
      = (h * hk.stat.gm.C X1.sortable X2.sortable * hᵀ) 0 0 := by
    rw [Matrix.mul_assoc, Matrix.mul_apply, B_lin_left]
    refine Finset.sum_congr rfl fun i _ => ?_
    rw [B_lin_right, Matrix.mul_apply]
    congr 1
    exact Finset.sum_congr rfl fun j _ => by rw [GM.B_xx, transpose_apply, mul_comm]
  rw [e1, e2, key]
  unfold SSM.evaluate
  simp only [e1, e2]
  split_ifs with hlt
  · rw [GM.C_of_le _ hlt.le, hk.shift_A, ← Matrix.mul_assoc]
    rfl
  · rw [GM.C_of_ge _ (not_lt.1 hlt), hk.shift_A, ← Matrix.mul_assoc]
    rfl

variable {X : Arr Coord} {y R : Arr ℝ} (hX : Sorted (X.map Coord.sortable)) (hN : 0 < X.len)
include hX hN

/-- the observations of the data chain -/
theorem chain_Y {i : ℕ} (hi : i < X.len) :
    (dataChain hk.stat k.Ht R (X.map Coord.sortable) y hX hN).Y i =
      lin (k.obsModel (X.get i) none) (GM.x (X.get i).sortable) 0 + GM.r i := by
  show lin (k.Ht _) (GM.x (tau (X.map Coord.sortable) i)) 0 + GM.r i = _
  rw [tau_eq _ (by exact hi), hk.H_const (X.get i)]
  have : k.Ht ((X.map Coord.sortable).get i) = k.obsModel (.time 0) none := hk.H_const _
  rw [this]
  rfl

theorem chain_cov (i j : Fin X.len) :
    Spec.noisyGram (fun i j : Fin X.len => k.evaluate (X.get i) (X.get j)) (fun i => R.get i) i j =
    hk.stat.gm.B R.get ((dataChain hk.stat k.Ht R (X.map Coord.sortable) y hX hN).Y i)
      ((dataChain hk.stat k.Ht R (X.map Coord.sortable) y hX hN).Y j) := by
  rw [hk.chain_Y hX hN i.2, hk.chain_Y hX hN j.2]
  simp only [map_add, LinearMap.add_apply]
  rw [← hk.evaluate_eq, GM.B_rr, GM.B_symm _ _ (lin _ _ _) (GM.r _), B_lin_right, B_lin_right]
  simp only [GM.B_rx, mul_zero, Finset.sum_const_zero, zero_add, add_zero]
  simp [Spec.noisyGram, Fin.ext_iff]

theorem chain_cross (Xs : Coord) (j : Fin X.len) :
    k.evaluate Xs (X.get j) =
    hk.stat.gm.B R.get (lin (k.obsModel Xs none) (GM.x Xs.sortable) 0)
      ((dataChain hk.stat k.Ht R (X.map Coord.sortable) y hX hN).Y j) := by
  rw [hk.chain_Y hX hN j.2, map_add, ← hk.evaluate_eq, GM.B_symm, B_lin_right]
  simp [GM.B_rx]

/-- all steps are observed -/
def obsEquiv : Fin X.len ≃ Chain.Obs (dataChain hk.stat k.Ht R (X.map Coord.sortable) y hX hN) X.len :=
  (Equiv.subtypeUnivEquiv (fun _ => rfl)).symm

theorem S_pos (hR : ∀ i < X.len, 0 < R.get i) {i : ℕ} (hi : i < X.len) :
    0 < ((k.kalman (X.map Coord.sortable) y R).get i).S 0 0 :=
  kf_S_pos (t := X.map Coord.sortable) hX hk.P_psd hk.Q_psd hR hi

theorem gram_det (hS : ∀ i < X.len, ((k.kalman (X.map Coord.sortable) y R).get i).S 0 0 ≠ 0) :
    (Spec.noisyGram (fun i j : Fin X.len => k.evaluate (X.get i) (X.get j)) (fun i => R.get i)).det =
      ∏ i : Fin X.len, ((k.kalman (X.map Coord.sortable) y R).get i).S 0 0 ∧
    (fun i : Fin X.len => y.get i) ⬝ᵥ
      (Spec.noisyGram (fun i j : Fin X.len => k.evaluate (X.get i) (X.get j)) (fun i => R.get i))⁻¹ *ᵥ
      (fun i : Fin X.len => y.get i) =
      ∑ i : Fin X.len, (((k.kalman (X.map Coord.sortable) y R).get i).v 0) ^ 2 /
        ((k.kalman (X.map Coord.sortable) y R).get i).S 0 0 := by
  have hf := filter_isFilter (t := X.map Coord.sortable) (R := R) (y := y) (H := k.Ht) hk.stat hX hN
    hS
  exact hf.likelihood_equiv (hk.obsEquiv hX hN)
    (fun i => ((k.kalman (X.map Coord.sortable) y R).get i).S 0 0)
    (fun i => ((k.kalman (X.map Coord.sortable) y R).get i).v 0)
    (fun i _ _ => rfl) (fun i _ _ => rfl) (fun i hi _ => hS i hi) _
    (fun i j => hk.chain_cov hX hN i j)

theorem gram_unit (hS : ∀ i < X.len, ((k.kalman (X.map Coord.sortable) y R).get i).S 0 0 ≠ 0) :
    IsUnit (Spec.noisyGram (fun i j : Fin X.len => k.evaluate (X.get i) (X.get j)) (fun i => R.get i)).det := by
  rw [(hk.gram_det (y := y) hX hN hS).1]
  exact isUnit_iff_ne_zero.2 (Finset.prod_ne_zero_iff.2 fun i _ => hS i i.2)

/-- projected smoothed states are the dense posterior -/
theorem smoothed_dense (hS : ∀ i < X.len, ((k.kalman (X.map Coord.sortable) y R).get i).S 0 0 ≠ 0)
    (hP : ∀ i, i + 1 < X.len → IsUnit ((k.kalman (X.map Coord.sortable) y R).get (i + 1)).PPred.det) {i : ℕ} (hi : i < X.len) :
    (k.obsModel (X.get i) none *ᵥ ((k.condition (X.map Coord.sortable) y R).2.get i).m) 0 =
      Spec.postMean (Spec.noisyGram (fun i j : Fin X.len => k.evaluate (X.get i) (X.get j)) (fun i => R.get i))
        (fun i => y.get i) (fun j => k.evaluate (X.get i) (X.get j)) ∧
    (k.obsModel (X.get i) none * ((k.condition (X.map Coord.sortable) y R).2.get i).P *
      (k.obsModel (X.get i) none)ᵀ) 0 0 =
      Spec.postVar (Spec.noisyGram (fun i j : Fin X.len => k.evaluate (X.get i) (X.get j)) (fun i => R.get i))
        (k.evaluate (X.get i) (X.get i)) (fun j => k.evaluate (X.get i) (X.get j)) := by
  obtain ⟨Xh, h⟩ := smoothed_est (t := X.map Coord.sortable) (R := R) (y := y) (H := k.Ht) hk.stat hX hN
    hS hP (k := i) hi
  have hspan := Chain.U_eq_span_equiv (hk.obsEquiv (R := R) (y := y) hX hN)
  have := IsEst.dense_scalar (hk.stat.gm.B_symm R.get) _
    (Eq.mp (congrArg (fun W => IsEst _ _ W _ _ _ _) hspan) h) _
    (fun i j => hk.chain_cov hX hN i j) (hk.gram_unit hX hN hS) (k.obsModel (X.get i) none)
  have e1 : (fun j : Fin X.len => hk.stat.gm.B R.get
      (lin (k.obsModel (X.get i) none) (GM.x (X.get i).sortable) 0)
      ((dataChain hk.stat k.Ht R (X.map Coord.sortable) y hX hN).Y j)) =
      fun j : Fin X.len => k.evaluate (X.get i) (X.get j) := funext fun j => (hk.chain_cross hX hN _ j).symm
  have e2 : (fun j : Fin X.len => GM.φ k.n y.get
      ((dataChain hk.stat k.Ht R (X.map Coord.sortable) y hX hN).Y j)) = fun j : Fin X.len => y.get j :=
    funext fun j => (dataChain hk.stat k.Ht R (X.map Coord.sortable) y hX hN).hy j
  have e3 := hk.evaluate_eq R.get (X.get i) (X.get i)
  rw [e3, ← e1, ← e2]
  exact this

/-- projected predictions are the dense posterior -/
theorem predicted_dense (hS : ∀ i < X.len, ((k.kalman (X.map Coord.sortable) y R).get i).S 0 0 ≠ 0)
    (hP : ∀ i < X.len, IsUnit ((k.kalman (X.map Coord.sortable) y R).get i).PPred.det) (Xs : Coord) :
    (k.obsModel Xs none *ᵥ (ssPredictPoint k.At k.Qt k.Pinf (X.map Coord.sortable)
      (k.condition (X.map Coord.sortable) y R).1 (k.condition (X.map Coord.sortable) y R).2 Xs.sortable).m) 0 =
      Spec.postMean (Spec.noisyGram (fun i j : Fin X.len => k.evaluate (X.get i) (X.get j)) (fun i => R.get i))
        (fun i => y.get i) (fun j => k.evaluate Xs (X.get j)) ∧
    (k.obsModel Xs none * (ssPredictPoint k.At k.Qt k.Pinf (X.map Coord.sortable)
      (k.condition (X.map Coord.sortable) y R).1 (k.condition (X.map Coord.sortable) y R).2 Xs.sortable).P *
      (k.obsModel Xs none)ᵀ) 0 0 =
      Spec.postVar (Spec.noisyGram (fun i j : Fin X.len => k.evaluate (X.get i) (X.get j)) (fun i => R.get i))
        (k.evaluate Xs Xs) (fun j => k.evaluate Xs (X.get j)) := by
  obtain ⟨Xh, h⟩ := predict_est (t := X.map Coord.sortable) (R := R) (y := y) (H := k.Ht) hk.stat hX hN
    hS hP Xs.sortable
  have hspan := Chain.U_eq_span_equiv (hk.obsEquiv (R := R) (y := y) hX hN)
  have := IsEst.dense_scalar (hk.stat.gm.B_symm R.get) _
    (Eq.mp (congrArg (fun W => IsEst _ _ W _ _ _ _) hspan) h) _
    (fun i j => hk.chain_cov hX hN i j) (hk.gram_unit hX hN hS) (k.obsModel Xs none)
  have e1 : (fun j : Fin X.len => hk.stat.gm.B R.get
      (lin (k.obsModel Xs none) (GM.x Xs.sortable) 0)
      ((dataChain hk.stat k.Ht R (X.map Coord.sortable) y hX hN).Y j)) =
      fun j : Fin X.len => k.evaluate Xs (X.get j) := funext fun j => (hk.chain_cross hX hN _ j).symm
  have e2 : (fun j : Fin X.len => GM.φ k.n y.get
      ((dataChain hk.stat k.Ht R (X.map Coord.sortable) y hX hN).Y j)) = fun j : Fin X.len => y.get j :=
    funext fun j => (dataChain hk.stat k.Ht R (X.map Coord.sortable) y hX hN).hy j
  have e3 := hk.evaluate_eq R.get Xs Xs
  rw [e3, ← e1, ← e2]
  exact this

end SSM.Proper

namespace SSM.Regular
variable {k : SSM} (hk : k.Regular)
include hk
variable {X : Arr Coord} {y R : Arr ℝ} (hX : Sorted (X.map Coord.sortable)) (hN : 0 < X.len)
include hX hN

theorem P_unit (hR : ∀ i < X.len, 0 < R.get i) {i : ℕ} (hi : i < X.len) :
    IsUnit ((k.kalman (X.map Coord.sortable) y R).get i).PPred.det :=
  pd_det (kf_pd (t := X.map Coord.sortable) hX hk.P_pd hk.Q_psd hk.A_unit hR hi).1

end SSM.Regular

end Verif
