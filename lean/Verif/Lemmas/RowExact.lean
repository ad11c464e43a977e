import Verif.Lemmas.ExactSSM

/-!
# Exactness of any linear functional of the smoothed and predicted states
-/

set_option linter.unusedSectionVars false

namespace Verif
open Matrix

/-- covariance of the functional `w` of the state at `Xs` and the noise-free observation at `X` -/
noncomputable def SSM.rowCov (k : SSM) (w : Matrix (Fin 1) k.n ℝ) (Xs X : Coord) : ℝ :=
  if Xs.sortable < X.sortable then (w * k.Pinf * (k.A Xs X)ᵀ * (k.obsModel X none)ᵀ) 0 0
  else (w * k.A X Xs * k.Pinf * (k.obsModel X none)ᵀ) 0 0

/-- prior variance of the functional `w` of the state -/
def SSM.rowVar (k : SSM) (w : Matrix (Fin 1) k.n ℝ) : ℝ := (w * k.Pinf * wᵀ) 0 0

namespace SSM.Proper
variable {k : SSM} (hk : k.Proper)
include hk

theorem B_rows (R : ℕ → ℝ) (w v : Matrix (Fin 1) k.n ℝ) (s t : ℝ) :
    hk.stat.gm.B R (lin w (GM.x s) 0) (lin v (GM.x t) 0) = (w * hk.stat.gm.C s t * vᵀ) 0 0 := by
  rw [Matrix.mul_assoc, Matrix.mul_apply, B_lin_left]
  refine Finset.sum_congr rfl fun i _ => ?_
  rw [B_lin_right, Matrix.mul_apply]
  congr 1
  exact Finset.sum_congr rfl fun j _ => by rw [GM.B_xx, transpose_apply, mul_comm]

theorem rowCov_eq (R : ℕ → ℝ) (w : Matrix (Fin 1) k.n ℝ) (Xs X : Coord) : k.rowCov w Xs X =
    hk.stat.gm.B R (lin w (GM.x Xs.sortable) 0) (lin (k.obsModel X none) (GM.x X.sortable) 0) := by
  rw [hk.B_rows]
  unfold SSM.rowCov
  split_ifs with hlt
  · rw [GM.C_of_le _ hlt.le, hk.shift_A, ← Matrix.mul_assoc]
    rfl
  · rw [GM.C_of_ge _ (not_lt.1 hlt), hk.shift_A, ← Matrix.mul_assoc]
    rfl

theorem rowVar_eq (R : ℕ → ℝ) (w : Matrix (Fin 1) k.n ℝ) (s : ℝ) : k.rowVar w =
    hk.stat.gm.B R (lin w (GM.x s) 0) (lin w (GM.x s) 0) := by
  rw [hk.B_rows, GM.C_self]
  rfl

variable {X : Arr Coord} {y R : Arr ℝ} (hX : Sorted (X.map Coord.sortable)) (hN : 0 < X.len)
include hX hN

theorem chain_row (w : Matrix (Fin 1) k.n ℝ) (Xs : Coord) (j : Fin X.len) :
    k.rowCov w Xs (X.get j) =
    hk.stat.gm.B R.get (lin w (GM.x Xs.sortable) 0) ((dataChain hk.stat k.Ht R (X.map Coord.sortable) y hX hN).Y j) := by
  rw [hk.chain_Y hX hN j.2, map_add, ← hk.rowCov_eq, GM.B_symm, B_lin_right]
  simp [GM.B_rx]

theorem smoothed_row (hS : ∀ i < X.len, ((k.kalman (X.map Coord.sortable) y R).get i).S 0 0 ≠ 0)
    (hP : ∀ i, i + 1 < X.len → IsUnit ((k.kalman (X.map Coord.sortable) y R).get (i + 1)).PPred.det) {i : ℕ} (hi : i < X.len)
    (w : Matrix (Fin 1) k.n ℝ) :
    (w *ᵥ ((k.condition (X.map Coord.sortable) y R).2.get i).m) 0 =
      Spec.postMean (Spec.noisyGram (fun i j : Fin X.len => k.evaluate (X.get i) (X.get j)) (fun i => R.get i))
        (fun i => y.get i) (fun j => k.rowCov w (X.get i) (X.get j)) ∧
    (w * ((k.condition (X.map Coord.sortable) y R).2.get i).P * wᵀ) 0 0 =
      Spec.postVar (Spec.noisyGram (fun i j : Fin X.len => k.evaluate (X.get i) (X.get j)) (fun i => R.get i))
        (k.rowVar w) (fun j => k.rowCov w (X.get i) (X.get j)) := by
  obtain ⟨Xh, h⟩ := smoothed_est (t := X.map Coord.sortable) (R := R) (y := y) (H := k.Ht) hk.stat hX hN
    hS hP (k := i) hi
  have hspan := Chain.U_eq_span_equiv (hk.obsEquiv (R := R) (y := y) hX hN)
  have := IsEst.dense_scalar (hk.stat.gm.B_symm R.get) _
    (Eq.mp (congrArg (fun W => IsEst _ _ W _ _ _ _) hspan) h) _
    (fun i j => hk.chain_cov hX hN i j) (hk.gram_unit hX hN hS) w
  have e1 : (fun j : Fin X.len => hk.stat.gm.B R.get (lin w (GM.x (X.get i).sortable) 0)
      ((dataChain hk.stat k.Ht R (X.map Coord.sortable) y hX hN).Y j)) =
      fun j : Fin X.len => k.rowCov w (X.get i) (X.get j) := funext fun j => (hk.chain_row hX hN _ _ j).symm
  have e2 : (fun j : Fin X.len => GM.φ k.n y.get
      ((dataChain hk.stat k.Ht R (X.map Coord.sortable) y hX hN).Y j)) = fun j : Fin X.len => y.get j :=
    funext fun j => (dataChain hk.stat k.Ht R (X.map Coord.sortable) y hX hN).hy j
  rw [hk.rowVar_eq R.get w (X.get i).sortable, ← e1, ← e2]
  exact this

theorem predicted_row (hS : ∀ i < X.len, ((k.kalman (X.map Coord.sortable) y R).get i).S 0 0 ≠ 0)
    (hP : ∀ i < X.len, IsUnit ((k.kalman (X.map Coord.sortable) y R).get i).PPred.det) (Xs : Coord) (w : Matrix (Fin 1) k.n ℝ) :
    (w *ᵥ (ssPredictPoint k.At k.Qt k.Pinf (X.map Coord.sortable)
      (k.condition (X.map Coord.sortable) y R).1 (k.condition (X.map Coord.sortable) y R).2 Xs.sortable).m) 0 =
      Spec.postMean (Spec.noisyGram (fun i j : Fin X.len => k.evaluate (X.get i) (X.get j)) (fun i => R.get i))
        (fun i => y.get i) (fun j => k.rowCov w Xs (X.get j)) ∧
    (w * (ssPredictPoint k.At k.Qt k.Pinf (X.map Coord.sortable)
      (k.condition (X.map Coord.sortable) y R).1 (k.condition (X.map Coord.sortable) y R).2 Xs.sortable).P * wᵀ) 0 0 =
      Spec.postVar (Spec.noisyGram (fun i j : Fin X.len => k.evaluate (X.get i) (X.get j)) (fun i => R.get i))
        (k.rowVar w) (fun j => k.rowCov w Xs (X.get j)) := by
  obtain ⟨Xh, h⟩ := predict_est (t := X.map Coord.sortable) (R := R) (y := y) (H := k.Ht) hk.stat hX hN
    hS hP Xs.sortable
  have hspan := Chain.U_eq_span_equiv (hk.obsEquiv (R := R) (y := y) hX hN)
  have := IsEst.dense_scalar (hk.stat.gm.B_symm R.get) _
    (Eq.mp (congrArg (fun W => IsEst _ _ W _ _ _ _) hspan) h) _
    (fun i j => hk.chain_cov hX hN i j) (hk.gram_unit hX hN hS) w
  have e1 : (fun j : Fin X.len => hk.stat.gm.B R.get (lin w (GM.x Xs.sortable) 0)
      ((dataChain hk.stat k.Ht R (X.map Coord.sortable) y hX hN).Y j)) =
      fun j : Fin X.len => k.rowCov w Xs (X.get j) := funext fun j => (hk.chain_row hX hN _ _ j).symm
  have e2 : (fun j : Fin X.len => GM.φ k.n y.get
      ((dataChain hk.stat k.Ht R (X.map Coord.sortable) y hX hN).Y j)) = fun j : Fin X.len => y.get j :=
    funext fun j => (dataChain hk.stat k.Ht R (X.map Coord.sortable) y hX hN).hy j
  rw [hk.rowVar_eq R.get w Xs.sortable, ← e1, ← e2]
  exact this

end SSM.Proper
end Verif
