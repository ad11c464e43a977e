import Verif.Lemmas.MatDeriv
import Verif.Spec.Proper
import Verif.Spec.Shipped
import Verif.Model.Kernels

/-! # From the Lyapunov equation to a regular kernel -/

set_option linter.unusedSectionVars false

namespace Verif
open Matrix

/-- A kernel whose transition matrix is the matrix exponential of `F`, whose stationary covariance is positive
definite and solves the Lyapunov equation, and whose process noise is the stationary one, is regular. -/
theorem SSM.Regular.of_lyapunov (k : SSM) (M : Matrix k.n k.n ℝ)
    (hA : ∀ X1 X2, k.A X1 X2 = NormedSpace.exp ((X2.sortable - X1.sortable) • k.F))
    (hQ : ∀ s, 0 ≤ s → k.Qt 0 s = k.Pinf - k.At 0 s * k.Pinf * (k.At 0 s)ᵀ)
    (hP : k.Pinf.PosDef) (hM : M.PosSemidef) (hL : k.F * k.Pinf + k.Pinf * k.Fᵀ + M = 0)
    (hH : ∀ X, k.obsModel X none = k.obsModel (.time 0) none) : k.Regular where
  shift_A X1 X2 := by
    rw [hA]; unfold SSM.At; rw [hA]
    simp [Coord.sortable]
  A_zero := by unfold SSM.At; rw [hA]; simp [Coord.sortable, NormedSpace.exp_zero]
  A_add s t _ _ := by
    unfold SSM.At
    rw [hA, hA, hA]
    simp only [Coord.sortable, sub_zero]
    rw [add_comm s t, expm_add]
  Q_eq := hQ
  Q_psd s hs := by
    rw [hQ s hs]
    unfold SSM.At
    rw [hA]
    simp only [Coord.sortable, sub_zero]
    exact lyapunov_psd (psd_symm hP.posSemidef) hM hL hs
  P_psd := hP.posSemidef
  H_const := hH
  P_pd := hP
  A_unit s hs := by
    unfold SSM.At
    rw [hA]
    exact expm_isUnit_det _ _

theorem defaultObs_const {n : Type} (name : String) (H : Coord → Matrix (Fin 1) n ℝ) (hH : ∀ X, H X = H (.time 0)) (X : Coord) :
    defaultObsModel name H X none = defaultObsModel name H (.time 0) none := by
  unfold defaultObsModel; rw [hH X]

end Verif
