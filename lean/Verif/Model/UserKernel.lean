import Verif.Model.Integrated

/-!
# Kernels written by the user

`StateSpaceModel` (`/repo/src/smolgp/kernels/base.py:50-249`) and `Wrapper` (`kernels/base.py:439-473`) are documented as base classes for
the user's own kernels (`/repo/docs/tutorials/derivative.ipynb`, `/repo/docs/tutorials/introssm.ipynb`). A subclass supplies the abstract
methods and inherits the others.
-/

namespace Verif
open Matrix

/-- A subclass of `StateSpaceModel` which defines the abstract methods only (`design_matrix`, `stationary_covariance`,
`noise_effect_matrix`, `noise`, `observation_matrix`; `kernels/base.py:92-120`) and inherits `observation_model`
(`kernels/base.py:102-105`), `transition_matrix` (`:122-136`), `process_noise` (`:138-164`, default branch) and `reset_matrix`
(`:166-171`). -/
noncomputable def userKernel (name : String) {n p : Type} [Fintype n] [DecidableEq n] [Fintype p] [DecidableEq p] (F Pinf : Matrix n n ℝ)
    (L : Matrix n p ℝ) (Qc : Matrix p p ℝ) (H : Coord → Matrix (Fin 1) n ℝ) : SSM where
  name := name
  n := n
  p := p
  F := F
  Pinf := Pinf
  L := L
  Qc := Qc
  obsMatrix := H
  obsModel := defaultObsModel name H
  A := defaultTransition F
  Q := defaultProcessNoise Pinf (defaultTransition F)
  reset _ := 1

/-- `process_noise(X1, X2, use_van_loan=True)` of the base class (`kernels/base.py:149-157`) -/
noncomputable def vanLoanProcessNoise {n p : Type} [Fintype n] [DecidableEq n] [Fintype p] [DecidableEq p] (F : Matrix n n ℝ) (L : Matrix n p ℝ)
    (Qc : Matrix p p ℝ) (X1 X2 : Coord) : Matrix n n ℝ :=
  QFromVanLoan F L Qc (X2.sortable - X1.sortable)

/-- The same subclass, with `process_noise` overloaded to return `super().process_noise(X1, X2, use_van_loan=True)`
(the documented alternative, `kernels/base.py:138-157`). -/
noncomputable def userKernelVanLoan (name : String) {n p : Type} [Fintype n] [DecidableEq n] [Fintype p] [DecidableEq p]
    (F Pinf : Matrix n n ℝ) (L : Matrix n p ℝ) (Qc : Matrix p p ℝ) (H : Coord → Matrix (Fin 1) n ℝ) : SSM :=
  { userKernel name F Pinf L Qc H with Q := vanLoanProcessNoise F L Qc }

/-- A subclass of `Wrapper` (`kernels/base.py:439-473`) which overloads `observation_matrix`, as `Matern52Derivative` in
`docs/tutorials/derivative.ipynb` does: everything else is forwarded to the wrapped kernel, `observation_model` is the inherited one
(`kernels/base.py:102-105`) and so calls the overloaded method. -/
def SSM.observing (name : String) (k : SSM) (H : Coord → Matrix (Fin 1) k.n ℝ) : SSM :=
  { SSM.wrapper name k with
    obsMatrix := H
    obsModel := defaultObsModel name H }

/-- `Matern52Derivative(scale, sigma, order)` of `docs/tutorials/derivative.ipynb`: `H = zeros; H[0, order] = 1`. -/
noncomputable def matern52Derivative (scale sigma : ℝ) (order : Fin 3) (name : String := "Matern52Derivative") : SSM :=
  SSM.observing name (matern52 scale sigma) fun _ => Matrix.of fun (_ : Fin 1) (j : Fin 3) => if j = order then 1 else 0

end Verif
