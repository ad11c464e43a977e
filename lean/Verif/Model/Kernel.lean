import Verif.Model.Jax
import Mathlib.Data.Matrix.Block
import Mathlib.Data.Matrix.ColumnRowPartitioned
import Mathlib.LinearAlgebra.Matrix.Kronecker
import Mathlib.LinearAlgebra.Matrix.NonsingularInverse
import Mathlib.Analysis.Normed.Algebra.MatrixExponential

/-!
# State-space kernels (`/repo/src/smolgp/kernels/base.py`)
-/

namespace Verif
open Matrix
open scoped Kronecker

/-- A data coordinate: a bare time, or a tuple `(t, delta, instid)`
(`/repo/src/smolgp/kernels/base.py:76-85`, `kernels/integrated.py` docstrings). -/
inductive Coord where
  | time (t : ℝ)
  | exposure (t delta : ℝ) (inst : ℤ)

/-- `StateSpaceModel.coord_to_sortable` (`kernels/base.py:76-85`): first entry of a tuple, or the value. -/
def Coord.sortable : Coord → ℝ
  | .time t => t
  | .exposure t _ _ => t

/-- The methods of a `StateSpaceModel` (`kernels/base.py:50-249`), as data.
`n` indexes the state, `p` the driving noise. -/
structure SSM where
  name : String
  n : Type
  [fn : Fintype n]
  [dn : DecidableEq n]
  p : Type
  [fp : Fintype p]
  [dp : DecidableEq p]
  /-- `design_matrix` -/
  F : Matrix n n ℝ
  /-- `stationary_covariance` -/
  Pinf : Matrix n n ℝ
  /-- `noise_effect_matrix` -/
  L : Matrix n p ℝ
  /-- `noise` -/
  Qc : Matrix p p ℝ
  /-- `observation_matrix` -/
  obsMatrix : Coord → Matrix (Fin 1) n ℝ
  /-- `observation_model(X, component)` -/
  obsModel : Coord → Option String → Matrix (Fin 1) n ℝ
  /-- `transition_matrix` -/
  A : Coord → Coord → Matrix n n ℝ
  /-- `process_noise` -/
  Q : Coord → Coord → Matrix n n ℝ
  /-- `reset_matrix` -/
  reset : ℤ → Matrix n n ℝ

attribute [instance] SSM.fn SSM.dn SSM.fp SSM.dp

/-- `int(keep)` with `keep = (component is None) or (self.name == component)`
(`kernels/base.py:102-105`). -/
def keepFactor (name : String) (component : Option String) : ℝ :=
  match component with
  | none => 1
  | some c => if name = c then 1 else 0

/-- `StateSpaceModel.observation_model` (`kernels/base.py:102-105`), the non-overridden version. -/
def defaultObsModel {n : Type} (name : String) (H : Coord → Matrix (Fin 1) n ℝ) (X : Coord)
    (component : Option String) : Matrix (Fin 1) n ℝ :=
  keepFactor name component • H X

/-- `StateSpaceModel.transition_matrix` (`kernels/base.py:122-136`), the default: `expm(F * dt)`. -/
noncomputable def defaultTransition {n : Type} [Fintype n] [DecidableEq n] (F : Matrix n n ℝ)
    (X1 X2 : Coord) : Matrix n n ℝ :=
  NormedSpace.exp ((X2.sortable - X1.sortable) • F)

/-- `StateSpaceModel.process_noise` (`kernels/base.py:159-164`), the default branch:
`Pinf - A @ Pinf @ A.T`. -/
def defaultProcessNoise {n : Type} [Fintype n] (Pinf : Matrix n n ℝ)
    (A : Coord → Coord → Matrix n n ℝ) (X1 X2 : Coord) : Matrix n n ℝ :=
  Pinf - A X1 X2 * Pinf * (A X1 X2)ᵀ

/-- `StateSpaceModel.evaluate` (`kernels/base.py:210-224`), including the branch of `jnp.where`. -/
noncomputable def SSM.evaluate (k : SSM) (X1 X2 : Coord) : ℝ :=
  let h1 := k.obsModel X1 none
  let h2 := k.obsModel X2 none
  if X1.sortable < X2.sortable then (h2 * k.Pinf * (k.A X1 X2)ᵀ * h1ᵀ) 0 0
  else (h1 * k.A X2 X1 * k.Pinf * h2ᵀ) 0 0

/-- `StateSpaceModel.evaluate_diag` (`kernels/base.py:226-229`). -/
def SSM.evaluateDiag (k : SSM) (X : Coord) : ℝ :=
  let h := k.obsModel X none
  (h * k.Pinf * hᵀ) 0 0

/-- `jnp.hstack((h1, h2))` for row vectors -/
def hstack {n₁ n₂ : Type} (h1 : Matrix (Fin 1) n₁ ℝ) (h2 : Matrix (Fin 1) n₂ ℝ) :
    Matrix (Fin 1) (n₁ ⊕ n₂) ℝ := Matrix.fromCols h1 h2

/-- `Block(a, b).to_dense()`: block diagonal -/
def blockDiag {m₁ n₁ m₂ n₂ : Type} (a : Matrix m₁ n₁ ℝ) (b : Matrix m₂ n₂ ℝ) :
    Matrix (m₁ ⊕ m₂) (n₁ ⊕ n₂) ℝ := Matrix.fromBlocks a 0 0 b

/-- `Sum` (`kernels/base.py:252-335`). -/
def SSM.sum (k1 k2 : SSM) : SSM where
  name := "Sum(" ++ k1.name ++ ", " ++ k2.name ++ ")"
  n := k1.n ⊕ k2.n
  p := k1.p ⊕ k2.p
  F := blockDiag k1.F k2.F
  Pinf := blockDiag k1.Pinf k2.Pinf
  L := blockDiag k1.L k2.L
  Qc := blockDiag k1.Qc k2.Qc
  obsMatrix X := hstack (k1.obsMatrix X) (k2.obsMatrix X)
  obsModel X c := hstack (k1.obsModel X c) (k2.obsModel X c)
  A X1 X2 := blockDiag (k1.A X1 X2) (k2.A X1 X2)
  Q X1 X2 := blockDiag (k1.Q X1 X2) (k2.Q X1 X2)
  reset i := blockDiag (k1.reset i) (k2.reset i)

/-- `jnp.kron` of two row vectors (the row index `Fin 1 × Fin 1` is again a single row). -/
def kronRow {n₁ n₂ : Type} (h1 : Matrix (Fin 1) n₁ ℝ) (h2 : Matrix (Fin 1) n₂ ℝ) :
    Matrix (Fin 1) (n₁ × n₂) ℝ := (h1 ⊗ₖ h2).submatrix (fun _ => (0, 0)) id

/-- `Product` (`kernels/base.py:338-436`). Note `observation_model` passes the component to the
factors and never compares it with the product's own name (`kernels/base.py:400-404`). -/
def SSM.prod (k1 k2 : SSM) : SSM where
  name := "Product(" ++ k1.name ++ ", " ++ k2.name ++ ")"
  n := k1.n × k2.n
  p := k1.n × k2.n
  F := k1.F ⊗ₖ (1 : Matrix k2.n k2.n ℝ) + (1 : Matrix k1.n k1.n ℝ) ⊗ₖ k2.F
  Pinf := k1.Pinf ⊗ₖ k2.Pinf
  L := 1
  Qc := (k1.L * k1.Qc * k1.Lᵀ) ⊗ₖ k2.Pinf + k1.Pinf ⊗ₖ (k2.L * k2.Qc * k2.Lᵀ)
  obsMatrix X := kronRow (k1.obsMatrix X) (k2.obsMatrix X)
  obsModel X c := kronRow (k1.obsModel X c) (k2.obsModel X c)
  A X1 X2 := k1.A X1 X2 ⊗ₖ k2.A X1 X2
  Q X1 X2 := k1.Pinf ⊗ₖ k2.Q X1 X2 + k1.Q X1 X2 ⊗ₖ k2.Pinf - k1.Q X1 X2 ⊗ₖ k2.Q X1 X2
  reset i := k1.reset i ⊗ₖ k2.reset i

/-- `Wrapper` (`kernels/base.py:439-473`): forwards everything; `observation_model` is the
inherited one and so uses the wrapper's own name. -/
def SSM.wrapper (name : String) (k : SSM) : SSM where
  name := name
  n := k.n
  p := k.p
  F := k.F
  Pinf := k.Pinf
  L := k.L
  Qc := k.Qc
  obsMatrix := k.obsMatrix
  obsModel := defaultObsModel name k.obsMatrix
  A := k.A
  Q := k.Q
  reset := k.reset

/-- `Scale` (`kernels/base.py:476-486`): scales `stationary_covariance` and `noise`,
but inherits `process_noise` unscaled. -/
def SSM.scale (name : String) (k : SSM) (s : ℝ) : SSM :=
  { SSM.wrapper name k with
    Pinf := s • k.Pinf
    Qc := s • k.Qc }

end Verif
