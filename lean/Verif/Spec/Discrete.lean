import Mathlib.Data.Matrix.Mul
import Mathlib.Data.Real.Basic

/-!
# Second moments of a discrete-time linear system (specification)

`x_{k+1} = T_k x_k + w_k` with `Cov x_0 = P_0`, `Cov w_k = Q_k`, all independent and of zero mean.
-/

namespace Verif.Spec
open Matrix

variable {n : Type*} [Fintype n] [DecidableEq n]

/-- covariance of `x_k` -/
noncomputable def marginalCov (T Q : ℕ → Matrix n n ℝ) (P0 : Matrix n n ℝ) : ℕ → Matrix n n ℝ
  | 0 => P0
  | k + 1 => T k * marginalCov T Q P0 k * (T k)ᵀ + Q k

/-- `T_{j-1} ... T_i` for `i ≤ j` -/
noncomputable def propagator (T : ℕ → Matrix n n ℝ) (i : ℕ) : ℕ → Matrix n n ℝ
  | 0 => 1
  | j + 1 => if i ≤ j then T j * propagator T i j else 1

/-- covariance of `x_i` and `x_j` -/
noncomputable def stateCov (T Q : ℕ → Matrix n n ℝ) (P0 : Matrix n n ℝ) (i j : ℕ) : Matrix n n ℝ :=
  if i ≤ j then marginalCov T Q P0 i * (propagator T i j)ᵀ else propagator T j i * marginalCov T Q P0 j

end Verif.Spec
