import Mathlib.Analysis.Normed.Algebra.MatrixExponential
import Verif.Spec.Dense

/-!
# The stationary vector process of a stochastic differential equation

`dx = F x dt + noise`, started from its stationary covariance `P`.
-/

namespace Verif.Spec
open Matrix

variable {n : Type*} [Fintype n] [DecidableEq n]

/-- `Cov(x(s), x(t))` -/
noncomputable def stationaryCov (F P : Matrix n n ℝ) (s t : ℝ) : Matrix n n ℝ :=
  if s < t then P * (NormedSpace.exp ((t - s) • F))ᵀ else NormedSpace.exp ((s - t) • F) * P

/-- posterior covariance of two Gaussian variables with prior covariance `prior` and covariances `c`, `d` with the data, whose covariance
matrix is `K` -/
noncomputable def postCov {ι : Type*} [Fintype ι] [DecidableEq ι] (K : Matrix ι ι ℝ) (prior : ℝ) (c d : ι → ℝ) : ℝ :=
  prior - c ⬝ᵥ (K⁻¹ *ᵥ d)

end Verif.Spec
