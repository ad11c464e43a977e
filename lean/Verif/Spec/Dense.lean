import Mathlib.LinearAlgebra.Matrix.NonsingularInverse
import Mathlib.Analysis.SpecialFunctions.Log.Basic
import Mathlib.Analysis.SpecialFunctions.Trigonometric.Basic

/-!
# Dense Gaussian-process regression (specification)

The textbook formulas, for a finite set of observations with covariance matrix `K` (kernel plus noise).
Nothing here refers to state-space models.
-/

namespace Verif.Spec
open Matrix

variable {ι : Type*} [Fintype ι] [DecidableEq ι]

/-- log density of `N(0, K)` at `y`: `-1/2 yᵀ K⁻¹ y - 1/2 log det K - N/2 log 2π` -/
noncomputable def gaussLogDensity (K : Matrix ι ι ℝ) (y : ι → ℝ) : ℝ :=
  -(1 / 2) * (y ⬝ᵥ K⁻¹ *ᵥ y) - (1 / 2) * Real.log K.det - (Fintype.card ι : ℝ) / 2 * Real.log (2 * Real.pi)

/-- posterior mean of a variable with cross-covariances `c` to the observations: `cᵀ K⁻¹ y` -/
noncomputable def postMean (K : Matrix ι ι ℝ) (y : ι → ℝ) (c : ι → ℝ) : ℝ := c ⬝ᵥ K⁻¹ *ᵥ y

/-- posterior variance of a variable with prior variance `v` and cross-covariances `c`:
`v - cᵀ K⁻¹ c` -/
noncomputable def postVar (K : Matrix ι ι ℝ) (v : ℝ) (c : ι → ℝ) : ℝ := v - c ⬝ᵥ K⁻¹ *ᵥ c

/-- covariance matrix of noisy observations: `K_ij = k(x_i, x_j) + δ_ij R_i` -/
def noisyGram (k : ι → ι → ℝ) (R : ι → ℝ) : Matrix ι ι ℝ :=
  Matrix.of fun i j => k i j + if i = j then R i else 0

end Verif.Spec
