import Verif.Model.Kernels
import Mathlib.Analysis.Complex.Basic
import Mathlib.Analysis.Real.Pi.Bounds

/-!
# `StateSpaceModel.psd` (`kernels/base.py:231-249`)

`jnp.linalg.inv` does not fail on a singular matrix but returns infinities or `nan`; the model's inverse is then zero.
`SSM.PsdDefined` says that this does not happen; the theorems assume or prove it.
`observation_matrix` ignores its argument for the kernels treated here (`kernels/base.py`); the code passes the number `0`.
-/

namespace Verif
open Matrix

/-- a real array used where a complex one is expected -/
def toC {m n : Type} (A : Matrix m n ℝ) : Matrix m n ℂ := A.map Complex.ofReal

/-- `F + 1j * w * I` (`kernels/base.py:245`) -/
def SSM.psdShift (k : SSM) (w : ℝ) : Matrix k.n k.n ℂ := toC k.F + (Complex.I * (w : ℂ)) • (1 : Matrix k.n k.n ℂ)

/-- the matrix which the code inverts is invertible -/
def SSM.PsdDefined (k : SSM) (w : ℝ) : Prop := IsUnit (k.psdShift w).det

/-- `S` of `compute_psd` (`kernels/base.py:244-246`), squeezed: `H @ M.conj() @ L @ Qc @ L.T @ M.T @ H.T` -/
noncomputable def SSM.psdValue (k : SSM) (w : ℝ) : ℂ :=
  let M := (k.psdShift w)⁻¹
  let H := toC (k.obsMatrix (.time 0))
  (H * M.map (starRingEnd ℂ) * toC k.L * toC k.Qc * (toC k.L)ᵀ * Mᵀ * Hᵀ) 0 0

/-- `psd` at one frequency (`kernels/base.py:247`) -/
noncomputable def SSM.psd (k : SSM) (w : ℝ) : ℝ := (k.psdValue w).re / (2 * Real.pi)

end Verif
