import Verif.Model.Kernel

/-!
# Van Loan block exponentials (`/repo/src/smolgp/helpers.py`)

`jnp.block` is `Matrix.fromBlocks` on the index `n ⊕ n`; slicing `[:b, b:]` is `toBlocks₁₂`, and so on. `expm` is the exact
matrix exponential.
-/

namespace Verif
open Matrix

section
variable {n p : Type} [Fintype n] [DecidableEq n] [Fintype p]

/-- `Q_from_VanLoan` (`helpers.py:14-38`) -/
noncomputable def QFromVanLoan (F : Matrix n n ℝ) (L : Matrix n p ℝ) (Qc : Matrix p p ℝ) (dt : ℝ) : Matrix n n ℝ :=
  let QL := L * Qc * Lᵀ
  let C : Matrix (n ⊕ n) (n ⊕ n) ℝ := Matrix.fromBlocks (-F) QL 0 Fᵀ
  let block := NormedSpace.exp (dt • C)
  let G2 := block.toBlocks₁₂
  let F3 := block.toBlocks₂₂
  F3ᵀ * G2

/-- `Phibar_from_VanLoan` (`helpers.py:41-62`) -/
noncomputable def PhibarFromVanLoan (F : Matrix n n ℝ) (dt : ℝ) : Matrix n n ℝ :=
  let C : Matrix (n ⊕ n) (n ⊕ n) ℝ := Matrix.fromBlocks F 1 0 0
  let block := NormedSpace.exp (dt • C)
  block.toBlocks₁₂

/-- the matrix `C` of `VanLoan` (`helpers.py:84-95`), as two by two blocks of two by two blocks -/
def vanLoanC (F : Matrix n n ℝ) (L : Matrix n p ℝ) (Qc : Matrix p p ℝ) : Matrix ((n ⊕ n) ⊕ (n ⊕ n)) ((n ⊕ n) ⊕ (n ⊕ n)) ℝ :=
  let QL := L * Qc * Lᵀ
  Matrix.fromBlocks (Matrix.fromBlocks (-F) 1 0 (-F)) (Matrix.fromBlocks 0 0 QL 0) 0 (Matrix.fromBlocks Fᵀ 1 0 0)

/-- the blocks which the callers of `VanLoan` (`helpers.py:65-121`) use -/
structure VanLoanBlocks (n : Type) where
  F3 : Matrix n n ℝ
  H2 : Matrix n n ℝ
  K1 : Matrix n n ℝ

/-- `VanLoan` (`helpers.py:65-121`): `block_view(expm(C * dt), b)` at `[2, 2]`, `[1, 3]`, `[0, 3]` -/
noncomputable def vanLoan (F : Matrix n n ℝ) (L : Matrix n p ℝ) (Qc : Matrix p p ℝ) (dt : ℝ) : VanLoanBlocks n :=
  let block := NormedSpace.exp (dt • vanLoanC F L Qc)
  { F3 := block.toBlocks₂₂.toBlocks₁₁
    H2 := block.toBlocks₁₂.toBlocks₂₂
    K1 := block.toBlocks₁₂.toBlocks₁₂ }

end

end Verif
