import Verif.Lemmas.MatDeriv
import Mathlib.LinearAlgebra.Matrix.Notation

/-! # Arithmetic of literal 1x1, 2x2 and 3x3 matrices -/

namespace Verif
open Matrix

section one
theorem mul1 (a b : ℝ) : (!![a] : Matrix (Fin 1) (Fin 1) ℝ) * !![b] = !![a * b] := by
  ext i j; fin_cases i; fin_cases j; simp
theorem add1 (a b : ℝ) : (!![a] : Matrix (Fin 1) (Fin 1) ℝ) + !![b] = !![a + b] := by
  ext i j; fin_cases i; fin_cases j; simp
theorem sub1 (a b : ℝ) : (!![a] : Matrix (Fin 1) (Fin 1) ℝ) - !![b] = !![a - b] := by
  ext i j; fin_cases i; fin_cases j; simp
theorem smul1 (c a : ℝ) : c • (!![a] : Matrix (Fin 1) (Fin 1) ℝ) = !![c * a] := by
  ext i j; fin_cases i; fin_cases j; simp
theorem tr1 (a : ℝ) : (!![a] : Matrix (Fin 1) (Fin 1) ℝ)ᵀ = !![a] := by
  ext i j; fin_cases i; fin_cases j; simp
theorem zero1 : (0 : Matrix (Fin 1) (Fin 1) ℝ) = !![0] := by
  ext i j; fin_cases i; fin_cases j; simp
theorem one1 : (1 : Matrix (Fin 1) (Fin 1) ℝ) = !![1] := by
  ext i j; fin_cases i; fin_cases j; simp
theorem ext1 {a b : ℝ} (h : a = b) : (!![a] : Matrix (Fin 1) (Fin 1) ℝ) = !![b] := by rw [h]
theorem mderiv1 {f : ℝ → ℝ} {f' t : ℝ} (h : HasDerivAt f f' t) :
    MDeriv (fun s => (!![f s] : Matrix (Fin 1) (Fin 1) ℝ)) !![f'] t := by
  intro i j; fin_cases i; fin_cases j; exact h
theorem quad1 (a : ℝ) (x : Fin 1 → ℝ) : x ⬝ᵥ (!![a] : Matrix (Fin 1) (Fin 1) ℝ) *ᵥ x = a * x 0 ^ 2 := by
  simp [dotProduct, mulVec]; ring
end one

section two
variable (a b c d a' b' c' d' : ℝ)
theorem mul2 : (!![a, b; c, d] : Matrix (Fin 2) (Fin 2) ℝ) * !![a', b'; c', d'] =
    !![a * a' + b * c', a * b' + b * d'; c * a' + d * c', c * b' + d * d'] := Matrix.mul_fin_two ..
theorem add2 : (!![a, b; c, d] : Matrix (Fin 2) (Fin 2) ℝ) + !![a', b'; c', d'] =
    !![a + a', b + b'; c + c', d + d'] := by
  ext i j; fin_cases i <;> fin_cases j <;> simp
theorem sub2 : (!![a, b; c, d] : Matrix (Fin 2) (Fin 2) ℝ) - !![a', b'; c', d'] =
    !![a - a', b - b'; c - c', d - d'] := by
  ext i j; fin_cases i <;> fin_cases j <;> simp
theorem smul2 (x : ℝ) : x • (!![a, b; c, d] : Matrix (Fin 2) (Fin 2) ℝ) = !![x * a, x * b; x * c, x * d] := by
  ext i j; fin_cases i <;> fin_cases j <;> simp
theorem tr2 : (!![a, b; c, d] : Matrix (Fin 2) (Fin 2) ℝ)ᵀ = !![a, c; b, d] := by
  ext i j; fin_cases i <;> fin_cases j <;> simp
theorem zero2 : (0 : Matrix (Fin 2) (Fin 2) ℝ) = !![0, 0; 0, 0] := by
  ext i j; fin_cases i <;> fin_cases j <;> simp
theorem one2 : (1 : Matrix (Fin 2) (Fin 2) ℝ) = !![1, 0; 0, 1] := by
  ext i j; fin_cases i <;> fin_cases j <;> simp
/-- `L Qc Lᵀ` with `L = [[0],[1]]` -/
theorem noise2 (q : ℝ) : (!![0; 1] : Matrix (Fin 2) (Fin 1) ℝ) * !![q] * (!![0; 1] : Matrix (Fin 2) (Fin 1) ℝ)ᵀ = !![0, 0; 0, q] := by
  ext i j; fin_cases i <;> fin_cases j <;> simp [Matrix.mul_apply]
variable {a b c d a' b' c' d'}
theorem ext2 (h1 : a = a') (h2 : b = b') (h3 : c = c') (h4 : d = d') :
    (!![a, b; c, d] : Matrix (Fin 2) (Fin 2) ℝ) = !![a', b'; c', d'] := by rw [h1, h2, h3, h4]
theorem mderiv2 {f1 f2 f3 f4 : ℝ → ℝ} {t : ℝ} (h1 : HasDerivAt f1 a t) (h2 : HasDerivAt f2 b t)
    (h3 : HasDerivAt f3 c t) (h4 : HasDerivAt f4 d t) :
    MDeriv (fun s => (!![f1 s, f2 s; f3 s, f4 s] : Matrix (Fin 2) (Fin 2) ℝ)) !![a, b; c, d] t := by
  intro i j; fin_cases i <;> fin_cases j <;> assumption
theorem quad2 (x : Fin 2 → ℝ) : x ⬝ᵥ (!![a, b; c, d] : Matrix (Fin 2) (Fin 2) ℝ) *ᵥ x =
    a * x 0 ^ 2 + (b + c) * (x 0 * x 1) + d * x 1 ^ 2 := by
  simp [dotProduct, mulVec, Fin.sum_univ_two]; ring
theorem fin2_ne_zero {x : Fin 2 → ℝ} (hx : x ≠ 0) : x 0 ≠ 0 ∨ x 1 ≠ 0 := by
  by_contra h
  push Not at h
  exact hx (by ext i; fin_cases i; exacts [h.1, h.2])
end two

section three
variable (a b c d e f g h i a' b' c' d' e' f' g' h' i' : ℝ)
theorem mul3 : (!![a, b, c; d, e, f; g, h, i] : Matrix (Fin 3) (Fin 3) ℝ) * !![a', b', c'; d', e', f'; g', h', i'] =
    !![a * a' + b * d' + c * g', a * b' + b * e' + c * h', a * c' + b * f' + c * i';
       d * a' + e * d' + f * g', d * b' + e * e' + f * h', d * c' + e * f' + f * i';
       g * a' + h * d' + i * g', g * b' + h * e' + i * h', g * c' + h * f' + i * i'] := Matrix.mul_fin_three ..
theorem add3 : (!![a, b, c; d, e, f; g, h, i] : Matrix (Fin 3) (Fin 3) ℝ) + !![a', b', c'; d', e', f'; g', h', i'] =
    !![a + a', b + b', c + c'; d + d', e + e', f + f'; g + g', h + h', i + i'] := by
  ext k l; fin_cases k <;> fin_cases l <;> simp
theorem sub3 : (!![a, b, c; d, e, f; g, h, i] : Matrix (Fin 3) (Fin 3) ℝ) - !![a', b', c'; d', e', f'; g', h', i'] =
    !![a - a', b - b', c - c'; d - d', e - e', f - f'; g - g', h - h', i - i'] := by
  ext k l; fin_cases k <;> fin_cases l <;> simp
theorem smul3 (x : ℝ) : x • (!![a, b, c; d, e, f; g, h, i] : Matrix (Fin 3) (Fin 3) ℝ) =
    !![x * a, x * b, x * c; x * d, x * e, x * f; x * g, x * h, x * i] := by
  ext k l; fin_cases k <;> fin_cases l <;> simp
theorem tr3 : (!![a, b, c; d, e, f; g, h, i] : Matrix (Fin 3) (Fin 3) ℝ)ᵀ = !![a, d, g; b, e, h; c, f, i] := by
  ext k l; fin_cases k <;> fin_cases l <;> simp
theorem zero3 : (0 : Matrix (Fin 3) (Fin 3) ℝ) = !![0, 0, 0; 0, 0, 0; 0, 0, 0] := by
  ext k l; fin_cases k <;> fin_cases l <;> simp
theorem one3 : (1 : Matrix (Fin 3) (Fin 3) ℝ) = !![1, 0, 0; 0, 1, 0; 0, 0, 1] := by
  ext k l; fin_cases k <;> fin_cases l <;> simp
theorem noise3 (q : ℝ) : (!![0; 0; 1] : Matrix (Fin 3) (Fin 1) ℝ) * !![q] * (!![0; 0; 1] : Matrix (Fin 3) (Fin 1) ℝ)ᵀ =
    !![0, 0, 0; 0, 0, 0; 0, 0, q] := by
  ext i j; fin_cases i <;> fin_cases j <;> simp [Matrix.mul_apply]
variable {a b c d e f g h i a' b' c' d' e' f' g' h' i'}
theorem ext3 (h1 : a = a') (h2 : b = b') (h3 : c = c') (h4 : d = d') (h5 : e = e') (h6 : f = f') (h7 : g = g')
    (h8 : h = h') (h9 : i = i') :
    (!![a, b, c; d, e, f; g, h, i] : Matrix (Fin 3) (Fin 3) ℝ) = !![a', b', c'; d', e', f'; g', h', i'] := by
  rw [h1, h2, h3, h4, h5, h6, h7, h8, h9]
theorem mderiv3 {f1 f2 f3 f4 f5 f6 f7 f8 f9 : ℝ → ℝ} {t : ℝ} (h1 : HasDerivAt f1 a t) (h2 : HasDerivAt f2 b t)
    (h3 : HasDerivAt f3 c t) (h4 : HasDerivAt f4 d t) (h5 : HasDerivAt f5 e t) (h6 : HasDerivAt f6 f t)
    (h7 : HasDerivAt f7 g t) (h8 : HasDerivAt f8 h t) (h9 : HasDerivAt f9 i t) :
    MDeriv (fun s => (!![f1 s, f2 s, f3 s; f4 s, f5 s, f6 s; f7 s, f8 s, f9 s] : Matrix (Fin 3) (Fin 3) ℝ))
      !![a, b, c; d, e, f; g, h, i] t := by
  intro k l; fin_cases k <;> fin_cases l <;> assumption
theorem quad3 (x : Fin 3 → ℝ) : x ⬝ᵥ (!![a, b, c; d, e, f; g, h, i] : Matrix (Fin 3) (Fin 3) ℝ) *ᵥ x =
    a * x 0 ^ 2 + e * x 1 ^ 2 + i * x 2 ^ 2 + (b + d) * (x 0 * x 1) + (c + g) * (x 0 * x 2)
      + (f + h) * (x 1 * x 2) := by
  simp [dotProduct, mulVec, Fin.sum_univ_three]; ring
theorem fin3_ne_zero {x : Fin 3 → ℝ} (hx : x ≠ 0) : x 0 ≠ 0 ∨ x 1 ≠ 0 ∨ x 2 ≠ 0 := by
  by_contra h
  push Not at h
  exact hx (by ext i; fin_cases i; exacts [h.1, h.2.1, h.2.2])
end three

end Verif
