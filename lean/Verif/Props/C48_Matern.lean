import Verif.Props.C20_Transition
import Verif.Lemmas.CovModel
import Mathlib.LinearAlgebra.Matrix.Charpoly.Coeff

/-!
# C48: the generic Matérn kernel

`SameModel k k'`: the matrices of the two kernels agree, for all coordinates: the two objects are interchangeable in every
solver (the names differ). `k'` is given with the state and noise spaces of `k`.
-/

namespace Verif
open Matrix Polynomial

/-- the matrices of a kernel of `d` states driven by one noise -/
structure Matrices (d : ℕ) where
  F : Matrix (Fin d) (Fin d) ℝ
  Pinf : Matrix (Fin d) (Fin d) ℝ
  L : Matrix (Fin d) (Fin 1) ℝ
  Qc : Matrix (Fin 1) (Fin 1) ℝ
  H : Coord → Matrix (Fin 1) (Fin d) ℝ
  A : Coord → Coord → Matrix (Fin d) (Fin d) ℝ
  Q : Coord → Coord → Matrix (Fin d) (Fin d) ℝ

/-- what a user gets from the methods of `Matern(nu = d - 1/2, ..)` -/
noncomputable def genericMatrices (d : ℕ) (scale sigma : ℝ) : Matrices d :=
  let k := maternGeneric d scale sigma
  ⟨k.F, k.Pinf, k.L, k.Qc, fun X => k.obsModel X none, k.A, k.Q⟩
/-- the methods of `Exp` -/
noncomputable def expMatrices (scale sigma : ℝ) (name : String) : Matrices 1 :=
  let k := expKernel scale sigma name
  ⟨k.F, k.Pinf, k.L, k.Qc, fun X => k.obsModel X none, k.A, k.Q⟩
/-- the methods of `Matern32` -/
noncomputable def matern32Matrices (scale sigma : ℝ) (name : String) : Matrices 2 :=
  let k := matern32 scale sigma name
  ⟨k.F, k.Pinf, k.L, k.Qc, fun X => k.obsModel X none, k.A, k.Q⟩
/-- the methods of `Matern52` -/
noncomputable def matern52Matrices (scale sigma : ℝ) (name : String) : Matrices 3 :=
  let k := matern52 scale sigma name
  ⟨k.F, k.Pinf, k.L, k.Qc, fun X => k.obsModel X none, k.A, k.Q⟩

/-- a stationary model is fixed by its design matrix, its noise and its observation row -/
theorem Matrices.ext' {d e : ℕ} {lam : ℝ} (hl : 0 < lam) {a b : Matrices d} (hnil : (a.F + lam • 1) ^ e = 0)
    (hF : a.F = b.F) (hL : a.L = b.L) (hQc : a.Qc = b.Qc) (hH : a.H = b.H)
    (la : a.F * a.Pinf + a.Pinf * a.Fᵀ + a.L * a.Qc * a.Lᵀ = 0) (lb : b.F * b.Pinf + b.Pinf * b.Fᵀ + b.L * b.Qc * b.Lᵀ = 0)
    (Aa : ∀ X Y : Coord, a.A X Y = NormedSpace.exp ((Y.sortable - X.sortable) • a.F))
    (Ab : ∀ X Y : Coord, b.A X Y = NormedSpace.exp ((Y.sortable - X.sortable) • b.F))
    (Qa : ∀ X Y : Coord, a.Q X Y = a.Pinf - a.A X Y * a.Pinf * (a.A X Y)ᵀ)
    (Qb : ∀ X Y : Coord, b.Q X Y = b.Pinf - b.A X Y * b.Pinf * (b.A X Y)ᵀ) : a = b := by
  obtain ⟨F, P, L, Qc, H, A, Q⟩ := a
  obtain ⟨F', P', L', Qc', H', A', Q'⟩ := b
  simp only at *
  subst hF hL hQc hH
  have hP : P = P' := by
    have : F * (P - P') + (P - P') * Fᵀ = 0 := by
      rw [Matrix.mul_sub, Matrix.sub_mul]
      have e : F * P - F * P' + (P * Fᵀ - P' * Fᵀ) = (F * P + P * Fᵀ + L * Qc * Lᵀ) - (F * P' + P' * Fᵀ + L * Qc * Lᵀ) := by abel
      rw [e, la, lb, sub_zero]
    exact sub_eq_zero.1 (lyapunov_injective hl hnil this)
  subst hP
  have hA : A = A' := by
    funext X Y
    rw [Aa, Ab]
  subst hA
  have hQ : Q = Q' := by
    funext X Y
    rw [Qa, Qb]
  subst hQ
  rfl

/-- **C48, smoothness 1/2.** `Matern(nu=1/2)` and `Exp` are the same model. -/
theorem C48_matern12 (scale sigma : ℝ) (name : String) (hs : 0 < scale) :
    genericMatrices 1 scale sigma = expMatrices scale sigma name := by
  have hl := Matern.lam_pos one_pos hs
  have hlam : Real.sqrt (2 * (((1 : ℕ) : ℝ) - 1 / 2)) / scale = 1 / scale := by norm_num
  have hg : Leaf SHO.NotUnderdamped (maternGeneric 1 scale sigma) := .matern one_pos hs
  have he : Leaf SHO.NotUnderdamped (expKernel scale sigma name) := .exp hs
  refine Matrices.ext' hl (Matern.nilpotent 1 _) ?_ ?_ ?_ ?_ (Matern.P_lyapunov (sigma := sigma) hl) (Exp.lyapunov _ _)
    (C20_transition_is_exp_partial (maternGeneric 1 scale sigma) (.leaf (.matern one_pos hs)))
    (C20_transition_is_exp_partial (expKernel scale sigma name) (.leaf (.exp hs)))
    hg.noiseIsStationary he.noiseIsStationary
  · show Matern.F 1 _ = !![-(1 / scale)]
    rw [hlam]
    ext i j
    fin_cases i; fin_cases j
    simp [Matern.F]
  · show Matern.L 1 = !![1]
    ext i j
    fin_cases i; fin_cases j
    simp [Matern.L]
  · show Matern.Qc 1 _ sigma = !![2 * (1 / scale) * sigma ^ 2]
    rw [hlam]
    unfold Matern.Qc
    refine ext1 ?_
    norm_num
    ring
  · funext X
    have : Matern.H 1 = !![1] := by
      ext i j
      fin_cases i; fin_cases j
      simp [Matern.H]
    exact (defaultObs_none _ (fun _ => Matern.H 1) X).trans (this.trans (defaultObs_none name (fun _ => (!![1] : Matrix (Fin 1) (Fin 1) ℝ)) X).symm)

/-- **C48, smoothness 3/2.** `Matern(nu=3/2)` and `Matern32` are the same model. -/
theorem C48_matern32 (scale sigma : ℝ) (name : String) (hs : 0 < scale) :
    genericMatrices 2 scale sigma = matern32Matrices scale sigma name := by
  have hl := Matern.lam_pos two_pos hs
  have hlam : Real.sqrt (2 * (((2 : ℕ) : ℝ) - 1 / 2)) / scale = Matern32.lam scale := by unfold Matern32.lam; norm_num
  have hg : Leaf SHO.NotUnderdamped (maternGeneric 2 scale sigma) := .matern two_pos hs
  have he : Leaf SHO.NotUnderdamped (matern32 scale sigma name) := .matern32 hs
  refine Matrices.ext' hl (Matern.nilpotent 2 _) ?_ ?_ ?_ ?_ (Matern.P_lyapunov (sigma := sigma) hl) (Matern32.lyapunov _ _)
    (C20_transition_is_exp_partial (maternGeneric 2 scale sigma) (.leaf (.matern two_pos hs)))
    (C20_transition_is_exp_partial (matern32 scale sigma name) (.leaf (.matern32 hs)))
    hg.noiseIsStationary he.noiseIsStationary
  · show Matern.F 2 _ = Matern32.F (Matern32.lam scale)
    rw [hlam]
    ext i j
    fin_cases i <;> fin_cases j <;> simp [Matern.F, Matern32.F]
  · show Matern.L 2 = !![0; 1]
    ext i j
    fin_cases i <;> fin_cases j <;> simp [Matern.L]
  · show Matern.Qc 2 _ sigma = !![4 * (Matern32.lam scale) ^ 3 * sigma ^ 2]
    rw [hlam]
    unfold Matern.Qc
    refine ext1 ?_
    norm_num
    ring
  · funext X
    have : Matern.H 2 = !![1, 0] := by
      ext i j
      fin_cases i
      fin_cases j <;> simp [Matern.H]
    exact (defaultObs_none _ (fun _ => Matern.H 2) X).trans (this.trans (defaultObs_none name (fun _ => (!![1, 0] : Matrix (Fin 1) (Fin 2) ℝ)) X).symm)

/-- **C48, smoothness 5/2.** `Matern(nu=5/2)` and `Matern52` are the same model. -/
theorem C48_matern52 (scale sigma : ℝ) (name : String) (hs : 0 < scale) :
    genericMatrices 3 scale sigma = matern52Matrices scale sigma name := by
  have hl := Matern.lam_pos three_pos hs
  have hlam : Real.sqrt (2 * (((3 : ℕ) : ℝ) - 1 / 2)) / scale = Matern52.lam scale := by unfold Matern52.lam; norm_num
  have hg : Leaf SHO.NotUnderdamped (maternGeneric 3 scale sigma) := .matern three_pos hs
  have he : Leaf SHO.NotUnderdamped (matern52 scale sigma name) := .matern52 hs
  refine Matrices.ext' hl (Matern.nilpotent 3 _) ?_ ?_ ?_ ?_ (Matern.P_lyapunov (sigma := sigma) hl) (Matern52.lyapunov _ _)
    (C20_transition_is_exp_partial (maternGeneric 3 scale sigma) (.leaf (.matern three_pos hs)))
    (C20_transition_is_exp_partial (matern52 scale sigma name) (.leaf (.matern52 hs)))
    hg.noiseIsStationary he.noiseIsStationary
  · show Matern.F 3 _ = Matern52.F (Matern52.lam scale)
    rw [hlam]
    ext i j
    fin_cases i <;> fin_cases j <;> simp [Matern.F, Matern52.F, Nat.factorial] <;> norm_num <;> ring
  · show Matern.L 3 = !![0; 0; 1]
    ext i j
    fin_cases i <;> fin_cases j <;> simp [Matern.L]
  · show Matern.Qc 3 _ sigma = !![16 * (Matern52.lam scale) ^ 5 * sigma ^ 2 / 3]
    rw [hlam]
    unfold Matern.Qc
    refine ext1 ?_
    norm_num [Nat.factorial]
    ring
  · funext X
    have : Matern.H 3 = !![1, 0, 0] := by
      ext i j
      fin_cases i
      fin_cases j <;> simp [Matern.H]
    exact (defaultObs_none _ (fun _ => Matern.H 3) X).trans (this.trans (defaultObs_none name (fun _ => (!![1, 0, 0] : Matrix (Fin 1) (Fin 3) ℝ)) X).symm)

/-- **C48, characteristic polynomial.** The design matrix of `Matern(nu = d - 1/2)` has characteristic polynomial
`(x + lam)^d`, `lam = sqrt(2 nu)/scale`, for every `d`. -/
theorem C48_charpoly (d : ℕ) (scale sigma : ℝ) :
    (genericMatrices d scale sigma).F.charpoly = (X + C (Real.sqrt (2 * ((d : ℝ) - 1 / 2)) / scale)) ^ d := by
  show (Matern.F d (Real.sqrt (2 * ((d : ℝ) - 1 / 2)) / scale)).charpoly = _
  set lam := Real.sqrt (2 * ((d : ℝ) - 1 / 2)) / scale
  have hn : IsNilpotent (Matern.F d lam + lam • 1) := ⟨d, Matern.nilpotent d lam⟩
  have h0 : (Matern.F d lam + lam • 1).charpoly = X ^ d := by
    have := (Matrix.isNilpotent_charpoly_sub_pow_of_isNilpotent hn).eq_zero
    rw [Fintype.card_fin] at this
    exact sub_eq_zero.1 this
  have e : Matern.F d lam = (Matern.F d lam + lam • 1) - scalar (Fin d) lam := by
    rw [show scalar (Fin d) lam = lam • (1 : Matrix (Fin d) (Fin d) ℝ) from (Matrix.smul_one_eq_diagonal lam).symm]
    exact (add_sub_cancel_right _ _).symm
  rw [e, charpoly_sub_scalar, h0, X_pow_comp]

section examples
example := C48_matern52 2 3 "k" (by norm_num)
/-- `Matern(nu=7/2, scale=sqrt 7)`: `lam = 1` -/
example : (genericMatrices 4 (Real.sqrt 7) 1).F.charpoly = (X + C 1) ^ 4 := by
  rw [C48_charpoly]
  norm_num
end examples

end Verif
