import Mathlib.Analysis.SpecialFunctions.Exponential
import Mathlib.Analysis.Normed.Algebra.MatrixExponential
import Mathlib.Analysis.Calculus.Deriv.Mul
import Mathlib.Analysis.Calculus.MeanValue
import Mathlib.Analysis.Calculus.Deriv.MeanValue
import Mathlib.Analysis.Calculus.Deriv.Prod
import Verif.Lemmas.PosDef

/-! # Entrywise derivatives of matrix functions and the matrix exponential -/

set_option linter.unusedSectionVars false

namespace Verif
open Matrix

variable {l m n : Type*}

/-- entrywise derivative of a matrix-valued function -/
def MDeriv (A : ℝ → Matrix m n ℝ) (A' : Matrix m n ℝ) (t : ℝ) : Prop :=
  ∀ i j, HasDerivAt (fun s => A s i j) (A' i j) t

namespace MDeriv
variable {A : ℝ → Matrix m n ℝ} {A' : Matrix m n ℝ} {t : ℝ}

theorem const (M : Matrix m n ℝ) : MDeriv (fun _ => M) 0 t := fun i j => hasDerivAt_const t (M i j)

theorem add {A₂ : ℝ → Matrix m n ℝ} {A₂' : Matrix m n ℝ} (h : MDeriv A A' t) (h₂ : MDeriv A₂ A₂' t) :
    MDeriv (fun s => A s + A₂ s) (A' + A₂') t := fun i j => (h i j).add (h₂ i j)

theorem sub {A₂ : ℝ → Matrix m n ℝ} {A₂' : Matrix m n ℝ} (h : MDeriv A A' t) (h₂ : MDeriv A₂ A₂' t) :
    MDeriv (fun s => A s - A₂ s) (A' - A₂') t := fun i j => (h i j).sub (h₂ i j)

theorem mul [Fintype n] {A₂ : ℝ → Matrix n l ℝ} {A₂' : Matrix n l ℝ} (h : MDeriv A A' t) (h₂ : MDeriv A₂ A₂' t) :
    MDeriv (fun s => A s * A₂ s) (A' * A₂ t + A t * A₂') t := by
  intro i j
  have := HasDerivAt.fun_sum (u := Finset.univ) (fun k _ => (h i k).mul (h₂ k j))
  simp only [Matrix.mul_apply, Matrix.add_apply]
  rw [← Finset.sum_add_distrib]
  exact this

theorem transpose (h : MDeriv A A' t) : MDeriv (fun s => (A s)ᵀ) A'ᵀ t := fun i j => h j i

theorem congr {A₂' : Matrix m n ℝ} (h : MDeriv A A' t) (e : A' = A₂') : MDeriv A A₂' t := e ▸ h

/-- chain rule with an affine reparametrisation -/
theorem comp_const_sub {T : ℝ} (h : MDeriv A A' (T - t)) : MDeriv (fun s => A (T - s)) (-A') t := by
  intro i j
  have := (h i j).comp t ((hasDerivAt_id t).const_sub T)
  rw [mul_neg_one] at this
  exact this

theorem comp_neg (h : MDeriv A A' (-t)) : MDeriv (fun s => A (-s)) (-A') t := by
  intro i j
  have := (h i j).comp t (hasDerivAt_neg t)
  rw [mul_neg_one] at this
  exact this

end MDeriv

/-- matrix functions with equal derivatives and equal value at `0` agree -/
theorem eq_of_MDeriv {A B : ℝ → Matrix m n ℝ} {D : ℝ → Matrix m n ℝ}
    (hA : ∀ t, MDeriv A (D t) t) (hB : ∀ t, MDeriv B (D t) t) (h0 : A 0 = B 0) (t : ℝ) : A t = B t := by
  ext i j
  have h : ∀ s, HasDerivAt (fun s => A s i j - B s i j) 0 s := fun s => by
    have := (hA s i j).fun_sub (hB s i j)
    rwa [sub_self] at this
  have hd : Differentiable ℝ (fun s => A s i j - B s i j) := fun s => (h s).differentiableAt
  have := is_const_of_deriv_eq_zero hd (fun s => (h s).deriv) t 0
  simp only [h0, sub_self] at this
  linarith

section exp
variable [Fintype n] [DecidableEq n]

set_option backward.isDefEq.respectTransparency false in
theorem expm_deriv' (F : Matrix n n ℝ) (t : ℝ) :
    MDeriv (fun s => NormedSpace.exp (s • F)) (F * NormedSpace.exp (t • F)) t := by
  open scoped Matrix.Norms.Operator in
  have := hasDerivAt_exp_smul_const' (𝕂 := ℝ) F t
  intro i j
  exact (hasDerivAt_pi.1 (hasDerivAt_pi.1 this i) j)

set_option backward.isDefEq.respectTransparency false in
theorem expm_deriv (F : Matrix n n ℝ) (t : ℝ) :
    MDeriv (fun s => NormedSpace.exp (s • F)) (NormedSpace.exp (t • F) * F) t := by
  open scoped Matrix.Norms.Operator in
  have := hasDerivAt_exp_smul_const (𝕂 := ℝ) F t
  intro i j
  exact (hasDerivAt_pi.1 (hasDerivAt_pi.1 this i) j)

theorem expm_zero (F : Matrix n n ℝ) : NormedSpace.exp ((0 : ℝ) • F) = 1 := by
  rw [zero_smul, NormedSpace.exp_zero]

theorem expm_add (F : Matrix n n ℝ) (s t : ℝ) :
    NormedSpace.exp ((s + t) • F) = NormedSpace.exp (s • F) * NormedSpace.exp (t • F) := by
  rw [add_smul]
  exact Matrix.exp_add_of_commute _ _ (((Commute.refl F).smul_left s).smul_right t)

theorem expm_neg_mul (F : Matrix n n ℝ) (t : ℝ) :
    NormedSpace.exp ((-t) • F) * NormedSpace.exp (t • F) = 1 := by
  rw [← expm_add, neg_add_cancel, expm_zero]

theorem expm_mul_neg (F : Matrix n n ℝ) (t : ℝ) :
    NormedSpace.exp (t • F) * NormedSpace.exp ((-t) • F) = 1 := by
  rw [← expm_add, add_neg_cancel, expm_zero]

theorem expm_isUnit_det (F : Matrix n n ℝ) (t : ℝ) : IsUnit (NormedSpace.exp (t • F)).det :=
  (Matrix.isUnit_iff_isUnit_det _).1 (Matrix.isUnit_exp _)

/-- a solution of the matrix ODE `A' = F A`, `A 0 = 1` is the matrix exponential -/
theorem expm_unique (F : Matrix n n ℝ) (A : ℝ → Matrix n n ℝ) (h0 : A 0 = 1)
    (h : ∀ t, MDeriv A (F * A t) t) (t : ℝ) : A t = NormedSpace.exp (t • F) := by
  have key : ∀ s, NormedSpace.exp ((-s) • F) * A s = 1 := by
    intro s
    refine eq_of_MDeriv (A := fun s => NormedSpace.exp ((-s) • F) * A s) (B := fun _ => 1) (D := fun _ => 0)
      (fun s => ?_) (fun s => MDeriv.const _) (by simp [h0, NormedSpace.exp_zero]) s
    have h1 : MDeriv (fun s => NormedSpace.exp ((-s) • F)) (-(NormedSpace.exp ((-s) • F) * F)) s :=
      MDeriv.comp_neg (A := fun s => NormedSpace.exp (s • F)) (expm_deriv F (-s))
    refine (h1.mul (h s)).congr ?_
    rw [Matrix.neg_mul, Matrix.mul_assoc]
    exact neg_add_cancel _
  calc A t = (NormedSpace.exp (t • F) * NormedSpace.exp ((-t) • F)) * A t := by
        rw [expm_mul_neg, Matrix.one_mul]
    _ = NormedSpace.exp (t • F) := by rw [Matrix.mul_assoc, key, Matrix.mul_one]

/-- quadratic form of a derivative -/
theorem MDeriv.quad {A : ℝ → Matrix n n ℝ} {A' : Matrix n n ℝ} {t : ℝ} (h : MDeriv A A' t) (x : n → ℝ) :
    HasDerivAt (fun s => x ⬝ᵥ A s *ᵥ x) (x ⬝ᵥ A' *ᵥ x) t := by
  simp only [dotProduct, mulVec]
  refine HasDerivAt.fun_sum fun i _ => ?_
  refine HasDerivAt.const_mul _ ?_
  refine HasDerivAt.fun_sum fun j _ => ?_
  exact (h i j).mul_const _

/-- propagated covariance -/
theorem expm_cov_deriv (F P : Matrix n n ℝ) (t : ℝ) :
    MDeriv (fun s => NormedSpace.exp (s • F) * P * (NormedSpace.exp (s • F))ᵀ)
      (NormedSpace.exp (t • F) * (F * P + P * Fᵀ) * (NormedSpace.exp (t • F))ᵀ) t := by
  refine (((expm_deriv F t).mul (MDeriv.const P)).mul (expm_deriv F t).transpose).congr ?_
  rw [transpose_mul]
  simp only [Matrix.mul_zero, add_zero, Matrix.mul_add, Matrix.add_mul, Matrix.mul_assoc]

/-- If `F P + P Fᵀ = -M` with `M` positive semidefinite, then `P - e^{sF} P e^{sF}ᵀ` is positive semidefinite. -/
theorem lyapunov_psd {F P M : Matrix n n ℝ} (hP : Pᵀ = P) (hM : M.PosSemidef) (h : F * P + P * Fᵀ + M = 0)
    {s : ℝ} (hs : 0 ≤ s) :
    (P - NormedSpace.exp (s • F) * P * (NormedSpace.exp (s • F))ᵀ).PosSemidef := by
  rw [psd_iff]
  constructor
  · rw [transpose_sub, transpose_mul, transpose_mul, transpose_transpose, hP, Matrix.mul_assoc]
  · intro x
    have hFP : F * P + P * Fᵀ = -M := eq_neg_of_add_eq_zero_left h
    set f : ℝ → ℝ := fun s => x ⬝ᵥ (NormedSpace.exp (s • F) * P * (NormedSpace.exp (s • F))ᵀ) *ᵥ x with hf
    have hd : ∀ t, HasDerivAt f (-(x ⬝ᵥ (NormedSpace.exp (t • F) * M * (NormedSpace.exp (t • F))ᵀ) *ᵥ x)) t := by
      intro t
      have := (expm_cov_deriv F P t).quad x
      rw [hFP, Matrix.mul_neg, Matrix.neg_mul, neg_mulVec, dotProduct_neg] at this
      exact this
    have hanti : Antitone f := by
      apply antitone_of_deriv_nonpos (fun t => (hd t).differentiableAt)
      intro t
      rw [(hd t).deriv]
      have := ((psd_iff _).1 (psd_conj hM (NormedSpace.exp (t • F)))).2 x
      linarith
    have := hanti hs
    rw [sub_mulVec, dotProduct_sub]
    have h0 : f 0 = x ⬝ᵥ P *ᵥ x := by simp only [hf, zero_smul, NormedSpace.exp_zero]; simp
    rw [h0] at this
    simp only [hf] at this
    linarith

end exp

end Verif
