import Verif.Lemmas.MatDeriv
import Verif.Model.VanLoan

/-! # Blocks of the exponential of a block triangular matrix -/

set_option linter.unusedSectionVars false

namespace Verif
open Matrix

variable {m n p : Type} [Fintype m] [DecidableEq m] [Fintype n] [DecidableEq n] [Fintype p] [DecidableEq p]

/-- the linear ODE `X' = F X` has the solution `exp(tF) X(0)` only -/
theorem ode_unique (F : Matrix n n ℝ) (X : ℝ → Matrix n m ℝ) (h : ∀ t, MDeriv X (F * X t) t) (t : ℝ) :
    X t = NormedSpace.exp (t • F) * X 0 := by
  have key : ∀ s, NormedSpace.exp ((-s) • F) * X s = X 0 := by
    intro s
    refine eq_of_MDeriv (A := fun s => NormedSpace.exp ((-s) • F) * X s) (B := fun _ => X 0) (D := fun _ => 0)
      (fun s => ?_) (fun s => MDeriv.const _) (by simp [NormedSpace.exp_zero]) s
    have h1 : MDeriv (fun s => NormedSpace.exp ((-s) • F)) (-(NormedSpace.exp ((-s) • F) * F)) s :=
      MDeriv.comp_neg (A := fun s => NormedSpace.exp (s • F)) (expm_deriv F (-s))
    refine (h1.mul (h s)).congr ?_
    rw [Matrix.neg_mul, Matrix.mul_assoc]
    exact neg_add_cancel _
  calc X t = (NormedSpace.exp (t • F) * NormedSpace.exp ((-t) • F)) * X t := by
        rw [expm_mul_neg, Matrix.one_mul]
    _ = _ := by rw [Matrix.mul_assoc, key]

theorem MDeriv.toBlocks {a b c d : Type} {A : ℝ → Matrix (a ⊕ b) (c ⊕ d) ℝ} {A' : Matrix (a ⊕ b) (c ⊕ d) ℝ} {t : ℝ}
    (h : MDeriv A A' t) : MDeriv (fun s => (A s).toBlocks₁₁) A'.toBlocks₁₁ t ∧ MDeriv (fun s => (A s).toBlocks₁₂) A'.toBlocks₁₂ t ∧
      MDeriv (fun s => (A s).toBlocks₂₁) A'.toBlocks₂₁ t ∧ MDeriv (fun s => (A s).toBlocks₂₂) A'.toBlocks₂₂ t :=
  ⟨fun i j => h (.inl i) (.inl j), fun i j => h (.inl i) (.inr j), fun i j => h (.inr i) (.inl j), fun i j => h (.inr i) (.inr j)⟩

/-- all four blocks of the exponential of a block upper triangular matrix -/
theorem expm_triangular (a : Matrix m m ℝ) (b : Matrix m n ℝ) (d : Matrix n n ℝ) (t : ℝ) :
    (NormedSpace.exp (t • Matrix.fromBlocks a b 0 d)).toBlocks₁₁ = NormedSpace.exp (t • a) ∧
    (NormedSpace.exp (t • Matrix.fromBlocks a b 0 d)).toBlocks₂₁ = 0 ∧
    (NormedSpace.exp (t • Matrix.fromBlocks a b 0 d)).toBlocks₂₂ = NormedSpace.exp (t • d) := by
  set E : ℝ → Matrix (m ⊕ n) (m ⊕ n) ℝ := fun t => NormedSpace.exp (t • Matrix.fromBlocks a b 0 d) with hE
  have hE0 : E 0 = Matrix.fromBlocks 1 0 0 1 := by
    show NormedSpace.exp _ = _; rw [expm_zero, Matrix.fromBlocks_one]
  have hd : ∀ t, MDeriv E (Matrix.fromBlocks a b 0 d * E t) t := fun t => expm_deriv' _ t
  have e : ∀ t, Matrix.fromBlocks a b 0 d * E t = Matrix.fromBlocks (a * (E t).toBlocks₁₁ + b * (E t).toBlocks₂₁)
      (a * (E t).toBlocks₁₂ + b * (E t).toBlocks₂₂) ((0 : Matrix n m ℝ) * (E t).toBlocks₁₁ + d * (E t).toBlocks₂₁)
      ((0 : Matrix n m ℝ) * (E t).toBlocks₁₂ + d * (E t).toBlocks₂₂) := by
    intro t
    conv_lhs => rw [← Matrix.fromBlocks_toBlocks (E t)]
    exact Matrix.fromBlocks_multiply _ _ _ _ _ _ _ _
  simp only [Matrix.zero_mul, zero_add] at e
  have h21 : ∀ t, (E t).toBlocks₂₁ = 0 := by
    intro t
    have := ode_unique d (fun t => (E t).toBlocks₂₁) (fun t => (hd t).toBlocks.2.2.1.congr (by rw [e, toBlocks_fromBlocks₂₁])) t
    simp only [hE0, toBlocks_fromBlocks₂₁, Matrix.mul_zero] at this
    exact this
  refine ⟨?_, h21 t, ?_⟩
  · refine expm_unique a (fun t => (E t).toBlocks₁₁) (by simp only [hE0, toBlocks_fromBlocks₁₁]) (fun t => ?_) t
    exact (hd t).toBlocks.1.congr (by rw [e, toBlocks_fromBlocks₁₁, h21, Matrix.mul_zero, add_zero])
  · refine expm_unique d (fun t => (E t).toBlocks₂₂) (by simp only [hE0, toBlocks_fromBlocks₂₂]) (fun t => ?_) t
    exact (hd t).toBlocks.2.2.2.congr (by rw [e, toBlocks_fromBlocks₂₂])

theorem expm_triangular_zero (a : Matrix m m ℝ) (b : Matrix m n ℝ) (d : Matrix n n ℝ) :
    (NormedSpace.exp ((0 : ℝ) • Matrix.fromBlocks a b 0 d)).toBlocks₁₂ = 0 := by
  rw [expm_zero, ← Matrix.fromBlocks_one, toBlocks_fromBlocks₁₂]

/-- derivative of the off-diagonal block, equation on the left -/
theorem expm_triangular_deriv (a : Matrix m m ℝ) (b : Matrix m n ℝ) (d : Matrix n n ℝ) (t : ℝ) :
    MDeriv (fun s => (NormedSpace.exp (s • Matrix.fromBlocks a b 0 d)).toBlocks₁₂)
      (a * (NormedSpace.exp (t • Matrix.fromBlocks a b 0 d)).toBlocks₁₂ + b * NormedSpace.exp (t • d)) t := by
  refine (expm_deriv' (Matrix.fromBlocks a b 0 d) t).toBlocks.2.1.congr ?_
  conv_lhs => rw [← Matrix.fromBlocks_toBlocks (NormedSpace.exp (t • Matrix.fromBlocks a b 0 d))]
  rw [Matrix.fromBlocks_multiply, toBlocks_fromBlocks₁₂, (expm_triangular a b d t).2.2]

/-- derivative of the off-diagonal block, equation on the right -/
theorem expm_triangular_deriv' (a : Matrix m m ℝ) (b : Matrix m n ℝ) (d : Matrix n n ℝ) (t : ℝ) :
    MDeriv (fun s => (NormedSpace.exp (s • Matrix.fromBlocks a b 0 d)).toBlocks₁₂)
      (NormedSpace.exp (t • a) * b + (NormedSpace.exp (t • Matrix.fromBlocks a b 0 d)).toBlocks₁₂ * d) t := by
  refine (expm_deriv (Matrix.fromBlocks a b 0 d) t).toBlocks.2.1.congr ?_
  conv_lhs => rw [← Matrix.fromBlocks_toBlocks (NormedSpace.exp (t • Matrix.fromBlocks a b 0 d))]
  rw [Matrix.fromBlocks_multiply, toBlocks_fromBlocks₁₂, (expm_triangular a b d t).1]

theorem expm_transpose (F : Matrix n n ℝ) (t : ℝ) : NormedSpace.exp (t • Fᵀ) = (NormedSpace.exp (t • F))ᵀ := by
  rw [← Matrix.transpose_smul, Matrix.exp_transpose]

theorem expm_comm (F : Matrix n n ℝ) (t : ℝ) : NormedSpace.exp (t • F) * F = F * NormedSpace.exp (t • F) := by
  have h1 := expm_deriv F t
  have h2 := expm_deriv' F t
  ext i j
  exact (h1 i j).unique (h2 i j)

/-! ## `Phibar` -/

theorem phibar_zero (F : Matrix n n ℝ) : PhibarFromVanLoan F 0 = 0 := expm_triangular_zero _ _ _

theorem phibar_deriv (F : Matrix n n ℝ) (t : ℝ) : MDeriv (PhibarFromVanLoan F) (NormedSpace.exp (t • F)) t := by
  refine (expm_triangular_deriv' F (1 : Matrix n n ℝ) (0 : Matrix n n ℝ) t).congr ?_
  rw [Matrix.mul_one, Matrix.mul_zero, add_zero]

/-- `F Phibar = e^{tF} - 1` -/
theorem phibar_left (F : Matrix n n ℝ) (t : ℝ) : F * PhibarFromVanLoan F t = NormedSpace.exp (t • F) - 1 := by
  have h1 := expm_triangular_deriv F (1 : Matrix n n ℝ) (0 : Matrix n n ℝ) t
  rw [smul_zero, NormedSpace.exp_zero, Matrix.mul_one] at h1
  have h2 := phibar_deriv F t
  have : F * PhibarFromVanLoan F t + 1 = NormedSpace.exp (t • F) := by
    ext i j
    exact (h1 i j).unique (h2 i j)
  rw [← this, add_sub_cancel_right]

/-- `Phibar F = e^{tF} - 1` -/
theorem phibar_right (F : Matrix n n ℝ) (t : ℝ) : PhibarFromVanLoan F t * F = NormedSpace.exp (t • F) - 1 := by
  refine eq_of_MDeriv (A := fun t => PhibarFromVanLoan F t * F) (B := fun t => NormedSpace.exp (t • F) - 1)
    (D := fun t => NormedSpace.exp (t • F) * F) (fun t => ?_) (fun t => ?_) ?_ t
  · exact ((phibar_deriv F t).mul (MDeriv.const F)).congr (by rw [Matrix.mul_zero, add_zero])
  · exact ((expm_deriv F t).sub (MDeriv.const 1)).congr (by rw [sub_zero])
  · rw [phibar_zero, Matrix.zero_mul, expm_zero, sub_self]

theorem MDeriv.comp_add {A : ℝ → Matrix m n ℝ} {A' : Matrix m n ℝ} {t c : ℝ} (h : MDeriv A A' (c + t)) : MDeriv (fun s => A (c + s)) A' t := by
  intro i j
  have := (h i j).comp t ((hasDerivAt_id t).const_add c)
  rw [mul_one] at this
  exact this

/-- `Phibar(s + t) = Phibar(s) + Phibar(t) e^{sF}` -/
theorem phibar_add (F : Matrix n n ℝ) (s t : ℝ) :
    PhibarFromVanLoan F (s + t) = PhibarFromVanLoan F s + PhibarFromVanLoan F t * NormedSpace.exp (s • F) := by
  refine eq_of_MDeriv (A := fun t => PhibarFromVanLoan F (s + t))
    (B := fun t => PhibarFromVanLoan F s + PhibarFromVanLoan F t * NormedSpace.exp (s • F))
    (D := fun t => NormedSpace.exp ((s + t) • F)) (fun t => MDeriv.comp_add (phibar_deriv F _)) (fun t => ?_) ?_ t
  · refine ((MDeriv.const (PhibarFromVanLoan F s)).add ((phibar_deriv F t).mul (MDeriv.const (NormedSpace.exp (s • F))))).congr ?_
    rw [Matrix.mul_zero, zero_add, add_zero, add_comm s t, expm_add]
  · rw [add_zero, phibar_zero, Matrix.zero_mul, add_zero]

theorem phibar_comm (F : Matrix n n ℝ) (s t : ℝ) :
    PhibarFromVanLoan F t * NormedSpace.exp (s • F) = NormedSpace.exp (s • F) * PhibarFromVanLoan F t := by
  refine eq_of_MDeriv (A := fun t => PhibarFromVanLoan F t * NormedSpace.exp (s • F))
    (B := fun t => NormedSpace.exp (s • F) * PhibarFromVanLoan F t)
    (D := fun t => NormedSpace.exp ((s + t) • F)) (fun t => ?_) (fun t => ?_) ?_ t
  · refine ((phibar_deriv F t).mul (MDeriv.const (NormedSpace.exp (s • F)))).congr ?_
    rw [Matrix.mul_zero, add_zero, add_comm s t, expm_add]
  · refine ((MDeriv.const (NormedSpace.exp (s • F))).mul (phibar_deriv F t)).congr ?_
    rw [Matrix.zero_mul, zero_add, expm_add]
  · rw [phibar_zero, Matrix.zero_mul, Matrix.mul_zero]

/-! ## the fourfold block matrix -/

section four
variable (F : Matrix n n ℝ) (L : Matrix n p ℝ) (Qc : Matrix p p ℝ)

theorem vanLoan_F3 (t : ℝ) : (vanLoan F L Qc t).F3 = (NormedSpace.exp (t • F))ᵀ := by
  simp only [vanLoan, vanLoanC]
  rw [(expm_triangular _ _ _ t).2.2, (expm_triangular _ _ _ t).1, expm_transpose]

/-- lower right block, upper right corner: `Phibarᵀ` -/
theorem vanLoan_G3 (t : ℝ) : (NormedSpace.exp (t • (Matrix.fromBlocks Fᵀ 1 0 0 : Matrix (n ⊕ n) (n ⊕ n) ℝ))).toBlocks₁₂ =
    (PhibarFromVanLoan F t)ᵀ := by
  refine eq_of_MDeriv (A := fun t => (NormedSpace.exp (t • (Matrix.fromBlocks Fᵀ 1 0 0 : Matrix (n ⊕ n) (n ⊕ n) ℝ))).toBlocks₁₂)
    (B := fun t => (PhibarFromVanLoan F t)ᵀ) (D := fun t => (NormedSpace.exp (t • F))ᵀ) (fun t => ?_)
    (fun t => (phibar_deriv F t).transpose) ?_ t
  · refine (expm_triangular_deriv' Fᵀ (1 : Matrix n n ℝ) (0 : Matrix n n ℝ) t).congr ?_
    rw [Matrix.mul_one, Matrix.mul_zero, add_zero, expm_transpose]
  · rw [expm_triangular_zero, phibar_zero, transpose_zero]

theorem vanLoan_N (t : ℝ) :
    MDeriv (fun s => (NormedSpace.exp (s • vanLoanC F L Qc)).toBlocks₁₂)
      ((Matrix.fromBlocks (-F) 1 0 (-F) : Matrix (n ⊕ n) (n ⊕ n) ℝ) * (NormedSpace.exp (t • vanLoanC F L Qc)).toBlocks₁₂ +
        (Matrix.fromBlocks 0 0 (L * Qc * Lᵀ) 0 : Matrix (n ⊕ n) (n ⊕ n) ℝ) *
          NormedSpace.exp (t • (Matrix.fromBlocks Fᵀ 1 0 0 : Matrix (n ⊕ n) (n ⊕ n) ℝ))) t :=
  expm_triangular_deriv _ _ _ t

theorem vanLoan_zero : (vanLoan F L Qc 0).H2 = 0 ∧ (vanLoan F L Qc 0).K1 = 0 := by
  simp only [vanLoan, vanLoanC]
  rw [expm_triangular_zero]
  exact ⟨rfl, rfl⟩

theorem vanLoan_H2 (t : ℝ) : MDeriv (fun s => (vanLoan F L Qc s).H2)
    (-(F * (vanLoan F L Qc t).H2) + L * Qc * Lᵀ * (PhibarFromVanLoan F t)ᵀ) t := by
  refine (vanLoan_N F L Qc t).toBlocks.2.2.2.congr ?_
  rw [← vanLoan_G3]
  conv_lhs => rw [← Matrix.fromBlocks_toBlocks (NormedSpace.exp (t • vanLoanC F L Qc)).toBlocks₁₂,
    ← Matrix.fromBlocks_toBlocks (NormedSpace.exp (t • (Matrix.fromBlocks Fᵀ 1 0 0 : Matrix (n ⊕ n) (n ⊕ n) ℝ)))]
  rw [Matrix.fromBlocks_multiply, Matrix.fromBlocks_multiply, Matrix.fromBlocks_add, toBlocks_fromBlocks₂₂]
  simp only [Matrix.zero_mul, zero_add, add_zero, Matrix.neg_mul]
  rfl

theorem vanLoan_K1 (t : ℝ) : MDeriv (fun s => (vanLoan F L Qc s).K1)
    (-(F * (vanLoan F L Qc t).K1) + (vanLoan F L Qc t).H2) t := by
  refine (vanLoan_N F L Qc t).toBlocks.2.1.congr ?_
  conv_lhs => rw [← Matrix.fromBlocks_toBlocks (NormedSpace.exp (t • vanLoanC F L Qc)).toBlocks₁₂,
    ← Matrix.fromBlocks_toBlocks (NormedSpace.exp (t • (Matrix.fromBlocks Fᵀ 1 0 0 : Matrix (n ⊕ n) (n ⊕ n) ℝ)))]
  rw [Matrix.fromBlocks_multiply, Matrix.fromBlocks_multiply, Matrix.fromBlocks_add, toBlocks_fromBlocks₁₂]
  simp only [Matrix.zero_mul, add_zero, Matrix.neg_mul, Matrix.one_mul]
  rfl

/-- derivative of `M = F3ᵀ H2` -/
theorem vanLoan_M_deriv (t : ℝ) : MDeriv (fun s => (vanLoan F L Qc s).F3ᵀ * (vanLoan F L Qc s).H2)
    (NormedSpace.exp (t • F) * (L * Qc * Lᵀ) * (PhibarFromVanLoan F t)ᵀ) t := by
  simp only [vanLoan_F3, transpose_transpose]
  refine ((expm_deriv F t).mul (vanLoan_H2 F L Qc t)).congr ?_
  rw [Matrix.mul_add, Matrix.mul_neg, ← Matrix.mul_assoc, Matrix.mul_assoc _ (L * Qc * Lᵀ)]
  abel

/-- derivative of `F3ᵀ K1` -/
theorem vanLoan_W_deriv (t : ℝ) : MDeriv (fun s => (vanLoan F L Qc s).F3ᵀ * (vanLoan F L Qc s).K1)
    ((vanLoan F L Qc t).F3ᵀ * (vanLoan F L Qc t).H2) t := by
  simp only [vanLoan_F3, transpose_transpose]
  refine ((expm_deriv F t).mul (vanLoan_K1 F L Qc t)).congr ?_
  rw [Matrix.mul_add, Matrix.mul_neg, ← Matrix.mul_assoc]
  abel

/-- derivative of the output of `Q_from_VanLoan` -/
theorem QFromVanLoan_deriv (t : ℝ) : MDeriv (QFromVanLoan F L Qc)
    (NormedSpace.exp (t • F) * (L * Qc * Lᵀ) * (NormedSpace.exp (t • F))ᵀ) t := by
  have e : QFromVanLoan F L Qc = fun s => NormedSpace.exp (s • F) *
      (NormedSpace.exp (s • (Matrix.fromBlocks (-F) (L * Qc * Lᵀ) 0 Fᵀ : Matrix (n ⊕ n) (n ⊕ n) ℝ))).toBlocks₁₂ := by
    funext s
    simp only [QFromVanLoan]
    rw [(expm_triangular _ _ _ s).2.2, expm_transpose, transpose_transpose]
  rw [e]
  refine ((expm_deriv F t).mul (expm_triangular_deriv (-F) (L * Qc * Lᵀ) Fᵀ t)).congr ?_
  rw [expm_transpose, Matrix.mul_add, Matrix.neg_mul, Matrix.mul_neg, ← Matrix.mul_assoc, ← Matrix.mul_assoc]
  abel

theorem QFromVanLoan_zero : QFromVanLoan F L Qc 0 = 0 := by
  simp only [QFromVanLoan]
  rw [expm_triangular_zero, Matrix.mul_zero]

end four

end Verif
