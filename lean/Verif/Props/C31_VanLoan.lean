import Verif.Lemmas.IntBlocks
import Verif.Spec.Shipped
import Verif.Model.Integrated
import Verif.Lemmas.KernelAnalytic
import Mathlib.MeasureTheory.Integral.IntervalIntegral.Basic

/-!
# C31, C32: the Van Loan helpers and the augmented model
-/

set_option linter.unusedSectionVars false

namespace Verif
open Matrix MeasureTheory

section
variable {m n p : Type} [Fintype m] [DecidableEq m] [Fintype n] [DecidableEq n] [Fintype p] [DecidableEq p]

/-- fundamental theorem of calculus, entrywise -/
theorem MDeriv.integral {A D D' : ℝ → Matrix m n ℝ} (h : ∀ t, MDeriv A (D t) t) (hD : ∀ t, MDeriv D (D' t) t) (h0 : A 0 = 0)
    (t : ℝ) (i : m) (j : n) : A t i j = ∫ s in (0 : ℝ)..t, D s i j := by
  have hc : Continuous fun s => D s i j := MDeriv.continuous hD i j
  rw [intervalIntegral.integral_eq_sub_of_hasDerivAt (fun s _ => h s i j) (hc.intervalIntegrable _ _), h0]
  simp

variable (F : Matrix n n ℝ) (L : Matrix n p ℝ) (Qc : Matrix p p ℝ)

/-- **C31**: `Phibar_from_VanLoan(F, dt)` is `∫₀^dt exp(F s) ds`, for every matrix and every `dt` -/
theorem C31_phibar (dt : ℝ) (i j : n) :
    PhibarFromVanLoan F dt i j = ∫ s in (0 : ℝ)..dt, (NormedSpace.exp (s • F)) i j :=
  MDeriv.integral (phibar_deriv F) (expm_deriv F) (phibar_zero F) dt i j

/-- **C31**: `Q_from_VanLoan(F, L, Qc, dt)` is `∫₀^dt exp(F (dt-s)) L Qc Lᵀ exp(Fᵀ (dt-s)) ds` -/
theorem C31_process_noise (dt : ℝ) (i j : n) :
    QFromVanLoan F L Qc dt i j =
      ∫ s in (0 : ℝ)..dt, (NormedSpace.exp ((dt - s) • F) * (L * Qc * Lᵀ) * NormedSpace.exp ((dt - s) • Fᵀ)) i j := by
  rw [MDeriv.integral (QFromVanLoan_deriv F L Qc) (expm_cov_deriv F (L * Qc * Lᵀ)) (QFromVanLoan_zero F L Qc) dt i j]
  have := intervalIntegral.integral_comp_sub_left
    (fun s => (NormedSpace.exp (s • F) * (L * Qc * Lᵀ) * (NormedSpace.exp (s • F))ᵀ) i j) dt (a := 0) (b := dt)
  rw [sub_self, sub_zero] at this
  rw [← this]
  simp only [expm_transpose]

/-- **C31**: the block `F3` returned by `VanLoan` is the transposed transition matrix -/
theorem C31_vanLoan_F3 (dt : ℝ) : (vanLoan F L Qc dt).F3 = (NormedSpace.exp (dt • F))ᵀ := vanLoan_F3 F L Qc dt

/-- **C31**: `F3ᵀ H2` from `VanLoan` is the cross-covariance integral `∫₀^dt exp(F s) L Qc Lᵀ Phibar(s)ᵀ ds` -/
theorem C31_vanLoan_M (dt : ℝ) (i j : n) :
    ((vanLoan F L Qc dt).F3ᵀ * (vanLoan F L Qc dt).H2) i j =
      ∫ s in (0 : ℝ)..dt, (NormedSpace.exp (s • F) * (L * Qc * Lᵀ) * (PhibarFromVanLoan F s)ᵀ) i j := by
  refine MDeriv.integral (A := fun t => (vanLoan F L Qc t).F3ᵀ * (vanLoan F L Qc t).H2) (vanLoan_M_deriv F L Qc)
    (fun t => ((expm_deriv F t).mul (MDeriv.const _)).mul (phibar_deriv F t).transpose) ?_ dt i j
  show _ * _ = _
  rw [(vanLoan_zero F L Qc).1, Matrix.mul_zero]

theorem vanLoan_M_symm (t : ℝ) :
    (vanLoan F L Qc t).F3ᵀ * (vanLoan F L Qc t).H2 + ((vanLoan F L Qcᵀ t).F3ᵀ * (vanLoan F L Qcᵀ t).H2)ᵀ =
      PhibarFromVanLoan F t * (L * Qc * Lᵀ) * (PhibarFromVanLoan F t)ᵀ := by
  refine eq_of_MDeriv
    (A := fun t => (vanLoan F L Qc t).F3ᵀ * (vanLoan F L Qc t).H2 + ((vanLoan F L Qcᵀ t).F3ᵀ * (vanLoan F L Qcᵀ t).H2)ᵀ)
    (B := fun t => PhibarFromVanLoan F t * (L * Qc * Lᵀ) * (PhibarFromVanLoan F t)ᵀ)
    (fun t => (vanLoan_M_deriv F L Qc t).add (vanLoan_M_deriv F L Qcᵀ t).transpose) (fun t => ?_) ?_ t
  · refine (((phibar_deriv F t).mul (MDeriv.const _)).mul (phibar_deriv F t).transpose).congr ?_
    rw [Matrix.mul_zero, add_zero]
    simp only [transpose_mul, transpose_transpose, Matrix.mul_assoc]
  · rw [(vanLoan_zero F L Qc).1, (vanLoan_zero F L Qcᵀ).1, phibar_zero]; simp

/-- **C31**: `F3ᵀ K1 + (F3ᵀ K1)ᵀ` from `VanLoan` is `∫₀^dt Phibar(s) L Qc Lᵀ Phibar(s)ᵀ ds` (for the symmetric spectral density every
kernel has) -/
theorem C31_vanLoan_W (hQc : Qcᵀ = Qc) (dt : ℝ) (i j : n) :
    ((vanLoan F L Qc dt).F3ᵀ * (vanLoan F L Qc dt).K1 + ((vanLoan F L Qc dt).F3ᵀ * (vanLoan F L Qc dt).K1)ᵀ) i j =
      ∫ s in (0 : ℝ)..dt, (PhibarFromVanLoan F s * (L * Qc * Lᵀ) * (PhibarFromVanLoan F s)ᵀ) i j := by
  refine MDeriv.integral
    (A := fun t => (vanLoan F L Qc t).F3ᵀ * (vanLoan F L Qc t).K1 + ((vanLoan F L Qc t).F3ᵀ * (vanLoan F L Qc t).K1)ᵀ)
    (D := fun s => PhibarFromVanLoan F s * (L * Qc * Lᵀ) * (PhibarFromVanLoan F s)ᵀ) (fun t => ?_)
    (fun t => ((phibar_deriv F t).mul (MDeriv.const _)).mul (phibar_deriv F t).transpose) ?_ dt i j
  · refine ((vanLoan_W_deriv F L Qc t).add (vanLoan_W_deriv F L Qc t).transpose).congr ?_
    have := vanLoan_M_symm F L Qc t
    rw [hQc] at this
    exact this
  · show _ * _ + (_ * _)ᵀ = _
    rw [(vanLoan_zero F L Qc).2, Matrix.mul_zero, transpose_zero, add_zero]

/-- a concrete value: `∫₀² e^{-3 s} ds` -/
example : PhibarFromVanLoan (!![(-3 : ℝ)] : Matrix (Fin 1) (Fin 1) ℝ) 2 0 0 = (1 - Real.exp (-6)) / 3 := by
  have h := congrFun₂ (phibar_left (!![(-3 : ℝ)] : Matrix (Fin 1) (Fin 1) ℝ) 2) 0 0
  have e : (2 : ℝ) • (!![(-3 : ℝ)] : Matrix (Fin 1) (Fin 1) ℝ) = Matrix.diagonal fun _ => -6 := by
    ext i j; fin_cases i; fin_cases j; norm_num
  rw [e, Matrix.exp_diagonal] at h
  simp [Matrix.mul_apply] at h
  rw [← Real.exp_eq_exp_ℝ] at h
  linarith
end

/-! ## the augmented model -/

section
variable {m n p : Type} [Fintype m] [DecidableEq m] [Fintype n] [DecidableEq n] [Fintype p] [DecidableEq p]

theorem MDeriv.fromBlocks {a b c d : Type} {A : ℝ → Matrix a c ℝ} {B : ℝ → Matrix a d ℝ} {C : ℝ → Matrix b c ℝ} {D : ℝ → Matrix b d ℝ}
    {A' : Matrix a c ℝ} {B' : Matrix a d ℝ} {C' : Matrix b c ℝ} {D' : Matrix b d ℝ} {t : ℝ}
    (hA : MDeriv A A' t) (hB : MDeriv B B' t) (hC : MDeriv C C' t) (hD : MDeriv D D' t) :
    MDeriv (fun s => Matrix.fromBlocks (A s) (B s) (C s) (D s)) (Matrix.fromBlocks A' B' C' D') t := by
  rintro (i | i) (j | j)
  · exact hA i j
  · exact hB i j
  · exact hC i j
  · exact hD i j

/-- exponential of the augmented design matrix `[[F, 0], [E, 0]]` -/
theorem expm_augmented (F : Matrix n n ℝ) (E : Matrix m n ℝ) (t : ℝ) :
    NormedSpace.exp (t • (Matrix.fromBlocks F 0 E 0 : Matrix (n ⊕ m) (n ⊕ m) ℝ)) =
      Matrix.fromBlocks (NormedSpace.exp (t • F)) 0 (E * PhibarFromVanLoan F t) 1 := by
  refine (expm_unique (Matrix.fromBlocks F 0 E 0 : Matrix (n ⊕ m) (n ⊕ m) ℝ)
    (fun t => Matrix.fromBlocks (NormedSpace.exp (t • F)) 0 (E * PhibarFromVanLoan F t) 1) ?_ (fun t => ?_) t).symm
  · rw [expm_zero, phibar_zero, Matrix.mul_zero, Matrix.fromBlocks_one]
  · refine (MDeriv.fromBlocks (expm_deriv' F t) (MDeriv.const 0) ((MDeriv.const E).mul (phibar_deriv F t)) (MDeriv.const 1)).congr ?_
    rw [Matrix.fromBlocks_multiply]
    simp only [Matrix.zero_mul, Matrix.mul_zero, add_zero, zero_add]

/-- the covariance of the augmented increment -/
theorem augmented_conj (Phi : Matrix n n ℝ) (X : Matrix m n ℝ) (L : Matrix n p ℝ) (Qc : Matrix p p ℝ) :
    Matrix.fromBlocks Phi 0 X 1 * (Matrix.fromRows L (0 : Matrix m p ℝ) * Qc * (Matrix.fromRows L (0 : Matrix m p ℝ))ᵀ) *
      (Matrix.fromBlocks Phi 0 X 1)ᵀ =
    Matrix.fromBlocks (Phi * (L * Qc * Lᵀ) * Phiᵀ) (Phi * (L * Qc * Lᵀ) * Xᵀ) (X * (L * Qc * Lᵀ) * Phiᵀ) (X * (L * Qc * Lᵀ) * Xᵀ) := by
  have e : Matrix.fromRows L (0 : Matrix m p ℝ) * Qc * (Matrix.fromRows L (0 : Matrix m p ℝ))ᵀ =
      Matrix.fromBlocks (L * Qc * Lᵀ) 0 0 0 := by
    rw [Matrix.fromRows_mul, Matrix.transpose_fromRows, Matrix.fromRows_mul_fromCols]
    simp
  rw [e, Matrix.fromBlocks_multiply, Matrix.fromBlocks_transpose, Matrix.fromBlocks_multiply]
  simp
end

/-- what an integrated kernel needs from its base kernel -/
structure SSM.BaseOk (k : SSM) : Prop where
  exp : k.TransitionIsExp
  noise : k.NoiseIsStationary
  lyap : k.Lyapunov
  symm : k.Pinfᵀ = k.Pinf
  qc_symm : k.Qcᵀ = k.Qc

/-- the rows `F_aug[d + i, :d]`: every integral state integrates latent component `0` -/
def pickFirst {n : Type} [DecidableEq n] (m : ℕ) (first : n) : Matrix (Fin (m + 1)) n ℝ := Matrix.of fun _ j => if j = first then 1 else 0

theorem pickFirst_mul {n l : Type} [Fintype n] [DecidableEq n] (m : ℕ) (first : n) (M : Matrix n l ℝ) :
    pickFirst m first * M = Matrix.of fun _ j => M first j := by
  ext i j
  simp [pickFirst, Matrix.mul_apply]

theorem mul_pickFirst {n l : Type} [Fintype n] [DecidableEq n] (m : ℕ) (first : n) (M : Matrix l n ℝ) :
    M * (pickFirst m first)ᵀ = Matrix.of fun i _ => M i first := by
  ext i j
  simp [pickFirst, Matrix.mul_apply]

section
variable {base : SSM} (first : base.n) (name : String) (m : ℕ)

/-- **C32**: the augmented transition matrix is the matrix exponential of the augmented design matrix, for every base kernel whose
transition matrix is the exponential of its design matrix, every number of instruments and every lag -/
theorem C32_transition (h : base.TransitionIsExp) : (integratedDefault name m base first).TransitionIsExp := by
  intro X1 X2
  have e1 : NormedSpace.exp ((X2.sortable - X1.sortable) • (integratedDefault name m base first).F) = _ :=
    expm_augmented base.F (pickFirst m first) (X2.sortable - X1.sortable)
  rw [pickFirst_mul] at e1
  have e2 : base.A (.time X1.sortable) (.time X2.sortable) = NormedSpace.exp ((X2.sortable - X1.sortable) • base.F) :=
    h (.time X1.sortable) (.time X2.sortable)
  rw [e1, ← e2]
  rfl

/-- covariance of the augmented noise accumulated over `dt`, from the Van Loan blocks -/
noncomputable def augNoise (base : SSM) (m : ℕ) (first : base.n) (dt : ℝ) : Matrix (base.n ⊕ Fin (m + 1)) (base.n ⊕ Fin (m + 1)) ℝ :=
  Matrix.fromBlocks (QFromVanLoan base.F base.L base.Qc dt)
    (Matrix.of fun a _ => defaultQ12 base first 0 dt a) (Matrix.of fun _ a => defaultQ12 base first 0 dt a)
    (Matrix.of fun _ _ => defaultQ22 base first 0 dt)

theorem augNoise_integral (hqc : base.Qcᵀ = base.Qc) (dt : ℝ) (i j : base.n ⊕ Fin (m + 1)) :
    augNoise base m first dt i j = ∫ s in (0 : ℝ)..dt,
      (NormedSpace.exp (s • (integratedDefault name m base first).F) *
        ((integratedDefault name m base first).L * (integratedDefault name m base first).Qc * (integratedDefault name m base first).Lᵀ) *
        (NormedSpace.exp (s • (integratedDefault name m base first).F))ᵀ) i j := by
  have hQ : augNoise base m first dt =
      Matrix.fromBlocks (QFromVanLoan base.F base.L base.Qc dt)
        ((vanLoan base.F base.L base.Qc dt).F3ᵀ * (vanLoan base.F base.L base.Qc dt).H2 * (pickFirst m first)ᵀ)
        ((vanLoan base.F base.L base.Qc dt).F3ᵀ * (vanLoan base.F base.L base.Qc dt).H2 * (pickFirst m first)ᵀ)ᵀ
        (pickFirst m first * ((vanLoan base.F base.L base.Qc dt).F3ᵀ * (vanLoan base.F base.L base.Qc dt).K1 +
          ((vanLoan base.F base.L base.Qc dt).F3ᵀ * (vanLoan base.F base.L base.Qc dt).K1)ᵀ) * (pickFirst m first)ᵀ) := by
    rw [mul_pickFirst, mul_pickFirst, pickFirst_mul]
    unfold augNoise defaultQ12 defaultQ22
    rw [sub_zero]
    rfl
  have hF : ∀ s : ℝ, NormedSpace.exp (s • (integratedDefault name m base first).F) *
        ((integratedDefault name m base first).L * (integratedDefault name m base first).Qc * (integratedDefault name m base first).Lᵀ) *
        (NormedSpace.exp (s • (integratedDefault name m base first).F))ᵀ =
      Matrix.fromBlocks (NormedSpace.exp (s • base.F) * (base.L * base.Qc * base.Lᵀ) * (NormedSpace.exp (s • base.F))ᵀ)
        (NormedSpace.exp (s • base.F) * (base.L * base.Qc * base.Lᵀ) * (pickFirst m first * PhibarFromVanLoan base.F s)ᵀ)
        ((pickFirst m first * PhibarFromVanLoan base.F s) * (base.L * base.Qc * base.Lᵀ) * (NormedSpace.exp (s • base.F))ᵀ)
        ((pickFirst m first * PhibarFromVanLoan base.F s) * (base.L * base.Qc * base.Lᵀ) *
          (pickFirst m first * PhibarFromVanLoan base.F s)ᵀ) := by
    intro s
    have e1 : NormedSpace.exp (s • (integratedDefault name m base first).F) = _ := expm_augmented base.F (pickFirst m first) s
    rw [e1]
    exact augmented_conj _ _ _ _
  simp only [hF]
  rw [hQ]
  have hQLs : (base.L * base.Qc * base.Lᵀ)ᵀ = base.L * base.Qc * base.Lᵀ := by
    rw [transpose_mul, transpose_mul, transpose_transpose, hqc, Matrix.mul_assoc]
  rcases i with i | i <;> rcases j with j | j
  · exact MDeriv.integral (QFromVanLoan_deriv base.F base.L base.Qc) (expm_cov_deriv base.F _) (QFromVanLoan_zero _ _ _) dt i j
  · simp only [Matrix.fromBlocks_apply₁₂, mul_pickFirst, pickFirst_mul]
    exact C31_vanLoan_M base.F base.L base.Qc dt i first
  · simp only [Matrix.fromBlocks_apply₂₁, mul_pickFirst, transpose_apply, Matrix.of_apply]
    refine (C31_vanLoan_M base.F base.L base.Qc dt j first).trans ?_
    refine intervalIntegral.integral_congr fun s _ => ?_
    have e3 : ∀ X : Matrix base.n base.n ℝ, (pickFirst m first * X) i j = X first j := fun X => by rw [pickFirst_mul]; rfl
    simp only [Matrix.mul_assoc (pickFirst m first), e3]
    rw [← transpose_apply (NormedSpace.exp (s • base.F) * _ * _), transpose_mul, transpose_mul, transpose_transpose, hQLs]
    simp only [Matrix.mul_assoc]
  · simp only [Matrix.fromBlocks_apply₂₂, mul_pickFirst, pickFirst_mul]
    refine (C31_vanLoan_W base.F base.L base.Qc hqc dt first first).trans ?_
    refine intervalIntegral.integral_congr fun s _ => ?_
    simp only [Matrix.mul_apply, Matrix.of_apply, transpose_apply]

/-- **C32**: the augmented process noise is `∫₀^dt expm(F_aug s) L_aug Qc L_augᵀ expm(F_aug s)ᵀ ds` -/
theorem C32_process_noise (h : base.BaseOk) (X1 X2 : Coord) (i j : (integratedDefault name m base first).n) :
    (integratedDefault name m base first).Q X1 X2 i j = ∫ s in (0 : ℝ)..(X2.sortable - X1.sortable),
      (NormedSpace.exp (s • (integratedDefault name m base first).F) *
        ((integratedDefault name m base first).L * (integratedDefault name m base first).Qc * (integratedDefault name m base first).Lᵀ) *
        (NormedSpace.exp (s • (integratedDefault name m base first).F))ᵀ) i j := by
  have hQ : (integratedDefault name m base first).Q X1 X2 = augNoise base m first (X2.sortable - X1.sortable) := by
    unfold augNoise
    rw [QFromVanLoan_stationary h.lyap]
    show Matrix.fromBlocks (base.Q _ _) _ _ _ = _
    rw [h.noise, h.exp]
    show Matrix.fromBlocks (base.Pinf - NormedSpace.exp ((X2.sortable - X1.sortable - 0) • base.F) * base.Pinf *
      (NormedSpace.exp ((X2.sortable - X1.sortable - 0) • base.F))ᵀ) _ _ _ = _
    unfold defaultQ12 defaultQ22
    rw [sub_zero]
  rw [hQ]
  exact augNoise_integral first name m h.qc_symm _ i j

end

end Verif
