import Verif.Lemmas.VanLoan
import Mathlib.MeasureTheory.Integral.IntervalIntegral.FundThmCalculus
import Mathlib.MeasureTheory.Integral.DominatedConvergence
import Mathlib.Analysis.Calculus.Deriv.Add

/-! # Closed forms of the integrated blocks for a stationary model -/

set_option linter.unusedSectionVars false

namespace Verif
open Matrix MeasureTheory

variable {m n p : Type} [Fintype m] [DecidableEq m] [Fintype n] [DecidableEq n] [Fintype p] [DecidableEq p]

theorem MDeriv.continuous {A A' : ℝ → Matrix m n ℝ} (h : ∀ t, MDeriv A (A' t) t) (i : m) (j : n) :
    Continuous fun t => A t i j :=
  continuous_iff_continuousAt.2 fun t => (h t i j).continuousAt

/-- second integral of the transition matrix -/
noncomputable def phibar2 (F : Matrix n n ℝ) (t : ℝ) : Matrix n n ℝ :=
  Matrix.of fun i j => ∫ s in (0 : ℝ)..t, PhibarFromVanLoan F s i j

theorem phibar2_zero (F : Matrix n n ℝ) : phibar2 F 0 = 0 := by
  ext i j; simp [phibar2]

theorem phibar2_deriv (F : Matrix n n ℝ) (t : ℝ) : MDeriv (phibar2 F) (PhibarFromVanLoan F t) t := by
  intro i j
  have hc : Continuous fun s => PhibarFromVanLoan F s i j := MDeriv.continuous (phibar_deriv F) i j
  exact intervalIntegral.integral_hasDerivAt_right (hc.intervalIntegrable _ _) hc.aestronglyMeasurable.stronglyMeasurableAtFilter hc.continuousAt

theorem phibar2_add (F : Matrix n n ℝ) (s t : ℝ) :
    phibar2 F (s + t) = phibar2 F s + phibar2 F t + PhibarFromVanLoan F t * PhibarFromVanLoan F s := by
  refine eq_of_MDeriv (A := fun s => phibar2 F (s + t))
    (B := fun s => phibar2 F s + phibar2 F t + PhibarFromVanLoan F t * PhibarFromVanLoan F s)
    (D := fun s => PhibarFromVanLoan F (s + t)) (fun s => ?_) (fun s => ?_) ?_ s
  · have := MDeriv.comp_add (c := t) (t := s) (phibar2_deriv F (t + s))
    simpa only [add_comm t] using this
  · refine (((phibar2_deriv F s).add (MDeriv.const _)).add ((MDeriv.const (PhibarFromVanLoan F t)).mul (phibar_deriv F s))).congr ?_
    rw [add_zero, Matrix.zero_mul, zero_add, phibar_add]
  · simp only [zero_add, phibar2_zero, phibar_zero, Matrix.mul_zero, add_zero]

section stationary
variable {F P : Matrix n n ℝ} {L : Matrix n p ℝ} {Qc : Matrix p p ℝ} (hL : F * P + P * Fᵀ + L * Qc * Lᵀ = 0)
include hL

theorem lyap_eq : L * Qc * Lᵀ = -(F * P) - P * Fᵀ := by
  have := eq_neg_of_add_eq_zero_right hL
  rw [this, neg_add]; rfl

/-- `Q_from_VanLoan` is `Pinf - Φ Pinf Φᵀ` -/
theorem QFromVanLoan_stationary (t : ℝ) :
    QFromVanLoan F L Qc t = P - NormedSpace.exp (t • F) * P * (NormedSpace.exp (t • F))ᵀ := by
  refine eq_of_MDeriv (A := QFromVanLoan F L Qc) (B := fun t => P - NormedSpace.exp (t • F) * P * (NormedSpace.exp (t • F))ᵀ)
    (fun t => QFromVanLoan_deriv F L Qc t) (fun t => ?_) ?_ t
  · refine ((MDeriv.const P).sub (expm_cov_deriv F P t)).congr ?_
    rw [lyap_eq hL, ← neg_add', Matrix.mul_neg, Matrix.neg_mul, zero_sub]
  · rw [QFromVanLoan_zero, expm_zero]; simp

/-- `M = F3ᵀ H2` is `Φ̄ Pinf - Φ Pinf Φ̄ᵀ` -/
theorem vanLoan_M (t : ℝ) : (vanLoan F L Qc t).F3ᵀ * (vanLoan F L Qc t).H2 =
    PhibarFromVanLoan F t * P - NormedSpace.exp (t • F) * P * (PhibarFromVanLoan F t)ᵀ := by
  refine eq_of_MDeriv (A := fun t => (vanLoan F L Qc t).F3ᵀ * (vanLoan F L Qc t).H2)
    (B := fun t => PhibarFromVanLoan F t * P - NormedSpace.exp (t • F) * P * (PhibarFromVanLoan F t)ᵀ)
    (fun t => vanLoan_M_deriv F L Qc t) (fun t => ?_) ?_ t
  · refine (((phibar_deriv F t).mul (MDeriv.const P)).sub (((expm_deriv F t).mul (MDeriv.const P)).mul (phibar_deriv F t).transpose)).congr ?_
    have hr : Fᵀ * (PhibarFromVanLoan F t)ᵀ = (NormedSpace.exp (t • F))ᵀ - 1 := by
      rw [← transpose_mul, phibar_right, transpose_sub, transpose_one]
    rw [lyap_eq hL]
    have : P * Fᵀ * (PhibarFromVanLoan F t)ᵀ = P * (NormedSpace.exp (t • F))ᵀ - P := by
      rw [Matrix.mul_assoc, hr, Matrix.mul_sub, Matrix.mul_one]
    rw [Matrix.mul_assoc _ (-(F * P) - P * Fᵀ), Matrix.sub_mul, this, Matrix.mul_sub, Matrix.mul_sub]
    simp only [Matrix.mul_zero, add_zero, Matrix.neg_mul, Matrix.mul_neg, Matrix.mul_assoc]
    abel
  · rw [(vanLoan_zero F L Qc).1, phibar_zero]; simp

/-- `W = F3ᵀ K1 + (F3ᵀ K1)ᵀ` is `Φ̿ Pinf + Pinf Φ̿ᵀ - Φ̄ Pinf Φ̄ᵀ` -/
theorem vanLoan_W (hP : Pᵀ = P) (t : ℝ) :
    (vanLoan F L Qc t).F3ᵀ * (vanLoan F L Qc t).K1 + ((vanLoan F L Qc t).F3ᵀ * (vanLoan F L Qc t).K1)ᵀ =
    phibar2 F t * P + P * (phibar2 F t)ᵀ - PhibarFromVanLoan F t * P * (PhibarFromVanLoan F t)ᵀ := by
  refine eq_of_MDeriv
    (A := fun t => (vanLoan F L Qc t).F3ᵀ * (vanLoan F L Qc t).K1 + ((vanLoan F L Qc t).F3ᵀ * (vanLoan F L Qc t).K1)ᵀ)
    (B := fun t => phibar2 F t * P + P * (phibar2 F t)ᵀ - PhibarFromVanLoan F t * P * (PhibarFromVanLoan F t)ᵀ)
    (fun t => (vanLoan_W_deriv F L Qc t).add (vanLoan_W_deriv F L Qc t).transpose) (fun t => ?_) ?_ t
  · refine ((((phibar2_deriv F t).mul (MDeriv.const P)).add ((MDeriv.const P).mul (phibar2_deriv F t).transpose)).sub
      (((phibar_deriv F t).mul (MDeriv.const P)).mul (phibar_deriv F t).transpose)).congr ?_
    rw [vanLoan_M hL]
    simp only [Matrix.mul_zero, Matrix.zero_mul, zero_add, add_zero, transpose_sub, transpose_mul, transpose_transpose, hP, Matrix.mul_assoc]
    abel
  · rw [(vanLoan_zero F L Qc).2, phibar2_zero, phibar_zero]; simp

end stationary

end Verif
