import Mathlib.Analysis.SpecialFunctions.Exponential
import Mathlib.Analysis.SpecialFunctions.Trigonometric.Basic
import Mathlib.Analysis.Normed.Ring.InfiniteSum
import Mathlib.Analysis.SpecialFunctions.Log.Basic
import Mathlib.Topology.Algebra.InfiniteSum.Order

/-!
# The double Taylor series `exp(2 u cos θ) = Σ_{a,b} u^(a+b)/(a! b!) cos((a-b)θ)`
-/

namespace Verif.Fourier
open Finset

/-- weight of the pair `(a, b)` -/
noncomputable def wt (u : ℝ) (p : ℕ × ℕ) : ℝ := u ^ p.1 / p.1.factorial * (u ^ p.2 / p.2.factorial)

theorem wt_pos {u : ℝ} (hu : 0 < u) (p : ℕ × ℕ) : 0 < wt u p := by unfold wt; positivity

theorem hasSum_exp_real (u : ℝ) : HasSum (fun a : ℕ => u ^ a / a.factorial) (Real.exp u) := by
  rw [Real.exp_eq_exp_ℝ]
  exact NormedSpace.expSeries_div_hasSum_exp u

theorem hasSum_wt (u : ℝ) : HasSum (wt u) (Real.exp (2 * u)) := by
  have h := hasSum_exp_real u
  have hn : Summable fun a : ℕ => ‖u ^ a / a.factorial‖ := h.summable.abs
  have := h.mul h (summable_mul_of_summable_norm hn hn)
  rw [two_mul, Real.exp_add]
  exact this

theorem wt_term (u θ : ℝ) (p : ℕ × ℕ) :
    (u * Complex.exp (θ * Complex.I)) ^ p.1 / (p.1.factorial : ℂ) * ((u * Complex.exp (-θ * Complex.I)) ^ p.2 / (p.2.factorial : ℂ)) =
      ((wt u p : ℝ) : ℂ) * Complex.exp (((((p.1 : ℝ) - p.2) * θ : ℝ) : ℂ) * Complex.I) := by
  rw [mul_pow, mul_pow, ← Complex.exp_nat_mul, ← Complex.exp_nat_mul]
  have e : ((((p.1 : ℝ) - p.2) * θ : ℝ) : ℂ) * Complex.I = (p.1 : ℂ) * (θ * Complex.I) + (p.2 : ℂ) * (-θ * Complex.I) := by
    push_cast; ring
  rw [e, Complex.exp_add]
  unfold wt
  push_cast
  ring

theorem wt_term_re (u θ : ℝ) (p : ℕ × ℕ) :
    ((u * Complex.exp (θ * Complex.I)) ^ p.1 / (p.1.factorial : ℂ) *
      ((u * Complex.exp (-θ * Complex.I)) ^ p.2 / (p.2.factorial : ℂ))).re = wt u p * Real.cos (((p.1 : ℝ) - p.2) * θ) := by
  rw [wt_term, Complex.re_ofReal_mul, Complex.exp_ofReal_mul_I_re]

theorem hasSum_exp_complex (z : ℂ) : HasSum (fun a : ℕ => z ^ a / (a.factorial : ℂ)) (Complex.exp z) := by
  rw [Complex.exp_eq_exp_ℂ]
  exact NormedSpace.expSeries_div_hasSum_exp z

theorem summable_exp_complex (z : ℂ) : Summable fun a : ℕ => ‖z ^ a / (a.factorial : ℂ)‖ := by
  refine (Real.summable_pow_div_factorial ‖z‖).congr fun a => ?_
  rw [norm_div, norm_pow, Complex.norm_natCast]

theorem exp_prod (u θ : ℝ) : Complex.exp (u * Complex.exp (θ * Complex.I)) * Complex.exp (u * Complex.exp (-θ * Complex.I)) =
    ((Real.exp (2 * u * Real.cos θ) : ℝ) : ℂ) := by
  rw [← Complex.exp_add, Complex.ofReal_exp]
  congr 1
  rw [← mul_add, ← Complex.two_cos]
  push_cast
  ring

theorem hasSum_mul_complex {f g : ℕ → ℂ} {a b : ℂ} (hf : HasSum f a) (hg : HasSum g b) (nf : Summable fun i => ‖f i‖)
    (ng : Summable fun i => ‖g i‖) : HasSum (fun p : ℕ × ℕ => f p.1 * g p.2) (a * b) :=
  hf.mul hg (summable_mul_of_summable_norm nf ng)

theorem hasSum_wt_cos (u θ : ℝ) :
    HasSum (fun p : ℕ × ℕ => wt u p * Real.cos (((p.1 : ℝ) - p.2) * θ)) (Real.exp (2 * u * Real.cos θ)) := by
  have h := hasSum_mul_complex (hasSum_exp_complex (u * Complex.exp (θ * Complex.I)))
    (hasSum_exp_complex (u * Complex.exp (-θ * Complex.I))) (summable_exp_complex _) (summable_exp_complex _)
  rw [exp_prod] at h
  have hre := Complex.hasSum_re h
  rw [Complex.ofReal_re] at hre
  simp only [wt_term_re] at hre
  exact hre

/-- partial sums over a finite set of pairs: deviation from the cosine series is at most the missing weight -/
theorem cos_partial_bound {u : ℝ} (hu : 0 < u) (θ : ℝ) (s : Finset (ℕ × ℕ)) :
    |Real.exp (2 * u * Real.cos θ) - ∑ p ∈ s, wt u p * Real.cos (((p.1 : ℝ) - p.2) * θ)| ≤
      Real.exp (2 * u) - ∑ p ∈ s, wt u p := by
  have h1 := hasSum_wt_cos u θ
  have h2 := hasSum_wt u
  have e1 := h1.summable.sum_add_tsum_compl (s := s)
  have e2 := h2.summable.sum_add_tsum_compl (s := s)
  rw [h1.tsum_eq] at e1
  rw [h2.tsum_eq] at e2
  rw [← e1, ← e2, add_sub_cancel_left, add_sub_cancel_left]
  have s2 := h2.summable.subtype (· ∈ (↑s : Set (ℕ × ℕ))ᶜ)
  have s1 := h1.summable.subtype (· ∈ (↑s : Set (ℕ × ℕ))ᶜ)
  rw [← Real.norm_eq_abs]
  refine (norm_tsum_le_tsum_norm ?_).trans ?_
  · exact s1.abs
  · refine Summable.tsum_le_tsum (fun p => ?_) s1.abs s2
    rw [Real.norm_eq_abs, abs_mul, abs_of_pos (wt_pos hu _)]
    exact mul_le_of_le_one_right (wt_pos hu _).le (Real.abs_cos_le_one _)

/-- a finite partial sum of the weights stays below the exponential -/
theorem partial_le {u : ℝ} (hu : 0 < u) (s : Finset (ℕ × ℕ)) : ∑ p ∈ s, wt u p ≤ Real.exp (2 * u) :=
  sum_le_hasSum s (fun p _ => (wt_pos hu p).le) (hasSum_wt u)

end Verif.Fourier
