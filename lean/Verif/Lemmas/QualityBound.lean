import Verif.Spec.Cov
import Verif.Model.Kernels
import Mathlib.Analysis.SpecialFunctions.Trigonometric.Deriv
import Mathlib.Analysis.SpecialFunctions.Trigonometric.DerivHyp
import Mathlib.Analysis.SpecialFunctions.ExpDeriv
import Mathlib.Analysis.Calculus.Deriv.MeanValue

/-!
# The oscillator covariance depends continuously on the quality

An energy estimate for the oscillator equation, uniform in time and across the three damping regimes.
-/

namespace Verif
open Spec

/-- a solution of `f'' + 2 a f' + f = 0`, `f 0 = 1`, `f' 0 = 0` -/
structure OscSol (a : ℝ) (f g : ℝ → ℝ) : Prop where
  deriv : ∀ x, HasDerivAt f (g x) x
  deriv2 : ∀ x, HasDerivAt g (-(2 * a * g x) - f x) x
  zero : f 0 = 1
  zero' : g 0 = 0

theorem OscSol.close {a b : ℝ} {f g h k : ℝ → ℝ} (ha : 0 < a) (hb : 0 < b) (h1 : OscSol a f g) (h2 : OscSol b h k) {x : ℝ} (hx : 0 ≤ x) :
    (f x - h x) ^ 2 ≤ (a - b) ^ 2 / (4 * a * b) := by
  set c := (a - b) ^ 2 / (4 * a * b) with hc
  let Φ : ℝ → ℝ := fun x => (f x - h x) ^ 2 + (g x - k x) ^ 2 + c * (f x ^ 2 + g x ^ 2)
  have hd : ∀ x, HasDerivAt Φ (2 * (f x - h x) * (g x - k x) + 2 * (g x - k x) * ((-(2 * a * g x) - f x) - (-(2 * b * k x) - h x)) +
      c * (2 * f x * g x + 2 * g x * (-(2 * a * g x) - f x))) x := fun x => by
    have e1 := ((h1.deriv x).sub (h2.deriv x)).pow 2
    have e2 := ((h1.deriv2 x).sub (h2.deriv2 x)).pow 2
    have e3 := (((h1.deriv x).pow 2).add ((h1.deriv2 x).pow 2)).const_mul c
    refine ((e1.add e2).add e3).congr_deriv ?_
    simp only [Pi.sub_apply]
    push_cast
    ring
  have hle : ∀ x, 2 * (f x - h x) * (g x - k x) + 2 * (g x - k x) * ((-(2 * a * g x) - f x) - (-(2 * b * k x) - h x)) +
      c * (2 * f x * g x + 2 * g x * (-(2 * a * g x) - f x)) ≤ 0 := fun x => by
    have e : 2 * (f x - h x) * (g x - k x) + 2 * (g x - k x) * ((-(2 * a * g x) - f x) - (-(2 * b * k x) - h x)) +
        c * (2 * f x * g x + 2 * g x * (-(2 * a * g x) - f x)) =
        -(2 * b * (g x - k x) + (a - b) * g x) ^ 2 / b := by
      rw [hc]
      field_simp
      ring
    rw [e]
    exact div_nonpos_of_nonpos_of_nonneg (neg_nonpos.2 (sq_nonneg _)) hb.le
  have hanti : Antitone Φ := antitone_of_hasDerivAt_nonpos hd hle
  have h0 := hanti hx
  have e0 : Φ 0 = c := by
    show (f 0 - h 0) ^ 2 + (g 0 - k 0) ^ 2 + c * (f 0 ^ 2 + g 0 ^ 2) = c
    rw [h1.zero, h2.zero, h1.zero', h2.zero']
    ring
  rw [e0] at h0
  have hc0 : 0 ≤ c := by positivity
  have : Φ x = (f x - h x) ^ 2 + (g x - k x) ^ 2 + c * (f x ^ 2 + g x ^ 2) := rfl
  nlinarith [sq_nonneg (g x - k x), mul_nonneg hc0 (add_nonneg (sq_nonneg (f x)) (sq_nonneg (g x)))]

theorem OscSol.abs_le_one {a : ℝ} {f g : ℝ → ℝ} (ha : 0 < a) (h : OscSol a f g) {x : ℝ} (hx : 0 ≤ x) : |f x| ≤ 1 := by
  have hanti : Antitone fun x => f x ^ 2 + g x ^ 2 := by
    refine antitone_of_hasDerivAt_nonpos (fun x => ((h.deriv x).pow 2).add ((h.deriv2 x).pow 2)) fun x => ?_
    push_cast
    have : 2 * f x ^ (2 - 1) * g x + 2 * g x ^ (2 - 1) * (-(2 * a * g x) - f x) = -(4 * a * g x ^ 2) := by ring
    rw [this]
    exact neg_nonpos.2 (by positivity)
  have h0 := hanti hx
  simp only [h.zero, h.zero'] at h0
  rw [← sq_le_one_iff_abs_le_one]
  nlinarith [sq_nonneg (g x)]

/-- the covariance function of an oscillator of unit frequency and amplitude solves the oscillator equation -/
theorem covSHO_osc {q : ℝ} (hq : 0 < q) : ∃ g, OscSol (1 / (2 * q)) (covSHO 1 q 1) g := by
  set a := 1 / (2 * q) with ha
  have ha0 : 0 < a := by positivity
  set n := Real.sqrt |1 - 1 / (4 * q ^ 2)| with hn
  have e1 : 1 / (4 * q ^ 2) = a ^ 2 := by rw [ha]; field_simp; norm_num
  have hE : ∀ x, HasDerivAt (fun x => Real.exp (-(a * x))) (-a * Real.exp (-(a * x))) x := fun x => by
    have := (((hasDerivAt_id x).const_mul a).neg).exp
    refine this.congr_deriv ?_
    simp only [Pi.neg_apply, id]
    ring
  have hexp : ∀ x, Real.exp (-(1 * x / (2 * q))) = Real.exp (-(a * x)) := fun x => by
    congr 1; rw [ha]; ring
  rcases lt_trichotomy q (1 / 2) with h | h | h
  · have ha1 : 1 < a := by rw [ha, lt_div_iff₀ (by positivity)]; linarith
    have hn2 : n ^ 2 = a ^ 2 - 1 := by
      rw [hn, Real.sq_sqrt (abs_nonneg _), e1, abs_of_neg (by nlinarith)]; ring
    have hn0 : n ≠ 0 := fun h0 => by rw [h0] at hn2; nlinarith
    have hf : covSHO 1 q 1 = fun x => Real.exp (-(a * x)) * (Real.cosh (n * x) + a / n * Real.sinh (n * x)) := by
      funext x
      unfold covSHO
      simp only [← hn]
      rw [if_neg h.ne, if_pos h, hexp, show 1 / (2 * n * q) = a / n by rw [ha]; field_simp, mul_one]
      ring
    have hx : ∀ x, HasDerivAt (fun x => n * x) n x := fun x => by simpa using (hasDerivAt_id x).const_mul n
    refine ⟨fun x => -(Real.exp (-(a * x)) * (Real.sinh (n * x) / n)), ?_, ?_, ?_, ?_⟩
    · intro x
      rw [hf]
      refine ((hE x).mul ((hx x).cosh.add ((hx x).sinh.const_mul _))).congr_deriv ?_
      simp only [Pi.add_apply]
      field_simp
      rw [mul_comm x n]
      linear_combination Real.sinh (n * x) * hn2
    · intro x
      refine (((hE x).mul ((hx x).sinh.div_const n)).neg).congr_deriv ?_
      rw [hf]
      field_simp
      ring
    · rw [hf]; simp
    · simp
  · have ha1 : a = 1 := by rw [ha, h]; norm_num
    have hf : covSHO 1 q 1 = fun x => Real.exp (-(a * x)) * (1 + x) := by
      funext x
      unfold covSHO
      simp only
      rw [if_pos h, hexp]
      ring
    rw [ha1] at hE hf ⊢
    refine ⟨fun x => -(Real.exp (-(1 * x)) * x), ?_, ?_, ?_, ?_⟩
    · intro x
      rw [hf]
      refine ((hE x).mul ((hasDerivAt_id x).const_add 1)).congr_deriv ?_
      simp only [id]
      ring
    · intro x
      refine (((hE x).mul (hasDerivAt_id x)).neg).congr_deriv ?_
      rw [hf]
      simp only [id]
      ring
    · rw [hf]; simp
    · simp
  · have ha1 : a < 1 := by rw [ha, div_lt_one (by positivity)]; linarith
    have hn2 : n ^ 2 = 1 - a ^ 2 := by
      rw [hn, Real.sq_sqrt (abs_nonneg _), e1, abs_of_pos (by nlinarith)]
    have hn0 : n ≠ 0 := fun h0 => by rw [h0] at hn2; nlinarith
    have hf : covSHO 1 q 1 = fun x => Real.exp (-(a * x)) * (Real.cos (n * x) + a / n * Real.sin (n * x)) := by
      funext x
      unfold covSHO
      simp only [← hn]
      rw [if_neg h.ne', if_neg (not_lt.2 h.le), hexp, show 1 / (2 * n * q) = a / n by rw [ha]; field_simp, mul_one]
      ring
    have hx : ∀ x, HasDerivAt (fun x => n * x) n x := fun x => by simpa using (hasDerivAt_id x).const_mul n
    refine ⟨fun x => -(Real.exp (-(a * x)) * (Real.sin (n * x) / n)), ?_, ?_, ?_, ?_⟩
    · intro x
      rw [hf]
      refine ((hE x).mul ((hx x).cos.add ((hx x).sin.const_mul _))).congr_deriv ?_
      simp only [Pi.add_apply]
      field_simp
      rw [mul_comm x n]
      linear_combination -Real.sin (n * x) * hn2
    · intro x
      refine (((hE x).mul ((hx x).sin.div_const n)).neg).congr_deriv ?_
      rw [hf]
      field_simp
      ring
    · rw [hf]; simp
    · simp

theorem covSHO_scaled (w q sigma r : ℝ) : covSHO w q sigma r = sigma ^ 2 * covSHO 1 q 1 (w * r) := by
  unfold covSHO
  simp only [one_mul, one_pow, mul_assoc]

theorem covSHO_abs_le {w q sigma r : ℝ} (hw : 0 ≤ w) (hq : 0 < q) (hr : 0 ≤ r) : |covSHO w q sigma r| ≤ sigma ^ 2 := by
  obtain ⟨g, hg⟩ := covSHO_osc hq
  rw [covSHO_scaled, abs_mul, abs_of_nonneg (sq_nonneg sigma)]
  exact mul_le_of_le_one_right (sq_nonneg _) (hg.abs_le_one (by positivity) (mul_nonneg hw hr))

theorem covSHO_continuous {w q sigma : ℝ} (hq : 0 < q) : Continuous fun r => covSHO w q sigma r := by
  obtain ⟨g, hg⟩ := covSHO_osc hq
  simp only [covSHO_scaled w q sigma]
  have hc : Continuous (covSHO 1 q 1) := continuous_iff_continuousAt.2 fun x => (hg.deriv x).continuousAt
  exact (hc.comp (continuous_const.mul continuous_id)).const_mul (sigma ^ 2)

/-- Two oscillators of equal frequency and amplitude: their covariance functions differ by at most `σ² |q - q'| / (2 √(q q'))` at all times. -/
theorem covSHO_quality {w q q' sigma r : ℝ} (hw : 0 ≤ w) (hq : 0 < q) (hq' : 0 < q') (hr : 0 ≤ r) :
    |covSHO w q sigma r - covSHO w q' sigma r| ≤ sigma ^ 2 * (|q - q'| / (2 * Real.sqrt (q * q'))) := by
  obtain ⟨g, hg⟩ := covSHO_osc hq
  obtain ⟨g', hg'⟩ := covSHO_osc hq'
  have h := hg.close (by positivity) (by positivity) hg' (mul_nonneg hw hr)
  rw [covSHO_scaled w q, covSHO_scaled w q', ← mul_sub, abs_mul, abs_of_nonneg (sq_nonneg sigma)]
  refine mul_le_mul_of_nonneg_left ?_ (sq_nonneg _)
  refine abs_le_of_sq_le_sq' ?_ (by positivity) |> abs_le.2
  refine h.trans (le_of_eq ?_)
  rw [div_pow, mul_pow, Real.sq_sqrt (by positivity), sq_abs]
  field_simp
  ring

/-- within `allclose` of 1/2 -/
theorem covSHO_near_critical {w q sigma r : ℝ} (hw : 0 ≤ w) (hc : SHO.isCritical q) (hr : 0 ≤ r) :
    |covSHO w q sigma r - covSHO w (1 / 2) sigma r| ≤ 6e-6 * sigma ^ 2 := by
  unfold SHO.isCritical at hc
  rw [abs_le] at hc
  norm_num [abs_of_pos] at hc
  have hq : (0 : ℝ) < q := by linarith [hc.1]
  refine (covSHO_quality hw hq (by norm_num) hr).trans ?_
  rw [mul_comm (6e-6 : ℝ)]
  refine mul_le_mul_of_nonneg_left ?_ (sq_nonneg _)
  have hs : (0.499 : ℝ) ≤ Real.sqrt (q * (1 / 2)) := by
    refine Real.le_sqrt_of_sq_le ?_
    norm_num
    linarith [hc.1]
  rw [div_le_iff₀ (by linarith)]
  have : |q - 1 / 2| ≤ 5.01e-6 := by
    rw [abs_le]; constructor <;> norm_num <;> linarith [hc.1, hc.2]
  refine this.trans ?_
  norm_num at hs ⊢
  linarith

end Verif
