import Verif.Props.C29_Periodic

/-!
# C29: a correct bound for the truncation error of `ExpSineSquared`

The method `error_bound` of the package is not a bound (`C29_error_bound_wrong`). With `m = min order 50` the error is at most
`2 σ² (Γ/4)^m / m!`, for every `gamma`, period and order.
-/

namespace Verif
open Finset ExpSineSquared

namespace Fourier

/-- tail of the exponential series -/
theorem exp_tail {u : ℝ} (hu : 0 ≤ u) (m : ℕ) : Real.exp u - ∑ a ∈ range m, u ^ a / a.factorial ≤ u ^ m / m.factorial * Real.exp u := by
  have h := hasSum_exp_real u
  have e := h.summable.sum_add_tsum_nat_add m
  rw [h.tsum_eq] at e
  rw [← e, add_sub_cancel_left]
  have hs : Summable fun k : ℕ => u ^ m / m.factorial * (u ^ k / k.factorial) := h.summable.mul_left _
  have : ∑' k : ℕ, u ^ m / m.factorial * (u ^ k / k.factorial) = u ^ m / m.factorial * Real.exp u := by
    rw [tsum_mul_left, h.tsum_eq]
  rw [e, ← this]
  refine Summable.tsum_le_tsum (fun k => ?_) ((summable_nat_add_iff m).2 h.summable) hs
  rw [div_mul_div_comm, ← pow_add, add_comm m k]
  refine div_le_div_of_nonneg_left (by positivity) (by positivity) ?_
  have := Nat.le_of_dvd (Nat.factorial_pos _) (Nat.factorial_mul_factorial_dvd_factorial_add k m)
  have h2 : k.factorial * m.factorial = m.factorial * k.factorial := mul_comm _ _
  rw [h2] at this
  exact_mod_cast this

/-- a square of pairs is kept by the truncation -/
theorem square_kept {J T m : ℕ} (hJ : m ≤ J) (hT : m ≤ T) : range m ×ˢ range m ⊆ kept J T := by
  rintro ⟨a, b⟩ h
  rw [mem_product, mem_range, mem_range] at h
  dsimp only at h
  simp only [kept, lower, upper, mem_union, mem_image, mem_product, mem_range, mem_filter, Prod.exists, Prod.mk.injEq]
  by_cases hab : b ≤ a
  · exact Or.inl ⟨a - b, b, ⟨by omega, by omega⟩, by omega, rfl⟩
  · exact Or.inr ⟨b - a, a, ⟨⟨by omega, by omega⟩, by omega⟩, rfl, by omega⟩

theorem missing_weight {u : ℝ} (hu : 0 < u) {J T m : ℕ} (hJ : m ≤ J) (hT : m ≤ T) :
    Real.exp (2 * u) - ∑ p ∈ kept J T, wt u p ≤ 2 * (u ^ m / m.factorial) * Real.exp (2 * u) := by
  set S := ∑ a ∈ range m, u ^ a / a.factorial with hS
  have h1 : S ^ 2 ≤ ∑ p ∈ kept J T, wt u p := by
    refine le_trans (le_of_eq ?_) (sum_le_sum_of_subset_of_nonneg (square_kept hJ hT) fun p _ _ => (wt_pos hu p).le)
    rw [sum_product, hS, sq, sum_mul_sum]
    rfl
  have h2 := exp_tail hu.le m
  have h3 : S ≤ Real.exp u := sum_le_hasSum _ (fun a _ => by positivity) (hasSum_exp_real u)
  have h4 : 0 ≤ S := sum_nonneg fun a _ => by positivity
  have h5 : Real.exp (2 * u) = Real.exp u * Real.exp u := by rw [two_mul, Real.exp_add]
  have h6 := Real.exp_pos u
  rw [h5]
  rw [← hS] at h2
  nlinarith [mul_le_mul_of_nonneg_right h2 (by linarith : (0 : ℝ) ≤ Real.exp u + S), mul_nonneg (sub_nonneg.2 h3) h6.le,
    mul_nonneg (by positivity : (0 : ℝ) ≤ u ^ m / m.factorial * Real.exp u) (sub_nonneg.2 h3)]

end Fourier

/-- **C29, accuracy.** The kernel is within `2 σ² (Γ/4)^m / m!` of `σ² exp(-Γ sin²(π r/P))`, `m = min order 50`. -/
theorem C29_truncation_bound (period gamma sigma : ℝ) (order : ℕ) (name : String) (ho : 0 < order) (hg : 0 < gamma) (X1 X2 : Coord) :
    |(expSineSquared period gamma sigma order name).evaluate X1 X2 -
        Spec.covExpSineSquared period gamma sigma (X1.sortable - X2.sortable)| ≤
      2 * sigma ^ 2 * ((gamma / 4) ^ min order 50 / (min order 50).factorial) := by
  refine (C29_deviation_partial period gamma sigma order name ho hg X1 X2 X1).trans ?_
  rw [C29_series _ _ _ _ _ ho]
  have e2 : ∀ j : ℕ, (j : ℝ) * (2 * Real.pi / period) * (X1.sortable - X1.sortable) = j * 0 := fun j => by rw [sub_self]; ring
  simp only [e2]
  rw [series_eq hg]
  simp only [mul_zero, Real.cos_zero, mul_one]
  have h := Fourier.missing_weight (u := gamma / 4) (by positivity) (min_le_left order 50) (min_le_right order 50)
  set E := Real.exp (2 * (gamma / 4)) with hE
  have hE0 : 0 < E := Real.exp_pos _
  set W := ∑ p ∈ kept order 50, Fourier.wt (gamma / 4) p
  set T := (gamma / 4) ^ min order 50 / ((min order 50).factorial : ℝ)
  have : (E - W) / E ≤ 2 * T := by rw [div_le_iff₀ hE0]; linarith
  have e : sigma ^ 2 - sigma ^ 2 * (W / E) = sigma ^ 2 * ((E - W) / E) := by field_simp
  rw [e]
  nlinarith [mul_le_mul_of_nonneg_left this (sq_nonneg sigma)]

/-- with `gamma = 1` and the automatic order 4 the relative error is below `4·10⁻⁴` -/
example (period sigma : ℝ) (X1 X2 : Coord) :
    |(expSineSquared period 1 sigma (autoOrder 1) "a").evaluate X1 X2 - Spec.covExpSineSquared period 1 sigma (X1.sortable - X2.sortable)| ≤
      4e-4 * sigma ^ 2 := by
  have ho : autoOrder 1 = 4 := by rw [C29_auto_order 1 one_pos]; norm_num
  rw [ho]
  refine (C29_truncation_bound period 1 sigma 4 "a" (by norm_num) one_pos X1 X2).trans ?_
  have : ((1 : ℝ) / 4) ^ min 4 50 / ((min 4 50).factorial : ℝ) ≤ 2e-4 := by norm_num [Nat.factorial]
  nlinarith [sq_nonneg sigma]

/-- **C29, `error_bound()`, the part that holds.** For `2/order ≤ gamma ≤ 2` and `3 ≤ order ≤ 50` the value of `error_bound()`, in units of
`sigma^2`, does bound the error of the covariance. (Missing: other values of `gamma`, see `C29_error_bound_wrong`.) -/
theorem C29_error_bound_partial (period gamma sigma : ℝ) (order : ℕ) (name : String) (h3 : 3 ≤ order) (h50 : order ≤ 50)
    (hlo : 2 / order ≤ gamma) (hhi : gamma ≤ 2) (X1 X2 : Coord) :
    |(expSineSquared period gamma sigma order name).evaluate X1 X2 -
        Spec.covExpSineSquared period gamma sigma (X1.sortable - X2.sortable)| ≤ sigma ^ 2 * errorBound gamma order := by
  have ho : (0 : ℝ) < order := by exact_mod_cast (by omega : 0 < order)
  have hg : 0 < gamma := lt_of_lt_of_le (by positivity) hlo
  refine (C29_truncation_bound period gamma sigma order name (by omega) hg X1 X2).trans ?_
  rw [min_eq_left h50, errorBound, mul_comm 2, mul_assoc]
  refine mul_le_mul_of_nonneg_left ?_ (sq_nonneg _)
  rw [Nat.factorial_succ, Nat.cast_mul]
  have hf : (0 : ℝ) < order.factorial := by exact_mod_cast Nat.factorial_pos _
  rw [← mul_div_assoc, div_le_div_iff₀ hf (by positivity)]
  have k1 : (gamma / 2) ^ order ≤ Real.exp (1 - 2 / gamma) := by
    have a1 : gamma / 2 ≤ Real.exp (gamma / 2 - 1) := by have := Real.add_one_le_exp (gamma / 2 - 1); linarith
    refine (pow_le_pow_left₀ (by positivity) a1 order).trans ?_
    rw [← Real.exp_nat_mul, Real.exp_le_exp]
    have a2 : 2 / gamma ≤ order := by rwa [div_le_comm₀ hg ho]
    have a3 : 1 - 2 / gamma = 2 / gamma * (gamma / 2 - 1) := by field_simp
    rw [a3]
    nlinarith
  have k2 : ((2 * (order + 1) : ℕ) : ℝ) ≤ 2 ^ order := by
    have : ∀ n : ℕ, 3 ≤ n → 2 * (n + 1) ≤ 2 ^ n := fun n hn => by
      induction n, hn using Nat.le_induction with
      | base => norm_num
      | succ n _ ih => rw [pow_succ]; omega
    exact_mod_cast this order h3
  have k3 : (gamma / 4) ^ order * 2 ^ order = (gamma / 2) ^ order := by rw [← mul_pow]; congr 1; ring
  have k4 : 2 * (gamma / 4) ^ order * ((order + 1 : ℕ) : ℝ) ≤ Real.exp (1 - 2 / gamma) := by
    refine le_trans ?_ k1
    rw [← k3]
    have := mul_le_mul_of_nonneg_left k2 (by positivity : 0 ≤ (gamma / 4) ^ order)
    push_cast at this ⊢
    linarith
  calc 2 * (gamma / 4) ^ order * (((order + 1 : ℕ) : ℝ) * order.factorial) = 2 * (gamma / 4) ^ order * ((order + 1 : ℕ) : ℝ) * order.factorial := by ring
    _ ≤ _ := mul_le_mul_of_nonneg_right k4 hf.le

/-- the default `gamma = 1` with the automatic order -/
example (period sigma : ℝ) (X1 X2 : Coord) :
    |(expSineSquared period 1 sigma (autoOrder 1) "a").evaluate X1 X2 - Spec.covExpSineSquared period 1 sigma (X1.sortable - X2.sortable)| ≤
      sigma ^ 2 * errorBound 1 (autoOrder 1) := by
  have ho : autoOrder 1 = 4 := by rw [C29_auto_order 1 one_pos]; norm_num
  rw [ho]
  exact C29_error_bound_partial period 1 sigma 4 "a" (by norm_num) (by norm_num) (by norm_num) (by norm_num) X1 X2

end Verif
