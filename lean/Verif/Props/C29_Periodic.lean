import Verif.Props.C24_Values
import Verif.Lemmas.Fourier
import Mathlib.Analysis.Complex.ExponentialBounds

/-!
# C29: the periodic kernel `ExpSineSquared`
-/

namespace Verif
open Matrix Finset

namespace ExpSineSquared

theorem periodicTerm_evaluate (j : ℕ) (omega scale : ℝ) (X1 X2 : Coord) :
    (periodicTerm j omega scale).evaluate X1 X2 = qj2 j scale * Real.cos (j * omega * (X1.sortable - X2.sortable)) := by
  have hrow : ∀ x, ((!![1, 0] : Matrix (Fin 1) (Fin 2) ℝ) * rotation x * (qj2 j scale • (1 : Matrix (Fin 2) (Fin 2) ℝ)) *
      (!![1, 0] : Matrix (Fin 1) (Fin 2) ℝ)ᵀ) 0 0 = qj2 j scale * Real.cos x := by
    intro x
    unfold rotation
    simp only [one2, smul2, mul_zero, mul_one]
    rw [row2, mul_comm]
  have hrow' : ∀ x, ((!![1, 0] : Matrix (Fin 1) (Fin 2) ℝ) * (qj2 j scale • (1 : Matrix (Fin 2) (Fin 2) ℝ)) * (rotation x)ᵀ *
      (!![1, 0] : Matrix (Fin 1) (Fin 2) ℝ)ᵀ) 0 0 = qj2 j scale * Real.cos x := by
    intro x
    rw [← hrow x]
    have e : (!![1, 0] : Matrix (Fin 1) (Fin 2) ℝ) * (qj2 j scale • (1 : Matrix (Fin 2) (Fin 2) ℝ)) * (rotation x)ᵀ *
      (!![1, 0] : Matrix (Fin 1) (Fin 2) ℝ)ᵀ = ((!![1, 0] : Matrix (Fin 1) (Fin 2) ℝ) * rotation x *
      (qj2 j scale • (1 : Matrix (Fin 2) (Fin 2) ℝ)) * (!![1, 0] : Matrix (Fin 1) (Fin 2) ℝ)ᵀ)ᵀ := by
      simp only [transpose_mul, transpose_transpose, transpose_smul, transpose_one, Matrix.mul_assoc]
    rw [e]; rfl
  have hH : ∀ X, (periodicTerm j omega scale).obsModel X none = (!![1, 0] : Matrix (Fin 1) (Fin 2) ℝ) := fun X =>
    defaultObs_none ("PeriodicTerm_" ++ toString j) (fun _ => (!![1, 0] : Matrix (Fin 1) (Fin 2) ℝ)) X
  unfold SSM.evaluate
  rw [hH, hH]
  dsimp only
  split_ifs with h
  · refine (hrow' (j * omega * dtOf X1 X2)).trans ?_
    rw [← Real.cos_neg]
    unfold dtOf
    congr 2; ring
  · exact hrow (j * omega * dtOf X2 X1)

theorem sumTerms_evaluate (omega scale : ℝ) (J : ℕ) (X1 X2 : Coord) :
    (sumTerms omega scale J).evaluate X1 X2 =
      ∑ j ∈ range (J + 1), qj2 j scale * Real.cos (j * omega * (X1.sortable - X2.sortable)) := by
  induction J with
  | zero =>
    rw [zero_add, sum_range_one]
    exact periodicTerm_evaluate 0 omega scale X1 X2
  | succ J ih =>
    show ((sumTerms omega scale J).sum (periodicTerm (J + 1) omega scale)).evaluate X1 X2 = _
    rw [C27_sum_evaluate, ih, periodicTerm_evaluate, sum_range_succ _ (J + 1)]

theorem sumTerms_obs_none (omega scale : ℝ) (J : ℕ) (X : Coord) :
    (sumTerms omega scale J).obsModel X none = (sumTerms omega scale J).obsMatrix X := by
  induction J with
  | zero => exact defaultObs_none ("PeriodicTerm_" ++ toString 0) (fun _ => (!![1, 0] : Matrix (Fin 1) (Fin 2) ℝ)) X
  | succ J ih =>
    show hstack _ _ = hstack _ _
    rw [ih]
    congr 1
    exact defaultObs_none ("PeriodicTerm_" ++ toString (J + 1)) (fun _ => (!![1, 0] : Matrix (Fin 1) (Fin 2) ℝ)) X

/-- the terms of the truncated Bessel series -/
theorem Ij_eq (j : ℕ) {x : ℝ} (hx : 0 < x) (T : ℕ) :
    Ij j x T = ∑ k ∈ range T, Fourier.wt (x / 2) (k + j, k) := by
  unfold Ij
  refine sum_congr rfl fun k _ => ?_
  have h2 : 0 < x / 2 := by positivity
  rw [Real.exp_add, Real.exp_sub, Real.exp_neg, Real.exp_log (by positivity), Real.exp_log (by positivity)]
  have : Real.exp ((2 * (k : ℝ) + j) * Real.log (x / 2)) = (x / 2) ^ (2 * k + j) := by
    rw [mul_comm, ← Real.rpow_def_of_pos h2, ← Real.rpow_natCast]
    congr 1
    push_cast; ring
  rw [this]
  unfold Fourier.wt
  have h1 : (k.factorial : ℝ) ≠ 0 := by positivity
  have h3 : ((k + j).factorial : ℝ) ≠ 0 := by positivity
  field_simp
  ring

/-- pairs kept by the truncation, with first entry larger or equal -/
def lower (J T : ℕ) : Finset (ℕ × ℕ) := (range J ×ˢ range T).image fun p => (p.2 + p.1, p.2)
/-- pairs kept by the truncation, with first entry smaller -/
def upper (J T : ℕ) : Finset (ℕ × ℕ) := ((range J).filter (fun j => j ≠ 0) ×ˢ range T).image fun p => (p.2, p.2 + p.1)
/-- all pairs kept by the truncation -/
def kept (J T : ℕ) : Finset (ℕ × ℕ) := lower J T ∪ upper J T

theorem disjoint_kept (J T : ℕ) : Disjoint (lower J T) (upper J T) := by
  rw [Finset.disjoint_left]
  rintro ⟨a, b⟩ h1 h2
  simp only [lower, upper, Finset.mem_image, Finset.mem_product, Finset.mem_range, Finset.mem_filter, Prod.exists, Prod.mk.injEq] at h1 h2
  obtain ⟨j, k, _, h3, h4⟩ := h1
  obtain ⟨j', k', ⟨⟨_, h0⟩, _⟩, h5, h6⟩ := h2
  omega

theorem sum_kept (J T : ℕ) (f : ℕ × ℕ → ℝ) (hf : ∀ a b, f (a, b) = f (b, a)) :
    ∑ p ∈ kept J T, f p = ∑ j ∈ range J, (if j = 0 then 1 else 2) * ∑ k ∈ range T, f (k + j, k) := by
  rw [kept, sum_union (disjoint_kept J T), lower, upper, sum_image, sum_image, sum_product, sum_product]
  · dsimp only
    rw [Finset.sum_filter, ← sum_add_distrib]
    refine sum_congr rfl fun j _ => ?_
    by_cases h : j = 0
    · simp [h]
    · simp only [ne_eq, h, not_false_eq_true, if_true, if_false]
      rw [two_mul]
      congr 1
      exact sum_congr rfl fun k _ => hf _ _
  · rintro ⟨a, b⟩ _ ⟨c, d⟩ _ h
    simp only [Prod.mk.injEq] at h ⊢
    omega
  · rintro ⟨a, b⟩ _ ⟨c, d⟩ _ h
    simp only [Prod.mk.injEq] at h ⊢
    omega

/-- the series of the kernel as a partial sum of the double series -/
theorem series_eq {gamma : ℝ} (hg : 0 < gamma) (J : ℕ) (θ : ℝ) :
    ∑ j ∈ range J, qj2 j (2 / gamma) * Real.cos (j * θ) =
      (∑ p ∈ kept J 50, Fourier.wt (gamma / 4) p * Real.cos (((p.1 : ℝ) - p.2) * θ)) / Real.exp (2 * (gamma / 4)) := by
  rw [sum_kept J 50 (fun p => Fourier.wt (gamma / 4) p * Real.cos (((p.1 : ℝ) - p.2) * θ)), sum_div]
  · refine sum_congr rfl fun j _ => ?_
    have e1 : 1 / (2 / gamma) = gamma / 2 := by field_simp
    have e2 : gamma / 2 / 2 = gamma / 4 := by ring
    unfold qj2
    rw [e1, Ij_eq j (by positivity), e2, show 2 * (gamma / 4) = gamma / 2 by ring]
    have e3 : ∀ k : ℕ, Fourier.wt (gamma / 4) (k + j, k) * Real.cos ((((k + j : ℕ) : ℝ) - k) * θ) =
        Fourier.wt (gamma / 4) (k + j, k) * Real.cos (j * θ) := by
      intro k; congr 2; push_cast; ring
    simp only [e3]
    rw [← sum_mul]
    ring
  · intro a b
    unfold Fourier.wt
    dsimp only
    rw [← Real.cos_neg]
    have : -(((a : ℝ) - b) * θ) = ((b : ℝ) - a) * θ := by ring
    rw [this]
    ring

end ExpSineSquared

open ExpSineSquared

/-- **C29, value.** The kernel is the finite cosine series `σ² Σ_{j<order} q_j cos(2π j (t1 - t2)/P)`. -/
theorem C29_series (period gamma sigma : ℝ) (order : ℕ) (name : String) (ho : 0 < order) (X1 X2 : Coord) :
    (expSineSquared period gamma sigma order name).evaluate X1 X2 =
      sigma ^ 2 * ∑ j ∈ range order, qj2 j (2 / gamma) * Real.cos (j * (2 * Real.pi / period) * (X1.sortable - X2.sortable)) := by
  have e := sumTerms_evaluate (2 * Real.pi / period) (2 / gamma) (order - 1) X1 X2
  rw [Nat.sub_add_cancel ho] at e
  rw [← e]
  set k := sumTerms (2 * Real.pi / period) (2 / gamma) (order - 1)
  have hH : ∀ X, defaultObsModel name k.obsMatrix X none = k.obsModel X none := fun X => by
    rw [defaultObs_none, sumTerms_obs_none]
  unfold SSM.evaluate
  show (if X1.sortable < X2.sortable then (defaultObsModel name k.obsMatrix X2 none * (sigma ^ 2 • k.Pinf) * (k.A X1 X2)ᵀ *
      (defaultObsModel name k.obsMatrix X1 none)ᵀ) 0 0
    else (defaultObsModel name k.obsMatrix X1 none * k.A X2 X1 * (sigma ^ 2 • k.Pinf) * (defaultObsModel name k.obsMatrix X2 none)ᵀ) 0 0)
    = sigma ^ 2 * _
  rw [hH, hH]
  dsimp only
  split_ifs
  · simp only [Matrix.mul_smul, Matrix.smul_mul]; rfl
  · simp only [Matrix.mul_smul, Matrix.smul_mul]; rfl

/-- **C29, periodicity and symmetry.** Coordinates whose difference is a whole number of periods are interchangeable. -/
theorem C29_periodic (period gamma sigma : ℝ) (order : ℕ) (name : String) (ho : 0 < order) (hp : 0 < period)
    (X1 X2 X3 : Coord) (m : ℤ) (h : X3.sortable = X2.sortable + m * period) :
    (expSineSquared period gamma sigma order name).evaluate X1 X3 =
      (expSineSquared period gamma sigma order name).evaluate X1 X2 ∧
    (expSineSquared period gamma sigma order name).evaluate X2 X1 =
      (expSineSquared period gamma sigma order name).evaluate X1 X2 := by
  rw [C29_series _ _ _ _ _ ho, C29_series _ _ _ _ _ ho, C29_series _ _ _ _ _ ho, h]
  constructor
  · congr 1
    refine sum_congr rfl fun j _ => ?_
    congr 1
    have : (j : ℝ) * (2 * Real.pi / period) * (X1.sortable - (X2.sortable + m * period)) =
        (j : ℝ) * (2 * Real.pi / period) * (X1.sortable - X2.sortable) - ((j * m : ℤ) : ℝ) * (2 * Real.pi) := by
      push_cast
      field_simp
      ring
    rw [this, Real.cos_sub_int_mul_two_pi]
  · congr 1
    refine sum_congr rfl fun j _ => ?_
    congr 1
    rw [← Real.cos_neg]
    congr 1; ring

/-- **C29, bound by the zero-lag value.** -/
theorem C29_bounded (period gamma sigma : ℝ) (order : ℕ) (name : String) (ho : 0 < order) (X1 X2 X3 : Coord) :
    |(expSineSquared period gamma sigma order name).evaluate X1 X2| ≤
      (expSineSquared period gamma sigma order name).evaluate X3 X3 := by
  rw [C29_series _ _ _ _ _ ho, C29_series _ _ _ _ _ ho, abs_mul, abs_of_nonneg (sq_nonneg sigma)]
  refine mul_le_mul_of_nonneg_left ?_ (sq_nonneg _)
  refine (abs_sum_le_sum_abs _ _).trans (sum_le_sum fun j _ => ?_)
  rw [sub_self, mul_zero, Real.cos_zero, mul_one, abs_mul, abs_of_pos (qj2_pos j _)]
  exact mul_le_of_le_one_right (qj2_pos j _).le (Real.abs_cos_le_one _)

theorem exact_angle (period gamma sigma r : ℝ) :
    Spec.covExpSineSquared period gamma sigma r =
      sigma ^ 2 * (Real.exp (2 * (gamma / 4) * Real.cos (2 * Real.pi / period * r)) / Real.exp (2 * (gamma / 4))) := by
  unfold Spec.covExpSineSquared
  rw [← Real.exp_sub]
  congr 2
  have : Real.cos (2 * Real.pi / period * r) = 1 - 2 * Real.sin (Real.pi * (r / period)) ^ 2 := by
    rw [show 2 * Real.pi / period * r = 2 * (Real.pi * (r / period)) by ring, Real.cos_two_mul, Real.cos_sq']
    ring
  rw [this]
  ring

/-- **C29, accuracy (what is true).** The kernel deviates from `σ² exp(-Γ sin²(π r/P))` by no more than its variance
falls short of `σ²`. -/
theorem C29_deviation_partial (period gamma sigma : ℝ) (order : ℕ) (name : String) (ho : 0 < order) (hg : 0 < gamma)
    (X1 X2 X3 : Coord) :
    |(expSineSquared period gamma sigma order name).evaluate X1 X2 -
        Spec.covExpSineSquared period gamma sigma (X1.sortable - X2.sortable)| ≤
      sigma ^ 2 - (expSineSquared period gamma sigma order name).evaluate X3 X3 := by
  rw [C29_series _ _ _ _ _ ho, C29_series _ _ _ _ _ ho, exact_angle]
  set θ := 2 * Real.pi / period * (X1.sortable - X2.sortable) with hθ
  have e1 : ∀ j : ℕ, (j : ℝ) * (2 * Real.pi / period) * (X1.sortable - X2.sortable) = j * θ := fun j => by rw [hθ]; ring
  have e2 : ∀ j : ℕ, (j : ℝ) * (2 * Real.pi / period) * (X3.sortable - X3.sortable) = j * 0 := fun j => by rw [sub_self]; ring
  simp only [e1, e2]
  rw [series_eq hg, series_eq hg]
  simp only [mul_zero, Real.cos_zero, mul_one]
  have hb := Fourier.cos_partial_bound (u := gamma / 4) (by positivity) θ (kept order 50)
  set E := Real.exp (2 * (gamma / 4)) with hE
  have hE0 : 0 < E := Real.exp_pos _
  set A := Real.exp (2 * (gamma / 4) * Real.cos θ)
  set B := ∑ p ∈ kept order 50, Fourier.wt (gamma / 4) p * Real.cos (((p.1 : ℝ) - p.2) * θ)
  set W := ∑ p ∈ kept order 50, Fourier.wt (gamma / 4) p
  rw [← mul_sub, abs_mul, abs_of_nonneg (sq_nonneg sigma), ← sub_div, abs_div, abs_of_pos hE0, abs_sub_comm]
  have : sigma ^ 2 - sigma ^ 2 * (W / E) = sigma ^ 2 * ((E - W) / E) := by field_simp
  rw [this]
  gcongr

/-- the automatic order as a function of `gamma` -/
theorem C29_auto_order (gamma : ℝ) (hg : 0 < gamma) :
    autoOrder gamma = if gamma ≤ 2 then 4 else if gamma ≤ 8 then 6 else if gamma ≤ 32 then 8 else 16 := by
  have key : ∀ c : ℝ, 0 < c → (Real.sqrt (2 / gamma) ≥ c ↔ gamma ≤ 2 / c ^ 2) := by
    intro c hc
    rw [ge_iff_le, Real.le_sqrt' hc, le_div_iff₀ hg, le_div_iff₀ (by positivity), mul_comm]
  unfold autoOrder
  simp only [key 1 one_pos, key 0.5 (by norm_num), key 0.25 (by norm_num)]
  norm_num

/-- **C29, disagreement: variance.** The variance is always strictly smaller than `sigma^2`. -/
theorem C29_variance_too_small (period gamma sigma : ℝ) (order : ℕ) (name : String) (ho : 0 < order) (hg : 0 < gamma)
    (hσ : sigma ≠ 0) (X : Coord) : (expSineSquared period gamma sigma order name).evaluate X X < sigma ^ 2 := by
  rw [C29_series _ _ _ _ _ ho]
  have e2 : ∀ j : ℕ, (j : ℝ) * (2 * Real.pi / period) * (X.sortable - X.sortable) = j * 0 := fun j => by rw [sub_self]; ring
  simp only [e2]
  rw [series_eq hg]
  simp only [mul_zero, Real.cos_zero, mul_one]
  have hσ2 : 0 < sigma ^ 2 := by positivity
  have hu : 0 < gamma / 4 := by positivity
  have hnot : (order, 0) ∉ kept order 50 := by
    simp only [kept, lower, upper, mem_union, mem_image, mem_product, mem_range, mem_filter, Prod.exists, Prod.mk.injEq]
    rintro (⟨j, k, ⟨h1, h2⟩, h3, h4⟩ | ⟨j, k, ⟨⟨h1, h0⟩, h2⟩, h3, h4⟩) <;> omega
  have h := Fourier.partial_le hu (insert (order, 0) (kept order 50))
  rw [sum_insert hnot] at h
  have h1 := Fourier.wt_pos hu (order, 0)
  have : (∑ p ∈ kept order 50, Fourier.wt (gamma / 4) p) / Real.exp (2 * (gamma / 4)) < 1 := by
    rw [div_lt_one (Real.exp_pos _)]; linarith
  nlinarith

/-- **C29, disagreement: `error_bound`.** With `gamma = 16` and the automatically chosen order, the deviation from
`exp(-Γ sin²)` at zero lag exceeds `error_bound()`, for every period. -/
theorem C29_error_bound_wrong (period : ℝ) (name : String) (X : Coord) :
    errorBound 16 (autoOrder 16) <
      |(expSineSquared period 16 1 (autoOrder 16) name).evaluate X X - Spec.covExpSineSquared period 16 1 0| := by
  have ho : autoOrder 16 = 8 := by rw [C29_auto_order 16 (by norm_num)]; norm_num
  rw [ho, C29_series _ _ _ _ _ (by norm_num)]
  have e2 : ∀ j : ℕ, (j : ℝ) * (2 * Real.pi / period) * (X.sortable - X.sortable) = j * 0 := fun j => by rw [sub_self]; ring
  simp only [e2]
  rw [series_eq (by norm_num)]
  simp only [mul_zero, Real.cos_zero, mul_one]
  have hu : (0 : ℝ) < 16 / 4 := by norm_num
  have hnot : (8, 0) ∉ kept 8 50 := by
    simp only [kept, lower, upper, mem_union, mem_image, mem_product, mem_range, mem_filter, Prod.exists, Prod.mk.injEq]
    rintro (⟨j, k, ⟨h1, h2⟩, h3, h4⟩ | ⟨j, k, ⟨⟨h1, h0⟩, h2⟩, h3, h4⟩) <;> omega
  have h := Fourier.partial_le hu (insert (8, 0) (kept 8 50))
  rw [sum_insert hnot] at h
  have hw : Fourier.wt (16 / 4) (8, 0) = 65536 / 40320 := by
    unfold Fourier.wt
    norm_num [Nat.factorial]
  rw [hw] at h
  set W := ∑ p ∈ kept 8 50, Fourier.wt (16 / 4) p
  have hspec : Spec.covExpSineSquared period 16 1 0 = 1 := by
    unfold Spec.covExpSineSquared; simp
  have hE : Real.exp (2 * (16 / 4)) = Real.exp 1 ^ 8 := by
    rw [← Real.exp_nat_mul]; norm_num
  have he : Real.exp 1 < 3 := Real.exp_one_lt_three
  have hE8 : Real.exp (2 * (16 / 4)) < 6561 := by
    rw [hE]
    calc Real.exp 1 ^ 8 < 3 ^ 8 := by gcongr
      _ = 6561 := by norm_num
  have hE0 : 0 < Real.exp (2 * (16 / 4)) := Real.exp_pos _
  rw [hspec]
  have hlt : W / Real.exp (2 * (16 / 4)) ≤ 1 - (65536 / 40320) / Real.exp (2 * (16 / 4)) := by
    rw [le_sub_iff_add_le, ← add_div, div_le_one hE0]; linarith
  have hd : (65536 / 40320 : ℝ) / 6561 < (65536 / 40320) / Real.exp (2 * (16 / 4)) := by gcongr
  have hb : errorBound 16 8 < (65536 / 40320 : ℝ) / 6561 := by
    unfold errorBound
    have : Real.exp (1 - 2 / 16) < 3 := lt_of_le_of_lt (Real.exp_le_exp.2 (by norm_num)) he
    rw [div_lt_div_iff₀ (by positivity) (by norm_num)]
    norm_num [Nat.factorial]
    linarith
  rw [abs_sub_comm, lt_abs]
  left
  rw [one_pow, one_mul]
  linarith

section examples
example := C29_series 3 1 2 4 "ExpSineSquared" (by norm_num) (.time 0) (.time 1)
example := C29_periodic 3 1 2 4 "ExpSineSquared" (by norm_num) (by norm_num) (.time 0) (.time 1) (.time (1 + (-2) * 3)) (-2)
  (by simp [Coord.sortable])
example := C29_bounded 3 1 2 4 "ExpSineSquared" (by norm_num) (.time 0) (.time 1)
example := C29_deviation_partial 3 1 2 4 "ExpSineSquared" (by norm_num) (by norm_num) (.time 0) (.time 1)
example : autoOrder 10 = 8 := by rw [C29_auto_order 10 (by norm_num)]; norm_num
example := C29_variance_too_small 3 1 2 4 "ExpSineSquared" (by norm_num) (by norm_num) (by norm_num) (.time 0)
end examples

end Verif
