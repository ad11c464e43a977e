import Verif.Model.Dense
import Verif.Spec.Exposure
import Mathlib.MeasureTheory.Integral.IntervalIntegral.FundThmCalculus
import Mathlib.Analysis.Calculus.Deriv.Mul
import Mathlib.Analysis.SpecialFunctions.ExpDeriv
import Mathlib.Analysis.SpecialFunctions.Trigonometric.Deriv

/-! # Helper lemmas for the dense kernels -/

namespace Verif

open intervalIntegral

namespace Twice

/-! Averages of `κ |u - v|` over two intervals, through the second antiderivative of `κ ∘ |·|`. -/

/-- antiderivative of `κ ∘ |·|` which vanishes at zero -/
noncomputable def one (κ : ℝ → ℝ) (x : ℝ) : ℝ := ∫ s in (0 : ℝ)..x, κ |s|

/-- its antiderivative which vanishes at zero -/
noncomputable def two (κ : ℝ → ℝ) (x : ℝ) : ℝ := ∫ s in (0 : ℝ)..x, one κ s

variable {κ : ℝ → ℝ} (hκ : Continuous κ)

include hκ in
theorem cont_abs : Continuous fun s => κ |s| := hκ.comp continuous_abs

include hκ in
theorem one_sub (p q : ℝ) : ∫ s in p..q, κ |s| = one κ q - one κ p :=
  (integral_interval_sub_left ((cont_abs hκ).intervalIntegrable _ _) ((cont_abs hκ).intervalIntegrable _ _)).symm

include hκ in
theorem one_hasDerivAt (x : ℝ) : HasDerivAt (one κ) (κ |x|) x :=
  integral_hasDerivAt_right ((cont_abs hκ).intervalIntegrable _ _)
    (cont_abs hκ).aestronglyMeasurable.stronglyMeasurableAtFilter (cont_abs hκ).continuousAt

include hκ in
theorem one_continuous : Continuous (one κ) :=
  continuous_iff_continuousAt.mpr fun x => (one_hasDerivAt hκ x).continuousAt

include hκ in
theorem two_sub (p q : ℝ) : ∫ s in p..q, one κ s = two κ q - two κ p :=
  (integral_interval_sub_left ((one_continuous hκ).intervalIntegrable _ _)
    ((one_continuous hκ).intervalIntegrable _ _)).symm

theorem one_neg (x : ℝ) : one κ (-x) = - one κ x := by
  unfold one
  have h := intervalIntegral.integral_comp_neg (a := 0) (b := x) (fun s => κ |s|)
  simp only [abs_neg, neg_zero] at h
  rw [h, integral_symm]

theorem two_neg (x : ℝ) : two κ (-x) = two κ x := by
  unfold two
  have h := intervalIntegral.integral_comp_neg (a := 0) (b := x) (fun s => one κ s)
  simp only [one_neg, neg_zero, intervalIntegral.integral_neg] at h
  rw [integral_symm, ← h, neg_neg]

theorem one_zero : one κ 0 = 0 := by simp [one]
theorem two_zero : two κ 0 = 0 := by simp [two]

include hκ in
/-- one interval -/
theorem avg1 (t p q : ℝ) : ∫ u in p..q, κ |u - t| = one κ (q - t) - one κ (p - t) := by
  rw [← one_sub hκ, intervalIntegral.integral_comp_sub_right (fun s => κ |s|)]

include hκ in
/-- two intervals -/
theorem avg2 (p q r s : ℝ) : ∫ u in p..q, ∫ v in r..s, κ |u - v| =
    two κ (s - p) - two κ (s - q) - two κ (r - p) + two κ (r - q) := by
  have h1 : ∀ u, ∫ v in r..s, κ |u - v| = one κ (s - u) - one κ (r - u) := by
    intro u
    rw [← avg1 hκ]
    exact integral_congr fun v _ => by simp only [abs_sub_comm]
  have h2 : ∀ c, ∫ u in p..q, one κ (c - u) = two κ (c - p) - two κ (c - q) := by
    intro c
    rw [intervalIntegral.integral_comp_sub_left (fun x => one κ x), two_sub hκ]
  simp only [h1]
  rw [intervalIntegral.integral_sub, h2, h2]
  · ring
  · exact ((one_continuous hκ).comp (continuous_const.sub continuous_id)).intervalIntegrable _ _
  · exact ((one_continuous hκ).comp (continuous_const.sub continuous_id)).intervalIntegrable _ _

include hκ in
/-- a first antiderivative of `κ` gives `one` on the right half line -/
theorem one_eq {F : ℝ → ℝ} (hF : ∀ x, HasDerivAt F (κ x) x) {x : ℝ} (hx : 0 ≤ x) : one κ x = F x - F 0 := by
  unfold one
  rw [← integral_eq_sub_of_hasDerivAt (fun y _ => hF y) (hκ.intervalIntegrable _ _)]
  refine integral_congr fun s hs => ?_
  rw [Set.uIcc_of_le hx] at hs
  simp only [abs_of_nonneg hs.1]

include hκ in
/-- a second antiderivative of `κ` gives `two` on the right half line -/
theorem two_eq {F G : ℝ → ℝ} (hF : ∀ x, HasDerivAt F (κ x) x) (hG : ∀ x, HasDerivAt G (F x) x) {x : ℝ} (hx : 0 ≤ x) :
    two κ x = G x - G 0 - x * F 0 := by
  unfold two
  have hFc : Continuous F := continuous_iff_continuousAt.mpr fun x => (hF x).continuousAt
  have h : ∫ s in (0 : ℝ)..x, one κ s = ∫ s in (0 : ℝ)..x, (F s - F 0) := by
    refine integral_congr fun s hs => ?_
    rw [Set.uIcc_of_le hx] at hs
    exact one_eq hκ hF hs.1
  rw [h, intervalIntegral.integral_sub (hFc.intervalIntegrable _ _) (continuous_const.intervalIntegrable _ _),
    integral_eq_sub_of_hasDerivAt (fun y _ => hG y) (hFc.intervalIntegrable _ _)]
  simp

end Twice

namespace DenseSHO

/-- what `__init__` establishes for usable parameters -/
structure Good (k : DenseSHO) : Prop where
  w_pos : 0 < k.w
  Q_pos : 0 < k.Q
  eta_pos : 0 < k.eta
  a_eq : k.a = 1 / (2 * k.Q * k.eta)
  tau_eq : k.tau = 2 * k.Q / k.w
  sig_eq : k.sig ^ 2 = k.S * k.w * k.Q

/-- the function which `latent` computes -/
noncomputable def kap (k : DenseSHO) (r : ℝ) : ℝ :=
  k.S * k.w * k.Q * (Real.exp (-k.a * (k.eta * k.w * r)) *
    (Real.cos (k.eta * k.w * r) + k.a * Real.sin (k.eta * k.w * r)))

/-- `∫ kap` -/
noncomputable def kap1 (k : DenseSHO) (r : ℝ) : ℝ :=
  k.S * k.Q / (k.eta * (1 + k.a ^ 2)) * k.I0 (k.eta * k.w * r)

/-- the value of `f1 - f2` -/
noncomputable def g (k : DenseSHO) (y : ℝ) : ℝ :=
  Real.exp (-k.a * y) * ((1 - k.a ^ 2) * (Real.cos y + k.a * Real.sin y) + 2 * k.a * (Real.sin y - k.a * Real.cos y)) /
    (k.eta * k.w * (1 + k.a ^ 2))

/-- `∫ ∫ kap` -/
noncomputable def kap2 (k : DenseSHO) (r : ℝ) : ℝ :=
  - (k.S * k.Q / (k.eta * (1 + k.a ^ 2)) * k.g (k.eta * k.w * r))

variable {k : DenseSHO}

theorem kap_continuous : Continuous k.kap := by unfold kap; fun_prop

theorem Good.a_pos (h : k.Good) : 0 < k.a := by
  rw [h.a_eq]; have := h.Q_pos; have := h.eta_pos; positivity

theorem one_add_sq_pos (k : DenseSHO) : 0 < 1 + k.a ^ 2 := by positivity

theorem I0_hasDerivAt (y : ℝ) : HasDerivAt k.I0
    ((1 + k.a ^ 2) * (Real.exp (-k.a * y) * (Real.cos y + k.a * Real.sin y))) y := by
  unfold I0
  have he : HasDerivAt (fun y => Real.exp (-k.a * y)) (Real.exp (-k.a * y) * (-k.a)) y := by
    have := (hasDerivAt_id y).const_mul (-k.a)
    simp only [mul_one, id] at this
    exact this.exp
  have h := he.mul (((Real.hasDerivAt_sin y).const_mul (1 - k.a ^ 2)).sub ((Real.hasDerivAt_cos y).const_mul (2 * k.a)))
  refine h.congr_deriv ?_
  simp only [Pi.sub_apply]
  ring

theorem g_hasDerivAt (h : k.Good) (y : ℝ) : HasDerivAt k.g (-(k.I0 y) / (k.eta * k.w)) y := by
  unfold g I0
  have he : HasDerivAt (fun y => Real.exp (-k.a * y)) (Real.exp (-k.a * y) * (-k.a)) y := by
    have := (hasDerivAt_id y).const_mul (-k.a)
    simp only [mul_one, id] at this
    exact this.exp
  have h1 := ((Real.hasDerivAt_cos y).add ((Real.hasDerivAt_sin y).const_mul k.a)).const_mul (1 - k.a ^ 2)
  have h2 := ((Real.hasDerivAt_sin y).sub ((Real.hasDerivAt_cos y).const_mul k.a)).const_mul (2 * k.a)
  have h3 := (he.mul (h1.add h2)).div_const (k.eta * k.w * (1 + k.a ^ 2))
  refine h3.congr_deriv ?_
  have := h.eta_pos; have := h.w_pos; have := one_add_sq_pos k
  field_simp
  simp only [Pi.add_apply, Pi.sub_apply]
  ring

theorem lin_hasDerivAt (c r : ℝ) : HasDerivAt (fun r => c * r) c r := by
  simpa using (hasDerivAt_id r).const_mul c

theorem kap1_hasDerivAt (h : k.Good) (r : ℝ) : HasDerivAt k.kap1 (k.kap r) r := by
  have h1 := ((I0_hasDerivAt (k := k) (k.eta * k.w * r)).comp r (lin_hasDerivAt (k.eta * k.w) r)).const_mul
    (k.S * k.Q / (k.eta * (1 + k.a ^ 2)))
  refine h1.congr_deriv ?_
  unfold kap
  have := h.eta_pos; have := one_add_sq_pos k
  field_simp

theorem kap2_hasDerivAt (h : k.Good) (r : ℝ) : HasDerivAt k.kap2 (k.kap1 r) r := by
  have h1 := (((g_hasDerivAt h (k.eta * k.w * r)).comp r (lin_hasDerivAt (k.eta * k.w) r)).const_mul
    (k.S * k.Q / (k.eta * (1 + k.a ^ 2)))).neg
  refine h1.congr_deriv ?_
  unfold kap1
  have := h.eta_pos; have := one_add_sq_pos k; have := h.w_pos
  field_simp

/-- once, and twice, integrated kernel -/
noncomputable abbrev P1 (k : DenseSHO) : ℝ → ℝ := Twice.one k.kap
noncomputable abbrev P2 (k : DenseSHO) : ℝ → ℝ := Twice.two k.kap

theorem P1_eq (h : k.Good) {x : ℝ} (hx : 0 ≤ x) : k.P1 x = k.kap1 x - k.kap1 0 :=
  Twice.one_eq kap_continuous (kap1_hasDerivAt h) hx

theorem P2_eq (h : k.Good) {x : ℝ} (hx : 0 ≤ x) : k.P2 x = k.kap2 x - k.kap2 0 - x * k.kap1 0 :=
  Twice.two_eq kap_continuous (kap1_hasDerivAt h) (kap2_hasDerivAt h) hx

theorem div?_eq {x y : ℝ} (h : y ≠ 0) : div? x y = some (x / y) := if_neg h

theorem latent_eq (h : k.Good) (r : ℝ) : k.latent r = some (k.kap r) := by
  have h1 := h.eta_pos; have h2 := h.Q_pos; have h3 := h.w_pos
  have ht : k.tau ≠ 0 := by rw [h.tau_eq]; positivity
  unfold latent
  rw [div?_eq (by positivity), div?_eq ht]
  simp only [Option.bind_eq_bind, Option.bind_some]
  have he : -r / k.tau = -k.a * (k.eta * k.w * r) := by
    rw [h.tau_eq, h.a_eq]; field_simp
  have hc : 1 / (2 * k.eta * k.Q) = k.a := by rw [h.a_eq]; congr 1; ring
  rw [he, hc, h.sig_eq]
  unfold kap
  congr 1; ring

theorem I12_eq (h : k.Good) (l u : ℝ) :
    k.I1 l u = some ((Real.exp (-k.a * u) * (1 - k.a ^ 2) * (Real.cos u + k.a * Real.sin u)) / (k.eta * k.w * (1 + k.a ^ 2)) -
        (Real.exp (-k.a * l) * (1 - k.a ^ 2) * (Real.cos l + k.a * Real.sin l)) / (k.eta * k.w * (1 + k.a ^ 2))) ∧
    k.I2 l u = some ((-2 * k.a * Real.exp (-k.a * u) * (Real.sin u - k.a * Real.cos u)) / (k.eta * k.w * (1 + k.a ^ 2)) -
        (-2 * k.a * Real.exp (-k.a * l) * (Real.sin l - k.a * Real.cos l)) / (k.eta * k.w * (1 + k.a ^ 2))) := by
  have h1 := h.eta_pos; have h3 := h.w_pos; have h4 := one_add_sq_pos k
  have hd : k.eta * k.w * (1 + k.a ^ 2) ≠ 0 := by positivity
  constructor
  · unfold I1 f1
    rw [div?_eq hd, div?_eq hd]; rfl
  · unfold I2 f2
    rw [div?_eq hd, div?_eq hd]; rfl

theorem separate_val (h : k.Good) {Delta d1 d2 : ℝ} (h1 : d1 ≠ 0) (h2 : d2 ≠ 0) :
    k.separate Delta d1 d2 = some (1 / (d1 * d2) * (k.kap2 ((d1 + d2) / 2 + Delta) - k.kap2 ((d1 + d2) / 2 + Delta - d1) -
      k.kap2 ((d1 - d2) / 2 + Delta) + k.kap2 ((d1 - d2) / 2 + Delta - d1))) := by
  have h3 := h.eta_pos; have h4 := one_add_sq_pos k; have h5 := h.w_pos
  unfold separate
  dsimp only
  rw [div?_eq (by positivity), (I12_eq h _ _).1, (I12_eq h _ _).2, (I12_eq h _ _).1, (I12_eq h _ _).2]
  simp only [Option.bind_eq_bind, Option.bind_some, kap2, g]
  congr 1
  field_simp
  ring

theorem overlap_val (h : k.Good) {d : ℝ} (h1 : d ≠ 0) :
    k.overlap d = some (1 / (d * d) * (2 * (k.kap2 d - k.kap2 0 - d * k.kap1 0))) := by
  have h3 := h.eta_pos; have h4 := one_add_sq_pos k; have h5 := h.w_pos
  unfold overlap
  dsimp only
  rw [div?_eq (by positivity), (I12_eq h _ _).1, (I12_eq h _ _).2]
  simp only [Option.bind_eq_bind, Option.bind_some, kap2, g, kap1, I0]
  congr 1
  simp only [mul_zero, Real.exp_zero, Real.sin_zero, Real.cos_zero]
  field_simp
  ring

theorem single_val (h : k.Good) {Delta d : ℝ} (h1 : d ≠ 0) :
    k.single Delta d = some (1 / d * (k.kap1 (d / 2 + Delta) - k.kap1 (Delta - d / 2))) := by
  have h3 := h.eta_pos; have h4 := one_add_sq_pos k
  unfold single
  dsimp only
  rw [div?_eq (by positivity)]
  simp only [Option.bind_eq_bind, Option.bind_some]
  rw [div?_eq (by positivity)]
  simp only [Option.bind_some, kap1]
  congr 1
  field_simp
  ring

/-- the double integral over two exposures in terms of the second antiderivative -/
noncomputable def B (k : DenseSHO) (Delta d1 d2 : ℝ) : ℝ :=
  k.P2 (Delta + (d1 + d2) / 2) - k.P2 (Delta + (d1 - d2) / 2) - k.P2 (Delta - (d1 - d2) / 2) + k.P2 (Delta - (d1 + d2) / 2)

theorem separate_eq (h : k.Good) {Delta d1 d2 : ℝ} (h1 : 0 < d1) (h2 : 0 < d2) (hs : (d1 + d2) / 2 ≤ Delta) :
    k.separate Delta d1 d2 = some (1 / (d1 * d2) * k.B Delta d1 d2) := by
  rw [separate_val h h1.ne' h2.ne']
  unfold B
  rw [P2_eq h (by linarith), P2_eq h (by linarith), P2_eq h (by linarith), P2_eq h (by linarith)]
  have e1 : (d1 + d2) / 2 + Delta - d1 = Delta - (d1 - d2) / 2 := by ring
  have e2 : (d1 - d2) / 2 + Delta - d1 = Delta - (d1 + d2) / 2 := by ring
  rw [e1, e2, add_comm ((d1 + d2) / 2), add_comm ((d1 - d2) / 2)]
  congr 2
  ring

theorem overlap_eq (h : k.Good) {d : ℝ} (h1 : 0 < d) : k.overlap d = some (1 / (d * d) * (2 * k.P2 d)) := by
  rw [overlap_val h h1.ne', P2_eq h h1.le]

theorem single_eq (h : k.Good) {Delta d : ℝ} (h1 : 0 < d) (hs : d / 2 ≤ Delta) :
    k.single Delta d = some (1 / d * (k.P1 (Delta + d / 2) - k.P1 (Delta - d / 2))) := by
  rw [single_val h h1.ne', P1_eq h (by linarith), P1_eq h (by linarith), add_comm (d / 2)]
  congr 2
  ring

theorem B_neg (Delta d1 d2 : ℝ) : k.B (-Delta) d1 d2 = k.B Delta d1 d2 := by
  unfold B
  rw [show -Delta + (d1 + d2) / 2 = -(Delta - (d1 + d2) / 2) by ring, show -Delta + (d1 - d2) / 2 = -(Delta - (d1 - d2) / 2) by ring,
    show -Delta - (d1 - d2) / 2 = -(Delta + (d1 - d2) / 2) by ring, show -Delta - (d1 + d2) / 2 = -(Delta + (d1 + d2) / 2) by ring]
  simp only [P2, Twice.two_neg]
  ring

theorem B_comm (Delta d1 d2 : ℝ) : k.B Delta d1 d2 = k.B Delta d2 d1 := by
  unfold B
  rw [show (d2 - d1) / 2 = -((d1 - d2) / 2) by ring, add_comm d2 d1]
  rw [← sub_eq_add_neg, sub_neg_eq_add]
  ring

theorem B_abs (Delta d1 d2 : ℝ) : k.B |Delta| d1 d2 = k.B Delta d1 d2 := by
  rcases abs_cases Delta with ⟨h, _⟩ | ⟨h, _⟩ <;> rw [h]
  exact B_neg _ _ _

theorem B_max_min (Delta d1 d2 : ℝ) : k.B Delta (max d1 d2) (min d1 d2) = k.B Delta d1 d2 := by
  rcases le_total d1 d2 with h | h
  · rw [max_eq_right h, min_eq_left h, B_comm]
  · rw [max_eq_left h, min_eq_right h]

theorem B_adj {Delta d1 d2 : ℝ} (h : Delta = (d1 + d2) / 2) :
    k.B Delta d1 d2 = k.P2 (d1 + d2) - k.P2 d1 - k.P2 d2 := by
  unfold B
  have z : k.P2 0 = 0 := Twice.two_zero
  rw [h, show (d1 + d2) / 2 + (d1 + d2) / 2 = d1 + d2 by ring, show (d1 + d2) / 2 + (d1 - d2) / 2 = d1 by ring,
    show (d1 + d2) / 2 - (d1 - d2) / 2 = d2 by ring, show (d1 + d2) / 2 - (d1 + d2) / 2 = 0 by ring, z, add_zero]

theorem unnorm {x y B : ℝ} (hx : x ≠ 0) (hy : y ≠ 0) : 1 / (x * y) * B * (x * y) = B := by field_simp

theorem calcCase3_eq (h : k.Good) {Delta d1 d2 : ℝ} (h2 : 0 < d2) (h12 : d2 ≤ d1) (hl : Delta < (d1 + d2) / 2)
    (h4 : (d1 - d2) / 2 + Delta + d2 > d1) :
    k.calcCase3 0 d1 ((d1 - d2) / 2 + Delta) ((d1 - d2) / 2 + Delta + d2) d1 d2 = some (1 / (d1 * d2) * k.B Delta d1 d2) := by
  obtain ⟨p, hp⟩ : ∃ p, p = (d1 - d2) / 2 + Delta := ⟨_, rfl⟩
  rw [← hp] at h4 ⊢
  have hp3 : 0 < p := by linarith
  have hp23 : p < d1 := by linarith
  have hd1 : 0 < d1 := by linarith
  unfold calcCase3
  dsimp only
  rw [separate_eq h (by linarith) (by linarith) (by linarith)]
  simp only [Option.bind_eq_bind, Option.bind_some, if_neg hp23.ne']
  rw [separate_eq h (by linarith) (by linarith) (by linarith), overlap_eq h (by linarith)]
  simp only [Option.bind_some]
  rw [div?_eq (by positivity), unnorm (by linarith) (by linarith), unnorm (by linarith) (by linarith), pow_two,
    unnorm (by linarith) (by linarith), div_eq_inv_mul, one_div, B_adj (by ring), B_adj (by ring)]
  congr 2
  unfold B
  rw [show Delta + (d1 + d2) / 2 = p + d2 by linarith, show Delta + (d1 - d2) / 2 = p by linarith,
    show Delta - (d1 - d2) / 2 = p + d2 - d1 by linarith, show Delta - (d1 + d2) / 2 = -(d1 - p) by linarith,
    show k.P2 (-(d1 - p)) = k.P2 (d1 - p) from Twice.two_neg _, show p - 0 + (p + d2 - p) = p + d2 by ring,
    show p + d2 - p = d2 by ring, show d1 - p + (p + d2 - d1) = d2 by ring, sub_zero]
  ring

theorem calcCase4_eq (h : k.Good) {Delta d1 d2 : ℝ} (h0 : 0 ≤ Delta) (h2 : 0 < d2) (h12 : d2 ≤ d1)
    (h4 : (d1 - d2) / 2 + Delta + d2 ≤ d1) :
    k.calcCase4 0 d1 ((d1 - d2) / 2 + Delta) ((d1 - d2) / 2 + Delta + d2) d1 d2 = some (1 / (d1 * d2) * k.B Delta d1 d2) := by
  obtain ⟨p, hp⟩ : ∃ p, p = (d1 - d2) / 2 + Delta := ⟨_, rfl⟩
  rw [← hp] at h4 ⊢
  have hp3 : 0 ≤ p := by linarith
  have hd1 : 0 < d1 := by linarith
  have z : k.P2 0 = 0 := Twice.two_zero
  -- the optional parts
  have e1 : ∀ i : ℝ, (if (0 : ℝ) = p then some i else
      (k.separate (p + (p + d2 - p) / 2 - (0 + (p - 0) / 2)) (p - 0) (p + d2 - p)).bind
        fun s1 => some (i + s1 * ((p - 0) * (p + d2 - p)))) = some (i + (k.P2 (p + d2) - k.P2 p - k.P2 d2)) := by
    intro i
    by_cases hz : (0 : ℝ) = p
    · rw [if_pos hz, ← hz, zero_add, z]; congr 1; ring
    · have hp' : 0 < p := lt_of_le_of_ne hp3 hz
      rw [if_neg hz, separate_eq h (by linarith) (by linarith) (by linarith)]
      simp only [Option.bind_some]
      rw [unnorm (by linarith) (by linarith), B_adj (by ring), show p - 0 + (p + d2 - p) = p + d2 by ring,
        show p + d2 - p = d2 by ring, sub_zero]
  have e2 : ∀ i : ℝ, (if d1 = p + d2 then some i else
      (k.separate (p + d2 + (d1 - (p + d2)) / 2 - (p + (p + d2 - p) / 2)) (d1 - (p + d2)) (p + d2 - p)).bind
        fun s1 => some (i + s1 * ((d1 - (p + d2)) * (p + d2 - p)))) =
      some (i + (k.P2 (d1 - p) - k.P2 (d1 - (p + d2)) - k.P2 d2)) := by
    intro i
    by_cases hz : d1 = p + d2
    · rw [if_pos hz, show d1 - p = d2 by linarith, show d1 - (p + d2) = 0 by linarith, z]; congr 1; ring
    · have hp' : 0 < d1 - (p + d2) := by
        rcases lt_or_eq_of_le h4 with h | h
        · linarith
        · exact absurd h.symm hz
      rw [if_neg hz, separate_eq h (by linarith) (by linarith) (by linarith)]
      simp only [Option.bind_some]
      rw [unnorm (by linarith) (by linarith), B_adj (by ring), show d1 - (p + d2) + (p + d2 - p) = d1 - p by ring,
        show p + d2 - p = d2 by ring]
  unfold calcCase4
  dsimp only
  rw [overlap_eq h h2]
  simp only [Option.bind_eq_bind, Option.bind_some, e1, e2]
  rw [div?_eq (by positivity), pow_two, unnorm h2.ne' h2.ne', div_eq_inv_mul, one_div]
  congr 2
  unfold B
  rw [show Delta + (d1 + d2) / 2 = p + d2 by linarith, show Delta + (d1 - d2) / 2 = p by linarith,
    show Delta - (d1 - d2) / 2 = -(d1 - (p + d2)) by linarith, show Delta - (d1 + d2) / 2 = -(d1 - p) by linarith,
    show k.P2 (-(d1 - p)) = k.P2 (d1 - p) from Twice.two_neg _,
    show k.P2 (-(d1 - (p + d2))) = k.P2 (d1 - (p + d2)) from Twice.two_neg _]
  ring

theorem singleSplit_eq (h : k.Good) {Delta d : ℝ} (h0 : 0 ≤ Delta) (hd : 0 < d) (hs : d / 2 + Delta < d) :
    k.singleSplit (d / 2 + Delta) d = some (1 / d * (k.P1 (Delta + d / 2) - k.P1 (Delta - d / 2))) := by
  have z : k.P1 0 = 0 := Twice.one_zero
  unfold singleSplit
  rw [single_eq h (by linarith) le_rfl, single_eq h (by linarith) le_rfl]
  simp only [Option.bind_eq_bind, Option.bind_some]
  rw [div?_eq hd.ne']
  have key : ∀ x B : ℝ, x ≠ 0 → 1 / x * B * x = B := by intro x B hx; field_simp
  rw [key _ _ (by linarith), key _ _ (by intro h; linarith), div_eq_inv_mul, one_div]
  congr 2
  have o : k.P1 (d - (d / 2 + Delta)) = - k.P1 (Delta - d / 2) := by
    rw [← Twice.one_neg]; congr 1; ring
  rw [add_halves, add_halves, sub_self, sub_self, z, sub_zero, sub_zero, o, add_comm (d / 2)]
  ring

open Classical in
theorem fullSingle_eq (h : k.Good) {Delta d : ℝ} (h0 : 0 ≤ Delta) (hd : 0 < d) (hr : 1e-4 ≤ |d / (2 * Real.pi / k.w)|) :
    k.fullSingle Delta d = some (1 / d * (k.P1 (Delta + d / 2) - k.P1 (Delta - d / 2))) := by
  unfold fullSingle
  dsimp only
  by_cases hc : d ≤ d / 2 + Delta
  · rw [if_neg (fun q => q.2.2 hc), if_pos ⟨hc, not_lt.mpr hr⟩, single_eq h hd (by linarith)]
  · rw [if_pos ⟨not_le.mp hc, not_lt.mpr hr, hc⟩, singleSplit_eq h h0 hd (not_le.mp hc)]

/-- both exposures resolved -/
theorem integrated_both (h : k.Good) {t1 t2 d1 d2 : ℝ} (h1 : 0 < d1) (h2 : 0 < d2)
    (hr1 : 1e-8 ≤ |d1 / (2 * Real.pi / k.w)|) (hr2 : 1e-8 ≤ |d2 / (2 * Real.pi / k.w)|) :
    k.integrated t1 d1 t2 d2 = some (1 / (d1 * d2) * k.B (t1 - t2) d1 d2) := by
  have hm : 0 < min d1 d2 := lt_min h1 h2
  have hle : min d1 d2 ≤ max d1 d2 := min_le_max
  have hrM : ¬ |max d1 d2 / (2 * Real.pi / k.w)| < 1e-8 := by
    rcases max_choice d1 d2 with e | e <;> rw [e] <;> exact not_lt.mpr ‹_›
  have hrm : ¬ |min d1 d2 / (2 * Real.pi / k.w)| < 1e-8 := by
    rcases min_choice d1 d2 with e | e <;> rw [e] <;> exact not_lt.mpr ‹_›
  have goal : 1 / (d1 * d2) * k.B (t1 - t2) d1 d2 =
      1 / (max d1 d2 * min d1 d2) * k.B |t1 - t2| (max d1 d2) (min d1 d2) := by
    rw [B_abs, B_max_min, max_mul_min]
  rw [goal]
  have h0 : 0 ≤ |t1 - t2| := abs_nonneg _
  unfold integrated
  generalize |t1 - t2| = D at *
  generalize max d1 d2 = M at *
  generalize min d1 d2 = m at *
  dsimp only
  by_cases c1 : D = 0 ∧ M = m
  · rw [if_neg (fun q => q.2.2.2.1 c1), if_neg (fun q => q.2.2.2.1 c1), if_neg (fun q => q.2.2.2 c1),
      if_pos ⟨c1, hrM, hrm⟩, overlap_eq h (by linarith)]
    obtain ⟨rfl, rfl⟩ := c1
    congr 2
    unfold B
    have z : k.P2 0 = 0 := Twice.two_zero
    rw [show (0 : ℝ) + (M + M) / 2 = M by ring, show (0 : ℝ) + (M - M) / 2 = 0 by ring, show (0 : ℝ) - (M - M) / 2 = 0 by ring,
      show (0 : ℝ) - (M + M) / 2 = -M by ring, show k.P2 (-M) = k.P2 M from Twice.two_neg _, z]
    ring
  by_cases c2 : D ≥ (M + m) / 2
  · rw [if_neg (fun q => q.2.2.2.2.1 c2), if_neg (fun q => q.2.2.2.2 c2), if_pos ⟨c2, hrM, hrm, c1⟩,
      separate_eq h (by linarith) hm c2]
  have lap : D < (M + m) / 2 := not_le.mp c2
  by_cases c3 : (M - m) / 2 + D + m > M
  · rw [if_neg (fun q => q.2.2.2.2.2 ⟨lap, c3⟩), if_pos ⟨⟨lap, c3⟩, hrM, hrm, c1, c2⟩, calcCase3_eq h hm hle lap c3]
  · rw [if_pos ⟨⟨lap, not_lt.mp c3⟩, hrM, hrm, c1, c2, fun q => c3 q.2⟩, calcCase4_eq h h0 hm hle (not_lt.mp c3)]

/-- one exposure resolved, the other below the threshold -/
theorem integrated_one (h : k.Good) {t1 t2 d1 d2 d : ℝ} (hd : 0 < d) (hM : max d1 d2 = d)
    (hrm : |min d1 d2 / (2 * Real.pi / k.w)| < 1e-8)
    (hr : 1e-4 ≤ |d / (2 * Real.pi / k.w)|) :
    k.integrated t1 d1 t2 d2 = some (1 / d * (k.P1 (t1 - t2 + d / 2) - k.P1 (t1 - t2 - d / 2))) := by
  have hrM : ¬ |d / (2 * Real.pi / k.w)| < 1e-8 := by
    refine not_lt.mpr (le_trans ?_ hr); norm_num
  have goal : k.P1 (t1 - t2 + d / 2) - k.P1 (t1 - t2 - d / 2) = k.P1 (|t1 - t2| + d / 2) - k.P1 (|t1 - t2| - d / 2) := by
    rcases abs_cases (t1 - t2) with ⟨e, _⟩ | ⟨e, _⟩ <;> rw [e]
    have o1 : k.P1 (-(t1 - t2) + d / 2) = - k.P1 (t1 - t2 - d / 2) := by rw [← Twice.one_neg]; congr 1; ring
    have o2 : k.P1 (-(t1 - t2) - d / 2) = - k.P1 (t1 - t2 + d / 2) := by rw [← Twice.one_neg]; congr 1; ring
    rw [o1, o2]; ring
  rw [goal]
  unfold integrated
  rw [hM]
  dsimp only
  rw [if_neg (fun q => q.2.2.1 hrm), if_neg (fun q => q.2.2.1 hrm), if_neg (fun q => q.2.2.1 hrm), if_neg (fun q => q.2.2 hrm),
    if_pos ⟨hrm, hrM⟩, fullSingle_eq h (abs_nonneg _) hd hr]

/-- both exposures below the threshold -/
theorem integrated_none (h : k.Good) {t1 t2 d1 d2 : ℝ} (hr : |max d1 d2 / (2 * Real.pi / k.w)| < 1e-8) :
    k.integrated t1 d1 t2 d2 = some (k.kap |t1 - t2|) := by
  unfold integrated
  dsimp only
  rw [if_neg (fun q => q.2.1 hr), if_neg (fun q => q.2.1 hr), if_neg (fun q => q.2.1 hr), if_neg (fun q => q.2.1 hr),
    if_neg (fun q => q.2 hr), if_pos hr, latent_eq h]

/-- one exposure above `1e-8` and below `1e-4`, the other below `1e-8` -/
theorem integrated_gap (h : k.Good) {t1 t2 d1 d2 : ℝ} (hr : |max d1 d2 / (2 * Real.pi / k.w)| < 1e-4)
    (hr' : ¬ |max d1 d2 / (2 * Real.pi / k.w)| < 1e-8)
    (hm : |min d1 d2 / (2 * Real.pi / k.w)| < 1e-8) :
    k.integrated t1 d1 t2 d2 = some (k.kap |t1 - t2|) := by
  unfold integrated
  dsimp only
  rw [if_neg (fun q => q.2.2.1 hm), if_neg (fun q => q.2.2.1 hm), if_neg (fun q => q.2.2.1 hm), if_neg (fun q => q.2.2 hm),
    if_pos ⟨hm, hr'⟩]
  unfold fullSingle
  dsimp only
  rw [if_neg (fun q => q.2.1 hr), if_neg (fun q => q.2 hr), if_pos hr, latent_eq h]

end DenseSHO

end Verif
