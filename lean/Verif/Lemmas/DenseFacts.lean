import Verif.Props.C16_Filter
import Mathlib.LinearAlgebra.Matrix.SchurComplement

/-! # Facts of dense Gaussian conditioning: less noise, data that agree with the prediction, repeated measurements, units -/

set_option linter.unusedSectionVars false

namespace Verif
open Matrix Spec

variable {ι ι' : Type*} [Fintype ι] [DecidableEq ι] [Fintype ι'] [DecidableEq ι']

theorem solve_unique {K : Matrix ι ι ℝ} (hK : K.PosDef) {a y : ι → ℝ} (h : K *ᵥ a = y) : K⁻¹ *ᵥ y = a := by
  rw [← h, mulVec_mulVec, Matrix.nonsing_inv_mul _ (pd_det hK), one_mulVec]

theorem solve_spec {K : Matrix ι ι ℝ} (hK : K.PosDef) (y : ι → ℝ) : K *ᵥ (K⁻¹ *ᵥ y) = y := by
  rw [mulVec_mulVec, Matrix.mul_nonsing_inv _ (pd_det hK), one_mulVec]

/-- a smaller covariance of the observations gives a smaller posterior variance -/
theorem postVar_mono {K K' : Matrix ι ι ℝ} (hK : K.PosDef) (hK' : K'.PosDef) (h : (K - K').PosSemidef) (v : ℝ) (c : ι → ℝ) :
    postVar K' v c ≤ postVar K v c := by
  have h1 := postVar_le hK' v c (K⁻¹ *ᵥ c)
  have h2 := ((psd_iff _).1 h).2 (K⁻¹ *ᵥ c)
  rw [sub_mulVec, dotProduct_sub] at h2
  rw [postVar_eq hK]
  linarith

theorem noisyGram_mulVec (b : ι → ι → ℝ) (R a : ι → ℝ) (i : ι) : (noisyGram b R *ᵥ a) i = ∑ j, b i j * a j + R i * a i := by
  simp [noisyGram, mulVec, dotProduct, add_mul, Finset.sum_add_distrib]

theorem noisyGram_psd_sub (b : ι → ι → ℝ) {R R' : ι → ℝ} (h : ∀ i, R' i ≤ R i) : (noisyGram b R - noisyGram b R').PosSemidef := by
  have e : noisyGram b R - noisyGram b R' = Matrix.diagonal fun i => R i - R' i := by
    ext i j
    by_cases hij : i = j <;> simp [noisyGram, hij]
  rw [e]
  exact Matrix.PosSemidef.diagonal fun i => sub_nonneg.2 (h i)

/-- Observations that agree with their prediction from a subset of the data do not change any prediction. -/
theorem postMean_extend {b : ι → ι → ℝ} {b' : ι' → ι' → ℝ} {R y c : ι → ℝ} {R' y' c' : ι' → ℝ} (f : ι → ι') (hf : Function.Injective f)
    (hK : (noisyGram b R).PosDef) (hK' : (noisyGram b' R').PosDef) (hb : ∀ i j, b' (f i) (f j) = b i j) (hR : ∀ i, R' (f i) = R i)
    (hy : ∀ i, y' (f i) = y i) (hp : ∀ p, p ∉ Set.range f → y' p = postMean (noisyGram b R) y fun j => b' p (f j)) (hc : ∀ i, c' (f i) = c i) :
    postMean (noisyGram b' R') y' c' = postMean (noisyGram b R) y c := by
  set a := (noisyGram b R)⁻¹ *ᵥ y with ha
  have hsol := solve_spec hK y
  rw [← ha] at hsol
  set a' : ι' → ℝ := fun p => ∑ i, if f i = p then a i else 0 with ha'
  have hin : ∀ i, a' (f i) = a i := by
    intro i
    simp only [ha']
    rw [Finset.sum_eq_single i]
    · simp
    · intro j _ hj
      exact if_neg fun h => hj (hf h)
    · simp
  have hout : ∀ p, p ∉ Set.range f → a' p = 0 := fun p hp => Finset.sum_eq_zero fun i _ => if_neg fun h => hp ⟨i, h⟩
  have hsum : ∀ g : ι' → ℝ, ∑ p, g p * a' p = ∑ i, g (f i) * a i := by
    intro g
    simp only [ha', Finset.mul_sum]
    rw [Finset.sum_comm]
    refine Finset.sum_congr rfl fun i _ => ?_
    simp [mul_ite]
  have key : noisyGram b' R' *ᵥ a' = y' := by
    funext p
    rw [noisyGram_mulVec, hsum]
    by_cases hpr : p ∈ Set.range f
    · obtain ⟨i, rfl⟩ := hpr
      rw [hin, hR, hy, ← congrFun hsol i, noisyGram_mulVec]
      simp only [hb]
    · rw [hout p hpr, hp p hpr, mul_zero, add_zero]
      rfl
  unfold postMean
  rw [solve_unique hK' key, ← ha]
  show ∑ p, c' p * a' p = ∑ i, c i * a i
  rw [hsum]
  simp only [hc]

section replicates
variable {b : ι → ι → ℝ} {R : ι → ℝ} {R' : ι' → ℝ} (g : ι' → ι)

theorem sum_fibres (w : ι → ℝ) (h : ι' → ℝ) : ∑ p, w (g p) * h p = ∑ m, w m * ∑ p, if g p = m then h p else 0 := by
  simp only [Finset.mul_sum]
  rw [Finset.sum_comm]
  refine Finset.sum_congr rfl fun p _ => ?_
  simp [mul_ite]

/-- Repeated measurements of the same quantities, with covariance `b` of the quantities: the prediction is that from their averages, weighted by inverse variances. -/
theorem solve_replicates (hK : (noisyGram b R).PosDef) (hK' : (noisyGram (fun p q => b (g p) (g q)) R').PosDef)
    (hR' : ∀ p, 0 < R' p) (hR0 : ∀ m, 0 < R m) (hR : ∀ m, 1 / R m = ∑ p, if g p = m then 1 / R' p else 0) {y : ι → ℝ} {y' : ι' → ℝ}
    (hy : ∀ m, y m / R m = ∑ p, if g p = m then y' p / R' p else 0) :
    (∀ c : ι → ℝ, postMean (noisyGram (fun p q => b (g p) (g q)) R') y' (fun p => c (g p)) = postMean (noisyGram b R) y c) ∧
    y' ⬝ᵥ (noisyGram (fun p q => b (g p) (g q)) R')⁻¹ *ᵥ y' =
      y ⬝ᵥ (noisyGram b R)⁻¹ *ᵥ y + (∑ p, y' p ^ 2 / R' p - ∑ m, y m ^ 2 / R m) := by
  set a := (noisyGram b R)⁻¹ *ᵥ y with ha
  have hsol := solve_spec hK y
  rw [← ha] at hsol
  set w : ι → ℝ := fun m => ∑ j, b m j * a j with hw
  have hm : ∀ m, w m + R m * a m = y m := fun m => by rw [← congrFun hsol m, noisyGram_mulVec]
  set a' : ι' → ℝ := fun p => (y' p - w (g p)) / R' p with ha'
  have hfib : ∀ m, (∑ p, if g p = m then a' p else 0) = a m := by
    intro m
    have e : ∀ p, (if g p = m then a' p else 0) = (if g p = m then y' p / R' p else 0) - w m * (if g p = m then 1 / R' p else 0) := by
      intro p
      by_cases h : g p = m
      · simp only [h, if_true, ha']
        ring
      · simp [h]
    rw [Finset.sum_congr rfl fun p _ => e p, Finset.sum_sub_distrib, ← Finset.mul_sum, ← hy, ← hR, ← hm m]
    have := (hR0 m).ne'
    field_simp
    ring
  have key : noisyGram (fun p q => b (g p) (g q)) R' *ᵥ a' = y' := by
    funext p
    rw [noisyGram_mulVec, sum_fibres g (b (g p)) a']
    simp only [hfib]
    have := (hR' p).ne'
    show w (g p) + R' p * ((y' p - w (g p)) / R' p) = y' p
    field_simp
    ring
  refine ⟨fun c => ?_, ?_⟩
  · unfold postMean
    rw [solve_unique hK' key, ← ha]
    show ∑ p, c (g p) * a' p = ∑ i, c i * a i
    rw [sum_fibres g c a']
    simp only [hfib]
  · rw [solve_unique hK' key]
    show ∑ p, y' p * a' p = ∑ i, y i * a i + _
    have e1 : ∀ p, y' p * a' p = y' p ^ 2 / R' p - w (g p) * (y' p / R' p) := fun p => by
      simp only [ha']
      ring
    have e2 : ∀ m, w m * (y m / R m) = y m ^ 2 / R m - y m * a m := fun m => by
      rw [show w m = y m - R m * a m by linarith [hm m]]
      have := (hR0 m).ne'
      field_simp
    rw [Finset.sum_congr rfl fun p _ => e1 p, Finset.sum_sub_distrib, sum_fibres g w fun p => y' p / R' p]
    simp only [← hy, e2]
    rw [Finset.sum_sub_distrib]
    ring

theorem postMean_replicates (hK : (noisyGram b R).PosDef) (hK' : (noisyGram (fun p q => b (g p) (g q)) R').PosDef)
    (hR' : ∀ p, 0 < R' p) (hR0 : ∀ m, 0 < R m) (hR : ∀ m, 1 / R m = ∑ p, if g p = m then 1 / R' p else 0) {y : ι → ℝ} {y' : ι' → ℝ}
    (hy : ∀ m, y m / R m = ∑ p, if g p = m then y' p / R' p else 0) (c : ι → ℝ) :
    postMean (noisyGram (fun p q => b (g p) (g q)) R') y' (fun p => c (g p)) = postMean (noisyGram b R) y c :=
  (solve_replicates g hK hK' hR' hR0 hR hy).1 c

theorem postVar_replicates (hK : (noisyGram b R).PosDef) (hK' : (noisyGram (fun p q => b (g p) (g q)) R').PosDef)
    (hR' : ∀ p, 0 < R' p) (hR0 : ∀ m, 0 < R m) (hR : ∀ m, 1 / R m = ∑ p, if g p = m then 1 / R' p else 0) (v : ℝ) (c : ι → ℝ) :
    postVar (noisyGram (fun p q => b (g p) (g q)) R') v (fun p => c (g p)) = postVar (noisyGram b R) v c := by
  have := postMean_replicates g hK hK' hR' hR0 hR (y := c) (y' := fun p => c (g p)) (fun m => by
    rw [div_eq_mul_one_div, hR, Finset.mul_sum]
    refine Finset.sum_congr rfl fun p _ => ?_
    by_cases h : g p = m
    · simp only [h, if_true]; ring
    · simp [h]) c
  unfold postMean at this
  unfold postVar
  rw [this]

/-- the determinant factors into one from the averages and one that depends only on the noise -/
theorem det_replicates (hR' : ∀ p, 0 < R' p) (hR0 : ∀ m, 0 < R m) (hR : ∀ m, 1 / R m = ∑ p, if g p = m then 1 / R' p else 0) :
    (noisyGram (fun p q => b (g p) (g q)) R').det * ∏ m, R m = (noisyGram b R).det * ∏ p, R' p := by
  set G : Matrix ι' ι ℝ := Matrix.of fun p m => if g p = m then 1 else 0 with hG
  set B : Matrix ι ι ℝ := Matrix.of b with hB
  set D' : Matrix ι' ι' ℝ := Matrix.diagonal R' with hD'
  set Di' : Matrix ι' ι' ℝ := Matrix.diagonal fun p => 1 / R' p with hDi'
  set D : Matrix ι ι ℝ := Matrix.diagonal R with hD
  set Di : Matrix ι ι ℝ := Matrix.diagonal fun m => 1 / R m with hDi
  have eD' : D' * Di' = 1 := by
    rw [hD', hDi', Matrix.diagonal_mul_diagonal, ← Matrix.diagonal_one]
    congr 1; funext p
    have := (hR' p).ne'
    field_simp
  have eD : Di * D = 1 := by
    rw [hD, hDi, Matrix.diagonal_mul_diagonal, ← Matrix.diagonal_one]
    congr 1; funext p
    have := (hR0 p).ne'
    field_simp
  have e1 : noisyGram (fun p q => b (g p) (g q)) R' = D' * (1 + (Di' * G) * (B * Gᵀ)) := by
    rw [Matrix.mul_add, Matrix.mul_one, ← Matrix.mul_assoc, ← Matrix.mul_assoc D', eD', Matrix.one_mul]
    ext p q
    have : (G * (B * Gᵀ)) p q = b (g p) (g q) := by
      simp [hG, hB, Matrix.mul_apply, Matrix.transpose_apply]
    rw [Matrix.add_apply, this]
    simp only [noisyGram, Matrix.of_apply, hD', Matrix.diagonal_apply]
    ring
  have e2 : (B * Gᵀ) * (Di' * G) = B * Di := by
    rw [Matrix.mul_assoc]
    congr 1
    ext m m'
    have e0 : ∀ p, (Di' * G) p m' = 1 / R' p * G p m' := fun p => Matrix.diagonal_mul _ _ _ _
    rw [Matrix.mul_apply]
    simp only [e0]
    simp only [hG, hDi, Matrix.transpose_apply, Matrix.of_apply, Matrix.diagonal_apply, hR]
    by_cases h : m = m'
    · subst h
      simp only [if_true]
      refine Finset.sum_congr rfl fun p _ => ?_
      by_cases h : g p = m <;> simp [h]
    · simp only [if_neg h]
      refine Finset.sum_eq_zero fun p _ => ?_
      by_cases h' : g p = m
      · have : ¬ g p = m' := fun h'' => h (h'.symm.trans h'')
        simp [this]
      · simp [h']
  have e3 : noisyGram b R = (1 + B * Di) * D := by
    rw [Matrix.add_mul, Matrix.one_mul, Matrix.mul_assoc, eD, Matrix.mul_one]
    ext i j
    simp only [noisyGram, Matrix.of_apply, hD, hB, Matrix.diagonal_apply, Matrix.add_apply]
    ring
  rw [e1, e3, Matrix.det_mul, Matrix.det_mul, Matrix.det_one_add_mul_comm, e2, hD', hD, Matrix.det_diagonal, Matrix.det_diagonal]
  ring

/-- Up to a number that does not depend on the covariances, the log density is that of the averages. -/
theorem logDensity_replicates (hK : (noisyGram b R).PosDef) (hK' : (noisyGram (fun p q => b (g p) (g q)) R').PosDef)
    (hR' : ∀ p, 0 < R' p) (hR0 : ∀ m, 0 < R m) (hR : ∀ m, 1 / R m = ∑ p, if g p = m then 1 / R' p else 0) {y : ι → ℝ} {y' : ι' → ℝ}
    (hy : ∀ m, y m / R m = ∑ p, if g p = m then y' p / R' p else 0) :
    gaussLogDensity (noisyGram (fun p q => b (g p) (g q)) R') y' = gaussLogDensity (noisyGram b R) y +
      (∑ p, gaussLogDensity (Matrix.diagonal fun _ : Unit => R' p) (fun _ => y' p) -
        ∑ m, gaussLogDensity (Matrix.diagonal fun _ : Unit => R m) fun _ => y m) := by
  have h1 := (solve_replicates g hK hK' hR' hR0 hR hy).2
  have h2 := det_replicates (b := b) g hR' hR0 hR
  have p1 : 0 < ∏ m, R m := Finset.prod_pos fun m _ => hR0 m
  have p2 : 0 < ∏ p, R' p := Finset.prod_pos fun p _ => hR' p
  have h3 := congrArg Real.log h2
  rw [Real.log_mul hK'.det_pos.ne' p1.ne', Real.log_mul hK.det_pos.ne' p2.ne', Real.log_prod fun m _ => (hR0 m).ne',
    Real.log_prod fun p _ => (hR' p).ne'] at h3
  have e : ∀ r z : ℝ, 0 < r → gaussLogDensity (Matrix.diagonal fun _ : Unit => r) (fun _ => z) =
      -(1 / 2) * (z ^ 2 / r) - 1 / 2 * Real.log r - 1 / 2 * Real.log (2 * Real.pi) := by
    intro r z hr
    have hi : (Matrix.diagonal fun _ : Unit => r)⁻¹ = Matrix.diagonal fun _ : Unit => r⁻¹ := by
      refine Matrix.inv_eq_right_inv ?_
      rw [Matrix.diagonal_mul_diagonal, ← Matrix.diagonal_one]
      congr 1; funext _
      exact mul_inv_cancel₀ hr.ne'
    unfold gaussLogDensity
    rw [hi]
    simp [dotProduct, Matrix.mulVec_diagonal]
    ring
  rw [Finset.sum_congr rfl fun p _ => e (R' p) (y' p) (hR' p), Finset.sum_congr rfl fun m _ => e (R m) (y m) (hR0 m)]
  simp only [Finset.sum_sub_distrib, ← Finset.mul_sum, Finset.sum_const, Finset.card_univ, nsmul_eq_mul]
  unfold gaussLogDensity
  rw [h1]
  linarith

end replicates

end Verif
