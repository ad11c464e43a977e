import Verif.Lemmas.DenseFacts
import Mathlib.Analysis.SpecialFunctions.Log.Basic
import Mathlib.Algebra.Order.Chebyshev

/-! # Dense Gaussian quantities under a relative perturbation of the covariance matrix -/

set_option linter.unusedSectionVars false

namespace Verif
open Matrix Spec

variable {ι : Type*} [Fintype ι] [DecidableEq ι]

theorem one_le_det_one_add {M : Matrix ι ι ℝ} (hM : M.PosSemidef) : 1 ≤ (1 + M).det := by
  have hH : (1 + M).IsHermitian := (Matrix.PosSemidef.one.add hM).isHermitian
  rw [hH.det_eq_prod_eigenvalues]
  have key : ∀ i, 1 ≤ hH.eigenvalues i := by
    intro i
    have h1 := hH.mulVec_eigenvectorBasis i
    set v : ι → ℝ := ⇑(hH.eigenvectorBasis i) with hv
    rw [add_mulVec, one_mulVec] at h1
    have hpos : 0 < v ⬝ᵥ v := by
      refine lt_of_le_of_ne (by simpa using dotProduct_star_self_nonneg v) fun h => ?_
      have hz : v = 0 := by simpa using dotProduct_self_eq_zero.1 h.symm
      have := hH.eigenvectorBasis.orthonormal.ne_zero i
      apply this
      ext j
      exact congrFun hz j
    have h2 : v ⬝ᵥ v + v ⬝ᵥ M *ᵥ v = hH.eigenvalues i * (v ⬝ᵥ v) := by
      rw [← dotProduct_add, h1, dotProduct_smul, smul_eq_mul]
    have h3 := ((psd_iff M).1 hM).2 v
    nlinarith
  have : (1 : ℝ) = ∏ _i : ι, (1 : ℝ) := by simp
  rw [this]
  exact Finset.prod_le_prod (fun _ _ => zero_le_one) fun i _ => key i

open scoped MatrixOrder in
/-- the determinant is monotone -/
theorem det_mono {A B : Matrix ι ι ℝ} (hA : A.PosDef) (h : (B - A).PosSemidef) : A.det ≤ B.det := by
  obtain ⟨C, hC⟩ := CStarAlgebra.nonneg_iff_eq_star_mul_self.mp hA.posSemidef.nonneg
  rw [star_eq_conjTranspose, conjTranspose_eq_transpose_of_trivial] at hC
  have hu : IsUnit C.det := by
    have := pd_det hA
    rw [hC, det_mul] at this
    exact isUnit_of_mul_isUnit_right this
  have hM : ((C⁻¹)ᵀ * (B - A) * C⁻¹).PosSemidef := by
    have := psd_conj h (C⁻¹)ᵀ
    rwa [transpose_transpose] at this
  have e : B = Cᵀ * (1 + (C⁻¹)ᵀ * (B - A) * C⁻¹) * C := by
    have e1 : Cᵀ * (C⁻¹)ᵀ = 1 := by rw [← transpose_mul, Matrix.nonsing_inv_mul _ hu, transpose_one]
    have e2 : C⁻¹ * C = 1 := Matrix.nonsing_inv_mul _ hu
    rw [Matrix.mul_add, Matrix.add_mul, Matrix.mul_one, ← hC]
    have : Cᵀ * ((C⁻¹)ᵀ * (B - A) * C⁻¹) * C = (Cᵀ * (C⁻¹)ᵀ) * (B - A) * (C⁻¹ * C) := by simp only [Matrix.mul_assoc]
    rw [this, e1, e2, Matrix.one_mul, Matrix.mul_one]
    abel
  have hd : B.det = A.det * (1 + (C⁻¹)ᵀ * (B - A) * C⁻¹).det := by
    conv_lhs => rw [e]
    rw [det_mul, det_mul, hC, det_mul]
    ring
  rw [hd]
  have := one_le_det_one_add hM
  nlinarith [hA.det_pos]

/-- `G'` is `G` up to a relative error `θ` in the sense of quadratic forms -/
structure Near (θ : ℝ) (G G' : Matrix ι ι ℝ) : Prop where
  pd : G.PosDef
  symm : G'ᵀ = G'
  nonneg : 0 ≤ θ
  half : θ ≤ 1 / 2
  quad : ∀ v : ι → ℝ, |v ⬝ᵥ (G' - G) *ᵥ v| ≤ θ * (v ⬝ᵥ G *ᵥ v)

namespace Near
variable {θ : ℝ} {G G' : Matrix ι ι ℝ} (h : Near θ G G')
include h

theorem quad' (v : ι → ℝ) : (1 - θ) * (v ⬝ᵥ G *ᵥ v) ≤ v ⬝ᵥ G' *ᵥ v ∧ v ⬝ᵥ G' *ᵥ v ≤ (1 + θ) * (v ⬝ᵥ G *ᵥ v) := by
  have := abs_le.1 (h.quad v)
  rw [sub_mulVec, dotProduct_sub] at this
  constructor <;> linarith [this.1, this.2]

theorem pd' : G'.PosDef := by
  rw [pd_iff]
  refine ⟨h.symm, fun x hx => ?_⟩
  have h1 := (h.quad' x).1
  have h2 := ((pd_iff G).1 h.pd).2 x hx
  have := h.half
  nlinarith

theorem lower_pd : ((1 - θ) • G).PosDef := by
  have := h.half
  exact h.pd.smul (by linarith)

theorem upper_pd : ((1 + θ) • G).PosDef := by
  have := h.nonneg
  exact h.pd.smul (by linarith)

theorem lower : (G' - (1 - θ) • G).PosSemidef := by
  rw [psd_iff]
  refine ⟨by rw [transpose_sub, transpose_smul, h.symm, psd_symm h.pd.posSemidef], fun x => ?_⟩
  rw [sub_mulVec, dotProduct_sub, smul_mulVec, dotProduct_smul, smul_eq_mul]
  linarith [(h.quad' x).1]

theorem upper : ((1 + θ) • G - G').PosSemidef := by
  rw [psd_iff]
  refine ⟨by rw [transpose_sub, transpose_smul, h.symm, psd_symm h.pd.posSemidef], fun x => ?_⟩
  rw [sub_mulVec, dotProduct_sub, smul_mulVec, dotProduct_smul, smul_eq_mul]
  linarith [(h.quad' x).2]

theorem log_det : |Real.log G'.det - Real.log G.det| ≤ 2 * θ * Fintype.card ι := by
  have h0 := h.nonneg
  have h1 := h.half
  have p := h.pd.det_pos
  have p' := h.pd'.det_pos
  have lo := det_mono h.lower_pd h.lower
  have up := det_mono h.pd' h.upper
  rw [det_smul] at lo up
  have l1 : Real.log ((1 - θ) ^ Fintype.card ι * G.det) ≤ Real.log G'.det := Real.log_le_log (mul_pos (pow_pos (by linarith) _) p) lo
  have l2 : Real.log G'.det ≤ Real.log ((1 + θ) ^ Fintype.card ι * G.det) := Real.log_le_log p' up
  rw [Real.log_mul (pow_pos (by linarith) _).ne' p.ne', Real.log_pow] at l1 l2
  have a1 : Real.log (1 + θ) ≤ θ := by
    have := Real.log_le_sub_one_of_pos (show 0 < 1 + θ by linarith)
    linarith
  have a2 : -(2 * θ) ≤ Real.log (1 - θ) := by
    have := Real.one_sub_inv_le_log_of_pos (show 0 < 1 - θ by linarith)
    have hi : (1 - θ)⁻¹ ≤ 1 + 2 * θ := by
      rw [inv_le_iff_one_le_mul₀ (by linarith)]
      nlinarith
    linarith
  have hc : (0 : ℝ) ≤ Fintype.card ι := Nat.cast_nonneg _
  rw [abs_le]
  constructor <;> nlinarith

theorem inv_quad (v : ι → ℝ) : |v ⬝ᵥ G'⁻¹ *ᵥ v - v ⬝ᵥ G⁻¹ *ᵥ v| ≤ 2 * θ * (v ⬝ᵥ G⁻¹ *ᵥ v) := by
  have h0 := h.nonneg
  have h1 := h.half
  have lo := postVar_mono h.pd' h.lower_pd h.lower 0 v
  have up := postVar_mono h.upper_pd h.pd' h.upper 0 v
  have hq : 0 ≤ v ⬝ᵥ G⁻¹ *ᵥ v := ((psd_iff _).1 h.pd.inv.posSemidef).2 v
  have hu := pd_det h.pd
  have e1 : ((1 - θ) • G)⁻¹ = (1 - θ)⁻¹ • G⁻¹ := Matrix.inv_smul' _ (Units.mk0 (1 - θ) (by linarith)) hu
  have e2 : ((1 + θ) • G)⁻¹ = (1 + θ)⁻¹ • G⁻¹ := Matrix.inv_smul' _ (Units.mk0 (1 + θ) (by linarith)) hu
  unfold postVar at lo up
  rw [e1, smul_mulVec, dotProduct_smul, smul_eq_mul] at lo
  rw [e2, smul_mulVec, dotProduct_smul, smul_eq_mul] at up
  have i1 : (1 - θ)⁻¹ ≤ 1 + 2 * θ := by
    rw [inv_le_iff_one_le_mul₀ (by linarith)]
    nlinarith
  have i2 : 1 - 2 * θ ≤ (1 + θ)⁻¹ := by
    rw [← one_div, le_div_iff₀ (by linarith)]
    nlinarith
  rw [abs_le]
  constructor <;> nlinarith

theorem inv_symm : (G'⁻¹ - G⁻¹)ᵀ = G'⁻¹ - G⁻¹ := by
  rw [transpose_sub, transpose_nonsing_inv, transpose_nonsing_inv, h.symm, psd_symm h.pd.posSemidef]

theorem inv_bilin (u v : ι → ℝ) :
    (u ⬝ᵥ G'⁻¹ *ᵥ v - u ⬝ᵥ G⁻¹ *ᵥ v) ^ 2 ≤ (2 * θ) ^ 2 * (u ⬝ᵥ G⁻¹ *ᵥ u) * (v ⬝ᵥ G⁻¹ *ᵥ v) := by
  set M := G'⁻¹ - G⁻¹ with hM
  have hs := h.inv_symm
  have hg : (G⁻¹)ᵀ = G⁻¹ := by rw [transpose_nonsing_inv, psd_symm h.pd.posSemidef]
  have hq : ∀ x : ι → ℝ, |x ⬝ᵥ M *ᵥ x| ≤ 2 * θ * (x ⬝ᵥ G⁻¹ *ᵥ x) := fun x => by
    rw [hM, sub_mulVec, dotProduct_sub]; exact h.inv_quad x
  have p1 : ((2 * θ) • G⁻¹ + M).PosSemidef := by
    rw [psd_iff]
    refine ⟨by rw [transpose_add, transpose_smul, hg, hs], fun x => ?_⟩
    rw [add_mulVec, dotProduct_add, smul_mulVec, dotProduct_smul, smul_eq_mul]
    linarith [(abs_le.1 (hq x)).1]
  have p2 : ((2 * θ) • G⁻¹ - M).PosSemidef := by
    rw [psd_iff]
    refine ⟨by rw [transpose_sub, transpose_smul, hg, hs], fun x => ?_⟩
    rw [sub_mulVec, dotProduct_sub, smul_mulVec, dotProduct_smul, smul_eq_mul]
    linarith [(abs_le.1 (hq x)).2]
  have c1 := psd_cauchy p1 u v
  have c2 := psd_cauchy p2 u v
  have n1u := ((psd_iff _).1 p1).2 u
  have n1v := ((psd_iff _).1 p1).2 v
  have n2u := ((psd_iff _).1 p2).2 u
  have n2v := ((psd_iff _).1 p2).2 v
  simp only [add_mulVec, sub_mulVec, dotProduct_add, dotProduct_sub, smul_mulVec, dotProduct_smul, smul_eq_mul] at c1 c2 n1u n1v n2u n2v
  have e : u ⬝ᵥ G'⁻¹ *ᵥ v - u ⬝ᵥ G⁻¹ *ᵥ v = u ⬝ᵥ M *ᵥ v := by rw [hM, sub_mulVec, dotProduct_sub]
  rw [e]
  generalize u ⬝ᵥ M *ᵥ v = m at *
  generalize u ⬝ᵥ M *ᵥ u = mu at *
  generalize v ⬝ᵥ M *ᵥ v = mv at *
  generalize u ⬝ᵥ G⁻¹ *ᵥ v = g at *
  generalize u ⬝ᵥ G⁻¹ *ᵥ u = gu at *
  generalize v ⬝ᵥ G⁻¹ *ᵥ v = gv at *
  -- (x + m)² ≤ (a + mu)(b + mv), (x - m)² ≤ (a - mu)(b - mv)
  set a := 2 * θ * gu with ha
  set b := 2 * θ * gv with hb
  set x := 2 * θ * g with hx
  have e2 : (2 * θ) ^ 2 * gu * gv = a * b := by rw [ha, hb]; ring
  rw [e2]
  nlinarith [sq_nonneg ((a + mu) * (b - mv) - (a - mu) * (b + mv)), mul_nonneg n1u n2v, mul_nonneg n2u n1v, sq_nonneg x]

theorem logDensity (y : ι → ℝ) :
    |gaussLogDensity G' y - gaussLogDensity G y| ≤ θ * (y ⬝ᵥ G⁻¹ *ᵥ y + Fintype.card ι) := by
  have h1 := abs_le.1 h.log_det
  have h2 := abs_le.1 (h.inv_quad y)
  unfold gaussLogDensity
  rw [abs_le]
  constructor <;> nlinarith [h1.1, h1.2, h2.1, h2.2]

end Near

/-- entrywise small perturbations of a matrix bounded from below are relatively small -/
theorem Near.of_entries {G G' : Matrix ι ι ℝ} (hG : Gᵀ = G) (hG' : G'ᵀ = G') {r d : ℝ} (hr : 0 < r) (hd : 0 ≤ d)
    (hlow : ∀ v : ι → ℝ, r * (v ⬝ᵥ v) ≤ v ⬝ᵥ G *ᵥ v) (hent : ∀ i j, |G' i j - G i j| ≤ d) (hsmall : Fintype.card ι * d ≤ r / 2) :
    Near (Fintype.card ι * d / r) G G' where
  pd := by
    rw [pd_iff]
    refine ⟨hG, fun x hx => lt_of_lt_of_le (mul_pos hr ?_) (hlow x)⟩
    exact lt_of_le_of_ne (by simpa using dotProduct_star_self_nonneg x) fun h => hx (by simpa using dotProduct_self_eq_zero.1 h.symm)
  symm := hG'
  nonneg := div_nonneg (mul_nonneg (Nat.cast_nonneg _) hd) hr.le
  half := by rw [div_le_iff₀ hr]; linarith
  quad v := by
    have h1 : |v ⬝ᵥ (G' - G) *ᵥ v| ≤ d * (∑ i, |v i|) ^ 2 := by
      simp only [dotProduct, mulVec, Matrix.sub_apply, Finset.mul_sum]
      refine (Finset.abs_sum_le_sum_abs _ _).trans ?_
      have : d * (∑ i, |v i|) ^ 2 = ∑ i, ∑ j, d * (|v i| * |v j|) := by
        rw [sq, Finset.sum_mul_sum, Finset.mul_sum]
        simp only [Finset.mul_sum]
      rw [this]
      refine Finset.sum_le_sum fun i _ => (Finset.abs_sum_le_sum_abs _ _).trans (Finset.sum_le_sum fun j _ => ?_)
      rw [abs_mul, abs_mul]
      have := hent i j
      have h2 : 0 ≤ |v i| * |v j| := by positivity
      nlinarith
    have h2 : (∑ i, |v i|) ^ 2 ≤ Fintype.card ι * (v ⬝ᵥ v) := by
      have := sq_sum_le_card_mul_sum_sq (s := Finset.univ) (f := fun i => |v i|)
      refine this.trans (le_of_eq ?_)
      simp only [sq_abs, Finset.card_univ]
      congr 1
      simp [dotProduct, sq]
    have h3 := hlow v
    have hvv : 0 ≤ v ⬝ᵥ v := by simpa using dotProduct_star_self_nonneg v
    rw [div_mul_eq_mul_div, le_div_iff₀ hr]
    have h4 : d * (∑ i, |v i|) ^ 2 ≤ d * (Fintype.card ι * (v ⬝ᵥ v)) := mul_le_mul_of_nonneg_left h2 hd
    have h5 : (Fintype.card ι : ℝ) * d * (r * (v ⬝ᵥ v)) ≤ Fintype.card ι * d * (v ⬝ᵥ G *ᵥ v) :=
      mul_le_mul_of_nonneg_left h3 (mul_nonneg (Nat.cast_nonneg _) hd)
    nlinarith

end Verif
