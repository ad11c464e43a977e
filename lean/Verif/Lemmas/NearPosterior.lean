import Verif.Lemmas.NoisyBound

/-!
# Posterior means and variances for nearby covariances
-/

namespace Verif
open Matrix Spec
variable {ι : Type*} [Fintype ι] [DecidableEq ι]

/-- the inverse of a covariance bounded below by `r` is at most `1/r` -/
theorem inv_le_of_low {G : Matrix ι ι ℝ} (hG : G.PosDef) {r : ℝ} (hr : 0 < r) (hlow : ∀ v : ι → ℝ, r * (v ⬝ᵥ v) ≤ v ⬝ᵥ G *ᵥ v) (d : ι → ℝ) :
    d ⬝ᵥ G⁻¹ *ᵥ d ≤ (d ⬝ᵥ d) / r := by
  set w := G⁻¹ *ᵥ d with hw
  have h1 : G *ᵥ w = d := solve_spec hG _
  have h2 := hlow w
  rw [h1, dotProduct_comm w d] at h2
  rw [le_div_iff₀ hr]
  have h3 : 0 ≤ (d - r • w) ⬝ᵥ (d - r • w) := by simpa using dotProduct_star_self_nonneg (d - r • w)
  rw [sub_dotProduct, dotProduct_sub, dotProduct_sub, smul_dotProduct, smul_dotProduct, dotProduct_smul, dotProduct_smul,
    dotProduct_comm w d] at h3
  simp only [smul_eq_mul] at h3
  nlinarith

theorem abs_le_of_sq_le {x a b : ℝ} (ha : 0 ≤ a) (hb : 0 ≤ b) (h : x ^ 2 ≤ a ^ 2 * b) : |x| ≤ a * Real.sqrt b := by
  refine abs_le_of_sq_le_sq ?_ (mul_nonneg ha (Real.sqrt_nonneg _))
  rw [mul_pow, Real.sq_sqrt hb]
  exact h

namespace Near
variable {θ : ℝ} {G G' : Matrix ι ι ℝ}

theorem inv_quad_le (h : Near θ G G') (v : ι → ℝ) : v ⬝ᵥ G'⁻¹ *ᵥ v ≤ 2 * (v ⬝ᵥ G⁻¹ *ᵥ v) := by
  have h1 := (abs_le.1 (h.inv_quad v)).2
  have h2 : 0 ≤ v ⬝ᵥ G⁻¹ *ᵥ v := ((psd_iff _).1 h.pd.inv.posSemidef).2 v
  have := h.half
  nlinarith

theorem bilin' (h : Near θ G G') {d y : ι → ℝ} {g : ℝ} (hg : 0 ≤ g) (hd : d ⬝ᵥ G⁻¹ *ᵥ d ≤ g ^ 2) :
    |d ⬝ᵥ G'⁻¹ *ᵥ y| ≤ 2 * g * Real.sqrt (y ⬝ᵥ G⁻¹ *ᵥ y) := by
  have hy : 0 ≤ y ⬝ᵥ G⁻¹ *ᵥ y := ((psd_iff _).1 h.pd.inv.posSemidef).2 y
  refine abs_le_of_sq_le (by positivity) hy ?_
  have h1 := psd_cauchy h.pd'.inv.posSemidef d y
  have h2 := h.inv_quad_le d
  have h3 := h.inv_quad_le y
  have h4 : 0 ≤ y ⬝ᵥ G'⁻¹ *ᵥ y := ((psd_iff _).1 h.pd'.inv.posSemidef).2 y
  calc _ ≤ _ := h1
    _ ≤ (2 * g ^ 2) * (2 * (y ⬝ᵥ G⁻¹ *ᵥ y)) := mul_le_mul (by linarith) h3 h4 (by positivity)
    _ = _ := by ring

/-- posterior mean and variance of a quantity whose covariances with the data are `c` resp. `c'` -/
theorem posterior (h : Near θ G G') {c c' : ι → ℝ} {v v' g : ℝ} (hg : 0 ≤ g) (hc : c ⬝ᵥ G⁻¹ *ᵥ c ≤ v)
    (hd : (c' - c) ⬝ᵥ G⁻¹ *ᵥ (c' - c) ≤ g ^ 2) (y : ι → ℝ) :
    |postMean G' y c' - postMean G y c| ≤ 2 * (θ * Real.sqrt v + g) * Real.sqrt (y ⬝ᵥ G⁻¹ *ᵥ y) ∧
    |postVar G' v' c' - postVar G v c| ≤ |v' - v| + 2 * θ * v + 4 * g * Real.sqrt v + 2 * g ^ 2 := by
  have h0 := h.nonneg
  have hcc : 0 ≤ c ⬝ᵥ G⁻¹ *ᵥ c := ((psd_iff _).1 h.pd.inv.posSemidef).2 c
  have hv : 0 ≤ v := hcc.trans hc
  have hy : 0 ≤ y ⬝ᵥ G⁻¹ *ᵥ y := ((psd_iff _).1 h.pd.inv.posSemidef).2 y
  set d := c' - c with hdd
  have ec : c' = c + d := by rw [hdd]; abel
  constructor
  · have e : postMean G' y c' - postMean G y c = d ⬝ᵥ G'⁻¹ *ᵥ y + (c ⬝ᵥ G'⁻¹ *ᵥ y - c ⬝ᵥ G⁻¹ *ᵥ y) := by
      unfold postMean
      rw [ec, add_dotProduct]; ring
    have h1 := h.bilin' (y := y) hg hd
    have h2 : |c ⬝ᵥ G'⁻¹ *ᵥ y - c ⬝ᵥ G⁻¹ *ᵥ y| ≤ 2 * θ * Real.sqrt v * Real.sqrt (y ⬝ᵥ G⁻¹ *ᵥ y) := by
      refine abs_le_of_sq_le (by positivity) hy ((h.inv_bilin c y).trans ?_)
      rw [mul_pow (2 * θ), Real.sq_sqrt hv]
      exact mul_le_mul_of_nonneg_right (mul_le_mul_of_nonneg_left hc (sq_nonneg _)) hy
    rw [e]
    refine (abs_add_le _ _).trans ((add_le_add h1 h2).trans_eq (by ring))
  · have hs := psd_symm h.pd'.inv.posSemidef
    have e : postVar G' v' c' - postVar G v c = (v' - v) - (c ⬝ᵥ G'⁻¹ *ᵥ c - c ⬝ᵥ G⁻¹ *ᵥ c) - 2 * (d ⬝ᵥ G'⁻¹ *ᵥ c) - d ⬝ᵥ G'⁻¹ *ᵥ d := by
      have e1 : c ⬝ᵥ G'⁻¹ *ᵥ d = d ⬝ᵥ G'⁻¹ *ᵥ c := symm_dot hs c d
      unfold postVar
      rw [ec, add_dotProduct, mulVec_add, dotProduct_add, dotProduct_add, e1]; ring
    have h1 : |c ⬝ᵥ G'⁻¹ *ᵥ c - c ⬝ᵥ G⁻¹ *ᵥ c| ≤ 2 * θ * v :=
      (h.inv_quad c).trans (mul_le_mul_of_nonneg_left hc (by positivity))
    have h2 : |d ⬝ᵥ G'⁻¹ *ᵥ c| ≤ 2 * g * Real.sqrt v :=
      (h.bilin' (y := c) hg hd).trans (mul_le_mul_of_nonneg_left (Real.sqrt_le_sqrt hc) (by positivity))
    have h3 : 0 ≤ d ⬝ᵥ G'⁻¹ *ᵥ d := ((psd_iff _).1 h.pd'.inv.posSemidef).2 d
    have h4 : d ⬝ᵥ G'⁻¹ *ᵥ d ≤ 2 * g ^ 2 := (h.inv_quad_le d).trans (by linarith)
    rw [e]
    have a0 := abs_le.1 (le_refl |v' - v|)
    have a1 := abs_le.1 h1
    have a2 := abs_le.1 h2
    rw [abs_le]
    constructor <;> linarith [a0.1, a0.2, a1.1, a1.2, a2.1, a2.2]

end Near
end Verif
