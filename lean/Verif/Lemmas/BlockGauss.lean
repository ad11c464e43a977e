import Verif.Spec.Dense
import Verif.Lemmas.DenseFacts
import Mathlib.Topology.Instances.Matrix
import Mathlib.Analysis.SpecialFunctions.Log.Basic
import Mathlib.LinearAlgebra.Matrix.SchurComplement

/-! # Gaussian densities with independent blocks and with constant covariance; limits over any index type -/

set_option linter.unusedSectionVars false

namespace Verif
open Matrix Spec Filter Topology

section limits
variable {ι : Type*} [Fintype ι] [DecidableEq ι] {α : Type*} {F : Filter α} {K : α → Matrix ι ι ℝ} {K0 : Matrix ι ι ℝ}

theorem tendsto_inv' (hK : Tendsto K F (𝓝 K0)) (h0 : K0.det ≠ 0) : Tendsto (fun n => (K n)⁻¹) F (𝓝 K0⁻¹) := by
  have hd : Tendsto (fun n => (K n).det) F (𝓝 K0.det) := (continuous_id.matrix_det.tendsto K0).comp hK
  have ha : Tendsto (fun n => (K n).adjugate) F (𝓝 K0.adjugate) := (continuous_id.matrix_adjugate.tendsto K0).comp hK
  simp only [Matrix.inv_def, Ring.inverse_eq_inv']
  exact (hd.inv₀ h0).smul ha

theorem tendsto_quad' (hK : Tendsto K F (𝓝 K0)) {x y : α → ι → ℝ} {x0 y0 : ι → ℝ} (hx : Tendsto x F (𝓝 x0)) (hy : Tendsto y F (𝓝 y0)) :
    Tendsto (fun n => x n ⬝ᵥ K n *ᵥ y n) F (𝓝 (x0 ⬝ᵥ K0 *ᵥ y0)) := by
  have h : Continuous fun z : (ι → ℝ) × Matrix ι ι ℝ × (ι → ℝ) => z.1 ⬝ᵥ z.2.1 *ᵥ z.2.2 := by
    unfold dotProduct mulVec dotProduct
    fun_prop
  exact (h.tendsto (x0, K0, y0)).comp (hx.prodMk_nhds (hK.prodMk_nhds hy))

theorem tendsto_logDensity' (hK : Tendsto K F (𝓝 K0)) (h0 : K0.PosDef) {y : α → ι → ℝ} {y0 : ι → ℝ} (hy : Tendsto y F (𝓝 y0)) :
    Tendsto (fun n => gaussLogDensity (K n) (y n)) F (𝓝 (gaussLogDensity K0 y0)) := by
  have hd : Tendsto (fun n => (K n).det) F (𝓝 K0.det) := (continuous_id.matrix_det.tendsto K0).comp hK
  have h1 := tendsto_quad' (tendsto_inv' hK h0.det_pos.ne') hy hy
  have h2 := hd.log h0.det_pos.ne'
  exact ((h1.const_mul _).sub (h2.const_mul _)).sub_const _

end limits

section relabel
variable {ι ι' : Type*} [Fintype ι] [DecidableEq ι] [Fintype ι'] [DecidableEq ι'] (e : ι' ≃ ι) (K : Matrix ι ι ℝ)

theorem postMean_relabel (y c : ι → ℝ) : postMean (K.submatrix e e) (y ∘ e) (c ∘ e) = postMean K y c := by
  unfold postMean
  rw [Matrix.inv_submatrix_equiv, Matrix.submatrix_mulVec_equiv, Function.comp_assoc, Equiv.self_comp_symm, Function.comp_id,
    comp_equiv_dotProduct_comp_equiv]

theorem postVar_relabel (v : ℝ) (c : ι → ℝ) : postVar (K.submatrix e e) v (c ∘ e) = postVar K v c := by
  have := postMean_relabel e K c c
  unfold postMean at this
  unfold postVar
  rw [this]

end relabel

section blocks
variable {ι ι' : Type*} [Fintype ι] [DecidableEq ι] [Fintype ι'] [DecidableEq ι'] {A : Matrix ι ι ℝ} {B : Matrix ι' ι' ℝ}

theorem fromBlocks_pd (hA : A.PosDef) (hB : B.PosDef) : (fromBlocks A 0 0 B).PosDef := by
  have h : (fromBlocks A 0 0 B).PosSemidef := by
    rw [psd_iff]
    refine ⟨by rw [fromBlocks_transpose, psd_symm hA.posSemidef, psd_symm hB.posSemidef, transpose_zero, transpose_zero], fun x => ?_⟩
    have h1 := ((psd_iff _).1 hA.posSemidef).2 (x ∘ Sum.inl)
    have h2 := ((psd_iff _).1 hB.posSemidef).2 (x ∘ Sum.inr)
    rw [fromBlocks_mulVec]
    simp only [zero_mulVec, add_zero, zero_add, dotProduct, Fintype.sum_sum_type, Sum.elim_inl, Sum.elim_inr]
    exact add_nonneg h1 h2
  refine h.posDef_iff_isUnit.2 ?_
  rw [Matrix.isUnit_iff_isUnit_det, det_fromBlocks_zero₂₁]
  exact (pd_det hA).mul (pd_det hB)

theorem fromBlocks_inv (hA : A.PosDef) (hB : B.PosDef) : (fromBlocks A 0 0 B)⁻¹ = fromBlocks A⁻¹ 0 0 B⁻¹ := by
  refine Matrix.inv_eq_right_inv ?_
  rw [fromBlocks_multiply]
  simp only [Matrix.mul_zero, Matrix.zero_mul, add_zero, zero_add, Matrix.mul_nonsing_inv _ (pd_det hA), Matrix.mul_nonsing_inv _ (pd_det hB),
    fromBlocks_one]

theorem fromBlocks_form (hA : A.PosDef) (hB : B.PosDef) (x x' : ι → ℝ) (z z' : ι' → ℝ) :
    Sum.elim x z ⬝ᵥ (fromBlocks A 0 0 B)⁻¹ *ᵥ Sum.elim x' z' = x ⬝ᵥ A⁻¹ *ᵥ x' + z ⬝ᵥ B⁻¹ *ᵥ z' := by
  rw [fromBlocks_inv hA hB, fromBlocks_mulVec]
  simp only [zero_mulVec, add_zero, zero_add, dotProduct, Fintype.sum_sum_type, Sum.elim_inl, Sum.elim_inr]
  rfl

theorem gaussLogDensity_fromBlocks (hA : A.PosDef) (hB : B.PosDef) (x : ι → ℝ) (z : ι' → ℝ) :
    gaussLogDensity (fromBlocks A 0 0 B) (Sum.elim x z) = gaussLogDensity A x + gaussLogDensity B z := by
  unfold gaussLogDensity
  rw [fromBlocks_form hA hB, det_fromBlocks_zero₂₁, Real.log_mul hA.det_pos.ne' hB.det_pos.ne', Fintype.card_sum]
  push_cast
  ring

theorem postMean_fromBlocks (hA : A.PosDef) (hB : B.PosDef) (x : ι → ℝ) (z : ι' → ℝ) (c : ι → ℝ) :
    postMean (fromBlocks A 0 0 B) (Sum.elim x z) (Sum.elim c 0) = postMean A x c := by
  unfold postMean
  rw [fromBlocks_form hA hB, zero_dotProduct, add_zero]

theorem postVar_fromBlocks (hA : A.PosDef) (hB : B.PosDef) (v : ℝ) (c : ι → ℝ) :
    postVar (fromBlocks A 0 0 B) v (Sum.elim c 0) = postVar A v c := by
  unfold postVar
  rw [fromBlocks_form hA hB, zero_dotProduct, add_zero]

end blocks

section const
variable {ι : Type*} [Fintype ι] [DecidableEq ι] {p : ℝ} {R : ι → ℝ}

theorem constGram_pd (hp : 0 ≤ p) (hR : ∀ i, 0 < R i) : (noisyGram (fun _ _ => p) R).PosDef := by
  have e : noisyGram (fun _ _ => p) R = (Matrix.of fun _ _ : ι => p) + Matrix.diagonal R := by
    ext i j
    by_cases hij : i = j <;> simp [noisyGram, hij]
  rw [e]
  refine Matrix.PosDef.posSemidef_add ?_ (Matrix.PosDef.diagonal hR)
  rw [psd_iff]
  refine ⟨by ext i j; rfl, fun x => ?_⟩
  have : x ⬝ᵥ (Matrix.of fun _ _ : ι => p) *ᵥ x = p * (∑ i, x i) ^ 2 := by
    simp only [dotProduct, mulVec, Matrix.of_apply, ← Finset.mul_sum]
    rw [← Finset.sum_mul]
    ring
  rw [this]
  exact mul_nonneg hp (sq_nonneg _)

theorem constGram_solve (hp : 0 ≤ p) (hR : ∀ i, 0 < R i) : (noisyGram (fun _ _ => p) R)⁻¹ *ᵥ (fun _ => p) =
    fun i => p / (1 + p * ∑ j, 1 / R j) * (1 / R i) := by
  have hs : 0 < 1 + p * ∑ j, 1 / R j := by
    have : 0 ≤ ∑ j, 1 / R j := Finset.sum_nonneg fun j _ => (one_div_pos.2 (hR j)).le
    positivity
  have hK := constGram_pd hp hR
  have h : noisyGram (fun _ _ => p) R *ᵥ (fun i => p / (1 + p * ∑ j, 1 / R j) * (1 / R i)) = fun _ => p := by
    funext i
    rw [noisyGram_mulVec]
    simp only [← Finset.mul_sum]
    have := (hR i).ne'
    have h2 := hs.ne'
    generalize ∑ j, 1 / R j = S at *
    field_simp
    ring
  have h' := congrArg ((noisyGram (fun _ _ => p) R)⁻¹ *ᵥ ·) h
  simp only [mulVec_mulVec, Matrix.nonsing_inv_mul _ (pd_det hK), one_mulVec] at h'
  exact h'.symm

theorem constGram_postMean (hp : 0 ≤ p) (hR : ∀ i, 0 < R i) (y : ι → ℝ) :
    postMean (noisyGram (fun _ _ => p) R) y (fun _ => p) = p * (∑ i, y i / R i) / (1 + p * ∑ j, 1 / R j) := by
  have hs := psd_symm (constGram_pd hp hR).inv.posSemidef
  unfold postMean
  rw [symm_dot hs, constGram_solve hp hR]
  simp only [dotProduct]
  generalize 1 + p * ∑ j, 1 / R j = S
  rw [Finset.mul_sum, Finset.sum_div]
  exact Finset.sum_congr rfl fun i _ => by ring

theorem constGram_postVar (hp : 0 ≤ p) (hR : ∀ i, 0 < R i) :
    postVar (noisyGram (fun _ _ => p) R) p (fun _ => p) = p / (1 + p * ∑ j, 1 / R j) := by
  have hs : 0 < 1 + p * ∑ j, 1 / R j := by
    have : 0 ≤ ∑ j, 1 / R j := Finset.sum_nonneg fun j _ => (one_div_pos.2 (hR j)).le
    positivity
  unfold postVar
  rw [constGram_solve hp hR]
  simp only [dotProduct, ← Finset.mul_sum]
  have h2 := hs.ne'
  generalize ∑ j, 1 / R j = S at *
  field_simp
  ring

end const

end Verif
