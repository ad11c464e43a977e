import Verif.Lemmas.Est
import Verif.Spec.Dense
import Mathlib.LinearAlgebra.Matrix.Block
import Mathlib.LinearAlgebra.Finsupp.LinearCombination

/-! # From linear estimates to the dense formulas -/

set_option linter.unusedSectionVars false
set_option linter.unusedSimpArgs false

namespace Verif
open Matrix

variable {V : Type*} [AddCommGroup V] [Module ℝ V]
variable {B : LinearMap.BilinForm ℝ V} {φ : V →ₗ[ℝ] ℝ}
variable {ι : Type*} [Fintype ι] [DecidableEq ι]
variable {n : Type*} [Fintype n]

theorem mem_span_range_iff (Y : ι → V) (v : V) :
    v ∈ Submodule.span ℝ (Set.range Y) ↔ ∃ c : ι → ℝ, v = ∑ i, c i • Y i := by
  rw [Submodule.mem_span_range_iff_exists_fun]
  constructor
  · rintro ⟨c, rfl⟩; exact ⟨c, rfl⟩
  · rintro ⟨c, rfl⟩; exact ⟨c, rfl⟩

/-- If the observations span `U` and have an invertible covariance matrix, the linear estimate is
the dense formula. -/
theorem IsEst.dense {X Xh : n → V} {mu : n → ℝ} {P : Matrix n n ℝ} (Y : ι → V)
    (h : IsEst B φ (Submodule.span ℝ (Set.range Y)) X Xh mu P)
    (K : Matrix ι ι ℝ) (hK : ∀ i j, K i j = B (Y i) (Y j)) (hdet : IsUnit K.det) :
    (∀ a, mu a = (fun i => B (X a) (Y i)) ⬝ᵥ K⁻¹ *ᵥ (fun i => φ (Y i))) ∧
    (∀ a b, P a b = B (X a) (X b) - (fun i => B (X a) (Y i)) ⬝ᵥ K⁻¹ *ᵥ (fun i => B (Y i) (X b))) := by
  have key : ∀ a, ∃ c : ι → ℝ, Xh a = ∑ i, c i • Y i ∧ c = (fun i => B (X a) (Y i)) ᵥ* K⁻¹ := by
    intro a
    obtain ⟨c, hc⟩ := (mem_span_range_iff Y _).1 (h.mem a)
    refine ⟨c, hc, ?_⟩
    have h1 : c ᵥ* K = fun i => B (X a) (Y i) := by
      funext i
      have := h.orth a (Y i) (Submodule.subset_span ⟨i, rfl⟩)
      rw [map_sub, LinearMap.sub_apply, sub_eq_zero] at this
      rw [this, hc, map_sum, LinearMap.sum_apply]
      simp [vecMul, dotProduct, hK]
    rw [← h1, vecMul_vecMul, Matrix.mul_nonsing_inv _ hdet, vecMul_one]
  refine ⟨fun a => ?_, fun a b => ?_⟩
  · obtain ⟨c, hc, hc'⟩ := key a
    rw [h.mean, hc, map_sum, dotProduct_mulVec, ← hc']
    simp [dotProduct]
  · obtain ⟨c, hc, hc'⟩ := key a
    rw [h.cov, map_sub, LinearMap.sub_apply, hc, map_sum, LinearMap.sum_apply, dotProduct_mulVec, ← hc']
    simp [dotProduct]

/-- Scalar version, in the shape of the specification. -/
theorem IsEst.dense_scalar (hB : ∀ u v, B u v = B v u)
    {X Xh : n → V} {mu : n → ℝ} {P : Matrix n n ℝ} (Y : ι → V)
    (h : IsEst B φ (Submodule.span ℝ (Set.range Y)) X Xh mu P)
    (K : Matrix ι ι ℝ) (hK : ∀ i j, K i j = B (Y i) (Y j)) (hdet : IsUnit K.det)
    (H : Matrix (Fin 1) n ℝ) :
    (H *ᵥ mu) 0 = Spec.postMean K (fun i => φ (Y i)) (fun i => B (lin H X 0) (Y i)) ∧
    (H * P * Hᵀ) 0 0 = Spec.postVar K (B (lin H X 0) (lin H X 0)) (fun i => B (lin H X 0) (Y i)) := by
  have := (h.linMap H).dense Y K hK hdet
  refine ⟨this.1 0, ?_⟩
  rw [this.2 0 0]
  unfold Spec.postVar
  congr 3
  funext i
  rw [hB]

section innovations
variable [LinearOrder ι]

/-- Innovations: if `e i` differs from `Y i` by a combination of earlier observations and is orthogonal
to them, then the quadratic form and determinant of the covariance matrix of `Y` are those of the innovations. -/
theorem innovations (hB : ∀ u v, B u v = B v u) (Y e : ι → V)
    (he : ∀ i, Y i - e i ∈ Submodule.span ℝ (Y '' {j | j < i}))
    (ho : ∀ i j, j < i → B (e i) (Y j) = 0)
    (K : Matrix ι ι ℝ) (hK : ∀ i j, K i j = B (Y i) (Y j))
    (S : ι → ℝ) (hS : ∀ i, S i = B (e i) (e i)) (hS0 : ∀ i, S i ≠ 0) :
    K.det = ∏ i, S i ∧
    (fun i => φ (Y i)) ⬝ᵥ K⁻¹ *ᵥ (fun i => φ (Y i)) = ∑ i, (φ (e i)) ^ 2 / S i := by
  classical
  -- coefficients
  have hex : ∀ i, ∃ c : ι → ℝ, (∀ j, ¬ j < i → c j = 0) ∧ Y i - e i = ∑ j, c j • Y j := by
    intro i
    have h1 := he i
    rw [Finsupp.mem_span_image_iff_linearCombination] at h1
    obtain ⟨l, hl, hl'⟩ := h1
    refine ⟨fun j => l j, fun j hj => ?_, ?_⟩
    · by_contra hne
      exact hj (hl (Finsupp.mem_support_iff.2 hne))
    · rw [← hl', Finsupp.linearCombination_apply, Finsupp.sum_fintype _ _ (by simp)]
  choose c hc0 hc using hex
  let T : Matrix ι ι ℝ := Matrix.of fun i j => (if i = j then 1 else 0) - c i j
  have heT : ∀ i, e i = lin T Y i := by
    intro i
    have : e i = Y i - ∑ j, c i j • Y j := by rw [← hc]; abel
    rw [this]
    simp only [lin, T, Matrix.of_apply, sub_smul, Finset.sum_sub_distrib, ite_smul, one_smul, zero_smul,
      Finset.sum_ite_eq, Finset.mem_univ, if_true]
  have hdetT : T.det = 1 := by
    rw [Matrix.det_of_isLowerTriangular]
    · simp only [T, Matrix.of_apply, if_true]
      rw [Finset.prod_eq_one]
      intro i _
      rw [hc0 i i (lt_irrefl i), sub_zero]
    · intro i j hij
      have hij' : i < j := hij
      simp only [T, Matrix.of_apply]
      rw [if_neg hij'.ne, hc0 i j (not_lt.2 hij'.le), sub_zero]
  have hee : ∀ i j, B (e i) (e j) = if i = j then S i else 0 := by
    have hlt : ∀ i j, j < i → B (e i) (e j) = 0 := by
      intro i j hij
      have : e j = Y j - ∑ k, c j k • Y k := by rw [← hc]; abel
      rw [this, map_sub, ho i j hij, map_sum, zero_sub, neg_eq_zero]
      refine Finset.sum_eq_zero fun k _ => ?_
      rw [map_smul, smul_eq_mul]
      by_cases hk : k < j
      · rw [ho i k (hk.trans hij), mul_zero]
      · rw [hc0 j k hk, zero_mul]
    intro i j
    rcases lt_trichotomy i j with h | h | h
    · rw [if_neg h.ne, hB, hlt j i h]
    · subst h; rw [if_pos rfl, hS]
    · rw [if_neg h.ne', hlt i j h]
  have hTK : T * K * Tᵀ = Matrix.diagonal S := by
    ext i j
    have h1 : B (lin T Y i) (lin T Y j) = (T * K * Tᵀ) i j := by
      rw [B_lin_left, Matrix.mul_assoc, Matrix.mul_apply]
      refine Finset.sum_congr rfl fun k _ => ?_
      rw [B_lin_right, Matrix.mul_apply]
      congr 1
      exact Finset.sum_congr rfl fun l _ => by rw [hK, transpose_apply, mul_comm]
    rw [← h1, ← heT, ← heT, hee, Matrix.diagonal_apply]
  have hdet : K.det = ∏ i, S i := by
    have := congrArg Matrix.det hTK
    rwa [Matrix.det_mul, Matrix.det_mul, Matrix.det_transpose, hdetT, one_mul, mul_one,
      Matrix.det_diagonal] at this
  refine ⟨hdet, ?_⟩
  have hTu : IsUnit T.det := by rw [hdetT]; exact isUnit_one
  have hTtu : IsUnit Tᵀ.det := by rw [Matrix.det_transpose]; exact hTu
  have hKinv : K⁻¹ = Tᵀ * Matrix.diagonal (fun i => (S i)⁻¹) * T := by
    refine Matrix.inv_eq_left_inv ?_
    have hKeq : K = T⁻¹ * Matrix.diagonal S * Tᵀ⁻¹ := by
      rw [← hTK, ← Matrix.mul_assoc, ← Matrix.mul_assoc, Matrix.nonsing_inv_mul _ hTu, Matrix.one_mul,
        Matrix.mul_assoc, Matrix.mul_nonsing_inv _ hTtu, Matrix.mul_one]
    rw [hKeq]
    calc Tᵀ * diagonal (fun i => (S i)⁻¹) * T * (T⁻¹ * diagonal S * Tᵀ⁻¹)
        = Tᵀ * diagonal (fun i => (S i)⁻¹) * (T * T⁻¹) * diagonal S * Tᵀ⁻¹ := by
          simp only [Matrix.mul_assoc]
      _ = 1 := by
          rw [Matrix.mul_nonsing_inv _ hTu, Matrix.mul_one, Matrix.mul_assoc Tᵀ, Matrix.diagonal_mul_diagonal]
          have : (fun i => (S i)⁻¹ * S i) = fun _ => 1 := by
            funext i; exact inv_mul_cancel₀ (hS0 i)
          rw [this, Matrix.diagonal_one, Matrix.mul_one, Matrix.mul_nonsing_inv _ hTtu]
  have hv : T *ᵥ (fun i => φ (Y i)) = fun i => φ (e i) := by
    funext i
    rw [heT, map_lin]
  rw [hKinv, ← Matrix.mulVec_mulVec, hv, ← Matrix.mulVec_mulVec, Matrix.dotProduct_mulVec,
    Matrix.vecMul_transpose, hv]
  simp only [dotProduct, mulVec_diagonal]
  exact Finset.sum_congr rfl fun i _ => by ring

end innovations
end Verif
