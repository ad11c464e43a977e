import Verif.Lemmas.MatDeriv
import Verif.Lemmas.DenseFacts
import Mathlib.LinearAlgebra.Matrix.Adjugate
import Mathlib.Analysis.SpecialFunctions.Log.Deriv

/-! # Derivatives of determinants, inverses and Gaussian densities -/

namespace Verif
open Matrix Spec Filter Topology

variable {n : Type*} [Fintype n] [DecidableEq n] {K : ℝ → Matrix n n ℝ} {K' : Matrix n n ℝ} {t : ℝ}

/-- product rule for determinants, column by column -/
theorem det_deriv_cols (h : MDeriv K K' t) :
    HasDerivAt (fun s => (K s).det) (∑ j, ((K t).updateCol j fun i => K' i j).det) t := by
  have h1 : HasDerivAt (fun s => ∑ σ : Equiv.Perm n, ((Equiv.Perm.sign σ : ℤ) : ℝ) * ∏ i, K s (σ i) i)
      (∑ σ : Equiv.Perm n, ((Equiv.Perm.sign σ : ℤ) : ℝ) * ∑ j, (∏ i ∈ Finset.univ.erase j, K t (σ i) i) * K' (σ j) j) t := by
    refine HasDerivAt.fun_sum fun σ _ => HasDerivAt.const_mul _ ?_
    have := HasDerivAt.fun_finsetProd (u := Finset.univ) (f := fun i s => K s (σ i) i) (f' := fun i => K' (σ i) i) (x := t) fun i _ => h (σ i) i
    simpa [smul_eq_mul] using this
  have e1 : (fun s => (K s).det) = fun s => ∑ σ : Equiv.Perm n, ((Equiv.Perm.sign σ : ℤ) : ℝ) * ∏ i, K s (σ i) i := by
    funext s
    exact Matrix.det_apply' (K s)
  rw [e1]
  refine h1.congr_deriv ?_
  simp only [Matrix.det_apply', Finset.mul_sum]
  rw [Finset.sum_comm]
  refine Finset.sum_congr rfl fun j _ => Finset.sum_congr rfl fun σ _ => ?_
  congr 1
  rw [← Finset.prod_erase_mul _ _ (Finset.mem_univ j), Matrix.updateCol_self]
  congr 1
  refine Finset.prod_congr rfl fun i hi => ?_
  rw [Matrix.updateCol_ne (Finset.ne_of_mem_erase hi)]

/-- Jacobi's formula -/
theorem det_deriv (h : MDeriv K K' t) : HasDerivAt (fun s => (K s).det) ((K t).adjugate * K').trace t := by
  refine (det_deriv_cols h).congr_deriv ?_
  simp only [Matrix.trace, Matrix.diag, Matrix.mul_apply]
  refine Finset.sum_congr rfl fun j _ => ?_
  have := congrFun (Matrix.mulVec_cramer (K t) (fun i => K' i j)) j
  rw [← Matrix.cramer_apply, Matrix.cramer_eq_adjugate_mulVec]
  rfl

theorem adjugate_deriv (h : MDeriv K K' t) : ∃ B, MDeriv (fun s => (K s).adjugate) B t := by
  have key : ∀ i j, ∃ b, HasDerivAt (fun s => (K s).adjugate i j) b t := fun i j => by
    have h1 : MDeriv (fun s => (K s).updateRow j (Pi.single i 1)) (K'.updateRow j 0) t := fun a b => by
      by_cases ha : a = j
      · subst ha
        simp only [Matrix.updateRow_self]
        exact hasDerivAt_const _ _
      · simp only [Matrix.updateRow_ne ha]
        exact h a b
    refine ⟨_, (det_deriv h1).congr_of_eventuallyEq (Eventually.of_forall fun s => ?_)⟩
    exact Matrix.adjugate_apply _ _ _
  choose B hB using key
  exact ⟨Matrix.of B, hB⟩

/-- derivative of the inverse -/
theorem inv_deriv (h : MDeriv K K' t) (hdet : (K t).det ≠ 0) : MDeriv (fun s => (K s)⁻¹) (-((K t)⁻¹ * K' * (K t)⁻¹)) t := by
  obtain ⟨B, hB⟩ := adjugate_deriv h
  have hd := det_deriv h
  have hev : ∀ᶠ s in 𝓝 t, (K s).det ≠ 0 := hd.continuousAt.eventually_ne hdet
  have h1 : ∃ C, MDeriv (fun s => (K s)⁻¹) C t := by
    have key : ∀ i j, ∃ c, HasDerivAt (fun s => (K s)⁻¹ i j) c t := fun i j => by
      refine ⟨_, ((hd.inv hdet).mul (hB i j)).congr_of_eventuallyEq (Eventually.of_forall fun s => ?_)⟩
      simp [Matrix.inv_def]
    choose C hC using key
    exact ⟨Matrix.of C, hC⟩
  obtain ⟨C, hC⟩ := h1
  have h2 := h.mul hC
  have h3 : MDeriv (fun s => K s * (K s)⁻¹) 0 t := fun i j => by
    refine (MDeriv.const (t := t) (1 : Matrix n n ℝ) i j).congr_of_eventuallyEq (hev.mono fun s hs => ?_)
    show (K s * (K s)⁻¹) i j = _
    rw [Matrix.mul_nonsing_inv _ (isUnit_iff_ne_zero.2 hs)]
  have h4 : K' * (K t)⁻¹ + K t * C = 0 := by
    ext i j
    exact (h2 i j).unique (h3 i j)
  have h5 : C = -((K t)⁻¹ * K' * (K t)⁻¹) := by
    have : (K t)⁻¹ * (K' * (K t)⁻¹ + K t * C) = 0 := by rw [h4, Matrix.mul_zero]
    rw [Matrix.mul_add, ← Matrix.mul_assoc, ← Matrix.mul_assoc, Matrix.nonsing_inv_mul _ (isUnit_iff_ne_zero.2 hdet), Matrix.one_mul] at this
    exact eq_neg_of_add_eq_zero_right this
  exact h5 ▸ hC

omit [DecidableEq n] in
/-- derivative of `x ⬝ᵥ K *ᵥ y` -/
theorem form_deriv {A : ℝ → Matrix n n ℝ} {A' : Matrix n n ℝ} {x y : ℝ → n → ℝ} {x' y' : n → ℝ} (h : MDeriv A A' t)
    (hx : ∀ i, HasDerivAt (fun s => x s i) (x' i) t) (hy : ∀ i, HasDerivAt (fun s => y s i) (y' i) t) :
    HasDerivAt (fun s => x s ⬝ᵥ A s *ᵥ y s) (x' ⬝ᵥ A t *ᵥ y t + x t ⬝ᵥ A' *ᵥ y t + x t ⬝ᵥ A t *ᵥ y') t := by
  have h1 : HasDerivAt (fun s => ∑ i, x s i * ∑ j, A s i j * y s j)
      (∑ i, (x' i * ∑ j, A t i j * y t j + x t i * ∑ j, (A' i j * y t j + A t i j * y' j))) t :=
    HasDerivAt.fun_sum fun i _ => (hx i).mul (HasDerivAt.fun_sum fun j _ => (h i j).mul (hy j))
  refine h1.congr_deriv ?_
  simp only [dotProduct, mulVec, Finset.sum_add_distrib, mul_add]
  ring

/-- the derivative of `log N(y; 0, K)` along `K'`: `½ (K⁻¹y)ᵀ K' (K⁻¹y) - ½ tr(K⁻¹ K')` -/
noncomputable def Spec.logDensityDeriv (K K' : Matrix n n ℝ) (y : n → ℝ) : ℝ :=
  1 / 2 * ((K⁻¹ *ᵥ y) ⬝ᵥ K' *ᵥ (K⁻¹ *ᵥ y)) - 1 / 2 * (K⁻¹ * K').trace

/-- the derivative of the posterior mean: `c'ᵀ K⁻¹ y - cᵀ K⁻¹ K' K⁻¹ y` -/
noncomputable def Spec.postMeanDeriv (K K' : Matrix n n ℝ) (y c c' : n → ℝ) : ℝ :=
  c' ⬝ᵥ K⁻¹ *ᵥ y - c ⬝ᵥ K⁻¹ *ᵥ K' *ᵥ K⁻¹ *ᵥ y

/-- the derivative of the posterior variance: `v' - 2 c'ᵀ K⁻¹ c + cᵀ K⁻¹ K' K⁻¹ c` -/
noncomputable def Spec.postVarDeriv (K K' : Matrix n n ℝ) (v' : ℝ) (c c' : n → ℝ) : ℝ :=
  v' - 2 * (c' ⬝ᵥ K⁻¹ *ᵥ c) + c ⬝ᵥ K⁻¹ *ᵥ K' *ᵥ K⁻¹ *ᵥ c

theorem logDensity_deriv (hK : (K t).PosDef) (h : MDeriv K K' t) (y : n → ℝ) :
    HasDerivAt (fun s => gaussLogDensity (K s) y) (logDensityDeriv (K t) K' y) t := by
  have hdet := hK.det_pos
  have h1 := form_deriv (inv_deriv h hdet.ne') (x := fun _ => y) (y := fun _ => y) (x' := 0) (y' := 0) (fun i => hasDerivAt_const t (y i))
    (fun i => hasDerivAt_const t (y i))
  have h2 := (det_deriv h).log hdet.ne'
  have h3 := ((h1.const_mul (-(1 / 2))).sub (h2.const_mul (1 / 2))).sub_const ((Fintype.card n : ℝ) / 2 * Real.log (2 * Real.pi))
  refine HasDerivAt.congr_deriv h3 ?_
  have hs : (K t)⁻¹ᵀ = (K t)⁻¹ := psd_symm hK.inv.posSemidef
  have e1 : ((K t).adjugate * K').trace / (K t).det = ((K t)⁻¹ * K').trace := by
    rw [Matrix.inv_def, Matrix.smul_mul, Matrix.trace_smul, Ring.inverse_eq_inv', smul_eq_mul, div_eq_inv_mul]
  have e2 : y ⬝ᵥ ((K t)⁻¹ * K' * (K t)⁻¹) *ᵥ y = ((K t)⁻¹ *ᵥ y) ⬝ᵥ K' *ᵥ ((K t)⁻¹ *ᵥ y) := by
    rw [← mulVec_mulVec, ← mulVec_mulVec, dotProduct_mulVec, ← mulVec_transpose, hs]
  unfold logDensityDeriv
  rw [e1, neg_mulVec, dotProduct_neg, e2]
  simp

theorem postMean_deriv (hK : (K t).PosDef) (h : MDeriv K K' t) (y : n → ℝ) {c : ℝ → n → ℝ} {c' : n → ℝ} (hc : ∀ i, HasDerivAt (fun s => c s i) (c' i) t) :
    HasDerivAt (fun s => postMean (K s) y (c s)) (postMeanDeriv (K t) K' y (c t) c') t := by
  have h1 := form_deriv (inv_deriv h hK.det_pos.ne') hc (y := fun _ => y) (y' := 0) (fun i => hasDerivAt_const t (y i))
  refine HasDerivAt.congr_deriv h1 ?_
  unfold postMeanDeriv
  rw [neg_mulVec, dotProduct_neg, ← mulVec_mulVec, ← mulVec_mulVec, mulVec_zero, dotProduct_zero, add_zero, ← sub_eq_add_neg]

theorem postVar_deriv (hK : (K t).PosDef) (h : MDeriv K K' t) {v : ℝ → ℝ} {v' : ℝ} (hv : HasDerivAt v v' t) {c : ℝ → n → ℝ} {c' : n → ℝ}
    (hc : ∀ i, HasDerivAt (fun s => c s i) (c' i) t) :
    HasDerivAt (fun s => postVar (K s) (v s) (c s)) (postVarDeriv (K t) K' v' (c t) c') t := by
  have h1 := form_deriv (inv_deriv h hK.det_pos.ne') hc hc
  refine HasDerivAt.congr_deriv (hv.sub h1) ?_
  unfold postVarDeriv
  rw [neg_mulVec, dotProduct_neg, ← mulVec_mulVec, ← mulVec_mulVec, symm_dot (psd_symm hK.inv.posSemidef) (c t) c']
  ring

end Verif
