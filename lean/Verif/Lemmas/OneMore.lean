import Verif.Lemmas.DenseFacts
import Mathlib.LinearAlgebra.Matrix.SchurComplement

/-! # Gaussian regression with one more observation -/

namespace Verif
open Matrix Spec

variable {ι ι' : Type*} [Fintype ι] [DecidableEq ι] [Fintype ι'] [DecidableEq ι']

/-- the indices of `ι'` are those of `ι`, through `f`, and `p` -/
structure OneMore (f : ι → ι') (p : ι') : Prop where
  inj : Function.Injective f
  out : p ∉ Set.range f
  all : ∀ q, q ≠ p → q ∈ Set.range f

/-- an injection which misses one index out of one more -/
theorem OneMore.of_card {n n' : ℕ} (hn : n' = n + 1) {f : Fin n → Fin n'} (hf : Function.Injective f) {p : Fin n'} (hp : p ∉ Set.range f) :
    OneMore f p := by
  classical
  refine ⟨hf, hp, fun q hq => ?_⟩
  by_contra h
  have h1 : (Finset.univ.image f).card = n := by rw [Finset.card_image_of_injective _ hf]; simp
  have h2 : p ∉ Finset.univ.image f := fun hm => hp (by simpa using hm)
  have h3 : q ∉ insert p (Finset.univ.image f) := fun hm => by
    rcases Finset.mem_insert.1 hm with hm | hm
    · exact hq hm
    · exact h (by simpa using hm)
  have h4 := Finset.card_le_univ (insert q (insert p (Finset.univ.image f)))
  rw [Finset.card_insert_of_notMem h3, Finset.card_insert_of_notMem h2, h1, Fintype.card_fin] at h4
  omega

namespace OneMore
variable {f : ι → ι'} {p : ι'} (h : OneMore f p)
include h

omit [Fintype ι] [DecidableEq ι] [Fintype ι'] in
/-- the equivalence -/
theorem equiv : ∃ e : ι ⊕ Unit ≃ ι', (∀ i, e (.inl i) = f i) ∧ e (.inr ()) = p := by
  refine ⟨Equiv.ofBijective (Sum.elim f fun _ => p) ⟨?_, fun q => ?_⟩, fun _ => rfl, rfl⟩
  · rintro (i | u) (j | v) hij
    · exact congrArg _ (h.inj hij)
    · exact absurd ⟨i, hij⟩ h.out
    · exact absurd ⟨j, hij.symm⟩ h.out
    · rfl
  · by_cases hq : q = p
    · exact ⟨.inr (), hq.symm⟩
    · obtain ⟨i, hi⟩ := h.all q hq
      exact ⟨.inl i, hi⟩

omit [DecidableEq ι] in
theorem sum (g : ι' → ℝ) : ∑ q, g q = ∑ i, g (f i) + g p := by
  obtain ⟨e, he, hp⟩ := h.equiv
  rw [← e.sum_comp, Fintype.sum_sum_type]
  simp [he, hp]

omit [DecidableEq ι] in
theorem card : Fintype.card ι' = Fintype.card ι + 1 := by
  obtain ⟨e, -, -⟩ := h.equiv
  rw [← Fintype.card_congr e]
  simp

/-- the variance of the further observation, given the others -/
noncomputable def _root_.Verif.innovVar (K : Matrix ι' ι' ℝ) (f : ι → ι') (p : ι') : ℝ :=
  postVar (K.submatrix f f) (K p p) fun j => K p (f j)

/-- the surprise of the further observation, given the others -/
noncomputable def _root_.Verif.innov (K : Matrix ι' ι' ℝ) (f : ι → ι') (p : ι') (y : ι' → ℝ) : ℝ :=
  y p - postMean (K.submatrix f f) (y ∘ f) fun j => K p (f j)

theorem det {K : Matrix ι' ι' ℝ} (hK : K.PosDef) : K.det = (K.submatrix f f).det * innovVar K f p := by
  obtain ⟨e, he, hp⟩ := h.equiv
  have hA := hK.submatrix h.inj
  have hdet := pd_det hA
  let _ := Matrix.invertibleOfIsUnitDet _ hdet
  have e1 : K.submatrix e e = Matrix.fromBlocks (K.submatrix f f) (Matrix.of fun i _ => K (f i) p) (Matrix.of fun _ j => K p (f j))
      (Matrix.of fun _ _ : Unit => K p p) := by
    ext (i | i) (j | j) <;> simp [he, hp]
  rw [← Matrix.det_submatrix_equiv_self e K, e1, Matrix.det_fromBlocks₁₁]
  congr 1
  rw [Matrix.det_unique]
  have hs : ∀ i, K (f i) p = K p (f i) := fun i => by
    have := psd_symm hK.posSemidef
    exact congrFun (congrFun this p) (f i)
  simp only [innovVar, postVar, Matrix.sub_apply, Matrix.of_apply, Matrix.mul_assoc, invOf_eq_nonsing_inv]
  congr 1
  rw [Matrix.mul_apply]
  simp only [dotProduct, Matrix.of_apply, Matrix.mul_apply, mulVec, hs]

theorem innovVar_pos {K : Matrix ι' ι' ℝ} (hK : K.PosDef) : 0 < innovVar K f p := by
  have h1 := hK.det_pos
  rw [h.det hK] at h1
  exact (pos_iff_pos_of_mul_pos h1).1 (hK.submatrix h.inj).det_pos

/-- the solution of the larger system -/
theorem solve {K : Matrix ι' ι' ℝ} (hK : K.PosDef) (y : ι' → ℝ) :
    (K⁻¹ *ᵥ y) p = innov K f p y / innovVar K f p ∧
    ∀ i, (K⁻¹ *ᵥ y) (f i) = ((K.submatrix f f)⁻¹ *ᵥ (y ∘ f)) i -
      innov K f p y / innovVar K f p * ((K.submatrix f f)⁻¹ *ᵥ fun j => K p (f j)) i := by
  have hA := hK.submatrix h.inj
  have hs : ∀ i, K (f i) p = K p (f i) := fun i => congrFun (congrFun (psd_symm hK.posSemidef) p) (f i)
  have hv := (h.innovVar_pos hK).ne'
  set z := innov K f p y / innovVar K f p with hz
  set a := (K.submatrix f f)⁻¹ *ᵥ (y ∘ f) with ha
  set b := (K.submatrix f f)⁻¹ *ᵥ fun j => K p (f j) with hb
  have ha' := solve_spec hA (y ∘ f)
  have hb' := solve_spec hA fun j => K p (f j)
  rw [← ha] at ha'
  rw [← hb] at hb'
  obtain ⟨e, he, hp⟩ := h.equiv
  set x : ι' → ℝ := Sum.elim (fun i => a i - z * b i) (fun _ => z) ∘ e.symm with hx
  have hxf : ∀ i, x (f i) = a i - z * b i := fun i => by
    show Sum.elim _ _ (e.symm (f i)) = _
    rw [← he i, Equiv.symm_apply_apply]
    rfl
  have hxp : x p = z := by
    show Sum.elim _ _ (e.symm p) = _
    rw [← hp, Equiv.symm_apply_apply]
    rfl
  have key : K⁻¹ *ᵥ y = x := by
    refine solve_unique hK ?_
    funext q
    show ∑ r, K q r * x r = y q
    rw [h.sum]
    simp only [hxf, hxp]
    by_cases hq : q = p
    · subst hq
      have e1 : ∑ i, K q (f i) * (a i - z * b i) = (∑ i, K q (f i) * a i) - z * ∑ i, K q (f i) * b i := by
        rw [Finset.mul_sum, ← Finset.sum_sub_distrib]
        exact Finset.sum_congr rfl fun i _ => by ring
      have e2 : innovVar K f q = K q q - ∑ i, K q (f i) * b i := rfl
      have e3 : innov K f q y = y q - ∑ i, K q (f i) * a i := rfl
      have e4 : z * innovVar K f q = innov K f q y := div_mul_cancel₀ _ hv
      rw [e2, e3] at e4
      rw [e1]
      linarith
    · obtain ⟨i, rfl⟩ := h.all q hq
      have e1 : ∑ j, K (f i) (f j) * (a j - z * b j) = (∑ j, K (f i) (f j) * a j) - z * ∑ j, K (f i) (f j) * b j := by
        rw [Finset.mul_sum, ← Finset.sum_sub_distrib]
        exact Finset.sum_congr rfl fun i _ => by ring
      have e2 : ∑ j, K (f i) (f j) * a j = y (f i) := congrFun ha' i
      have e3 : ∑ j, K (f i) (f j) * b j = K p (f i) := congrFun hb' i
      rw [e1, e2, e3, hs]
      ring
  rw [key]
  exact ⟨hxp, hxf⟩

/-- the quadratic form of the larger system -/
theorem quad {K : Matrix ι' ι' ℝ} (hK : K.PosDef) (y : ι' → ℝ) :
    y ⬝ᵥ K⁻¹ *ᵥ y = (y ∘ f) ⬝ᵥ (K.submatrix f f)⁻¹ *ᵥ (y ∘ f) + innov K f p y ^ 2 / innovVar K f p := by
  obtain ⟨h1, h2⟩ := h.solve hK y
  have hA := hK.submatrix h.inj
  show ∑ q, y q * (K⁻¹ *ᵥ y) q = _
  rw [h.sum]
  simp only [h1, h2]
  have e1 : ∑ i, y (f i) * (((K.submatrix f f)⁻¹ *ᵥ (y ∘ f)) i - innov K f p y / innovVar K f p *
      ((K.submatrix f f)⁻¹ *ᵥ fun j => K p (f j)) i) = (y ∘ f) ⬝ᵥ (K.submatrix f f)⁻¹ *ᵥ (y ∘ f) - innov K f p y / innovVar K f p *
      ((y ∘ f) ⬝ᵥ (K.submatrix f f)⁻¹ *ᵥ fun j => K p (f j)) := by
    simp only [dotProduct]
    rw [Finset.mul_sum, ← Finset.sum_sub_distrib]
    exact Finset.sum_congr rfl fun i _ => by simp only [Function.comp]; ring
  have e2 : (y ∘ f) ⬝ᵥ (K.submatrix f f)⁻¹ *ᵥ (fun j => K p (f j)) = postMean (K.submatrix f f) (y ∘ f) fun j => K p (f j) :=
    symm_dot (psd_symm hA.inv.posSemidef) _ _
  have e3 : innov K f p y = y p - postMean (K.submatrix f f) (y ∘ f) fun j => K p (f j) := rfl
  rw [e1, e2]
  have : postMean (K.submatrix f f) (y ∘ f) (fun j => K p (f j)) = y p - innov K f p y := by linarith
  rw [this]
  ring

/-- the log density of all observations is that of the others plus that of the further one given the others -/
theorem logDensity {K : Matrix ι' ι' ℝ} (hK : K.PosDef) (y : ι' → ℝ) :
    gaussLogDensity K y = gaussLogDensity (K.submatrix f f) (y ∘ f) +
      gaussLogDensity (Matrix.diagonal fun _ : Unit => innovVar K f p) fun _ => innov K f p y := by
  have hv := h.innovVar_pos hK
  have hd := (hK.submatrix h.inj).det_pos
  have hinv : (Matrix.diagonal fun _ : Unit => innovVar K f p)⁻¹ = Matrix.diagonal fun _ : Unit => (innovVar K f p)⁻¹ := by
    refine Matrix.inv_eq_right_inv ?_
    rw [Matrix.diagonal_mul_diagonal, ← Matrix.diagonal_one]
    congr 1
    funext _
    exact mul_inv_cancel₀ hv.ne'
  unfold gaussLogDensity
  rw [h.quad hK, h.det hK, h.card, Real.log_mul hd.ne' hv.ne', hinv]
  simp [dotProduct, Matrix.mulVec_diagonal]
  ring

/-- the posterior of the process at the further observation, given all of them -/
theorem at_new {b : ι' → ι' → ℝ} {R : ι' → ℝ} (hb : ∀ i j, b i j = b j i) (hK : (noisyGram b R).PosDef) (y : ι' → ℝ) :
    postMean (noisyGram b R) y (b p) = y p - R p * (innov (noisyGram b R) f p y / innovVar (noisyGram b R) f p) ∧
    postVar (noisyGram b R) (b p p) (b p) = R p - R p ^ 2 / innovVar (noisyGram b R) f p := by
  set K := noisyGram b R with hKdef
  have hrow : ∀ x : ι' → ℝ, b p ⬝ᵥ x = (K *ᵥ x) p - R p * x p := fun x => by
    rw [hKdef, noisyGram_mulVec]
    simp [dotProduct]
  constructor
  · show b p ⬝ᵥ K⁻¹ *ᵥ y = _
    rw [hrow, solve_spec hK, (h.solve hK y).1]
  · have e1 : b p = (fun q => K q p) - R p • Pi.single p 1 := by
      funext q
      by_cases hq : q = p
      · subst hq; simp [hKdef, noisyGram]
      · simp [hKdef, noisyGram, hq, hb p q]
    have e2 : K⁻¹ *ᵥ (fun q => K q p) = Pi.single p 1 := solve_unique hK (by funext q; simp)
    have e3 : innov K f p (Pi.single p 1) = 1 := by
      have : (Pi.single p 1 : ι' → ℝ) ∘ f = 0 := by
        funext i
        exact Pi.single_eq_of_ne (fun hi => h.out ⟨i, hi⟩) 1
      unfold innov postMean
      rw [this, mulVec_zero, dotProduct_zero, Pi.single_eq_same, sub_zero]
    have e4 := (h.solve hK (Pi.single p 1)).1
    rw [e3] at e4
    have e5 : K⁻¹ *ᵥ b p = Pi.single p 1 - R p • (K⁻¹ *ᵥ Pi.single p 1) := by
      conv_lhs => rw [e1]
      rw [mulVec_sub, e2, mulVec_smul]
    unfold postVar
    rw [hrow, solve_spec hK, e5]
    simp only [Pi.sub_apply, Pi.smul_apply, smul_eq_mul, e4, Pi.single_eq_same]
    ring

end OneMore
end Verif
