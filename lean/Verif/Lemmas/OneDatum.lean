import Verif.Lemmas.PosteriorCov
import Verif.Props.C75_OneMore

/-! # The effect of one more observation on every prediction -/

namespace Verif
open Matrix Spec

section
variable {ι ι' : Type*} [Fintype ι] [DecidableEq ι] [Fintype ι'] [DecidableEq ι'] {f : ι → ι'} {p : ι'}

/-- the bilinear form of the larger system -/
theorem OneMore.bilin (h : OneMore f p) {K : Matrix ι' ι' ℝ} (hK : K.PosDef) (c y : ι' → ℝ) :
    c ⬝ᵥ K⁻¹ *ᵥ y = (c ∘ f) ⬝ᵥ (K.submatrix f f)⁻¹ *ᵥ (y ∘ f) + innov K f p c * innov K f p y / innovVar K f p := by
  have h1 := h.quad hK (c + y)
  have h2 := h.quad hK c
  have h3 := h.quad hK y
  have hA := hK.submatrix h.inj
  have e1 : (c + y) ∘ f = c ∘ f + y ∘ f := rfl
  have e2 : innov K f p (c + y) = innov K f p c + innov K f p y := by
    unfold innov postMean
    rw [e1, mulVec_add, dotProduct_add, Pi.add_apply]
    ring
  rw [e1, e2] at h1
  simp only [mulVec_add, dotProduct_add, add_dotProduct] at h1
  rw [pd_inv_symm hK y c, pd_inv_symm hA (y ∘ f) (c ∘ f), h2, h3] at h1
  have e3 : (innov K f p c + innov K f p y) ^ 2 / innovVar K f p =
      innov K f p c ^ 2 / innovVar K f p + innov K f p y ^ 2 / innovVar K f p + 2 * (innov K f p c * innov K f p y / innovVar K f p) := by ring
  rw [e3] at h1
  linarith

end

section
variable {κ : ℝ → ℝ} {X X' : Arr Coord} {R R' y y' : Arr ℝ} {f : Fin X.len → Fin X'.len} {p : Fin X'.len}

/-- what one more datum does to the posterior of any coordinate -/
theorem oneDatum_update (hc : Continuous fun u => κ |u|) (hpsd : PosSemidefFn κ) (hd : OneDatumMore X R y X' R' y' f p)
    (hR' : ∀ i < X'.len, 0 ≤ R'.get i) (pd' : (obsGram κ X' R').PosDef) (c : Coord) :
    ∃ m v C : ℝ, m = postMean (obsGram κ X R) (fun i => y.get i) (obsCross κ (X'.get p) X) ∧
      v = postVar (obsGram κ X R) (exposureCov κ (X'.get p) (X'.get p)) (obsCross κ (X'.get p) X) ∧ 0 ≤ v ∧
      C ^ 2 ≤ postVar (obsGram κ X R) (exposureCov κ c c) (obsCross κ c X) * v ∧
      postMean (obsGram κ X' R') (fun i => y'.get i) (obsCross κ c X') =
        postMean (obsGram κ X R) (fun i => y.get i) (obsCross κ c X) + C / (v + R'.get p) * (y'.get p - m) ∧
      postVar (obsGram κ X' R') (exposureCov κ c c) (obsCross κ c X') =
        postVar (obsGram κ X R) (exposureCov κ c c) (obsCross κ c X) - C ^ 2 / (v + R'.get p) := by
  have hone : OneMore f p := .of_card hd.len hd.inj hd.out
  obtain ⟨e1, e2, e3, e4⟩ := obsGram_oneMore hd κ
  have pd : (obsGram κ X R).PosDef := e1 ▸ pd'.submatrix hd.inj
  have hR : ∀ i < X.len, 0 ≤ R.get i := fun i hi => by
    have := hd.noise ⟨i, hi⟩
    rw [← this]
    exact hR' _ (f ⟨i, hi⟩).2
  have ec : obsCross κ c X' ∘ f = obsCross κ c X := by
    funext i
    show exposureCov κ c (X'.get (f i)) = exposureCov κ c (X.get i)
    rw [hd.coord]
  have ev : innovVar (obsGram κ X' R') f p =
      postVar (obsGram κ X R) (exposureCov κ (X'.get p) (X'.get p)) (obsCross κ (X'.get p) X) + R'.get p := by
    unfold innovVar
    rw [e1, e2, e3]
    unfold postVar
    ring
  have ey : innov (obsGram κ X' R') f p (fun i => y'.get i) = y'.get p - postMean (obsGram κ X R) (fun i => y.get i) (obsCross κ (X'.get p) X) := by
    unfold innov
    rw [e1, e2, e4]
  have ei : innov (obsGram κ X' R') f p (obsCross κ c X') = postCov (obsGram κ X R) (exposureCov κ c (X'.get p)) (obsCross κ c X) (obsCross κ (X'.get p) X) := by
    unfold innov postMean postCov
    rw [e1, e2, ec, pd_inv_symm pd]
    rfl
  have hq := post_quad hc hpsd hR pd c (X'.get p)
  refine ⟨_, _, _, rfl, rfl, by linarith [hq 0 1], sq_le_of_quad hq, ?_, ?_⟩
  · unfold postMean
    rw [hone.bilin pd', e1, ec, e4, ev, ey, ei]
    unfold postMean
    ring
  · unfold postVar
    rw [hone.bilin pd', e1, ec, ev, ei]
    unfold postVar
    ring

end

end Verif
