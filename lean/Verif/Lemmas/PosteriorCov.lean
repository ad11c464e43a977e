import Verif.Props.C81_Influence
import Verif.Spec.StateProcess

/-!
# Posterior covariances of pairs, and averages over exposures
-/

namespace Verif
open Matrix Spec

section
variable {ι : Type*} [Fintype ι] [DecidableEq ι] {K : Matrix ι ι ℝ}

theorem pd_inv_symm (hK : K.PosDef) (c d : ι → ℝ) : c ⬝ᵥ K⁻¹ *ᵥ d = d ⬝ᵥ K⁻¹ *ᵥ c := by
  have hs : (K⁻¹)ᵀ = K⁻¹ := psd_symm hK.inv.posSemidef
  rw [dotProduct_mulVec, ← mulVec_transpose, hs, dotProduct_comm]

theorem postVar_comb (hK : K.PosDef) (a b kc kcd kd : ℝ) (c d : ι → ℝ) :
    postVar K (a ^ 2 * kc + 2 * a * b * kcd + b ^ 2 * kd) (a • c + b • d) =
      a ^ 2 * postVar K kc c + 2 * a * b * postCov K kcd c d + b ^ 2 * postVar K kd d := by
  unfold postVar postCov
  simp only [mulVec_add, mulVec_smul, add_dotProduct, dotProduct_add, smul_dotProduct, dotProduct_smul, smul_eq_mul]
  rw [pd_inv_symm hK d c]
  ring

theorem postVar_nonneg (hK : K.PosDef) {v : ℝ} {c : ι → ℝ} (hj : ∀ w : ι → ℝ, 0 ≤ v - 2 * (w ⬝ᵥ c) + w ⬝ᵥ K *ᵥ w) : 0 ≤ postVar K v c := by
  rw [postVar_eq hK]
  have := hj (K⁻¹ *ᵥ c)
  linarith

theorem pd_inv_quad_nonneg (hK : K.PosDef) (c : ι → ℝ) : 0 ≤ c ⬝ᵥ K⁻¹ *ᵥ c := by
  simpa using hK.inv.posSemidef.dotProduct_mulVec_nonneg c

theorem postVar_le_prior (hK : K.PosDef) (v : ℝ) (c : ι → ℝ) : postVar K v c ≤ v := by
  have := pd_inv_quad_nonneg hK c
  unfold postVar
  linarith

/-- the posterior mean in terms of the norm of the data -/
theorem postMean_sq_le (hK : K.PosDef) (y c : ι → ℝ) : postMean K y c ^ 2 ≤ (c ⬝ᵥ K⁻¹ *ᵥ c) * (y ⬝ᵥ K⁻¹ *ᵥ y) := by
  have h : ∀ x : ℝ, 0 ≤ (y ⬝ᵥ K⁻¹ *ᵥ y) * (x * x) + (-2 * postMean K y c) * x + c ⬝ᵥ K⁻¹ *ᵥ c := fun x => by
    have := pd_inv_quad_nonneg hK (c - x • y)
    simp only [mulVec_sub, mulVec_smul, sub_dotProduct, dotProduct_sub, smul_dotProduct, dotProduct_smul, smul_eq_mul] at this
    rw [pd_inv_symm hK y c] at this
    unfold postMean
    linarith
  have := discrim_le_zero h
  unfold discrim at this
  nlinarith

/-- Cauchy and Schwarz for a nonnegative quadratic form in two variables -/
theorem sq_le_of_quad {A B C : ℝ} (h : ∀ a b : ℝ, 0 ≤ a ^ 2 * A + 2 * a * b * B + b ^ 2 * C) : B ^ 2 ≤ A * C := by
  have := discrim_le_zero (a := A) (b := 2 * B) (c := C) fun x => by have := h x 1; linarith
  unfold discrim at this
  nlinarith

/-- standard deviations obey the triangle inequality -/
theorem sqrt_sub_sq_le {A B C : ℝ} (hA : 0 ≤ A) (hC : 0 ≤ C) (h : B ^ 2 ≤ A * C) : (√A - √C) ^ 2 ≤ A - 2 * B + C := by
  have h1 : B ≤ √A * √C := by
    rw [← Real.sqrt_mul hA]
    exact Real.le_sqrt_of_sq_le h
  have h2 := Real.sq_sqrt hA
  have h3 := Real.sq_sqrt hC
  nlinarith

theorem quad_le_noise {b : ι → ι → ℝ} (hb : (Matrix.of b).PosSemidef) {R : ι → ℝ} (hR : ∀ i, 0 < R i) (y : ι → ℝ) :
    y ⬝ᵥ (noisyGram b R)⁻¹ *ᵥ y ≤ ∑ i, y i ^ 2 / R i := by
  have hD : (Matrix.diagonal R).PosDef := Matrix.PosDef.diagonal hR
  have hsub : (noisyGram b R - Matrix.diagonal R).PosSemidef := by
    have : noisyGram b R - Matrix.diagonal R = Matrix.of b := by
      ext i j
      by_cases hij : i = j <;> simp [noisyGram, hij]
    rwa [this]
  have hK : (noisyGram b R).PosDef := by
    have : noisyGram b R = Matrix.of b + Matrix.diagonal R := by
      ext i j
      by_cases hij : i = j <;> simp [noisyGram, hij]
    rw [this]
    exact Matrix.PosDef.posSemidef_add hb hD
  have h3 := postVar_mono hK hD hsub 0 y
  have e : (Matrix.diagonal R)⁻¹ = Matrix.diagonal fun i => (R i)⁻¹ := by
    refine Matrix.inv_eq_right_inv ?_
    rw [Matrix.diagonal_mul_diagonal, ← Matrix.diagonal_one]
    congr 1
    funext i
    exact mul_inv_cancel₀ (hR i).ne'
  have e2 : y ⬝ᵥ (Matrix.diagonal R)⁻¹ *ᵥ y = ∑ i, y i ^ 2 / R i := by
    rw [e]
    simp only [dotProduct, Matrix.mulVec_diagonal]
    exact Finset.sum_congr rfl fun i _ => by ring
  unfold postVar at h3
  rw [e2] at h3
  linarith

end

section
variable {κ : ℝ → ℝ} {X : Arr Coord} {R : Arr ℝ}

/-- two coordinates and a weighted sum of the data -/
theorem exposureCov_joint₂ (hc : Continuous fun u => κ |u|) (h : PosSemidefFn κ) (c d : Coord) (a b : ℝ) (X : Arr Coord) (w : Fin X.len → ℝ) :
    0 ≤ (a ^ 2 * exposureCov κ c c + 2 * a * b * exposureCov κ c d + b ^ 2 * exposureCov κ d d) -
      2 * (w ⬝ᵥ (a • obsCross κ c X + b • obsCross κ d X)) +
      w ⬝ᵥ (Matrix.of fun i j : Fin X.len => exposureCov κ (X.get i) (X.get j)) *ᵥ w := by
  have h1 := exposureCov_quad hc h (fun o : Option (Option (Fin X.len)) => o.elim c fun o => o.elim d fun i => X.get i)
    fun o => o.elim a fun o => o.elim b fun i => -w i
  simp only [Fintype.sum_option, Option.elim] at h1
  refine h1.trans_eq ?_
  simp only [dotProduct, mulVec, Matrix.of_apply, obsCross, Finset.mul_sum, Finset.sum_add_distrib, Pi.add_apply, Pi.smul_apply, smul_eq_mul]
  have e1 : ∀ i : Fin X.len, exposureCov κ (X.get i) c = exposureCov κ c (X.get i) := fun i => exposureCov_comm hc _ _
  have e2 : ∀ i : Fin X.len, exposureCov κ (X.get i) d = exposureCov κ d (X.get i) := fun i => exposureCov_comm hc _ _
  rw [exposureCov_comm hc d c]
  simp only [e1, e2, mul_add, Finset.sum_add_distrib]
  have e4 : (∑ i : Fin X.len, ∑ j : Fin X.len, -w i * -w j * exposureCov κ (X.get i) (X.get j)) =
      ∑ i : Fin X.len, ∑ j : Fin X.len, w i * (exposureCov κ (X.get i) (X.get j) * w j) :=
    Finset.sum_congr rfl fun i _ => Finset.sum_congr rfl fun j _ => by ring
  have e5 : ∀ (x : ℝ) (e : Coord), (∑ i : Fin X.len, -w i * x * exposureCov κ e (X.get i)) = -∑ i : Fin X.len, w i * (x * exposureCov κ e (X.get i)) := by
    intro x e
    rw [← Finset.sum_neg_distrib]
    exact Finset.sum_congr rfl fun i _ => by ring
  have e6 : ∀ (x : ℝ) (e : Coord), (∑ i : Fin X.len, x * -w i * exposureCov κ e (X.get i)) = -∑ i : Fin X.len, w i * (x * exposureCov κ e (X.get i)) := by
    intro x e
    rw [← Finset.sum_neg_distrib]
    exact Finset.sum_congr rfl fun i _ => by ring
  rw [e4, e5, e5, e6, e6]
  simp only [← Finset.mul_sum]
  ring

theorem post_quad (hc : Continuous fun u => κ |u|) (h : PosSemidefFn κ) (hR : ∀ i < X.len, 0 ≤ R.get i) (hK : (obsGram κ X R).PosDef) (c d : Coord) (a b : ℝ) :
    0 ≤ a ^ 2 * postVar (obsGram κ X R) (exposureCov κ c c) (obsCross κ c X) +
      2 * a * b * postCov (obsGram κ X R) (exposureCov κ c d) (obsCross κ c X) (obsCross κ d X) +
      b ^ 2 * postVar (obsGram κ X R) (exposureCov κ d d) (obsCross κ d X) := by
  rw [← postVar_comb hK]
  refine postVar_nonneg hK fun w => ?_
  have h1 := exposureCov_joint₂ hc h c d a b X w
  have h2 : w ⬝ᵥ obsGram κ X R *ᵥ w = _ := noisyGram_quad (fun i j : Fin X.len => exposureCov κ (X.get i) (X.get j)) (fun i => R.get i) w
  rw [h2]
  have h3 : 0 ≤ ∑ i : Fin X.len, R.get i * w i ^ 2 := Finset.sum_nonneg fun i _ => mul_nonneg (hR i i.2) (sq_nonneg _)
  linarith

/-- what the data explain of a difference is at most its prior variance -/
theorem explained_diff_le (hc : Continuous fun u => κ |u|) (h : PosSemidefFn κ) (hR : ∀ i < X.len, 0 ≤ R.get i) (hK : (obsGram κ X R).PosDef) (s t : ℝ) :
    (obsCross κ (.time s) X - obsCross κ (.time t) X) ⬝ᵥ (obsGram κ X R)⁻¹ *ᵥ (obsCross κ (.time s) X - obsCross κ (.time t) X) ≤ 2 * (κ 0 - κ |s - t|) := by
  have h1 := post_quad hc h hR hK (.time s) (.time t) 1 (-1)
  rw [← postVar_comb hK] at h1
  simp only [exposureCov_times, sub_self, abs_zero] at h1
  have e : (1 : ℝ) • obsCross κ (.time s) X + (-1 : ℝ) • obsCross κ (.time t) X = obsCross κ (.time s) X - obsCross κ (.time t) X := by
    rw [one_smul, neg_one_smul, sub_eq_add_neg]
  rw [e] at h1
  unfold postVar at h1
  linarith

theorem explained_at_le (hc : Continuous fun u => κ |u|) (h : PosSemidefFn κ) (hR : ∀ i < X.len, 0 ≤ R.get i) (hK : (obsGram κ X R).PosDef) (s : ℝ) :
    obsCross κ (.time s) X ⬝ᵥ (obsGram κ X R)⁻¹ *ᵥ obsCross κ (.time s) X ≤ κ 0 := by
  have h1 := post_quad hc h hR hK (.time s) (.time s) 1 0
  rw [exposureCov_times, sub_self, abs_zero] at h1
  unfold postVar at h1
  linarith

/-- posterior standard deviations at two times -/
theorem postSd_diff (hc : Continuous fun u => κ |u|) (h : PosSemidefFn κ) (hR : ∀ i < X.len, 0 ≤ R.get i) (hK : (obsGram κ X R).PosDef) (s t : ℝ) :
    (√(postVar (obsGram κ X R) (κ 0) (obsCross κ (.time s) X)) - √(postVar (obsGram κ X R) (κ 0) (obsCross κ (.time t) X))) ^ 2 ≤ 2 * (κ 0 - κ |s - t|) := by
  have h1 : ∀ a b, _ := post_quad hc h hR hK (.time s) (.time t)
  simp only [exposureCov_times, sub_self, abs_zero] at h1
  have hA := h1 1 0
  have hC := h1 0 1
  have h2 := sqrt_sub_sq_le (by linarith) (by linarith) (sq_le_of_quad h1)
  have h3 := postVar_comb hK 1 (-1) (κ 0) (κ |s - t|) (κ 0) (obsCross κ (.time s) X) (obsCross κ (.time t) X)
  have h4 := postVar_le_prior hK (1 ^ 2 * κ 0 + 2 * 1 * -1 * κ |s - t| + (-1) ^ 2 * κ 0) ((1 : ℝ) • obsCross κ (.time s) X + (-1 : ℝ) • obsCross κ (.time t) X)
  linarith

/-- cross-covariances of an exposure are averages of those of its instants -/
theorem obsCross_average (κ : ℝ → ℝ) (c : Coord) (X : Arr Coord) (j : Fin X.len) :
    obsCross κ c X j = ∫ v in (0 : ℝ)..1, obsCross κ (.time (c.at v)) X j := by
  show exposureCov κ c (X.get j) = ∫ v in (0 : ℝ)..1, exposureCov κ (.time (c.at v)) (X.get j)
  rw [exposureCov_unit]
  congr 1
  funext v
  rw [exposureCov_time]

theorem integral_dotProduct {ι : Type*} [Fintype ι] {f : ℝ → ι → ℝ} (hf : Continuous f) (w : ι → ℝ) :
    (∫ v in (0 : ℝ)..1, f v ⬝ᵥ w) = (fun j => ∫ v in (0 : ℝ)..1, f v j) ⬝ᵥ w := by
  unfold dotProduct
  have hi : ∀ j ∈ Finset.univ, IntervalIntegrable (fun v => f v j * w j) MeasureTheory.volume 0 1 := fun j _ =>
    (((continuous_apply j).comp hf).mul continuous_const).intervalIntegrable _ _
  rw [intervalIntegral.integral_finsetSum hi]
  exact Finset.sum_congr rfl fun j _ => intervalIntegral.integral_mul_const _ _

theorem obsCross_at_continuous (hc : Continuous fun u => κ |u|) (c : Coord) (X : Arr Coord) : Continuous fun v => obsCross κ (.time (c.at v)) X :=
  (obsCross_continuous hc X).comp c.at_continuous

/-- the posterior mean of an exposure is the average of those of its instants -/
theorem postMean_average (hc : Continuous fun u => κ |u|) (K : Matrix (Fin X.len) (Fin X.len) ℝ) (y : Fin X.len → ℝ) (c : Coord) :
    postMean K y (obsCross κ c X) = c.average fun s => postMean K y (obsCross κ (.time s) X) := by
  rw [Coord.average_unit]
  unfold postMean
  rw [integral_dotProduct (obsCross_at_continuous hc c X)]
  exact congrArg (· ⬝ᵥ _) (funext fun j => obsCross_average κ c X j)

theorem exposureCov_at_continuous (hc : Continuous fun u => κ |u|) (c d : Coord) : Continuous fun v => exposureCov κ (.time (c.at v)) d := by
  simp only [exposureCov_time]
  have : Continuous (Function.uncurry fun s v : ℝ => κ |c.at s - d.at v|) :=
    hc.comp ((c.at_continuous.comp continuous_fst).sub (d.at_continuous.comp continuous_snd))
  exact intervalIntegral.continuous_parametric_intervalIntegral_of_continuous' this 0 1

theorem quad_at_continuous (hc : Continuous fun u => κ |u|) (w : Fin X.len → ℝ) (c : Coord) : Continuous fun v => obsCross κ (.time (c.at v)) X ⬝ᵥ w := by
  have := obsCross_at_continuous hc c X
  unfold dotProduct
  fun_prop

theorem postCov_continuous (hc : Continuous fun u => κ |u|) (K : Matrix (Fin X.len) (Fin X.len) ℝ) (c d : Coord) :
    Continuous fun v => postCov K (exposureCov κ (.time (c.at v)) d) (obsCross κ (.time (c.at v)) X) (obsCross κ d X) :=
  (exposureCov_at_continuous hc c d).sub (quad_at_continuous hc _ c)

theorem postCov_average (hc : Continuous fun u => κ |u|) {K : Matrix (Fin X.len) (Fin X.len) ℝ} (c d : Coord) :
    postCov K (exposureCov κ c d) (obsCross κ c X) (obsCross κ d X) =
      c.average fun s => postCov K (exposureCov κ (.time s) d) (obsCross κ (.time s) X) (obsCross κ d X) := by
  rw [Coord.average_unit]
  unfold postCov
  have h1 := exposureCov_at_continuous hc c d
  have h2 := quad_at_continuous hc (K⁻¹ *ᵥ obsCross κ d X) c
  rw [intervalIntegral.integral_sub (h1.intervalIntegrable _ _) (h2.intervalIntegrable _ _), integral_dotProduct (obsCross_at_continuous hc c X)]
  congr 1
  · rw [exposureCov_unit]
    congr 1
    funext v
    rw [exposureCov_time]
  · exact congrArg (· ⬝ᵥ _) (funext fun j => obsCross_average κ c X j)

/-- the variance of an exposure is at most the average of those of its instants -/
theorem postVar_average_le (hc : Continuous fun u => κ |u|) (h : PosSemidefFn κ) (hR : ∀ i < X.len, 0 ≤ R.get i) (hK : (obsGram κ X R).PosDef) (c : Coord) :
    postVar (obsGram κ X R) (exposureCov κ c c) (obsCross κ c X) ≤ c.average fun s => postVar (obsGram κ X R) (κ 0) (obsCross κ (.time s) X) := by
  have h1 : ∀ v, 2 * postCov (obsGram κ X R) (exposureCov κ (.time (c.at v)) c) (obsCross κ (.time (c.at v)) X) (obsCross κ c X) ≤
      postVar (obsGram κ X R) (exposureCov κ c c) (obsCross κ c X) + postVar (obsGram κ X R) (κ 0) (obsCross κ (.time (c.at v)) X) := fun v => by
    have := post_quad hc h hR hK (.time (c.at v)) c 1 (-1)
    rw [exposureCov_times, sub_self, abs_zero] at this
    linarith
  have hV : Continuous fun v => postVar (obsGram κ X R) (κ 0) (obsCross κ (.time (c.at v)) X) :=
    (postVar_continuous _ _).comp (obsCross_at_continuous hc c X)
  have hC := postCov_continuous hc (obsGram κ X R) c c
  have hV' : Continuous fun v => postVar (obsGram κ X R) (exposureCov κ c c) (obsCross κ c X) + postVar (obsGram κ X R) (κ 0) (obsCross κ (.time (c.at v)) X) :=
    continuous_const.add hV
  have h2 := intervalIntegral.integral_mono (μ := MeasureTheory.volume) (zero_le_one' ℝ) ((hC.const_mul 2).intervalIntegrable _ _)
    (hV'.intervalIntegrable _ _) h1
  rw [intervalIntegral.integral_const_mul, intervalIntegral.integral_add (continuous_const.intervalIntegrable _ _) (hV.intervalIntegrable _ _)] at h2
  have h3 := postCov_average hc (K := obsGram κ X R) c c
  rw [Coord.average_unit] at h3
  rw [← h3] at h2
  rw [Coord.average_unit]
  simp only [intervalIntegral.integral_const, sub_zero, one_smul] at h2
  have h4 : postCov (obsGram κ X R) (exposureCov κ c c) (obsCross κ c X) (obsCross κ c X) = postVar (obsGram κ X R) (exposureCov κ c c) (obsCross κ c X) := rfl
  rw [h4] at h2
  linarith

end

end Verif
