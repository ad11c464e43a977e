import Verif.Lemmas.NoiseWithin

/-! # Distance between the results with perturbed process noise and the exact ones -/

set_option linter.unusedSectionVars false

namespace Verif
open Matrix Spec

section dense
variable {ι : Type*} [Fintype ι] [DecidableEq ι]

/-- posterior mean at a data point -/
theorem postMean_at_data {G : Matrix ι ι ℝ} (hG : G.PosDef) (y : ι → ℝ) (i : ι) (R : ℝ) :
    postMean G y (fun j => G i j - if i = j then R else 0) = y i - R * (Pi.single i 1 ⬝ᵥ G⁻¹ *ᵥ y) := by
  have hs := psd_symm hG.posSemidef
  have e : (fun j => G i j - if i = j then R else 0) = G *ᵥ Pi.single i 1 - R • Pi.single i 1 := by
    funext j
    have : G j i = G i j := congrFun (congrFun hs i) j
    simp [Pi.single_apply, this, eq_comm]
  unfold postMean
  rw [e, sub_dotProduct, smul_dotProduct, smul_eq_mul, dotProduct_comm, symm_dot hs, solve_spec hG]
  simp

/-- posterior variance at a data point -/
theorem postVar_at_data {G : Matrix ι ι ℝ} (hG : G.PosDef) (i : ι) (R : ℝ) :
    postVar G (G i i - R) (fun j => G i j - if i = j then R else 0) = R - R ^ 2 * (Pi.single i 1 ⬝ᵥ G⁻¹ *ᵥ Pi.single i 1) := by
  have h := postMean_at_data hG (fun j => G i j - if i = j then R else 0) i R
  have h2 := postMean_at_data hG (Pi.single i 1) i R
  have hs := psd_symm hG.inv.posSemidef
  unfold postMean at h h2
  unfold postVar
  rw [h]
  rw [symm_dot hs, h2]
  simp
  ring

/-- the noise bounds the inverse of the data covariance -/
theorem inv_diag_le {b : ι → ι → ℝ} (hb : (Matrix.of b).PosSemidef) {R : ι → ℝ} (hR : ∀ i, 0 < R i) (hG : (noisyGram b R).PosDef) (i : ι) :
    R i * (Pi.single i 1 ⬝ᵥ (noisyGram b R)⁻¹ *ᵥ Pi.single i 1) ≤ 1 := by
  set G := noisyGram b R with hGdef
  set v := G⁻¹ *ᵥ Pi.single i 1 with hv
  have h1 : G *ᵥ v = Pi.single i 1 := solve_spec hG _
  have h2 : v ⬝ᵥ G *ᵥ v = v i := by rw [h1]; simp
  have h3 : R i * v i ^ 2 ≤ v ⬝ᵥ G *ᵥ v := by
    have e : G = Matrix.of b + diagonal R := by
      ext a c
      by_cases h : a = c <;> simp [hGdef, noisyGram, h]
    rw [e, add_mulVec, dotProduct_add]
    have p := ((psd_iff _).1 hb).2 v
    have q : R i * v i ^ 2 ≤ v ⬝ᵥ diagonal R *ᵥ v := by
      simp only [dotProduct, mulVec_diagonal]
      refine le_trans (le_of_eq ?_) (Finset.single_le_sum (f := fun j => v j * (R j * v j)) (fun j _ => ?_) (Finset.mem_univ i))
      · ring
      · nlinarith [mul_self_nonneg (v j), hR j]
    linarith
  rw [h2] at h3
  have e : Pi.single i 1 ⬝ᵥ v = v i := by simp
  rw [e]
  by_contra hcon
  push Not at hcon
  have hpos : 0 < v i := by
    by_contra hneg
    push Not at hneg
    nlinarith [hR i]
  nlinarith

variable {θ : ℝ} {G' : Matrix ι ι ℝ} {b : ι → ι → ℝ} {R : ι → ℝ}

/-- effect on the posterior at the data -/
theorem Near.at_data (hb : (Matrix.of b).PosSemidef) (hR : ∀ i, 0 < R i) (h : Near θ (noisyGram b R) G') (y : ι → ℝ) (i : ι) :
    (postMean G' y (fun j => G' i j - if i = j then R i else 0) - postMean (noisyGram b R) y (fun j => b i j)) ^ 2 ≤
      4 * θ ^ 2 * R i * (y ⬝ᵥ (noisyGram b R)⁻¹ *ᵥ y) ∧
    |postVar G' (G' i i - R i) (fun j => G' i j - if i = j then R i else 0) - postVar (noisyGram b R) (b i i) (fun j => b i j)| ≤
      2 * θ * R i := by
  have e1 : (fun j => b i j) = fun j => noisyGram b R i j - if i = j then R i else 0 := by funext j; simp [noisyGram]
  have e2 : b i i = noisyGram b R i i - R i := by simp [noisyGram]
  have hd := inv_diag_le hb hR h.pd i
  have hRi := hR i
  have h0 := h.nonneg
  have hq : 0 ≤ y ⬝ᵥ (noisyGram b R)⁻¹ *ᵥ y := ((psd_iff _).1 h.pd.inv.posSemidef).2 y
  constructor
  · rw [e1, postMean_at_data h.pd', postMean_at_data h.pd]
    have := h.inv_bilin (Pi.single i 1) y
    set a := Pi.single i 1 ⬝ᵥ G'⁻¹ *ᵥ y
    set c := Pi.single i 1 ⬝ᵥ (noisyGram b R)⁻¹ *ᵥ y
    set d := Pi.single i 1 ⬝ᵥ (noisyGram b R)⁻¹ *ᵥ Pi.single i 1
    set Y := y ⬝ᵥ (noisyGram b R)⁻¹ *ᵥ y
    calc (y i - R i * a - (y i - R i * c)) ^ 2 = R i ^ 2 * (a - c) ^ 2 := by ring
      _ ≤ R i ^ 2 * ((2 * θ) ^ 2 * d * Y) := mul_le_mul_of_nonneg_left this (sq_nonneg _)
      _ = (2 * θ) ^ 2 * R i * Y * (R i * d) := by ring
      _ ≤ (2 * θ) ^ 2 * R i * Y * 1 := mul_le_mul_of_nonneg_left hd (by positivity)
      _ = 4 * θ ^ 2 * R i * Y := by ring
  · rw [e1, e2, postVar_at_data h.pd', postVar_at_data h.pd]
    have := h.inv_quad (Pi.single i 1)
    set a := Pi.single i 1 ⬝ᵥ G'⁻¹ *ᵥ Pi.single i 1
    set d := Pi.single i 1 ⬝ᵥ (noisyGram b R)⁻¹ *ᵥ Pi.single i 1
    calc |R i - R i ^ 2 * a - (R i - R i ^ 2 * d)| = R i ^ 2 * |a - d| := by
          rw [show R i - R i ^ 2 * a - (R i - R i ^ 2 * d) = -(R i ^ 2 * (a - d)) by ring, abs_neg, abs_mul, abs_of_nonneg (sq_nonneg (R i))]
      _ ≤ R i ^ 2 * (2 * θ * d) := mul_le_mul_of_nonneg_left this (sq_nonneg _)
      _ = 2 * θ * R i * (R i * d) := by ring
      _ ≤ 2 * θ * R i * 1 := mul_le_mul_of_nonneg_left hd (by positivity)
      _ = 2 * θ * R i := by ring

end dense

section
variable {k : SSM} {ε : ℝ} (hε : 0 ≤ ε) (hq : k.NoiseWithin ε) {G : Matrix k.n k.n ℝ} (hG : k.CovModel G) {t : Arr ℝ} (ht : Sorted t) (hN : 0 < t.len)
  {R : Arr ℝ} {c r : ℝ} (hc : 0 < c) (hlow : LowerBound c k.Pinf) (hr : 0 < r) (hR : ∀ i < t.len, r ≤ R.get i)
include hε hq hG ht hN hc hlow hr hR

theorem noisy_near (hsmall : 2 * t.len ^ 2 * ε * Fintype.card k.n * (k.Ht 0 * k.Pinf * (k.Ht 0)ᵀ) 0 0 ≤ c * r) :
    Near (t.len ^ 2 * ε * Fintype.card k.n * (k.Ht 0 * k.Pinf * (k.Ht 0)ᵀ) 0 0 / (c * r))
      (noisyGram (fun i j : Fin t.len => k.evaluate (.time (t.get i)) (.time (t.get j))) fun i => R.get i) (noisyData k t R) := by
  set κ := (k.Ht 0 * k.Pinf * (k.Ht 0)ᵀ) 0 0 with hκ
  set n : ℝ := ((Fintype.card k.n : ℕ) : ℝ) with hn
  have hn0 : 0 ≤ n := Nat.cast_nonneg _
  have hκ0 : 0 ≤ κ := (abs_nonneg _).trans (CovModel_evaluate_abs hG 0 0)
  have hK := hG.gram_psd (fun i : Fin t.len => Coord.time (t.get i))
  have hb0 : 0 ≤ Real.sqrt (n * κ / c) := Real.sqrt_nonneg _
  have hbb : Real.sqrt (n * κ / c) * Real.sqrt (n * κ / c) = n * κ / c := Real.mul_self_sqrt (by positivity)
  have e : (t.len : ℝ) ^ 2 * ε * n * κ / (c * r) = Fintype.card (Fin t.len) * (t.len * (ε * Real.sqrt (n * κ / c) * Real.sqrt (n * κ / c))) / r := by
    rw [Fintype.card_fin, mul_assoc ε, hbb]
    field_simp
  rw [e]
  refine Near.of_entries ?_ ?_ hr (by positivity) (fun v => ?_) (fun i j => ?_) ?_
  · have hs := psd_symm hK
    ext i j
    have h1 : k.evaluate (.time (t.get j)) (.time (t.get i)) = k.evaluate (.time (t.get i)) (.time (t.get j)) := congrFun (congrFun hs i) j
    rw [transpose_apply]
    by_cases h : i = j
    · subst h; rfl
    · simp [noisyGram, h, Ne.symm h, h1]
  · ext i j
    show noisyData k t R j i = noisyData k t R i j
    rw [noisyData_eq hq hG ht hN R R, noisyData_eq hq hG ht hN R R]
    exact (noisyChain hq hG ht hN R R).symm _ _
  · have e : (noisyGram (fun i j : Fin t.len => k.evaluate (.time (t.get i)) (.time (t.get j))) fun i => R.get i) =
        (Matrix.of fun i j : Fin t.len => k.evaluate (.time (t.get i)) (.time (t.get j))) + diagonal fun i : Fin t.len => R.get i := by
      ext a c
      by_cases h : a = c <;> simp [noisyGram, h]
    rw [e, add_mulVec, dotProduct_add]
    have p := ((psd_iff _).1 hK).2 v
    have q : r * (v ⬝ᵥ v) ≤ v ⬝ᵥ (diagonal fun i : Fin t.len => R.get i) *ᵥ v := by
      simp only [dotProduct, mulVec_diagonal, Finset.mul_sum]
      refine Finset.sum_le_sum fun i _ => ?_
      nlinarith [hR i i.2, mul_self_nonneg (v i)]
    linarith
  · have h1 := stateCov_perturb (T := gapA k t) (Q := gapQ0 k t) (Q' := gapQ k t) (P0 := k.Pinf) (N := t.len) hε
      (fun l hl a b => hq.near _ (sub_nonneg.2 (tau_mono ht hN (Nat.le_succ l))) a b) i.2 j.2
      (h := k.Ht (t.get i)) (h' := k.Ht (t.get j)) (b := Real.sqrt (n * κ / c)) (b' := Real.sqrt (n * κ / c))
      (fun l hl => by
        rw [gap_propagator hG ht hN hl, CovModel_Ht hG ht hN (t.get i)]
        exact row_bound_sqrt hG hc hlow (k.Ht 0) (sub_nonneg.2 (tau_mono ht hN hl)))
      (fun l hl => by
        rw [gap_propagator hG ht hN hl, CovModel_Ht hG ht hN (t.get j)]
        exact row_bound_sqrt hG hc hlow (k.Ht 0) (sub_nonneg.2 (tau_mono ht hN hl)))
    rw [ideal_stateCov hG ht hN i.2 j.2] at h1
    refine le_trans (le_of_eq ?_) h1
    simp only [noisyData, noisyGram, of_apply]
    congr 1; ring
  · rw [Fintype.card_fin, mul_assoc ε, hbb]
    have : (t.len : ℝ) * (t.len * (ε * (n * κ / c))) = 2 * t.len ^ 2 * ε * n * κ / (2 * c) := by field_simp
    rw [this, div_le_div_iff₀ (by positivity) two_pos]
    nlinarith

end

end Verif
