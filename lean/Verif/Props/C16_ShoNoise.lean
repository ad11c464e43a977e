import Verif.Props.C20_Transition
import Mathlib.Analysis.Calculus.Deriv.MeanValue
import Mathlib.Analysis.SpecialFunctions.Trigonometric.Bounds

/-!
# C16, disagreement: the process noise of an underdamped `SHO` need not be a covariance matrix

The code zeroes entries of `process_noise` below `1e-14` one by one. For short time steps the top-left entry (of order `dt³`) is
zeroed while the off-diagonal entry (of order `dt²`) survives, and the result has a negative eigenvalue.
-/

namespace Verif
open Matrix

/-- zero variance with non-zero covariance is impossible -/
theorem not_psd_of_corner {M : Matrix (Fin 2) (Fin 2) ℝ} (h0 : M 0 0 = 0) (h1 : M 0 1 ≠ 0) : ¬ M.PosSemidef := by
  intro h
  have hd := h.det_nonneg
  have hs : M 1 0 = M 0 1 := congrFun (congrFun (psd_symm h) 0) 1
  rw [Matrix.det_fin_two, hs, h0] at hd
  have : 0 < M 0 1 * M 0 1 := mul_self_pos.2 h1
  linarith

namespace SHO

/-- the top-left entry of the exact process noise for `omega = quality = sigma = 1` -/
noncomputable def corner (t : ℝ) : ℝ :=
  -(Real.exp (-t) - 1) - (Real.sin (2 * (eta 1 * t)) / (2 * eta 1) + Real.sin (eta 1 * t) ^ 2 / (2 * eta 1 ^ 2)) * Real.exp (-t)

theorem eta_one_sq : eta 1 ^ 2 = 3 / 4 := by rw [eta_sq_under (by norm_num)]; norm_num
theorem eta_one_pos : 0 < eta 1 := eta_pos_under (by norm_num)

theorem corner_deriv (t : ℝ) : HasDerivAt corner (Real.exp (-t) * (8 / 3 * Real.sin (eta 1 * t) ^ 2)) t := by
  have hn := eta_one_pos.ne'
  have he : HasDerivAt (fun s : ℝ => Real.exp (-s)) (-Real.exp (-t)) t := by
    simpa using (hasDerivAt_neg t).exp
  have hs2 : HasDerivAt (fun s : ℝ => Real.sin (2 * (eta 1 * s))) (2 * eta 1 * Real.cos (2 * (eta 1 * t))) t := by
    have := hasDerivAt_sin_mul (2 * eta 1) t
    simpa only [mul_assoc] using this
  have hs : HasDerivAt (fun s : ℝ => Real.sin (eta 1 * s) ^ 2) (2 * Real.sin (eta 1 * t) * (eta 1 * Real.cos (eta 1 * t))) t := by
    simpa using (hasDerivAt_sin_mul (eta 1) t).fun_pow 2
  have h := ((he.sub_const 1).fun_neg).fun_sub (((hs2.div_const (2 * eta 1)).fun_add (hs.div_const (2 * eta 1 ^ 2))).fun_mul he)
  have hc : HasDerivAt corner _ t := h
  convert hc using 1
  have e1 : Real.cos (2 * (eta 1 * t)) = 1 - 2 * Real.sin (eta 1 * t) ^ 2 := by
    rw [Real.cos_two_mul, Real.cos_sq']; ring
  have e2 : Real.sin (2 * (eta 1 * t)) = 2 * Real.sin (eta 1 * t) * Real.cos (eta 1 * t) := Real.sin_two_mul _
  rw [e1, e2, eta_one_sq]
  generalize Real.exp (-t) = E
  generalize Real.sin (eta 1 * t) = s
  generalize Real.cos (eta 1 * t) = c
  field_simp
  linear_combination 8 * E * s * c * eta_one_sq

theorem corner_bounds {t : ℝ} (ht : 0 ≤ t) : 0 ≤ corner t ∧ corner t ≤ 2 / 3 * t ^ 3 := by
  have h0 : corner 0 = 0 := by simp [corner]
  constructor
  · have hm : MonotoneOn corner (Set.Ici 0) := by
      refine monotoneOn_of_deriv_nonneg (convex_Ici 0) (fun x _ => (corner_deriv x).continuousAt.continuousWithinAt)
        (fun x _ => (corner_deriv x).differentiableAt.differentiableWithinAt) (fun x _ => ?_)
      rw [(corner_deriv x).deriv]; positivity
    have := hm (Set.mem_Ici.2 le_rfl) (Set.mem_Ici.2 ht) ht
    rwa [h0] at this
  · have hd : ∀ x, HasDerivAt (fun s : ℝ => 2 / 3 * s ^ 3 - corner s) (2 * x ^ 2 - Real.exp (-x) * (8 / 3 * Real.sin (eta 1 * x) ^ 2)) x := by
      intro x
      have := ((hasDerivAt_pow 3 x).const_mul (2 / 3 : ℝ)).fun_sub (corner_deriv x)
      refine HasDerivAt.congr_deriv this ?_
      push_cast
      ring
    have hm : MonotoneOn (fun s : ℝ => 2 / 3 * s ^ 3 - corner s) (Set.Ici 0) := by
      refine monotoneOn_of_deriv_nonneg (convex_Ici 0) (fun x _ => (hd x).continuousAt.continuousWithinAt)
        (fun x _ => (hd x).differentiableAt.differentiableWithinAt) (fun x hx => ?_)
      rw [interior_Ici] at hx
      rw [(hd x).deriv]
      have hx0 : 0 ≤ x := le_of_lt hx
      have hsin : Real.sin (eta 1 * x) ^ 2 ≤ (eta 1 * x) ^ 2 := Real.sin_sq_le_sq
      rw [mul_pow, eta_one_sq] at hsin
      have he : Real.exp (-x) ≤ 1 := Real.exp_le_one_iff.2 (by linarith)
      have : Real.exp (-x) * (8 / 3 * Real.sin (eta 1 * x) ^ 2) ≤ 1 * (8 / 3 * Real.sin (eta 1 * x) ^ 2) := by gcongr
      linarith
    have := hm (Set.mem_Ici.2 le_rfl) (Set.mem_Ici.2 ht) ht
    simp only [h0] at this
    norm_num at this
    linarith

end SHO

/-- **C16, disagreement.** `SHO(omega=1, quality=1, sigma=1).process_noise` over a time step of `1e-5` is not positive
semidefinite: its top-left entry is zeroed, its off-diagonal entry is not. -/
theorem C16_sho_noise_not_psd (name : String) (t0 : ℝ) :
    ¬ ((sho 1 1 1 name).Q (.time t0) (.time (t0 + 1e-5))).PosSemidef := by
  have hn := SHO.eta_one_pos
  have hn2 := SHO.eta_one_sq
  have hc : ¬ SHO.isCritical 1 := by
    unfold SHO.isCritical; rw [abs_of_pos (by norm_num), abs_of_pos (by norm_num)]; norm_num
  have hQ : (sho 1 1 1 name).Q (.time t0) (.time (t0 + 1e-5)) = SHO.truncate (SHO.QunderExact 1 1 1 1e-5) := by
    show SHO.Q 1 1 1 (t0 + 1e-5 - t0) = _
    rw [add_sub_cancel_left]
    unfold SHO.Q
    rw [if_neg hc, if_pos (by norm_num)]
  have h00 : SHO.QunderExact 1 1 1 1e-5 0 0 = SHO.corner 1e-5 := by
    simp only [SHO.QunderExact, SHO.corner, one_pow, mul_one, div_one, one_mul, one_smul]
    simp
  have h01 : SHO.QunderExact 1 1 1 1e-5 0 1 = Real.exp (-1e-5) * (Real.sin (SHO.eta 1 * 1e-5) ^ 2 / SHO.eta 1 ^ 2) := by
    simp only [SHO.QunderExact, one_pow, mul_one, div_one, one_mul, one_smul]
    simp
  have hb := SHO.corner_bounds (t := 1e-5) (by norm_num)
  rw [hQ]
  have key : (SHO.truncate (SHO.QunderExact 1 1 1 1e-5)) 0 0 = 0 := by
    unfold SHO.truncate
    rw [Matrix.of_apply, if_pos]
    rw [h00, abs_of_nonneg hb.1]
    refine lt_of_le_of_lt hb.2 (by norm_num)
  have hlow : (1e-14 : ℝ) ≤ SHO.QunderExact 1 1 1 1e-5 0 1 := by
    rw [h01, hn2]
    have hx0 : 0 < SHO.eta 1 * 1e-5 := by positivity
    have hlt : SHO.eta 1 < 1 := by nlinarith
    have hgt : (1 / 2 : ℝ) < SHO.eta 1 := by nlinarith
    have hsin := Real.sin_gt_sub_cube hx0
    have hs : (4e-6 : ℝ) ≤ Real.sin (SHO.eta 1 * 1e-5) := by
      have h3 : (SHO.eta 1 * 1e-5) ^ 3 ≤ (1e-5 : ℝ) ^ 3 := by gcongr; linarith
      have h4 : (5e-6 : ℝ) ≤ SHO.eta 1 * 1e-5 := by linarith
      norm_num at h3 h4 hsin ⊢
      linarith
    have hs2 : (4e-6 : ℝ) ^ 2 ≤ Real.sin (SHO.eta 1 * 1e-5) ^ 2 := by gcongr
    have he : (1 / 2 : ℝ) ≤ Real.exp (-1e-5) := by
      have := Real.add_one_le_exp (-1e-5 : ℝ)
      norm_num at this ⊢
      linarith
    calc (1e-14 : ℝ) ≤ 1 / 2 * ((4e-6) ^ 2 / (3 / 4)) := by norm_num
      _ ≤ _ := by gcongr
  refine not_psd_of_corner key ?_
  unfold SHO.truncate
  rw [Matrix.of_apply, if_neg]
  · have : (0 : ℝ) < 1e-14 := by norm_num
    linarith
  · rw [not_lt]
    exact hlow.trans (le_abs_self _)

end Verif
