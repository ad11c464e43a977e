import Verif.Lemmas.KernelExpMatern
import Mathlib.Analysis.SpecialFunctions.Trigonometric.Deriv
import Mathlib.Analysis.SpecialFunctions.Trigonometric.DerivHyp

/-! # `SHO`, `Cosine` and the periodic terms -/

set_option linter.unusedSectionVars false

namespace Verif
open Matrix

theorem hasDerivAt_sin_mul (c t : ℝ) : HasDerivAt (fun s => Real.sin (c * s)) (c * Real.cos (c * t)) t :=
  HasDerivAt.cast ((hasDerivAt_id t).const_mul c).sin (by simp [mul_comm])
theorem hasDerivAt_cos_mul (c t : ℝ) : HasDerivAt (fun s => Real.cos (c * s)) (-(c * Real.sin (c * t))) t :=
  HasDerivAt.cast ((hasDerivAt_id t).const_mul c).cos (by simp [mul_comm])
theorem hasDerivAt_sinh_mul (c t : ℝ) : HasDerivAt (fun s => Real.sinh (c * s)) (c * Real.cosh (c * t)) t :=
  HasDerivAt.cast ((hasDerivAt_id t).const_mul c).sinh (by simp [mul_comm])
theorem hasDerivAt_cosh_mul (c t : ℝ) : HasDerivAt (fun s => Real.cosh (c * s)) (c * Real.sinh (c * t)) t :=
  HasDerivAt.cast ((hasDerivAt_id t).const_mul c).cosh (by simp [mul_comm])

theorem hasDerivAt_exp_trig (l ν a b t : ℝ) {p : ℝ → ℝ} {p' : ℝ}
    (hp : ∀ s, p s = a * Real.cos (ν * s) + b * Real.sin (ν * s))
    (h' : p' = Real.exp (l * t) * ((l * a + ν * b) * Real.cos (ν * t) + (l * b - ν * a) * Real.sin (ν * t))) :
    HasDerivAt (fun s => Real.exp (l * s) * p s) p' t := by
  simp only [hp]
  exact HasDerivAt.cast (hasDerivAt_exp_mul_mul l (((hasDerivAt_cos_mul ν t).const_mul a).add
    ((hasDerivAt_sin_mul ν t).const_mul b))) (by rw [h']; ring)

theorem hasDerivAt_exp_hyp (l ν a b t : ℝ) {p : ℝ → ℝ} {p' : ℝ}
    (hp : ∀ s, p s = a * Real.cosh (ν * s) + b * Real.sinh (ν * s))
    (h' : p' = Real.exp (l * t) * ((l * a + ν * b) * Real.cosh (ν * t) + (l * b + ν * a) * Real.sinh (ν * t))) :
    HasDerivAt (fun s => Real.exp (l * s) * p s) p' t := by
  simp only [hp]
  exact HasDerivAt.cast (hasDerivAt_exp_mul_mul l (((hasDerivAt_cosh_mul ν t).const_mul a).add
    ((hasDerivAt_sinh_mul ν t).const_mul b))) (by rw [h']; ring)

namespace SHO
variable (w q sigma : ℝ)

theorem Acrit_expm (dt : ℝ) : Acrit w dt = NormedSpace.exp (dt • F w 0.5) := by
  have : Acrit w dt = Matern32.A w dt := rfl
  rw [this, Matern32.A_expm]
  congr 2
  unfold Matern32.F F
  exact ext2 rfl rfl rfl (by ring)

theorem Qcrit_eq (dt : ℝ) : Qcrit w sigma dt = Pinf w sigma - Acrit w dt * Pinf w sigma * (Acrit w dt)ᵀ := by
  have h := Matern32.Q_eq w sigma dt
  have e1 : Acrit w dt = Matern32.A w dt := rfl
  have e2 : Pinf w sigma = Matern32.Pinf w sigma := rfl
  rw [e1, e2, ← h]
  unfold Qcrit Matern32.Q
  simp only [smul2]
  exact ext2 (by ring) (by ring) (by ring) (by ring)

variable {w q}

theorem eta_sq_under (hq : 1 / 2 < q) : eta q ^ 2 = 1 - 1 / (4 * q ^ 2) := by
  unfold eta
  have h : (0 : ℝ) ≤ 1 - 1 / (4 * q ^ 2) := by
    have : 1 / (4 * q ^ 2) ≤ 1 := by rw [div_le_one (by positivity)]; nlinarith
    linarith
  rw [abs_of_nonneg h, Real.sq_sqrt h]

theorem eta_pos_under (hq : 1 / 2 < q) : 0 < eta q := by
  unfold eta
  have h : (0 : ℝ) < 1 - 1 / (4 * q ^ 2) := by
    have : 1 / (4 * q ^ 2) < 1 := by rw [div_lt_one (by positivity)]; nlinarith
    linarith
  rw [abs_of_pos h]; exact Real.sqrt_pos.2 h

theorem eta_sq_over (hq0 : 0 < q) (hq : q < 1 / 2) : eta q ^ 2 = 1 / (4 * q ^ 2) - 1 := by
  unfold eta
  have h : (0 : ℝ) ≤ 1 / (4 * q ^ 2) - 1 := by
    have : 1 ≤ 1 / (4 * q ^ 2) := by rw [le_div_iff₀ (by positivity)]; nlinarith
    linarith
  rw [abs_sub_comm, abs_of_nonneg h, Real.sq_sqrt h]

theorem eta_pos_over (hq0 : 0 < q) (hq : q < 1 / 2) : 0 < eta q := by
  unfold eta
  have h : (0 : ℝ) < 1 / (4 * q ^ 2) - 1 := by
    have : 1 < 1 / (4 * q ^ 2) := by rw [lt_div_iff₀ (by positivity)]; nlinarith
    linarith
  rw [abs_sub_comm, abs_of_pos h]; exact Real.sqrt_pos.2 h

theorem Aunder_expm (hw : w ≠ 0) (hq : 1 / 2 < q) (dt : ℝ) : Aunder w q dt = NormedSpace.exp (dt • F w q) := by
  have hn := eta_sq_under hq
  have hn0 := (eta_pos_under hq).ne'
  have hq0 : q ≠ 0 := by positivity
  have h4 : 4 * q ^ 2 * eta q ^ 2 = 4 * q ^ 2 - 1 := by rw [hn]; field_simp
  refine expm_unique (F w q) (Aunder w q) ?_ ?_ dt
  · simp only [Aunder, smul2, one2]; exact ext2 (by simp) (by simp) (by simp) (by simp)
  · intro t
    show MDeriv (fun s => Aunder w q s) _ t
    have e1 : ∀ s, Real.exp (-0.5 * w * s / q) = Real.exp ((-w / (2 * q)) * s) := fun s => by
      congr 1; ring
    simp only [Aunder, smul2, F, mul2, e1]
    set n := eta q
    set E := Real.exp (-w / (2 * q) * t) with hE
    set co := Real.cos (n * w * t) with hco
    set si := Real.sin (n * w * t) with hsi
    refine mderiv2 ?_ ?_ ?_ ?_
    · refine hasDerivAt_exp_trig (-w / (2 * q)) (n * w) 1 (1 / (2 * n * q)) t (fun s => by ring) ?_
      rw [← hE, ← hco, ← hsi]
      field_simp
      linear_combination E * w * si * h4
    · refine hasDerivAt_exp_trig (-w / (2 * q)) (n * w) 0 (1 / (w * n)) t (fun s => by ring) ?_
      rw [← hE, ← hco, ← hsi]
      field_simp
      ring
    · refine hasDerivAt_exp_trig (-w / (2 * q)) (n * w) 0 (-w / n) t (fun s => by ring) ?_
      rw [← hE, ← hco, ← hsi]
      field_simp
      ring
    · refine hasDerivAt_exp_trig (-w / (2 * q)) (n * w) 1 (-1 / (2 * n * q)) t (fun s => by ring) ?_
      rw [← hE, ← hco, ← hsi]
      field_simp
      linear_combination E * si * h4

theorem Aover_expm (hw : w ≠ 0) (hq0 : 0 < q) (hq : q < 1 / 2) (dt : ℝ) :
    Aover w q dt = NormedSpace.exp (dt • F w q) := by
  have hn := eta_sq_over hq0 hq
  have hn0 := (eta_pos_over hq0 hq).ne'
  have h4 : 4 * q ^ 2 * eta q ^ 2 = 1 - 4 * q ^ 2 := by rw [hn]; field_simp
  refine expm_unique (F w q) (Aover w q) ?_ ?_ dt
  · simp only [Aover, smul2, one2]; exact ext2 (by simp) (by simp) (by simp) (by simp)
  · intro t
    show MDeriv (fun s => Aover w q s) _ t
    have e1 : ∀ s, Real.exp (-0.5 * w * s / q) = Real.exp ((-w / (2 * q)) * s) := fun s => by
      congr 1; ring
    simp only [Aover, smul2, F, mul2, e1]
    set n := eta q
    set E := Real.exp (-w / (2 * q) * t) with hE
    set co := Real.cosh (n * w * t) with hco
    set si := Real.sinh (n * w * t) with hsi
    refine mderiv2 ?_ ?_ ?_ ?_
    · refine hasDerivAt_exp_hyp (-w / (2 * q)) (n * w) 1 (1 / (2 * n * q)) t (fun s => by ring) ?_
      rw [← hE, ← hco, ← hsi]
      field_simp
      linear_combination -E * w * si * h4
    · refine hasDerivAt_exp_hyp (-w / (2 * q)) (n * w) 0 (1 / (w * n)) t (fun s => by ring) ?_
      rw [← hE, ← hco, ← hsi]
      field_simp
      ring
    · refine hasDerivAt_exp_hyp (-w / (2 * q)) (n * w) 0 (-w / n) t (fun s => by ring) ?_
      rw [← hE, ← hco, ← hsi]
      field_simp
      ring
    · refine hasDerivAt_exp_hyp (-w / (2 * q)) (n * w) 1 (-1 / (2 * n * q)) t (fun s => by ring) ?_
      rw [← hE, ← hco, ← hsi]
      field_simp
      linear_combination -E * si * h4

theorem Qunder_eq (hw : w ≠ 0) (hq : 1 / 2 < q) (dt : ℝ) : QunderExact w q sigma dt =
    Pinf w sigma - Aunder w q dt * Pinf w sigma * (Aunder w q dt)ᵀ := by
  have hn := eta_sq_under hq
  have hn0 := (eta_pos_under hq).ne'
  have hq0 : q ≠ 0 := by positivity
  have h4 : 4 * q ^ 2 * eta q ^ 2 = 4 * q ^ 2 - 1 := by rw [hn]; field_simp
  have e : Real.exp (-(w * dt / q)) = Real.exp (-0.5 * w * dt / q) * Real.exp (-0.5 * w * dt / q) := by
    rw [← Real.exp_add]; congr 1; ring
  simp only [QunderExact, Aunder, Pinf, e, smul2, mul2, tr2, sub2, Real.sin_two_mul]
  have hcs := Real.sin_sq_add_cos_sq (eta q * w * dt)
  set n := eta q
  set E := Real.exp (-0.5 * w * dt / q)
  set co := Real.cos (n * w * dt)
  set si := Real.sin (n * w * dt)
  refine ext2 ?_ ?_ ?_ ?_ <;> field_simp
  · linear_combination sigma ^ 2 * w * E ^ 2 * ((4 * n ^ 2 * q ^ 2) * hcs - si ^ 2 * h4)
  · ring
  · ring
  · linear_combination sigma ^ 2 * w * E ^ 2 * ((4 * n ^ 2 * q ^ 2) * hcs - si ^ 2 * h4)

theorem Qover_eq (hw : w ≠ 0) (hq0 : 0 < q) (hq : q < 1 / 2) (dt : ℝ) : Qover w q sigma dt =
    Pinf w sigma - Aover w q dt * Pinf w sigma * (Aover w q dt)ᵀ := by
  have hn := eta_sq_over hq0 hq
  have hn0 := (eta_pos_over hq0 hq).ne'
  have h4 : 4 * q ^ 2 * eta q ^ 2 = 1 - 4 * q ^ 2 := by rw [hn]; field_simp
  have e : Real.exp (-(w * dt / q)) = Real.exp (-0.5 * w * dt / q) * Real.exp (-0.5 * w * dt / q) := by
    rw [← Real.exp_add]; congr 1; ring
  simp only [Qover, Aover, Pinf, e, smul2, mul2, tr2, sub2, Real.sinh_two_mul]
  have hcs := Real.cosh_sq (eta q * w * dt)
  set n := eta q
  set E := Real.exp (-0.5 * w * dt / q)
  set co := Real.cosh (n * w * dt)
  set si := Real.sinh (n * w * dt)
  refine ext2 ?_ ?_ ?_ ?_ <;> field_simp
  · linear_combination sigma ^ 2 * w * E ^ 2 * ((4 * n ^ 2 * q ^ 2) * hcs + si ^ 2 * h4)
  · ring
  · ring
  · linear_combination sigma ^ 2 * w * E ^ 2 * ((4 * n ^ 2 * q ^ 2) * hcs + si ^ 2 * h4)

theorem lyapunov (w q : ℝ) : F w q * Pinf w sigma + Pinf w sigma * (F w q)ᵀ +
    (!![0; 1] : Matrix (Fin 2) (Fin 1) ℝ) * !![2 * w ^ 3 * sigma ^ 2 / q] * (!![0; 1] : Matrix (Fin 2) (Fin 1) ℝ)ᵀ = 0 := by
  rw [noise2]
  simp only [F, Pinf, smul2, mul2, tr2, add2, zero2]
  exact ext2 (by ring) (by ring) (by ring) (by ring)

theorem Pinf_pd {w sigma : ℝ} (hw : w ≠ 0) (hσ : sigma ≠ 0) : (Pinf w sigma).PosDef :=
  pos_smul_pd (diag2_pd one_pos (by positivity)) (by positivity)

theorem A_expm (hw : w ≠ 0) (hq0 : 0 < q) (hq : Genuine q) (dt : ℝ) : A w q dt = NormedSpace.exp (dt • F w q) := by
  unfold A
  rcases hq with hq | hq
  · rw [if_pos (by rw [hq]; unfold isCritical; norm_num), Acrit_expm]
    congr 2; rw [hq]; norm_num
  · rw [if_neg hq]
    have h5 : q ≠ 1 / 2 := fun h => hq (by rw [h]; unfold isCritical; norm_num)
    split_ifs with h
    · exact Aunder_expm hw (by norm_num at h ⊢; exact h) dt
    · refine Aover_expm hw hq0 (lt_of_le_of_ne ?_ h5) dt
      norm_num at h ⊢; exact h

end SHO

section cos

theorem rotation_expm (w dt : ℝ) : rotation (w * dt) = NormedSpace.exp (dt • (!![0, -w; w, 0] : Matrix (Fin 2) (Fin 2) ℝ)) := by
  refine expm_unique _ (fun s => rotation (w * s)) ?_ ?_ dt
  · simp only [rotation, one2]; exact ext2 (by simp) (by simp) (by simp) (by simp)
  · intro t
    simp only [rotation, mul2]
    refine mderiv2 (HasDerivAt.cast (hasDerivAt_cos_mul w t) (by ring)) (HasDerivAt.cast (hasDerivAt_sin_mul w t).neg (by ring))
      (HasDerivAt.cast (hasDerivAt_sin_mul w t) (by ring)) (HasDerivAt.cast (hasDerivAt_cos_mul w t) (by ring))

theorem rotation_conj (x c : ℝ) : rotation x * (c • (1 : Matrix (Fin 2) (Fin 2) ℝ)) * (rotation x)ᵀ = c • 1 := by
  simp only [rotation, one2, smul2, mul2, tr2]
  have := Real.sin_sq_add_cos_sq x
  refine ext2 ?_ ?_ ?_ ?_
  · linear_combination c * this
  · ring
  · ring
  · linear_combination c * this

theorem rotation_lyapunov (w c : ℝ) : (!![0, -w; w, 0] : Matrix (Fin 2) (Fin 2) ℝ) * (c • 1) + (c • 1) * !![0, -w; w, 0]ᵀ = 0 := by
  simp only [one2, smul2, mul2, tr2, add2, zero2]
  exact ext2 (by ring) (by ring) (by ring) (by ring)

theorem cosine_regular (scale sigma : ℝ) (name : String) (hσ : sigma ≠ 0) :
    (cosine scale sigma name).Regular := by
  refine SSM.Regular.of_lyapunov _ 0 (fun X1 X2 => rotation_expm _ _) (fun s _ => ?_)
    (pos_smul_pd Matrix.PosDef.one (by positivity)) Matrix.PosSemidef.zero
    (by rw [add_zero]; exact rotation_lyapunov _ _) (defaultObs_const _ _ fun _ => rfl)
  show (0 : Matrix (Fin 2) (Fin 2) ℝ) = sigma ^ 2 • 1 - rotation _ * (sigma ^ 2 • 1) * (rotation _)ᵀ
  rw [rotation_conj, sub_self]

end cos

end Verif
