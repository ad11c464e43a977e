import Verif.Lemmas.KernelBase
import Verif.Lemmas.MatLit
import Mathlib.Analysis.SpecialFunctions.ExpDeriv

/-! # `Exp`, `Matern32`, `Matern52`: matrix exponential, process noise, Lyapunov equation -/

set_option linter.unusedSectionVars false

namespace Verif
open Matrix

theorem HasDerivAt.cast {f : ℝ → ℝ} {a b t : ℝ} (h : HasDerivAt f a t) (e : a = b) : HasDerivAt f b t := e ▸ h

theorem hasDerivAt_exp_mul (c t : ℝ) : HasDerivAt (fun s => Real.exp (c * s)) (c * Real.exp (c * t)) t :=
  HasDerivAt.cast ((hasDerivAt_id t).const_mul c).exp (by simp [mul_comm])

/-- an entry `exp(c s) * p(s)` -/
theorem hasDerivAt_exp_mul_mul (c : ℝ) {p : ℝ → ℝ} {p' t : ℝ} (hp : HasDerivAt p p' t) :
    HasDerivAt (fun s => Real.exp (c * s) * p s) (Real.exp (c * t) * (c * p t + p')) t :=
  HasDerivAt.cast ((hasDerivAt_exp_mul c t).mul hp) (by ring)

/-- derivative of a polynomial of degree at most two -/
theorem hasDerivAt_quadratic (a b c t : ℝ) : HasDerivAt (fun s : ℝ => a + b * s + c * s ^ 2) (b + 2 * c * t) t := by
  have h1 := (hasDerivAt_id t).const_mul b
  have h2 := ((hasDerivAt_pow 2 t)).const_mul c
  exact HasDerivAt.cast ((h1.const_add a).add h2) (by simp; ring)

/-- derivative of `exp(c s) * (polynomial of degree at most two)` -/
theorem hasDerivAt_exp_quadratic (l a b c t : ℝ) {p : ℝ → ℝ} {p' : ℝ} (hp : ∀ s, p s = a + b * s + c * s ^ 2)
    (h' : p' = Real.exp (l * t) * (l * (a + b * t + c * t ^ 2) + (b + 2 * c * t))) :
    HasDerivAt (fun s => Real.exp (l * s) * p s) p' t := by
  simp only [hp]
  exact HasDerivAt.cast (hasDerivAt_exp_mul_mul l (hasDerivAt_quadratic a b c t)) h'.symm

theorem pos_smul_pd {n : Type*} [Fintype n] {M : Matrix n n ℝ} (h : M.PosDef) {c : ℝ} (hc : 0 < c) : (c • M).PosDef := by
  rw [pd_iff] at h ⊢
  refine ⟨by rw [transpose_smul, h.1], fun x hx => ?_⟩
  rw [smul_mulVec, dotProduct_smul, smul_eq_mul]
  exact mul_pos hc (h.2 x hx)

theorem scalar_psd {c : ℝ} (hc : 0 ≤ c) : (!![c] : Matrix (Fin 1) (Fin 1) ℝ).PosSemidef := by
  rw [psd_iff]
  exact ⟨tr1 c, fun x => by rw [quad1]; positivity⟩

theorem diag2_pd {a b : ℝ} (ha : 0 < a) (hb : 0 < b) : (!![a, 0; 0, b] : Matrix (Fin 2) (Fin 2) ℝ).PosDef := by
  rw [pd_iff]
  refine ⟨tr2 .., fun x hx => ?_⟩
  rw [quad2]
  rcases fin2_ne_zero hx with h | h
  · have : 0 < x 0 ^ 2 := by positivity
    nlinarith [sq_nonneg (x 1), mul_pos ha this, mul_nonneg hb.le (sq_nonneg (x 1))]
  · have : 0 < x 1 ^ 2 := by positivity
    nlinarith [sq_nonneg (x 0), mul_pos hb this, mul_nonneg ha.le (sq_nonneg (x 0))]

section Exp
variable (scale sigma : ℝ)

theorem Exp.A_expm (dt : ℝ) : Exp.A scale dt = NormedSpace.exp (dt • (!![-(1 / scale)] : Matrix (Fin 1) (Fin 1) ℝ)) := by
  refine expm_unique (n := Fin 1) !![-(1 / scale)] (Exp.A scale) ?_ ?_ dt
  · unfold Exp.A; rw [one1]; exact ext1 (by simp)
  · intro t
    refine (mderiv1 (f := fun s => Real.exp (-s / scale)) (f' := -(1 / scale) * Real.exp (-t / scale)) ?_).congr ?_
    · have := hasDerivAt_exp_mul (-(1 / scale)) t
      have e : ∀ s, Real.exp (-(1 / scale) * s) = Real.exp (-s / scale) := fun s => by congr 1; ring
      simpa only [e] using this
    · unfold Exp.A; rw [mul1]

theorem Exp.Q_eq (dt : ℝ) : Exp.Q scale sigma dt =
    sigma ^ 2 • !![1] - Exp.A scale dt * (sigma ^ 2 • !![1]) * (Exp.A scale dt)ᵀ := by
  have e : Real.exp (-2 * dt * (1 / scale)) = Real.exp (-dt / scale) * Real.exp (-dt / scale) := by
    rw [← Real.exp_add]; congr 1; ring
  simp only [Exp.Q, Exp.A, e, smul1, mul1, tr1, sub1]
  exact ext1 (by ring)

theorem Exp.lyapunov : (!![-(1 / scale)] : Matrix (Fin 1) (Fin 1) ℝ) * (sigma ^ 2 • !![1]) +
    (sigma ^ 2 • !![1]) * !![-(1 / scale)]ᵀ + !![1] * !![2 * (1 / scale) * sigma ^ 2] * !![1]ᵀ = 0 := by
  simp only [smul1, mul1, tr1, add1, zero1]
  exact ext1 (by ring)

theorem Exp.Pinf_pd (hσ : sigma ≠ 0) : (sigma ^ 2 • (!![1] : Matrix (Fin 1) (Fin 1) ℝ)).PosDef := by
  refine pos_smul_pd ?_ (by positivity)
  rw [← one1]
  exact Matrix.PosDef.one

theorem expKernel_regular (scale sigma : ℝ) (name : String) (hs : 0 < scale) (hσ : sigma ≠ 0) :
    (expKernel scale sigma name).Regular :=
  SSM.Regular.of_lyapunov _ _ (fun X1 X2 => Exp.A_expm scale _) (fun s _ => Exp.Q_eq scale sigma _)
    (Exp.Pinf_pd sigma hσ) (psd_conj (scalar_psd (c := 2 * (1 / scale) * sigma ^ 2) (by positivity)) !![1])
    (Exp.lyapunov scale sigma) (defaultObs_const _ _ fun _ => rfl)

end Exp

section M32
variable (lam sigma : ℝ)

theorem Matern32.A_expm (dt : ℝ) : Matern32.A lam dt = NormedSpace.exp (dt • Matern32.F lam) := by
  refine expm_unique (Matern32.F lam) (Matern32.A lam) ?_ ?_ dt
  · simp only [Matern32.A, smul2, one2]; exact ext2 (by simp) (by simp) (by simp) (by simp)
  · intro t
    show MDeriv (fun s => Matern32.A lam s) _ t
    simp only [Matern32.A, smul2, Matern32.F, mul2]
    refine mderiv2 ?_ ?_ ?_ ?_
    · exact hasDerivAt_exp_quadratic (-lam) 1 lam 0 t (fun s => by ring) (by ring)
    · exact hasDerivAt_exp_quadratic (-lam) 0 1 0 t (fun s => by ring) (by ring)
    · exact hasDerivAt_exp_quadratic (-lam) 0 (-lam ^ 2) 0 t (fun s => by ring) (by ring)
    · exact hasDerivAt_exp_quadratic (-lam) 1 (-lam) 0 t (fun s => by ring) (by ring)

theorem Matern32.Q_eq (dt : ℝ) : Matern32.Q lam sigma dt =
    Matern32.Pinf lam sigma - Matern32.A lam dt * Matern32.Pinf lam sigma * (Matern32.A lam dt)ᵀ := by
  have e : Real.exp (-(2 * lam * dt)) = Real.exp (-lam * dt) * Real.exp (-lam * dt) := by
    rw [← Real.exp_add]; congr 1; ring
  simp only [Matern32.Q, Matern32.A, Matern32.Pinf, e, smul2, mul2, tr2, sub2]
  exact ext2 (by ring) (by ring) (by ring) (by ring)

theorem Matern32.lyapunov : Matern32.F lam * Matern32.Pinf lam sigma +
    Matern32.Pinf lam sigma * (Matern32.F lam)ᵀ +
    (!![0; 1] : Matrix (Fin 2) (Fin 1) ℝ) * !![4 * lam ^ 3 * sigma ^ 2] * (!![0; 1] : Matrix (Fin 2) (Fin 1) ℝ)ᵀ = 0 := by
  rw [noise2]
  simp only [Matern32.F, Matern32.Pinf, smul2, mul2, tr2, add2, zero2]
  exact ext2 (by ring) (by ring) (by ring) (by ring)

theorem Matern32.Pinf_pd (hl : lam ≠ 0) (hσ : sigma ≠ 0) : (Matern32.Pinf lam sigma).PosDef :=
  pos_smul_pd (diag2_pd one_pos (by positivity)) (by positivity)

theorem matern32_regular (scale sigma : ℝ) (name : String) (hs : 0 < scale) (hσ : sigma ≠ 0) :
    (matern32 scale sigma name).Regular := by
  have hl : 0 < Matern32.lam scale := by unfold Matern32.lam; positivity
  exact SSM.Regular.of_lyapunov _ _ (fun X1 X2 => Matern32.A_expm _ _) (fun s _ => Matern32.Q_eq _ sigma _)
    (Matern32.Pinf_pd _ sigma hl.ne' hσ) (psd_conj (scalar_psd (by positivity)) _) (Matern32.lyapunov _ sigma)
    (defaultObs_const _ _ fun _ => rfl)

end M32

section M52
variable (lam sigma : ℝ)

theorem Matern52.A_expm (dt : ℝ) : Matern52.A lam dt = NormedSpace.exp (dt • Matern52.F lam) := by
  refine expm_unique (Matern52.F lam) (Matern52.A lam) ?_ ?_ dt
  · simp only [Matern52.A, smul3, one3]
    exact ext3 (by simp) (by simp) (by simp) (by simp) (by simp) (by simp) (by simp) (by simp) (by simp)
  · intro t
    show MDeriv (fun s => Matern52.A lam s) _ t
    simp only [Matern52.A, smul3, Matern52.F, mul3]
    refine mderiv3 ?_ ?_ ?_ ?_ ?_ ?_ ?_ ?_ ?_
    · exact hasDerivAt_exp_quadratic (-lam) 1 lam (lam ^ 2 / 2) t (fun s => by ring) (by ring)
    · exact hasDerivAt_exp_quadratic (-lam) 0 1 lam t (fun s => by ring) (by ring)
    · exact hasDerivAt_exp_quadratic (-lam) 0 0 (1 / 2) t (fun s => by ring) (by ring)
    · exact hasDerivAt_exp_quadratic (-lam) 0 0 (-lam ^ 3 / 2) t (fun s => by ring) (by ring)
    · exact hasDerivAt_exp_quadratic (-lam) 1 lam (-lam ^ 2) t (fun s => by ring) (by ring)
    · exact hasDerivAt_exp_quadratic (-lam) 0 1 (-lam / 2) t (fun s => by ring) (by ring)
    · exact hasDerivAt_exp_quadratic (-lam) 0 (-lam ^ 3) (lam ^ 4 / 2) t (fun s => by ring) (by ring)
    · exact hasDerivAt_exp_quadratic (-lam) 0 (-3 * lam ^ 2) (lam ^ 3) t (fun s => by ring) (by ring)
    · exact hasDerivAt_exp_quadratic (-lam) 1 (-2 * lam) (lam ^ 2 / 2) t (fun s => by ring) (by ring)

theorem Matern52.Q_eq (dt : ℝ) : Matern52.Q lam sigma dt =
    Matern52.Pinf lam sigma - Matern52.A lam dt * Matern52.Pinf lam sigma * (Matern52.A lam dt)ᵀ := by
  have e : Real.exp (-2 * (dt * lam)) = Real.exp (-lam * dt) * Real.exp (-lam * dt) := by
    rw [← Real.exp_add]; congr 1; ring
  simp only [Matern52.Q, Matern52.A, Matern52.Pinf, e, smul3, mul3, tr3, sub3]
  exact ext3 (by ring) (by ring) (by ring) (by ring) (by ring) (by ring) (by ring) (by ring) (by ring)

theorem Matern52.lyapunov : Matern52.F lam * Matern52.Pinf lam sigma +
    Matern52.Pinf lam sigma * (Matern52.F lam)ᵀ +
    (!![0; 0; 1] : Matrix (Fin 3) (Fin 1) ℝ) * !![16 * lam ^ 5 * sigma ^ 2 / 3] *
      (!![0; 0; 1] : Matrix (Fin 3) (Fin 1) ℝ)ᵀ = 0 := by
  rw [noise3]
  simp only [Matern52.F, Matern52.Pinf, smul3, mul3, tr3, add3, zero3]
  exact ext3 (by ring) (by ring) (by ring) (by ring) (by ring) (by ring) (by ring) (by ring) (by ring)

theorem Matern52.Pinf_pd (hl : lam ≠ 0) (hσ : sigma ≠ 0) : (Matern52.Pinf lam sigma).PosDef := by
  refine pos_smul_pd ?_ (by positivity)
  rw [pd_iff]
  refine ⟨tr3 .., fun x hx => ?_⟩
  rw [quad3]
  have e : (1 : ℝ) * x 0 ^ 2 + lam ^ 2 / 3 * x 1 ^ 2 + (lam ^ 2) ^ 2 * x 2 ^ 2 + (0 + 0) * (x 0 * x 1) +
      (-(lam ^ 2 / 3) + -(lam ^ 2 / 3)) * (x 0 * x 2) + (0 + 0) * (x 1 * x 2) =
      (x 0 - lam ^ 2 / 3 * x 2) ^ 2 + lam ^ 2 / 3 * x 1 ^ 2 + 8 / 9 * lam ^ 4 * x 2 ^ 2 := by ring
  rw [e]
  by_cases h2 : x 2 = 0
  · by_cases h1 : x 1 = 0
    · have h0 : x 0 ≠ 0 := by
        rcases fin3_ne_zero hx with h | h | h
        · exact h
        · exact absurd h1 h
        · exact absurd h2 h
      rw [h2, h1]; simp; positivity
    · positivity
  · positivity

theorem matern52_regular (scale sigma : ℝ) (name : String) (hs : 0 < scale) (hσ : sigma ≠ 0) :
    (matern52 scale sigma name).Regular := by
  have hl : 0 < Matern52.lam scale := by unfold Matern52.lam; positivity
  exact SSM.Regular.of_lyapunov _ _ (fun X1 X2 => Matern52.A_expm _ _) (fun s _ => Matern52.Q_eq _ sigma _)
    (Matern52.Pinf_pd _ sigma hl.ne' hσ) (psd_conj (scalar_psd (by positivity)) _) (Matern52.lyapunov _ sigma)
    (defaultObs_const _ _ fun _ => rfl)

end M52

end Verif
