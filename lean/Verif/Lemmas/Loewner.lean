import Verif.Lemmas.PosDef

/-!
# Loewner-order facts about the filter and smoother recursions

The covariance part of the Kalman and RTS recursions, for arbitrary transition matrices; the instantaneous and the
integrated solvers are both instances.
-/

set_option linter.unusedSectionVars false

namespace Verif
open Matrix

/-- Loewner order: `M ≤ M'` iff `M' - M` is positive semidefinite -/
def Loewner {n : Type*} [Fintype n] (M M' : Matrix n n ℝ) : Prop := (M' - M).PosSemidef

section
variable {n : Type*} [Fintype n]

theorem Loewner.refl (M : Matrix n n ℝ) : Loewner M M := by
  unfold Loewner; rw [sub_self]; exact Matrix.PosSemidef.zero

theorem Loewner.trans {M M' M'' : Matrix n n ℝ} (h : Loewner M M') (h' : Loewner M' M'') : Loewner M M'' := by
  unfold Loewner at *
  have := h'.add h
  rwa [sub_add_sub_cancel] at this

theorem Loewner.conj {m : Type*} [Fintype m] {M M' : Matrix n n ℝ} (h : Loewner M M') (A : Matrix m n ℝ) :
    Loewner (A * M * Aᵀ) (A * M' * Aᵀ) := by
  unfold Loewner at *
  have := psd_conj h A
  rwa [Matrix.mul_sub, Matrix.sub_mul] at this

theorem Loewner.add_right {M M' : Matrix n n ℝ} (h : Loewner M M') (Q : Matrix n n ℝ) : Loewner (M + Q) (M' + Q) := by
  unfold Loewner at *; rwa [add_sub_add_right_eq_sub]

theorem Loewner.quad {M M' : Matrix n n ℝ} (h : Loewner M M') (H : Matrix (Fin 1) n ℝ) :
    (H * M * Hᵀ) 0 0 ≤ (H * M' * Hᵀ) 0 0 := by
  have := ((psd_iff _).1 h).2 (H 0)
  rw [← mul_row_apply, Matrix.mul_sub, Matrix.sub_mul, Matrix.sub_apply] at this
  linarith

theorem psd_quad {M : Matrix n n ℝ} (h : M.PosSemidef) (H : Matrix (Fin 1) n ℝ) : 0 ≤ (H * M * Hᵀ) 0 0 := by
  rw [mul_row_apply]; exact ((psd_iff _).1 h).2 (H 0)

end

section smooth
variable {n : Type*} [Fintype n] [DecidableEq n] {Pf T Q Pp G Ps : Matrix n n ℝ}

/-- the part of the filtered covariance which the future cannot explain -/
theorem rts_gap (hPf : Pf.PosSemidef) (hQ : Q.PosSemidef) (hPp : Pp = T * Pf * Tᵀ + Q) (hG : G * Pp = Pf * Tᵀ) :
    (Pf - G * Pp * Gᵀ).PosSemidef := by
  have hs := psd_symm hPf
  have hps : Ppᵀ = Pp := by
    rw [hPp, transpose_add, transpose_mul, transpose_mul, transpose_transpose, hs, psd_symm hQ, Matrix.mul_assoc]
  have h2 : Pp * Gᵀ = T * Pf := by
    have := congrArg transpose hG
    rwa [transpose_mul, transpose_mul, transpose_transpose, hs, hps] at this
  have key : Pf - G * Pp * Gᵀ = (1 - G * T) * Pf * (1 - G * T)ᵀ + G * Q * Gᵀ := by
    have e1 : G * Q * Gᵀ = G * Pp * Gᵀ - G * (T * Pf * Tᵀ) * Gᵀ := by
      rw [hPp]; rw [Matrix.mul_add, Matrix.add_mul]; abel
    rw [e1, transpose_sub, transpose_one, transpose_mul, Matrix.sub_mul, Matrix.one_mul, Matrix.mul_sub, Matrix.mul_one,
      Matrix.sub_mul]
    have e2 : Pf * (Tᵀ * Gᵀ) = G * Pp * Gᵀ := by rw [← Matrix.mul_assoc, hG]
    have e3 : G * T * Pf = G * Pp * Gᵀ := by rw [Matrix.mul_assoc, ← h2, Matrix.mul_assoc]
    have e4 : G * T * Pf * (Tᵀ * Gᵀ) = G * (T * Pf * Tᵀ) * Gᵀ := by simp only [Matrix.mul_assoc]
    rw [e2, e4, e3]
    abel
  rw [key]
  exact (psd_conj hPf _).add (psd_conj hQ _)

theorem rts_psd (hPf : Pf.PosSemidef) (hQ : Q.PosSemidef) (hPp : Pp = T * Pf * Tᵀ + Q) (hG : G * Pp = Pf * Tᵀ)
    (hPs : Ps.PosSemidef) : (Pf + G * (Ps - Pp) * Gᵀ).PosSemidef := by
  have : Pf + G * (Ps - Pp) * Gᵀ = (Pf - G * Pp * Gᵀ) + G * Ps * Gᵀ := by
    rw [Matrix.mul_sub, Matrix.sub_mul]; abel
  rw [this]
  exact (rts_gap hPf hQ hPp hG).add (psd_conj hPs _)

theorem rts_le (h : Loewner Ps Pp) : Loewner (Pf + G * (Ps - Pp) * Gᵀ) Pf := by
  unfold Loewner at *
  have : Pf - (Pf + G * (Ps - Pp) * Gᵀ) = G * (Pp - Ps) * Gᵀ := by
    rw [← neg_sub Pp Ps, Matrix.mul_neg, Matrix.neg_mul]; abel
  rw [this]
  exact psd_conj h _

end smooth

section update
variable {n : Type} [Fintype n] [DecidableEq n] {H : Matrix (Fin 1) n ℝ} {R y : ℝ} {mPred : n → ℝ}
  {PPred : Matrix n n ℝ}

theorem update_psd' (hP : PPred.PosSemidef) (hR : 0 ≤ R) (hS : (H * PPred * Hᵀ) 0 0 + R ≠ 0) :
    (kalmanUpdate H R y mPred PPred).P.PosSemidef := by
  have h0 := psd_quad hP H
  have hS' : 0 < (H * PPred * Hᵀ) 0 0 + R := lt_of_le_of_ne (by linarith) hS.symm
  rw [psd_iff]
  refine ⟨update_symm (psd_symm hP), fun x => ?_⟩
  rw [update_quad hS]
  have hc := psd_cauchy hP x (H 0)
  have hx := ((psd_iff PPred).1 hP).2 x
  rw [sub_nonneg, div_le_iff₀ hS']
  rw [mul_row_apply]
  nlinarith [mul_nonneg hx hR]

/-- a measurement never increases the covariance -/
theorem update_le (hP : PPred.PosSemidef) (hR : 0 ≤ R) (hS : (H * PPred * Hᵀ) 0 0 + R ≠ 0) :
    Loewner (kalmanUpdate H R y mPred PPred).P PPred := by
  have h0 := psd_quad hP H
  have hS' : 0 < (H * PPred * Hᵀ) 0 0 + R := lt_of_le_of_ne (by linarith) hS.symm
  unfold Loewner
  rw [psd_iff]
  refine ⟨by rw [transpose_sub, psd_symm hP, update_symm (psd_symm hP)], fun x => ?_⟩
  rw [sub_mulVec, dotProduct_sub, update_quad hS]
  have : 0 ≤ (x ⬝ᵥ PPred *ᵥ H 0) ^ 2 / ((H * PPred * Hᵀ) 0 0 + R) := by positivity
  linarith

end update

/-- covariance part of a filter run -/
structure CovRec {n : Type*} [Fintype n] (N : ℕ) (T Q Pp Pf : ℕ → Matrix n n ℝ) : Prop where
  init : (Pp 0).PosSemidef
  Q_psd : ∀ k, k + 1 < N → (Q k).PosSemidef
  pred : ∀ k, k + 1 < N → Pp (k + 1) = T k * Pf k * (T k)ᵀ + Q k
  filt : ∀ k < N, (Pp k).PosSemidef → (Pf k).PosSemidef ∧ Loewner (Pf k) (Pp k)

namespace CovRec
variable {n : Type*} [Fintype n] [DecidableEq n] {N : ℕ} {T Q Pp Pf Ps : ℕ → Matrix n n ℝ}

theorem psd (h : CovRec N T Q Pp Pf) {k : ℕ} (hk : k < N) : (Pp k).PosSemidef ∧ (Pf k).PosSemidef := by
  induction k with
  | zero => exact ⟨h.init, (h.filt 0 hk h.init).1⟩
  | succ k ih =>
    have h1 : (Pp (k + 1)).PosSemidef := by
      rw [h.pred k hk]
      exact (psd_conj (ih (by omega)).2 _).add (h.Q_psd k hk)
    exact ⟨h1, (h.filt _ hk h1).1⟩

theorem filt_le (h : CovRec N T Q Pp Pf) {k : ℕ} (hk : k < N) : Loewner (Pf k) (Pp k) :=
  (h.filt k hk (h.psd hk).1).2

/-- the smoother's covariances are positive semidefinite and below the filtered ones -/
theorem smooth (h : CovRec N T Q Pp Pf) (last : Ps (N - 1) = Pf (N - 1))
    (step : ∀ k, k + 1 < N → ∃ G : Matrix n n ℝ, G * Pp (k + 1) = Pf k * (T k)ᵀ ∧
      Ps k = Pf k + G * (Ps (k + 1) - Pp (k + 1)) * Gᵀ) {k : ℕ} (hk : k < N) :
    (Ps k).PosSemidef ∧ Loewner (Ps k) (Pf k) := by
  obtain ⟨d, rfl⟩ : ∃ d, k = N - 1 - d := ⟨N - 1 - k, by omega⟩
  induction d with
  | zero =>
    rw [Nat.sub_zero, last]
    exact ⟨(h.psd (by omega)).2, Loewner.refl _⟩
  | succ d ih =>
    by_cases hd : N - 1 - d = 0
    · have : N - 1 - (d + 1) = N - 1 - d := by omega
      rw [this]; exact ih (by omega)
    · have hk1 : N - 1 - (d + 1) + 1 = N - 1 - d := by omega
      set k := N - 1 - (d + 1) with hkdef
      have ih' := ih (by omega)
      rw [← hk1] at ih'
      obtain ⟨G, hG, hP⟩ := step k (by omega)
      rw [hP]
      exact ⟨rts_psd (h.psd hk).2 (h.Q_psd k (by omega)) (h.pred k (by omega)) hG ih'.1,
        rts_le (ih'.2.trans (h.filt_le (by omega)))⟩

/-- if the prior is stationary, no predicted covariance exceeds it -/
theorem le_prior (h : CovRec N T Q Pp Pf) {P : Matrix n n ℝ} (h0 : Loewner (Pp 0) P)
    (hst : ∀ k, k + 1 < N → Loewner (T k * P * (T k)ᵀ + Q k) P) {k : ℕ} (hk : k < N) : Loewner (Pp k) P := by
  induction k with
  | zero => exact h0
  | succ k ih =>
    rw [h.pred k hk]
    exact ((((h.filt_le (by omega)).trans (ih (by omega))).conj _).add_right _).trans (hst k hk)

end CovRec

end Verif
