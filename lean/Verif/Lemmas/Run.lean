import Verif.Lemmas.PosDef

/-!
# Linearity of filter and smoother runs in the data

A run is described only by its recursion, so the same lemmas serve the sequential and the integrated solver.
-/

set_option linter.unusedSectionVars false

namespace Verif
open Matrix

variable {n : Type} [Fintype n] [DecidableEq n]

/-- one filter step after the prediction: a reset (`some Z`) or a measurement -/
noncomputable def stepUpdate (Z : Option (Matrix n n ℝ)) (H : Matrix (Fin 1) n ℝ) (R y : ℝ) (m : n → ℝ) (P : Matrix n n ℝ) :
    FilterOut n :=
  match Z with
  | some Z => ⟨Z *ᵥ m, Z * P * Zᵀ, m, P, 0, 0⟩
  | none => kalmanUpdate H R y m P

/-- `kf` obeys the filter recursion -/
structure Run (P1 : Matrix n n ℝ) (T Q : ℕ → Matrix n n ℝ) (Z : ℕ → Option (Matrix n n ℝ)) (H : ℕ → Matrix (Fin 1) n ℝ)
    (R y : ℕ → ℝ) (kf : ℕ → FilterOut n) : Prop where
  zero_m : (kf 0).mPred = 0
  zero_P : (kf 0).PPred = P1
  succ_m : ∀ k, (kf (k + 1)).mPred = T k *ᵥ (kf k).m
  succ_P : ∀ k, (kf (k + 1)).PPred = T k * (kf k).P * (T k)ᵀ + Q k
  upd : ∀ k, kf k = stepUpdate (Z k) (H k) (R k) (y k) (kf k).mPred (kf k).PPred

/-- the state the smoother starts from: before the reset, after the measurement -/
def Run.base (Z : ℕ → Option (Matrix n n ℝ)) (kf : ℕ → FilterOut n) (k : ℕ) : StateMP n :=
  match Z k with
  | some _ => ⟨(kf k).mPred, (kf k).PPred⟩
  | none => ⟨(kf k).m, (kf k).P⟩

/-- `sm` obeys the smoother recursion -/
structure Back (N : ℕ) (T : ℕ → Matrix n n ℝ) (Z : ℕ → Option (Matrix n n ℝ)) (kf : ℕ → FilterOut n)
    (sm : ℕ → StateMP n) : Prop where
  last_m : (sm (N - 1)).m = (kf (N - 1)).m
  last_P : (sm (N - 1)).P = (kf (N - 1)).P
  step_m : ∀ k, k + 1 < N → (sm k).m = (Run.base Z kf k).m +
    (solve (kf (k + 1)).PPredᵀ ((Run.base Z kf k).P * (T k)ᵀ)ᵀ)ᵀ *ᵥ ((sm (k + 1)).m - (kf (k + 1)).mPred)
  step_P : ∀ k, k + 1 < N → (sm k).P = (Run.base Z kf k).P +
    (solve (kf (k + 1)).PPredᵀ ((Run.base Z kf k).P * (T k)ᵀ)ᵀ)ᵀ * ((sm (k + 1)).P - (kf (k + 1)).PPred) *
      ((solve (kf (k + 1)).PPredᵀ ((Run.base Z kf k).P * (T k)ᵀ)ᵀ)ᵀ)ᵀ

theorem gain_indep (H : Matrix (Fin 1) n ℝ) (R y y' : ℝ) (m m' : n → ℝ) (P : Matrix n n ℝ) :
    gain H R y m P = gain H R y' m' P := rfl

theorem stepUpdate_cov (Z : Option (Matrix n n ℝ)) (H : Matrix (Fin 1) n ℝ) (R y y' : ℝ) (m m' : n → ℝ) (P : Matrix n n ℝ) :
    (stepUpdate Z H R y m P).P = (stepUpdate Z H R y' m' P).P ∧ (stepUpdate Z H R y m P).S = (stepUpdate Z H R y' m' P).S := by
  cases Z <;> exact ⟨rfl, rfl⟩

theorem stepUpdate_linear (Z : Option (Matrix n n ℝ)) (H : Matrix (Fin 1) n ℝ) (R y y' a b : ℝ) (m m' : n → ℝ)
    (P : Matrix n n ℝ) : (stepUpdate Z H R (a * y + b * y') (a • m + b • m') P).m =
      a • (stepUpdate Z H R y m P).m + b • (stepUpdate Z H R y' m' P).m := by
  cases Z with
  | some Z => show Z *ᵥ _ = a • (Z *ᵥ m) + b • (Z *ᵥ m'); rw [mulVec_add, mulVec_smul, mulVec_smul]
  | none =>
    show (kalmanUpdate _ _ _ _ _).m = a • (kalmanUpdate _ _ _ _ _).m + b • (kalmanUpdate _ _ _ _ _).m
    rw [update_m, update_m, update_m, gain_indep H R (a * y + b * y') 0 _ 0 P, gain_indep H R y 0 _ 0 P, gain_indep H R y' 0 _ 0 P]
    funext i
    simp only [Pi.add_apply, Pi.smul_apply, smul_eq_mul, mulVec_add, mulVec_smul]
    ring

namespace Run
variable {P1 : Matrix n n ℝ} {T Q : ℕ → Matrix n n ℝ} {Z : ℕ → Option (Matrix n n ℝ)} {H : ℕ → Matrix (Fin 1) n ℝ}
    {R y y' y'' : ℕ → ℝ} {kf kf' kf'' : ℕ → FilterOut n}

theorem cov_indep (r : Run P1 T Q Z H R y kf) (r' : Run P1 T Q Z H R y' kf') (j : ℕ) :
    (kf j).PPred = (kf' j).PPred ∧ (kf j).P = (kf' j).P ∧ (kf j).S = (kf' j).S := by
  have upd : ∀ j, (kf j).PPred = (kf' j).PPred → (kf j).P = (kf' j).P ∧ (kf j).S = (kf' j).S := by
    intro j h
    rw [r.upd j, r'.upd j, h]
    exact stepUpdate_cov _ _ _ _ _ _ _ _
  have key : (kf j).PPred = (kf' j).PPred := by
    induction j with
    | zero => rw [r.zero_P, r'.zero_P]
    | succ j ih => rw [r.succ_P, r'.succ_P, (upd j ih).1]
  exact ⟨key, upd j key⟩

theorem mean_linear (r : Run P1 T Q Z H R y kf) (r' : Run P1 T Q Z H R y' kf') (r'' : Run P1 T Q Z H R y'' kf'') {a b : ℝ}
    (h : ∀ i, y'' i = a * y i + b * y' i) (j : ℕ) :
    (kf'' j).mPred = a • (kf j).mPred + b • (kf' j).mPred ∧ (kf'' j).m = a • (kf j).m + b • (kf' j).m := by
  have upd : ∀ j, (kf'' j).mPred = a • (kf j).mPred + b • (kf' j).mPred → (kf'' j).m = a • (kf j).m + b • (kf' j).m := by
    intro j hj
    have c1 := (r.cov_indep r'' j).1
    have c2 := (r'.cov_indep r'' j).1
    rw [r.upd j, r'.upd j, r''.upd j, c1, c2, hj, h]
    exact stepUpdate_linear _ _ _ _ _ _ _ _ _ _
  have key : (kf'' j).mPred = a • (kf j).mPred + b • (kf' j).mPred := by
    induction j with
    | zero => rw [r.zero_m, r'.zero_m, r''.zero_m]; simp
    | succ j ih => rw [r.succ_m, r'.succ_m, r''.succ_m, upd j ih, mulVec_add, mulVec_smul, mulVec_smul]
  exact ⟨key, upd j key⟩

theorem base_cov (r : Run P1 T Q Z H R y kf) (r' : Run P1 T Q Z H R y' kf') (j : ℕ) :
    (Run.base Z kf j).P = (Run.base Z kf' j).P := by
  unfold Run.base
  cases Z j with
  | some _ => exact (r.cov_indep r' j).1
  | none => exact (r.cov_indep r' j).2.1

theorem base_linear (r : Run P1 T Q Z H R y kf) (r' : Run P1 T Q Z H R y' kf') (r'' : Run P1 T Q Z H R y'' kf'') {a b : ℝ}
    (h : ∀ i, y'' i = a * y i + b * y' i) (j : ℕ) :
    (Run.base Z kf'' j).m = a • (Run.base Z kf j).m + b • (Run.base Z kf' j).m := by
  unfold Run.base
  cases Z j with
  | some _ => exact (r.mean_linear r' r'' h j).1
  | none => exact (r.mean_linear r' r'' h j).2

end Run

theorem gain_linear (G : Matrix n n ℝ) (a b : ℝ) (m m' s s' p p' : n → ℝ) :
    (a • m + b • m') + G *ᵥ ((a • s + b • s') - (a • p + b • p')) = a • (m + G *ᵥ (s - p)) + b • (m' + G *ᵥ (s' - p')) := by
  simp only [mulVec_sub, mulVec_add, mulVec_smul, smul_add, smul_sub]
  abel

namespace Back
variable {P1 : Matrix n n ℝ} {N : ℕ} {T TB Q : ℕ → Matrix n n ℝ} {Z : ℕ → Option (Matrix n n ℝ)} {H : ℕ → Matrix (Fin 1) n ℝ}
    {R y y' y'' : ℕ → ℝ} {kf kf' kf'' : ℕ → FilterOut n} {sm sm' sm'' : ℕ → StateMP n}

theorem cov_indep (r : Run P1 T Q Z H R y kf) (r' : Run P1 T Q Z H R y' kf') (s : Back N TB Z kf sm) (s' : Back N TB Z kf' sm')
    {j : ℕ} (hj : j < N) : (sm j).P = (sm' j).P := by
  obtain ⟨d, rfl⟩ : ∃ d, j = N - 1 - d := ⟨N - 1 - j, by omega⟩
  induction d with
  | zero => rw [Nat.sub_zero, s.last_P, s'.last_P]; exact (r.cov_indep r' _).2.1
  | succ d ih =>
    by_cases hd : N - 1 - d = 0
    · have : N - 1 - (d + 1) = N - 1 - d := by omega
      rw [this]; exact ih (by omega)
    · have hk1 : N - 1 - (d + 1) + 1 = N - 1 - d := by omega
      set k := N - 1 - (d + 1) with hkdef
      have i1 := ih (by omega)
      rw [← hk1] at i1
      rw [s.step_P k (by omega), s'.step_P k (by omega), i1, r.base_cov r' k, (r.cov_indep r' (k + 1)).1]

theorem linear (r : Run P1 T Q Z H R y kf) (r' : Run P1 T Q Z H R y' kf') (r'' : Run P1 T Q Z H R y'' kf'')
    (s : Back N TB Z kf sm) (s' : Back N TB Z kf' sm') (s'' : Back N TB Z kf'' sm'') {a b : ℝ}
    (h : ∀ i, y'' i = a * y i + b * y' i) {j : ℕ} (hj : j < N) : (sm'' j).m = a • (sm j).m + b • (sm' j).m := by
  obtain ⟨d, rfl⟩ : ∃ d, j = N - 1 - d := ⟨N - 1 - j, by omega⟩
  induction d with
  | zero => rw [Nat.sub_zero, s.last_m, s'.last_m, s''.last_m]; exact (r.mean_linear r' r'' h _).2
  | succ d ih =>
    by_cases hd : N - 1 - d = 0
    · have : N - 1 - (d + 1) = N - 1 - d := by omega
      rw [this]; exact ih (by omega)
    · have hk1 : N - 1 - (d + 1) + 1 = N - 1 - d := by omega
      set k := N - 1 - (d + 1) with hkdef
      have i1 := ih (by omega)
      rw [← hk1] at i1
      rw [s.step_m k (by omega), s'.step_m k (by omega), s''.step_m k (by omega), i1, r.base_cov r'' k, r'.base_cov r'' k,
        (r.cov_indep r'' (k + 1)).1, (r'.cov_indep r'' (k + 1)).1, r.base_linear r' r'' h k, (r.mean_linear r' r'' h (k + 1)).1]
      exact gain_linear _ _ _ _ _ _ _ _ _

end Back

end Verif
