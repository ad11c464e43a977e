import Verif.Lemmas.Exact
import Verif.Lemmas.LogProb

/-!
# Runs of the sequential filter and smoother that coincide
-/

set_option linter.unusedSectionVars false

namespace Verif
open Matrix

section
variable {n : Type} [Fintype n] [DecidableEq n]
variable {A A' Q Q' : ℝ → ℝ → Matrix n n ℝ} {H H' : ℝ → Matrix (Fin 1) n ℝ} {R R' t t' y y' : Arr ℝ}
  {m0 : n → ℝ} {P0 : Matrix n n ℝ}

/-- two filter runs agree at step `j` if everything they read up to step `j` agrees (data and noise at `j` excluded for the
prediction) -/
theorem kf_pred_congr {j : ℕ} (hA0 : A 0 0 = A' 0 0) (hQ0 : Q 0 0 = Q' 0 0)
    (hA : ∀ i < j, A 0 (t.get (i + 1) - t.get i) = A' 0 (t'.get (i + 1) - t'.get i))
    (hQ : ∀ i < j, Q 0 (t.get (i + 1) - t.get i) = Q' 0 (t'.get (i + 1) - t'.get i))
    (hH : ∀ i < j, H (t.get i) = H' (t'.get i)) (hR : ∀ i < j, R.get i = R'.get i) (hy : ∀ i < j, y.get i = y'.get i) :
    ((kalmanFilter A Q H R t y m0 P0).get j).mPred = ((kalmanFilter A' Q' H' R' t' y' m0 P0).get j).mPred ∧
    ((kalmanFilter A Q H R t y m0 P0).get j).PPred = ((kalmanFilter A' Q' H' R' t' y' m0 P0).get j).PPred := by
  induction j with
  | zero => rw [kf_zero_m, kf_zero_m, kf_zero_P, kf_zero_P, hA0, hQ0]; exact ⟨rfl, rfl⟩
  | succ j ih =>
    obtain ⟨h1, h2⟩ := ih (fun i hi => hA i (by omega)) (fun i hi => hQ i (by omega)) (fun i hi => hH i (by omega))
      (fun i hi => hR i (by omega)) (fun i hi => hy i (by omega))
    have e : (kalmanFilter A Q H R t y m0 P0).get j = (kalmanFilter A' Q' H' R' t' y' m0 P0).get j := by
      rw [kf_upd, kf_upd A', h1, h2, hH j (by omega), hR j (by omega), hy j (by omega)]
    rw [kf_succ_m, kf_succ_m, kf_succ_P, kf_succ_P, e, hA j (by omega), hQ j (by omega)]
    exact ⟨rfl, rfl⟩

theorem kf_congr {j : ℕ} (hA0 : A 0 0 = A' 0 0) (hQ0 : Q 0 0 = Q' 0 0)
    (hA : ∀ i < j, A 0 (t.get (i + 1) - t.get i) = A' 0 (t'.get (i + 1) - t'.get i))
    (hQ : ∀ i < j, Q 0 (t.get (i + 1) - t.get i) = Q' 0 (t'.get (i + 1) - t'.get i))
    (hH : ∀ i ≤ j, H (t.get i) = H' (t'.get i)) (hR : ∀ i ≤ j, R.get i = R'.get i) (hy : ∀ i ≤ j, y.get i = y'.get i) :
    (kalmanFilter A Q H R t y m0 P0).get j = (kalmanFilter A' Q' H' R' t' y' m0 P0).get j := by
  obtain ⟨h1, h2⟩ := kf_pred_congr (m0 := m0) (P0 := P0) hA0 hQ0 hA hQ (fun i hi => hH i hi.le) (fun i hi => hR i hi.le)
    (fun i hi => hy i hi.le)
  rw [kf_upd, kf_upd A', h1, h2, hH j le_rfl, hR j le_rfl, hy j le_rfl]

theorem rts_congr {kf kf' : Arr (FilterOut n)} (hl : t.len = t'.len) (hkl : kf.len = t.len) (hkl' : kf'.len = t'.len)
    (hkf : ∀ i < t.len, kf.get i = kf'.get i)
    (hA : ∀ i, i + 1 < t.len → A 0 (t.get (i + 1) - t.get i) = A' 0 (t'.get (i + 1) - t'.get i)) {j : ℕ} (hj : j < t.len) :
    (rtsSmoother A t kf).get j = (rtsSmoother A' t' kf').get j := by
  obtain ⟨d, rfl⟩ : ∃ d, j = t.len - 1 - d := ⟨t.len - 1 - j, by omega⟩
  induction d with
  | zero =>
    rw [Nat.sub_zero, rts_last, hl, rts_last]
    have : kf.last = kf'.last := by
      unfold Arr.last
      rw [hkl, hkl', ← hl]
      exact hkf _ (by omega)
    rw [this]
  | succ d ih =>
    by_cases hd : t.len - 1 - d = 0
    · have : t.len - 1 - (d + 1) = t.len - 1 - d := by omega
      rw [this]; exact ih (by omega)
    · have hk1 : t.len - 1 - (d + 1) + 1 = t.len - 1 - d := by omega
      set k := t.len - 1 - (d + 1) with hkdef
      have ih' := ih (by omega)
      rw [← hk1] at ih'
      rw [rts_step A t kf k (by omega), rts_step A' t' kf' k (by omega), ih']
      unfold rtsStep
      simp only [hkf k (by omega), hkf (k + 1) (by omega), hA k (by omega)]

end

theorem computeLogProb_congr {v v' : Arr (Fin 1 → ℝ)} {S S' : Arr (Matrix (Fin 1) (Fin 1) ℝ)} (hl : v.len = v'.len)
    (hv : ∀ i < v.len, v.get i = v'.get i) (hS : ∀ i < v.len, S.get i = S'.get i) :
    computeLogProb v S = computeLogProb v' S' := by
  have : ∀ N (f g : ℕ → Flt), (∀ i < N, f i = g i) → nanSum f N = nanSum g N := by
    intro N f g h
    induction N with
    | zero => rfl
    | succ N ih => rw [nanSum, nanSum, ih (fun i hi => h i (by omega)), h N (by omega)]
  unfold computeLogProb
  rw [← hl]
  congr 2
  exact this _ _ _ fun i hi => by rw [hv i hi, hS i hi]

end Verif
