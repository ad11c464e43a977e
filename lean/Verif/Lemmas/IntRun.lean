import Verif.Lemmas.IntExact
import Verif.Lemmas.ParStep

/-!
# The integrated filter and smoother as runs, and the elements of the parallel integrated filter
-/

set_option linter.unusedSectionVars false

namespace Verif
open Matrix

variable {n : Type} [Fintype n] [DecidableEq n]

/-- the reset at event `k`, if it is an exposure start -/
def StateCoords.resetAt (sc : StateCoords) (reset : ℤ → Matrix n n ℝ) (k : ℕ) : Option (Matrix n n ℝ) :=
  if sc.stateid.get k = 0 then some (reset (sc.instid.get (sc.obsid.get k))) else none

theorem StateCoords.resetAt_start (sc : StateCoords) (reset : ℤ → Matrix n n ℝ) {k : ℕ} (h : sc.stateid.get k = 0) :
    sc.resetAt reset k = some (reset (sc.instid.get (sc.obsid.get k))) := if_pos h

theorem StateCoords.resetAt_end (sc : StateCoords) (reset : ℤ → Matrix n n ℝ) {k : ℕ} (h : sc.stateid.get k ≠ 0) :
    sc.resetAt reset k = none := if_neg h

theorem ikf_run (A Q : ℝ → ℝ → Matrix n n ℝ) (H : Arr (Matrix (Fin 1) n ℝ)) (reset : ℤ → Matrix n n ℝ) (R y : Arr ℝ)
    (sc : StateCoords) (P0 : Matrix n n ℝ) :
    Run (A 0 0 * P0 * (A 0 0)ᵀ + Q 0 0) (fun k => A 0 (sc.t.get (k + 1) - sc.t.get k)) (fun k => Q 0 (sc.t.get (k + 1) - sc.t.get k))
      (sc.resetAt reset) (fun k => H.get (sc.obsid.get k)) (fun k => R.get (sc.obsid.get k)) (fun k => y.get (sc.obsid.get k))
      (integratedKalmanFilter A Q H reset R y sc 0 P0).get where
  zero_m := by rw [ikf_zero_m, mulVec_zero]
  zero_P := ikf_zero_P A Q H reset R y sc 0 P0
  succ_m := ikf_succ_m A Q H reset R y sc 0 P0
  succ_P := ikf_succ_P A Q H reset R y sc 0 P0
  upd k := by
    by_cases h : sc.stateid.get k = 0
    · rw [sc.resetAt_start reset h]; exact ikf_start A Q H reset R y sc 0 P0 h
    · rw [sc.resetAt_end reset h]; exact ikf_end A Q H reset R y sc 0 P0 h

theorem irts_back (A : ℝ → ℝ → Matrix n n ℝ) (reset : ℤ → Matrix n n ℝ) (sc : StateCoords) (kf : Arr (FilterOut n))
    (hl : kf.len = sc.t.len) :
    Back sc.t.len (fun k => A 0 (sc.t.get (k + 1) - sc.t.get k) * sc.jump reset k) (sc.resetAt reset) kf.get
      (integratedRtsSmoother A reset sc kf).get where
  last_m := by rw [irts_last, ← hl]; rfl
  last_P := by rw [irts_last, ← hl]; rfl
  step_m k hk := by
    rw [irts_step A reset sc kf k hk]
    generalize (integratedRtsSmoother A reset sc kf).get (k + 1) = c
    unfold Run.base StateCoords.jump
    simp only [integratedRtsStep]
    by_cases h : sc.stateid.get k = 0
    · rw [sc.resetAt_start reset h, if_pos h, if_pos h]
    · rw [sc.resetAt_end reset h, if_neg h, if_neg h, Matrix.mul_one]
  step_P k hk := by
    rw [irts_step A reset sc kf k hk]
    generalize (integratedRtsSmoother A reset sc kf).get (k + 1) = c
    unfold Run.base StateCoords.jump
    simp only [integratedRtsStep]
    by_cases h : sc.stateid.get k = 0
    · rw [sc.resetAt_start reset h, if_pos h, if_pos h]
    · rw [sc.resetAt_end reset h, if_neg h, if_neg h, Matrix.mul_one]

/-- symmetrising does nothing when the process noise is a covariance -/
theorem endElem_eq {Phi Q : Matrix n n ℝ} {H : Matrix (Fin 1) n ℝ} {y r : ℝ} (hQ : Q.PosSemidef) (hr : 0 ≤ r)
    (hs : 0 < freshS Q H r) : KElem.endElem Phi Q H y r = KElem.measure Phi Q H y r := by
  have hC := psd_symm (measure_valid (Phi := Phi) (y := y) hQ hr hs).1
  have hc : (0.5 : ℝ) • ((KElem.measure Phi Q H y r).C + (KElem.measure Phi Q H y r).Cᵀ) = (KElem.measure Phi Q H y r).C := by
    rw [hC, ← two_smul ℝ, smul_smul]; norm_num
  have hJ : (KElem.endElem Phi Q H y r).J = (KElem.measure Phi Q H y r).J := by
    simp only [KElem.endElem, KElem.measure]
    rw [transpose_mul, transpose_transpose, transpose_transpose]
  have e : KElem.endElem Phi Q H y r = ⟨(KElem.measure Phi Q H y r).A, (KElem.measure Phi Q H y r).b,
      (0.5 : ℝ) • ((KElem.measure Phi Q H y r).C + (KElem.measure Phi Q H y r).Cᵀ), (KElem.measure Phi Q H y r).eta,
      (KElem.endElem Phi Q H y r).J⟩ := rfl
  rw [e, hc, hJ]

end Verif
