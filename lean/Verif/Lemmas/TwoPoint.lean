import Verif.Props.C01_Exact

/-! # Two-point data sets that expose a wrong process noise -/

namespace Verif
open Matrix

/-- the same kernel with another process noise -/
def SSM.withQ (k : SSM) (Q' : Coord → Coord → Matrix k.n k.n ℝ) : SSM := { k with Q := Q' }

/-- two times -/
def twoTimes (t0 t1 : ℝ) : Arr Coord := ⟨2, fun i => .time (if i = 0 then t0 else t1)⟩
/-- data identically zero -/
def zeroData : Arr ℝ := ⟨2, fun _ => 0⟩
/-- unit noise variances -/
def unitNoise : Arr ℝ := ⟨2, fun _ => 1⟩

theorem twoTimes_sorted {t0 t1 : ℝ} (h : t0 ≤ t1) : Sorted ((twoTimes t0 t1).map Coord.sortable) := by
  intro i j hij hj
  simp only [twoTimes, Arr.map, Coord.sortable]
  split_ifs with h1 h2
  · exact le_refl _
  · exact h
  · omega
  · exact le_refl _

theorem unitNoise_pos {t0 t1 : ℝ} : ∀ i < (twoTimes t0 t1).len, 0 < unitNoise.get i := fun _ _ => one_pos

namespace SSM
variable (k : SSM) (t0 t1 : ℝ)

/-- the filter run on two zeros -/
noncomputable def kf2 : Arr (FilterOut k.n) := k.kalman ((twoTimes t0 t1).map Coord.sortable) zeroData unitNoise

theorem kf2_v0 : ((k.kf2 t0 t1).get 0).v 0 = 0 := by
  show (0 : ℝ) - (k.Ht _ *ᵥ (k.At 0 _ *ᵥ (0 : k.n → ℝ))) 0 = 0
  simp

theorem kf2_m0 : ((k.kf2 t0 t1).get 0).m = 0 := by
  have hv : ((k.kf2 t0 t1).get 0).v = 0 := by
    ext i
    rw [Subsingleton.elim i 0]
    exact k.kf2_v0 t0 t1
  have e : ((k.kf2 t0 t1).get 0).m = (k.At 0 (if 0 > 0 then _ else 0) *ᵥ (0 : k.n → ℝ)) +
    (solve ((k.kf2 t0 t1).get 0).Sᵀ (((k.kf2 t0 t1).get 0).PPred * (k.Ht _)ᵀ)ᵀ)ᵀ *ᵥ ((k.kf2 t0 t1).get 0).v := rfl
  rw [e, hv]
  simp

theorem kf2_v1 : ((k.kf2 t0 t1).get 1).v 0 = 0 := by
  have e : ((k.kf2 t0 t1).get 1).v 0 = (0 : ℝ) - (k.Ht t1 *ᵥ (k.At 0 (t1 - t0) *ᵥ ((k.kf2 t0 t1).get 0).m)) 0 := rfl
  rw [e, kf2_m0]
  simp

theorem kf2_S1 : ((k.kf2 t0 t1).get 1).S 0 0 = (k.Ht t1 * (k.At 0 (t1 - t0) * ((k.kf2 t0 t1).get 0).P *
    (k.At 0 (t1 - t0))ᵀ + k.Qt 0 (t1 - t0)) * (k.Ht t1)ᵀ) 0 0 + 1 := rfl

/-- the likelihood of two zeros -/
theorem logProb2 (hS : ∀ i < 2, 0 < ((k.kf2 t0 t1).get i).S 0 0) :
    k.logProbability ((twoTimes t0 t1).map Coord.sortable) zeroData unitNoise =
      ((-(1 / 2) * (2 * Real.log (Real.sqrt (((k.kf2 t0 t1).get 0).S 0 0)) +
        2 * Real.log (Real.sqrt (((k.kf2 t0 t1).get 1).S 0 0)) + 2 * Real.log (2 * Real.pi)) : ℝ) : EReal) := by
  have h := computeLogProb_eq ((k.kf2 t0 t1).map FilterOut.v) ((k.kf2 t0 t1).map FilterOut.S) hS
  refine h.trans ?_
  congr 1
  have e : (((k.kf2 t0 t1).map FilterOut.v).len) = 2 := rfl
  show -(1 / 2) * ∑ i : Fin 2, _ = _
  rw [Fin.sum_univ_two]
  have h0 : (((k.kf2 t0 t1).map FilterOut.v).get ((0 : Fin 2) : ℕ)) 0 = 0 := k.kf2_v0 t0 t1
  have h1 : (((k.kf2 t0 t1).map FilterOut.v).get ((1 : Fin 2) : ℕ)) 0 = 0 := k.kf2_v1 t0 t1
  rw [h0, h1]
  simp only [zero_div]
  show -(1 / 2) * ((0 ^ 2 + 2 * Real.log (Real.sqrt (((k.kf2 t0 t1).get 0).S 0 0)) + 1 * Real.log (2 * Real.pi)) +
    (0 ^ 2 + 2 * Real.log (Real.sqrt (((k.kf2 t0 t1).get 1).S 0 0)) + 1 * Real.log (2 * Real.pi))) = _
  ring

/-- If changing the process noise gives a consistent model, and the two process noises differ in the observed direction,
then the likelihoods of two zeros differ. -/
theorem logProb_withQ_ne (Q' : Coord → Coord → Matrix k.n k.n ℝ) (h0 : k.Qt 0 0 = Q' (.time 0) (.time 0))
    (hS : ∀ i < 2, 0 < (((k.withQ Q').kf2 t0 t1).get i).S 0 0)
    (hne : (k.Ht t1 * k.Qt 0 (t1 - t0) * (k.Ht t1)ᵀ) 0 0 ≠ (k.Ht t1 * Q' (.time 0) (.time (t1 - t0)) * (k.Ht t1)ᵀ) 0 0) :
    k.logProbability ((twoTimes t0 t1).map Coord.sortable) zeroData unitNoise ≠
      (k.withQ Q').logProbability ((twoTimes t0 t1).map Coord.sortable) zeroData unitNoise := by
  have e0 : (k.kf2 t0 t1).get 0 = ((k.withQ Q').kf2 t0 t1).get 0 := by
    have a : (k.kf2 t0 t1).get 0 = kalmanUpdate (k.Ht t0) 1 0 (k.At 0 0 *ᵥ 0) (k.At 0 0 * k.Pinf * (k.At 0 0)ᵀ + k.Qt 0 0) := rfl
    have b : ((k.withQ Q').kf2 t0 t1).get 0 = kalmanUpdate (k.Ht t0) 1 0 (k.At 0 0 *ᵥ 0)
      (k.At 0 0 * k.Pinf * (k.At 0 0)ᵀ + Q' (.time 0) (.time 0)) := rfl
    rw [a, b, h0]
  have s1 := k.kf2_S1 t0 t1
  have s2 : (((k.withQ Q').kf2 t0 t1).get 1).S 0 0 = (k.Ht t1 * (k.At 0 (t1 - t0) * ((k.kf2 t0 t1).get 0).P *
    (k.At 0 (t1 - t0))ᵀ + Q' (.time 0) (.time (t1 - t0))) * (k.Ht t1)ᵀ) 0 0 + 1 := by
    rw [e0]; rfl
  have hSne : ((k.kf2 t0 t1).get 1).S 0 0 ≠ (((k.withQ Q').kf2 t0 t1).get 1).S 0 0 := by
    intro h
    apply hne
    rw [s1, s2] at h
    simp only [Matrix.mul_add, Matrix.add_mul, Matrix.add_apply] at h
    linarith
  rw [(k.withQ Q').logProb2 t0 t1 hS]
  by_cases hk : ∀ i < 2, 0 < ((k.kf2 t0 t1).get i).S 0 0
  · rw [k.logProb2 t0 t1 hk, e0]
    intro h
    have h' := EReal.coe_eq_coe_iff.1 h
    have h2 : Real.log (Real.sqrt (((k.kf2 t0 t1).get 1).S 0 0)) = Real.log (Real.sqrt ((((k.withQ Q').kf2 t0 t1).get 1).S 0 0)) := by
      linarith
    have h3 := Real.log_injOn_pos (Real.sqrt_pos.2 (hk 1 (by norm_num))) (Real.sqrt_pos.2 (hS 1 (by norm_num))) h2
    exact hSne ((Real.sqrt_inj (hk 1 (by norm_num)).le (hS 1 (by norm_num)).le).1 h3)
  · have : k.logProbability ((twoTimes t0 t1).map Coord.sortable) zeroData unitNoise = ⊥ := by
      exact computeLogProb_of_not_pos ((k.kf2 t0 t1).map FilterOut.v) ((k.kf2 t0 t1).map FilterOut.S) hk
    rw [this]
    exact (EReal.coe_ne_bot _).symm

/-- If changing the process noise gives a consistent model, and the two process noises differ in the observed direction,
then the likelihood is not the exact one. -/
theorem likelihood_wrong_of_withQ (Q' : Coord → Coord → Matrix k.n k.n ℝ) (h0 : k.Qt 0 0 = Q' (.time 0) (.time 0))
    (hk : (k.withQ Q').Regular) (ht : t0 ≤ t1)
    (hne : (k.Ht t1 * k.Qt 0 (t1 - t0) * (k.Ht t1)ᵀ) 0 0 ≠ (k.Ht t1 * Q' (.time 0) (.time (t1 - t0)) * (k.Ht t1)ᵀ) 0 0) :
    k.logProbability ((twoTimes t0 t1).map Coord.sortable) zeroData unitNoise ≠
      ((Spec.gaussLogDensity (dataGram k (twoTimes t0 t1) unitNoise) (fun i => zeroData.get i) : ℝ) : EReal) := by
  have hS : ∀ i < 2, 0 < (((k.withQ Q').kf2 t0 t1).get i).S 0 0 := fun i hi =>
    hk.S_pos (twoTimes_sorted ht) (by norm_num [twoTimes]) unitNoise_pos hi
  have e := C01_likelihood_exact (k.withQ Q') hk.toProper (twoTimes t0 t1) zeroData unitNoise (twoTimes_sorted ht) hS
  have e2 : dataGram (k.withQ Q') (twoTimes t0 t1) unitNoise = dataGram k (twoTimes t0 t1) unitNoise := rfl
  rw [← e2, ← e]
  exact k.logProb_withQ_ne t0 t1 Q' h0 hS hne

end SSM
end Verif
