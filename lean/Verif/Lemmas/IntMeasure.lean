import Verif.Lemmas.IntLeaf
import Verif.Spec.Exposure
import Verif.Lemmas.Events
import Verif.Lemmas.IntExact
import Verif.Props.C13_Events
import Mathlib.Analysis.Calculus.Deriv.Shift

/-! # What an integrated kernel measures -/

set_option linter.unusedSectionVars false

namespace Verif
open Matrix Spec MeasureTheory

theorem exposureCov_congr {κ κ' : ℝ → ℝ} (h : ∀ r, 0 ≤ r → κ r = κ' r) (X Y : Coord) : exposureCov κ X Y = exposureCov κ' X Y := by
  unfold exposureCov
  simp only [h _ (abs_nonneg _)]

theorem Coord.average_add (X : Coord) {f g : ℝ → ℝ} (hf : Continuous f) (hg : Continuous g) :
    X.average (fun u => f u + g u) = X.average f + X.average g := by
  unfold Coord.average
  split_ifs
  · rw [intervalIntegral.integral_add (hf.intervalIntegrable _ _) (hg.intervalIntegrable _ _), mul_add]
  · rfl

section
variable {n : Type} [Fintype n] [DecidableEq n] (F P : Matrix n n ℝ) (first : n)

theorem latK_continuous : Continuous (latK F P first) :=
  MDeriv.continuous (fun t => (expm_deriv F t).mul (MDeriv.const P)) first first

theorem latK_abs_continuous : Continuous fun u => latK F P first |u| := (latK_continuous F P first).comp continuous_abs

theorem latK1_deriv (t : ℝ) : HasDerivAt (latK1 F P first) (latK F P first t) t := by
  have := ((phibar_deriv F t).mul (MDeriv.const P)) first first
  simp only [Matrix.mul_zero, add_zero] at this
  exact this

theorem latK2_deriv (t : ℝ) : HasDerivAt (latK2 F P first) (latK1 F P first t) t := by
  have := ((phibar2_deriv F t).mul (MDeriv.const P)) first first
  simp only [Matrix.mul_zero, add_zero] at this
  exact this

theorem latK1_zero : latK1 F P first 0 = 0 := by unfold latK1; rw [phibar_zero, Matrix.zero_mul]; rfl
theorem latK2_zero : latK2 F P first 0 = 0 := by unfold latK2; rw [phibar2_zero, Matrix.zero_mul]; rfl

/-- first integral of the even extension -/
noncomputable def latI1 (t : ℝ) : ℝ := ∫ u in (0 : ℝ)..t, latK F P first |u|
/-- second integral of the even extension -/
noncomputable def latI2 (t : ℝ) : ℝ := ∫ u in (0 : ℝ)..t, latI1 F P first u

theorem latI1_deriv (t : ℝ) : HasDerivAt (latI1 F P first) (latK F P first |t|) t :=
  intervalIntegral.integral_hasDerivAt_right ((latK_abs_continuous F P first).intervalIntegrable _ _)
    (latK_abs_continuous F P first).aestronglyMeasurable.stronglyMeasurableAtFilter (latK_abs_continuous F P first).continuousAt

theorem latI1_continuous : Continuous (latI1 F P first) := continuous_iff_continuousAt.2 fun t => (latI1_deriv F P first t).continuousAt

theorem latI2_deriv (t : ℝ) : HasDerivAt (latI2 F P first) (latI1 F P first t) t :=
  intervalIntegral.integral_hasDerivAt_right ((latI1_continuous F P first).intervalIntegrable _ _)
    (latI1_continuous F P first).aestronglyMeasurable.stronglyMeasurableAtFilter (latI1_continuous F P first).continuousAt

theorem latI1_neg (t : ℝ) : latI1 F P first (-t) = -latI1 F P first t := by
  have h := intervalIntegral.integral_comp_neg (f := fun u => latK F P first |u|) (a := 0) (b := t)
  simp only [abs_neg, neg_zero] at h
  unfold latI1
  rw [h, intervalIntegral.integral_symm]

theorem latI2_neg (t : ℝ) : latI2 F P first (-t) = latI2 F P first t := by
  have h := intervalIntegral.integral_comp_neg (f := fun u => latI1 F P first u) (a := 0) (b := t)
  simp only [latI1_neg, neg_zero] at h
  unfold latI2
  rw [intervalIntegral.integral_symm, ← h, intervalIntegral.integral_neg, neg_neg]

theorem latK1_eq {t : ℝ} (ht : 0 ≤ t) : latK1 F P first t = latI1 F P first t := by
  have h := intervalIntegral.integral_eq_sub_of_hasDerivAt (fun s _ => latK1_deriv F P first s)
    ((latK_continuous F P first).intervalIntegrable 0 t)
  rw [latK1_zero, sub_zero] at h
  rw [← h]
  refine intervalIntegral.integral_congr fun u hu => ?_
  rw [Set.uIcc_of_le ht] at hu
  simp only [abs_of_nonneg hu.1]

theorem latK1_continuous : Continuous (latK1 F P first) := continuous_iff_continuousAt.2 fun t => (latK1_deriv F P first t).continuousAt

theorem latK2_eq {t : ℝ} (ht : 0 ≤ t) : latK2 F P first t = latI2 F P first t := by
  have h := intervalIntegral.integral_eq_sub_of_hasDerivAt (fun s _ => latK2_deriv F P first s)
    ((latK1_continuous F P first).intervalIntegrable 0 t)
  rw [latK2_zero, sub_zero] at h
  rw [← h]
  refine intervalIntegral.integral_congr fun u hu => ?_
  rw [Set.uIcc_of_le ht] at hu
  exact latK1_eq F P first hu.1

variable (hP : Pᵀ = P) (R : ℕ → ℝ)

theorem B_xx_lat (s t : ℝ) : (intGM F P hP first).B R (GM.x s (.inl first)) (GM.x t (.inl first)) = latK F P first |s - t| := by
  rcases le_total s t with h | h
  · rw [GM.B_xx, intGM_xx F P hP first h, abs_sub_comm, abs_of_nonneg (sub_nonneg.2 h)]
  · rw [GM.B_symm, GM.B_xx, intGM_xx F P hP first h, abs_of_nonneg (sub_nonneg.2 h)]

theorem B_xI_lat (s t : ℝ) : (intGM F P hP first).B R (GM.x s (.inl first)) (GM.x t (.inr ())) =
    latK1 F P first s + latI1 F P first (t - s) := by
  rw [GM.B_xx]
  rcases le_total s t with h | h
  · rw [intGM_xI F P hP first h, latK1_eq F P first (sub_nonneg.2 h)]
  · rw [intGM_xI' F P hP first h, latK1_eq F P first (sub_nonneg.2 h), ← neg_sub s t, latI1_neg]; ring

theorem B_II_lat (s t : ℝ) : (intGM F P hP first).B R (GM.x s (.inr ())) (GM.x t (.inr ())) =
    latK2 F P first s + latK2 F P first t - latI2 F P first (t - s) := by
  rcases le_total s t with h | h
  · rw [GM.B_xx, intGM_II F P hP first h, latK2_eq F P first (sub_nonneg.2 h)]
  · rw [GM.B_symm, GM.B_xx, intGM_II F P hP first h, latK2_eq F P first (sub_nonneg.2 h), ← neg_sub s t, latI2_neg]; ring

/-- the measured variable of a coordinate -/
noncomputable def measVar (c : Coord) : GM.Space (n ⊕ Unit) :=
  if 0 < c.delta then (1 / c.delta) • (GM.x c.stop (.inr ()) - GM.x c.start (.inr ())) else GM.x c.sortable (.inl first)

theorem integral_lat (t a b : ℝ) : ∫ v in a..b, latK F P first |t - v| = latI1 F P first (b - t) - latI1 F P first (a - t) := by
  have h := intervalIntegral.integral_eq_sub_of_hasDerivAt (f := fun v => latI1 F P first (v - t)) (f' := fun v => latK F P first |t - v|)
    (a := a) (b := b) (fun v _ => by
      have := HasDerivAt.comp_sub_const v t (latI1_deriv F P first (v - t))
      rwa [abs_sub_comm] at this) (((latK_abs_continuous F P first).comp (continuous_const.sub continuous_id)).intervalIntegrable _ _)
  exact h

theorem integral_latI1 (t a b : ℝ) : ∫ u in a..b, latI1 F P first (t - u) = latI2 F P first (t - a) - latI2 F P first (t - b) := by
  have h := intervalIntegral.integral_comp_sub_left (fun u => latI1 F P first u) t (a := a) (b := b)
  rw [h]
  exact intervalIntegral.integral_eq_sub_of_hasDerivAt (fun v _ => latI2_deriv F P first v) ((latI1_continuous F P first).intervalIntegrable _ _)

theorem measVar_cov (c d : Coord) :
    (intGM F P hP first).B R (measVar first c) (measVar first d) = exposureCov (latK F P first) c d := by
  have inner : ∀ (d : Coord), 0 < d.delta → ∀ u, d.average (fun v => latK F P first |u - v|) =
      (1 / d.delta) * (latI1 F P first (d.stop - u) - latI1 F P first (d.start - u)) := by
    intro d hd u
    unfold Coord.average
    rw [if_pos hd, integral_lat]
    rfl
  unfold exposureCov measVar
  by_cases hd : 0 < d.delta
  · simp only [if_pos hd, inner d hd]
    by_cases hc : 0 < c.delta
    · have hi : ∀ t : ℝ, IntervalIntegrable (fun u => latI1 F P first (t - u)) volume (c.sortable - c.delta / 2) (c.sortable + c.delta / 2) :=
        fun t => ((latI1_continuous F P first).comp (continuous_const.sub continuous_id)).intervalIntegrable _ _
      unfold Coord.average
      rw [if_pos hc, if_pos hc, intervalIntegral.integral_const_mul, intervalIntegral.integral_sub (hi _) (hi _), integral_latI1, integral_latI1]
      simp only [map_smul, map_sub, LinearMap.smul_apply, LinearMap.sub_apply, B_II_lat, smul_eq_mul]
      unfold Coord.start Coord.stop
      ring
    · unfold Coord.average
      rw [if_neg hc, if_neg hc]
      simp only [map_smul, map_sub, B_xI_lat, smul_eq_mul]
      ring
  · by_cases hc : 0 < c.delta
    · have e : (fun u => d.average fun v => latK F P first |u - v|) = fun u => latK F P first |d.sortable - u| := by
        funext u
        unfold Coord.average
        rw [if_neg hd, abs_sub_comm]
      rw [e]
      unfold Coord.average
      rw [if_pos hc, if_pos hc, if_neg hd, GM.B_symm, integral_lat]
      simp only [map_smul, map_sub, B_xI_lat, smul_eq_mul]
      unfold Coord.start Coord.stop
      ring
    · unfold Coord.average
      rw [if_neg hc, if_neg hc, if_neg hd]
      simp only [if_neg hd]
      exact B_xx_lat F P first hP R _ _

end

/-! ### events -/

theorem slot_inj {m : ℕ} {i j : ℤ} (hi : 0 ≤ i ∧ i ≤ m) (hj : 0 ≤ j ∧ j ≤ m) (h : slot m i = slot m j) : i = j := by
  have : min i.toNat m = min j.toNat m := congrArg Fin.val h
  omega

section
variable (X : Arr Coord)

/-- event times, constant after the last event -/
noncomputable def evTime (j : ℕ) : ℝ := (stateCoords X).t.get (min j ((stateCoords X).t.len - 1))

/-- which slot is reset at event `j` -/
noncomputable def resetSlot (m : ℕ) (j : ℕ) : Option (Fin (m + 1)) :=
  if (stateCoords X).stateid.get j = 0 then some (slot m ((stateCoords X).instid.get ((stateCoords X).obsid.get j))) else none

variable {X}

theorem evTime_mono (hN : 0 < X.len) : Monotone (evTime X) := fun i j h =>
  sc_sorted _ _ (min_le_min_right _ h) (by rw [sc_len]; omega)

theorem evTime_lt {j : ℕ} (hj : j < 2 * X.len) : evTime X j = (stateCoords X).t.get j := by
  unfold evTime; rw [sc_len, min_eq_left (by omega)]

theorem evTime_end {i e : ℕ} (hi : i < X.len) (he : IsEnd X i e) : evTime X e = (X.get i).stop := by
  rw [evTime_lt he.1, (isEnd_iff hi).1 he, sc_t, ev_endStep hi, eventTimes_stop]

theorem evTime_start {i a : ℕ} (hi : i < X.len) (ha : IsStart X i a) : evTime X a = (X.get i).start := by
  rw [evTime_lt ha.1, (isStart_iff hi).1 ha, sc_t, ev_startStep hi, eventTimes_start]

/-- between the start and the end of an exposure its slot is not disturbed -/
theorem slot_undisturbed {m : ℕ} (hX : Schedule m X) {i a e l : ℕ} (hi : i < X.len) (ha : IsStart X i a) (he : IsEnd X i e)
    (hal : a < l) (hle : l < e) (hr : resetSlot X m l = some (slot m (X.get i).inst)) : evTime X l = evTime X a := by
  have hN : 0 < X.len := by omega
  have hl : l < 2 * X.len := hle.trans he.1
  unfold resetSlot at hr
  split_ifs at hr with h0
  have hj := ev_lt hl
  have hjl : (stateCoords X).obsid.get l < X.len := by rw [sc_obsid]; omega
  set j := (stateCoords X).obsid.get l with hjdef
  have hst : IsStart X j l := ⟨hl, rfl, h0⟩
  have hne : i ≠ j := by
    intro h
    rw [← h] at hst
    rw [(isStart_iff hi).1 ha, (isStart_iff hi).1 hst] at hal
    omega
  have hinst := slot_inj (hX.inst j hjl) (hX.inst i hi) (Option.some.inj hr)
  rcases hX.disjoint i hi j hjl hne hinst.symm with h | h
  · exfalso
    have h1 : evTime X l ≤ evTime X e := evTime_mono hN hle.le
    rw [evTime_start hjl hst, evTime_end hi he] at h1
    have h2 : (stateCoords X).t.get e = (stateCoords X).t.get l := by
      rw [← evTime_lt he.1, ← evTime_lt hl, evTime_start hjl hst, evTime_end hi he]
      exact le_antisymm h h1
    have := C13_ends_before_starts X i j e l he hst h2
    omega
  · refine le_antisymm ?_ (evTime_mono hN hal.le)
    rw [evTime_start hjl hst, evTime_start hi ha]
    have := hX.delta_nonneg j hjl
    unfold Coord.start
    linarith

end

end Verif
