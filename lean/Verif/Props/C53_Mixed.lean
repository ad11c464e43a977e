import Verif.Props.C11_ExposureAverage
import Verif.Props.C34_Reset
import Verif.Props.C01_Exact

/-!
# C53: sums of integrated and instantaneous kernels

The instantaneous part of a measurement is its value at the END of the exposure, not at the coordinate `t`: the measurement is folded
into the state at the end event. Proved here: the exact law of mixed kernels; that it is the intended law when all exposures are equally
long (in particular all of zero length); and a case in which the likelihood differs from the intended one.
-/

set_option linter.unusedSectionVars false

namespace Verif
open Matrix Spec

/-! ### the instantaneous part at the events -/

section
variable {k : SSM} (hk : k.Proper) (hr : ∀ i, k.reset i = 1) {X : Arr Coord} (hN : 0 < X.len)
include hk hr hN

theorem instant_transition (j : ℕ) : (stateCoords X).transition k.At k.reset j = k.At 0 (evTime X (j + 1) - evTime X j) := by
  unfold StateCoords.transition StateCoords.jump
  have : (if (stateCoords X).stateid.get j = 0 then k.reset ((stateCoords X).instid.get ((stateCoords X).obsid.get j)) else 1) = 1 := by
    split_ifs
    · exact hr _
    · rfl
  rw [this, Matrix.mul_one]
  rfl

theorem instant_marginal (j : ℕ) : marginalCov ((stateCoords X).transition k.At k.reset) ((stateCoords X).noise k.Qt)
    (k.At 0 0 * k.Pinf * (k.At 0 0)ᵀ + k.Qt 0 0) j = k.Pinf := by
  induction j with
  | zero => rw [marginalCov, hk.Q_eq 0 le_rfl]; abel
  | succ j ih =>
    have e : (stateCoords X).noise k.Qt j = k.Qt 0 (evTime X (j + 1) - evTime X j) := rfl
    rw [marginalCov, ih, instant_transition hk hr hN, e, hk.Q_eq _ (sub_nonneg.2 (evTime_mono hN (Nat.le_succ j)))]
    abel

theorem instant_propagator {i j : ℕ} (hij : i ≤ j) :
    propagator ((stateCoords X).transition k.At k.reset) i j = k.At 0 (evTime X j - evTime X i) := by
  induction j with
  | zero =>
    obtain rfl : i = 0 := by omega
    rw [propagator, sub_self, hk.A_zero]
  | succ j ih =>
    rw [propagator]
    by_cases h : i ≤ j
    · rw [if_pos h, ih h, instant_transition hk hr hN, ← hk.A_add _ _ (sub_nonneg.2 (evTime_mono hN h))
        (sub_nonneg.2 (evTime_mono hN (Nat.le_succ j)))]
      congr 1
      ring
    · obtain rfl : i = j + 1 := by omega
      rw [if_neg h, sub_self, hk.A_zero]

/-- an instantaneous kernel is observed at the time of the event -/
theorem instant_measures : k.Measures X fun c d => k.evaluate (.time c.stop) (.time d.stop) := by
  intro s c s' d hc hd
  have ht : ∀ {s c}, Probe X s c → evTime X s = c.stop := by
    intro s c h
    cases h with
    | latent hs => rw [evTime_lt hs]; simp [Coord.stop, Coord.delta, Coord.sortable]
    | measurement hi he => exact evTime_end hi he
  have h1 : ∀ c, k.obsModel c none = k.obsModel (.time 0) none := hk.H_const
  rw [h1 c, h1 d]
  unfold SSM.evaluate
  simp only [h1 (.time c.stop), h1 (.time d.stop), hk.shift_A, Coord.sortable]
  unfold SSM.eventCov stateCov
  rw [instant_marginal hk hr hN, instant_marginal hk hr hN, ← ht hc, ← ht hd]
  by_cases hs : s ≤ s'
  · rw [if_pos hs, instant_propagator hk hr hN hs]
    have hle := evTime_mono hN hs
    by_cases h : evTime X s < evTime X s'
    · rw [if_pos h, Matrix.mul_assoc, Matrix.mul_assoc, Matrix.mul_assoc, Matrix.mul_assoc]
    · have e : evTime X s = evTime X s' := le_antisymm hle (not_lt.1 h)
      rw [if_neg h, e, sub_self, hk.A_zero, transpose_one, Matrix.mul_one, Matrix.mul_one]
  · rw [if_neg hs, instant_propagator hk hr hN (by omega), if_neg (not_lt.2 (evTime_mono hN (by omega)))]
    simp only [Matrix.mul_assoc]

end

/-! ### mixed sums -/

/-- a sum, in any nesting, of integrated kernels (as in C11) and instantaneous ones (as in C01), with the covariance of its measurements
as the solver sees them -/
inductive MixedSum (m : ℕ) : SSM → (Coord → Coord → ℝ) → Prop
  | integrated {k : SSM} {κ : ℝ → ℝ} (h : IntegratedSum (fun q => SHO.Genuine q ∧ SHO.NotUnderdamped q) m k κ) :
      MixedSum m k (exposureCov κ)
  | instantaneous {k : SSM} (h : BuiltIn k) : MixedSum m k fun c d => k.evaluate (.time c.stop) (.time d.stop)
  | sum {k1 k2 : SSM} {K1 K2 : Coord → Coord → ℝ} (h1 : MixedSum m k1 K1) (h2 : MixedSum m k2 K2) :
      MixedSum m (k1.sum k2) fun c d => K1 c d + K2 c d

theorem SSM.PsdModel.sum {k1 k2 : SSM} {X : Arr Coord} (h1 : k1.PsdModel X) (h2 : k2.PsdModel X) : (k1.sum k2).PsdModel X :=
  ⟨blockDiag_psd h1.P h2.P, blockDiag_psd h1.Q0 h2.Q0, fun j hj => blockDiag_psd (h1.Q j hj) (h2.Q j hj)⟩

theorem MixedSum.model {m : ℕ} {k : SSM} {K : Coord → Coord → ℝ} (h : MixedSum m k K) {X : Arr Coord} (hX : Schedule m X)
    (hN : 0 < X.len) : k.PsdModel X ∧ k.Measures X K := by
  induction h with
  | integrated h =>
    have h' := (h.mono (q := SHO.Genuine) fun _ h => h.1).ok
    have hQ : SSM.NoiseOnEvents _ X := fun _ _ => h.noise _
    exact ⟨SSM.NoiseOnEvents.psd h' hQ, h'.meas X hX hN hQ⟩
  | instantaneous h =>
    have hp := h.regular.toProper
    exact ⟨SSM.PsdModel.of_nonneg hp.P_psd hp.Q_psd, instant_measures hp (C34_instantaneous _ h.combos) hN⟩
  | sum _ _ h1 h2 => exact ⟨h1.1.sum h2.1, h1.2.sum h2.2⟩

/-- **C53, what the solver computes.** The likelihood under a mixed kernel is the Gaussian one in which the integrated components are
averaged over the exposure and the instantaneous ones are evaluated at the end of the exposure. -/
theorem C53_likelihood (m : ℕ) (k : SSM) (K : Coord → Coord → ℝ) (hk : MixedSum m k K) (X : Arr Coord) (hX : Schedule m X) (hN : 0 < X.len)
    (y R : Arr ℝ) (hy : y.len = X.len) (hR : ∀ i < X.len, 0 < R.get i) :
    k.integratedLogProbability X y R =
      ((gaussLogDensity (noisyGram (fun i j : Fin X.len => K (X.get i) (X.get j)) fun i => R.get i) (fun i => y.get i) : ℝ) : EReal) := by
  have he : ∀ n < X.len, IsEnd X n (endStep X n) := fun n hn => (isEnd_iff hn).2 rfl
  obtain ⟨h1, h2⟩ := hk.model hX hN
  rw [C09_integrated_likelihood_exact_psd k X h1 y R hy hR _ he]
  congr 3
  ext i j
  show augmentedCov k X _ i j + _ = _
  have : augmentedCov k X (endStep X) i j = K (X.get i) (X.get j) :=
    h2 _ _ _ _ (.measurement i.2 (he i i.2)) (.measurement j.2 (he j j.2))
  rw [this]
  rfl

/-- the intended covariance: instantaneous components at the coordinate itself -/
inductive MixedIntended (m : ℕ) : SSM → (Coord → Coord → ℝ) → Prop
  | integrated {k : SSM} {κ : ℝ → ℝ} (h : IntegratedSum (fun q => SHO.Genuine q ∧ SHO.NotUnderdamped q) m k κ) :
      MixedIntended m k (exposureCov κ)
  | instantaneous {k : SSM} (h : BuiltIn k) : MixedIntended m k fun c d => k.evaluate (.time c.sortable) (.time d.sortable)
  | sum {k1 k2 : SSM} {K1 K2 : Coord → Coord → ℝ} (h1 : MixedIntended m k1 K1) (h2 : MixedIntended m k2 K2) :
      MixedIntended m (k1.sum k2) fun c d => K1 c d + K2 c d

theorem MixedIntended.mixed {m : ℕ} {k : SSM} {K : Coord → Coord → ℝ} (h : MixedIntended m k K) :
    ∃ K', MixedSum m k K' ∧ ∀ c d, c.delta = d.delta → K' c d = K c d := by
  induction h with
  | integrated h => exact ⟨_, .integrated h, fun _ _ _ => rfl⟩
  | @instantaneous k h =>
    refine ⟨_, .instantaneous h, fun c d hcd => ?_⟩
    obtain ⟨κ, hκ⟩ := C25_stationary k h.combos
    show k.evaluate _ _ = k.evaluate _ _
    rw [hκ, hκ]
    simp only [Coord.sortable, Coord.stop, hcd]
    congr 2
    ring
  | sum _ _ h1 h2 =>
    obtain ⟨K1, a1, b1⟩ := h1
    obtain ⟨K2, a2, b2⟩ := h2
    exact ⟨_, .sum a1 a2, fun c d h => by rw [b1 c d h, b2 c d h]⟩

/-- **C53, partial.** When all exposures have the same length (for instance zero), the likelihood is the intended one. Missing: exposures
of different lengths, for which it is refuted below. -/
theorem C53_equal_exposures_partial (m : ℕ) (k : SSM) (K : Coord → Coord → ℝ) (hk : MixedIntended m k K) (X : Arr Coord) (hX : Schedule m X)
    (hN : 0 < X.len) (d : ℝ) (hd : ∀ n < X.len, (X.get n).delta = d) (y R : Arr ℝ) (hy : y.len = X.len) (hR : ∀ i < X.len, 0 < R.get i) :
    k.integratedLogProbability X y R =
      ((gaussLogDensity (noisyGram (fun i j : Fin X.len => K (X.get i) (X.get j)) fun i => R.get i) (fun i => y.get i) : ℝ) : EReal) := by
  obtain ⟨K', h1, h2⟩ := hk.mixed
  rw [C53_likelihood m k K' h1 X hX hN y R hy hR]
  have : (fun i j : Fin X.len => K' (X.get i) (X.get j)) = fun i j : Fin X.len => K (X.get i) (X.get j) := by
    funext i j
    exact h2 _ _ (by rw [hd i i.2, hd j j.2])
  rw [this]

/-- two equally long exposures of different instruments, overlapping -/
noncomputable def twoEqual : Arr Coord := Arr.ofList (.time 0) [.exposure 0 2 0, .exposure 1 2 1]

theorem twoEqual_schedule : Schedule 1 twoEqual := by
  have hl : twoEqual.len = 2 := rfl
  have e0 : twoEqual.get 0 = .exposure 0 2 0 := rfl
  have e1 : twoEqual.get 1 = .exposure 1 2 1 := rfl
  refine ⟨fun n hn => ?_, fun n hn => ?_, fun a ha b hb hab hi => ?_⟩
  · rw [hl] at hn
    interval_cases n <;> simp [e0, e1, Coord.delta]
  · rw [hl] at hn
    interval_cases n <;> simp [e0, e1, Coord.inst]
  · rw [hl] at ha hb
    interval_cases a <;> interval_cases b <;> simp [e0, e1, Coord.inst] at hab hi

/-- the hypotheses of `C53_equal_exposures_partial` are met by an integrated `Exp` plus a `Matern32` kernel -/
example : ∃ K, MixedIntended 1 ((integratedExp 2 1 1 "a").sum (matern32 1 3 "b")) K ∧ Schedule 1 twoEqual ∧ 0 < twoEqual.len ∧
    ∀ n < twoEqual.len, (twoEqual.get n).delta = 2 :=
  ⟨_, .sum (.integrated (.exp two_pos le_rfl)) (.instantaneous (.matern32 one_pos three_ne_zero)), twoEqual_schedule,
    by show 0 < 2; omega, fun n hn => by
      change n < 2 at hn
      interval_cases n <;> rfl⟩

/-! ### Where it fails -/

/-- an exposure of length 2 on one instrument and an instantaneous measurement on another, both at time 0 -/
noncomputable def longAndShort : Arr Coord := Arr.ofList (.time 0) [.exposure 0 2 0, .exposure 0 0 1]

theorem longAndShort_schedule : Schedule 1 longAndShort := by
  have hl : longAndShort.len = 2 := rfl
  have e0 : longAndShort.get 0 = .exposure 0 2 0 := rfl
  have e1 : longAndShort.get 1 = .exposure 0 0 1 := rfl
  refine ⟨fun n hn => ?_, fun n hn => ?_, fun a ha b hb hab hi => ?_⟩
  · rw [hl] at hn
    interval_cases n <;> simp [e0, e1, Coord.delta]
  · rw [hl] at hn
    interval_cases n <;> simp [e0, e1, Coord.inst]
  · rw [hl] at ha hb
    interval_cases a <;> interval_cases b <;> simp [e0, e1, Coord.inst] at hab hi

theorem average_nonneg (X : Coord) {f : ℝ → ℝ} (h : ∀ u, 0 ≤ f u) : 0 ≤ X.average f := by
  unfold Coord.average
  split_ifs with hd
  · exact mul_nonneg (by positivity) (intervalIntegral.integral_nonneg (by linarith) fun u _ => h u)
  · exact h _

theorem average_le_one (X : Coord) {f : ℝ → ℝ} (h0 : ∀ u, 0 ≤ f u) (h : ∀ u, f u ≤ 1) : X.average f ≤ 1 := by
  unfold Coord.average
  split_ifs with hd
  · have := intervalIntegral.norm_integral_le_of_norm_le_const (a := X.sortable - X.delta / 2) (b := X.sortable + X.delta / 2) (f := f)
      (C := 1) fun u _ => by rw [Real.norm_eq_abs, abs_of_nonneg (h0 u)]; exact h u
    have e : |X.sortable + X.delta / 2 - (X.sortable - X.delta / 2)| = X.delta := by
      rw [show X.sortable + X.delta / 2 - (X.sortable - X.delta / 2) = X.delta by ring, abs_of_pos hd]
    rw [e, one_mul, Real.norm_eq_abs] at this
    have h2 := (le_abs_self _).trans this
    calc _ ≤ 1 / X.delta * X.delta := mul_le_mul_of_nonneg_left h2 (by positivity)
      _ = 1 := by field_simp
  · exact h _

theorem covExp_one_mem (r : ℝ) (hr : 0 ≤ r) : 0 ≤ covExp 1 1 r ∧ covExp 1 1 r ≤ 1 := by
  unfold covExp
  rw [one_pow, one_mul, div_one]
  exact ⟨(Real.exp_pos _).le, Real.exp_le_one_iff.2 (by linarith)⟩

theorem exposureCov_exp_mem (X Y : Coord) : 0 ≤ exposureCov (covExp 1 1) X Y ∧ exposureCov (covExp 1 1) X Y ≤ 1 := by
  have h0 : ∀ u, 0 ≤ Y.average fun v => covExp 1 1 |u - v| := fun u => average_nonneg Y fun v => (covExp_one_mem _ (abs_nonneg _)).1
  exact ⟨average_nonneg X h0, average_le_one X h0 fun u => average_le_one Y (fun v => (covExp_one_mem _ (abs_nonneg _)).1)
    fun v => (covExp_one_mem _ (abs_nonneg _)).2⟩

/-- **C53 refuted.** For the sum of an integrated and an instantaneous `Exp` kernel and these two measurements, the likelihood is not
the one in which the instantaneous component is taken at the measurements' coordinates. -/
theorem C53_refuted : ∃ y R : Arr ℝ, y.len = 2 ∧ (∀ i < 2, 0 < R.get i) ∧
    ((integratedExp 1 1 1 "a").sum (expKernel 1 1 "b")).integratedLogProbability longAndShort y R ≠
      ((gaussLogDensity (noisyGram (fun i j : Fin 2 => exposureCov (covExp 1 1) (longAndShort.get i) (longAndShort.get j) +
        covExp 1 1 |(longAndShort.get i).sortable - (longAndShort.get j).sortable|) fun i => R.get i) (fun i => y.get i) : ℝ) : EReal) := by
  refine ⟨⟨2, fun _ => 0⟩, ⟨2, fun _ => 2⟩, rfl, fun _ _ => two_pos, ?_⟩
  rw [C53_likelihood 1 _ _ (.sum (.integrated (.exp one_pos le_rfl)) (.instantaneous (.exp one_pos one_ne_zero))) longAndShort
    longAndShort_schedule (by show 0 < 2; omega) ⟨2, fun _ => 0⟩ ⟨2, fun _ => 2⟩ rfl fun _ _ => two_pos]
  intro h
  have h := EReal.coe_eq_coe_iff.1 h
  have e0 : longAndShort.get 0 = .exposure 0 2 0 := rfl
  have e1 : longAndShort.get 1 = .exposure 0 0 1 := rfl
  have hE := C24_exp 1 1 "b" one_pos
  set E : Coord → Coord → ℝ := exposureCov (covExp 1 1) with hEdef
  have a0 := exposureCov_exp_mem (.exposure 0 2 0) (.exposure 0 2 0)
  have b0 := exposureCov_exp_mem (.exposure 0 2 0) (.exposure 0 0 1)
  have hb : E (.exposure 0 0 1) (.exposure 0 2 0) = E (.exposure 0 2 0) (.exposure 0 0 1) := by
    simp [hEdef, exposureCov, Coord.average, Coord.delta, Coord.sortable]
  have hc : E (.exposure 0 0 1) (.exposure 0 0 1) = 1 := by
    simp [hEdef, exposureCov, Coord.average, Coord.delta, Coord.sortable, covExp]
  rw [← hEdef] at a0 b0
  set a := E (.exposure 0 2 0) (.exposure 0 2 0)
  set b := E (.exposure 0 2 0) (.exposure 0 0 1)
  have hx0 : 0 < Real.exp (-1) := Real.exp_pos _
  have hx1 : Real.exp (-1) < 1 := Real.exp_lt_one_iff.2 (by norm_num)
  unfold gaussLogDensity at h
  have hz : ∀ M : Matrix (Fin 2) (Fin 2) ℝ, (fun _ : Fin 2 => (0 : ℝ)) ⬝ᵥ M *ᵥ (fun _ => 0) = 0 := fun M => by simp [dotProduct]
  have hdet : ∀ f g : Fin 2 → Fin 2 → ℝ, 0 < (noisyGram f fun _ => 2).det → 0 < (noisyGram g fun _ => 2).det →
      -(1 / 2) * ((fun _ : Fin 2 => (0 : ℝ)) ⬝ᵥ (noisyGram f fun _ => 2)⁻¹ *ᵥ (fun _ => 0)) - 1 / 2 * Real.log (noisyGram f fun _ => 2).det -
          (Fintype.card (Fin 2) : ℝ) / 2 * Real.log (2 * Real.pi) =
        -(1 / 2) * ((fun _ : Fin 2 => (0 : ℝ)) ⬝ᵥ (noisyGram g fun _ => 2)⁻¹ *ᵥ (fun _ => 0)) - 1 / 2 * Real.log (noisyGram g fun _ => 2).det -
          (Fintype.card (Fin 2) : ℝ) / 2 * Real.log (2 * Real.pi) →
      (noisyGram f fun _ => 2).det = (noisyGram g fun _ => 2).det := by
    intro f g hf hg h
    rw [hz, hz] at h
    exact Real.log_injOn_pos hf hg (by linarith)
  have d1 : (noisyGram (fun i j : Fin 2 => E (longAndShort.get i) (longAndShort.get j) +
      (expKernel 1 1 "b").evaluate (.time (longAndShort.get i).stop) (.time (longAndShort.get j).stop)) fun _ => 2).det =
      4 * (a + 3) - (b + Real.exp (-1)) ^ 2 := by
    simp only [hE _ _]
    rw [Matrix.det_fin_two]
    simp [noisyGram, e0, e1, Coord.sortable, Coord.stop, Coord.delta, covExp, hb, hc]
    ring
  have d2 : (noisyGram (fun i j : Fin 2 => E (longAndShort.get i) (longAndShort.get j) +
      covExp 1 1 |(longAndShort.get i).sortable - (longAndShort.get j).sortable|) fun _ => 2).det = 4 * (a + 3) - (b + 1) ^ 2 := by
    rw [Matrix.det_fin_two]
    simp [noisyGram, e0, e1, Coord.sortable, covExp, hb, hc]
    ring
  have p1 := d1.symm ▸ (by nlinarith : 0 < 4 * (a + 3) - (b + Real.exp (-1)) ^ 2)
  have p2 := d2.symm ▸ (by nlinarith : 0 < 4 * (a + 3) - (b + 1) ^ 2)
  have := hdet _ _ p1 p2 h
  rw [d1, d2] at this
  nlinarith

end Verif
