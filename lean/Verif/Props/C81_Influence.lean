import Verif.Props.C77_Probability
import Verif.Lemmas.Influence
import Verif.Lemmas.NoisyBound

/-!
# C81, C82, C83: bounds in terms of the noise

How far a change of the data can move a prediction (C81), how small the variance becomes where there are many data (C82), and bounds of the log
likelihood (C83). They hold for every kernel, all data and both kinds of measurements, and involve only the noise and the variances.
-/

namespace Verif
open Matrix Kern Spec Filter Topology MeasureTheory

/-- the exposure (or the instant) of `c` lies within `δ` of the time `s` -/
def Spec.Within (δ s : ℝ) (c : Coord) : Prop := |c.sortable - s| + max c.delta 0 / 2 ≤ δ

theorem Spec.Within.at {δ s : ℝ} {c : Coord} (h : Within δ s c) {v : ℝ} (h0 : 0 ≤ v) (h1 : v ≤ 1) : |s - c.at v| ≤ δ := by
  unfold Coord.at
  have hm : 0 ≤ max c.delta 0 := le_max_right _ _
  have := abs_le.1 (le_refl |c.sortable - s|)
  unfold Within at h
  rw [abs_le]
  constructor <;> nlinarith

/-- value of the latent process (or exposure average) minus a weighted sum of exposure averages -/
theorem exposureCov_joint {κ : ℝ → ℝ} (hc : Continuous fun u => κ |u|) (h : PosSemidefFn κ) (c : Coord) (X : Arr Coord) (w : Fin X.len → ℝ) :
    0 ≤ exposureCov κ c c - 2 * (w ⬝ᵥ obsCross κ c X) + w ⬝ᵥ (Matrix.of fun i j : Fin X.len => exposureCov κ (X.get i) (X.get j)) *ᵥ w := by
  have h1 := exposureCov_quad hc h (fun o : Option (Fin X.len) => o.elim c fun i => X.get i) fun o => o.elim 1 fun i => -w i
  simp only [Fintype.sum_option, Option.elim] at h1
  refine h1.trans_eq ?_
  simp only [dotProduct, mulVec, Matrix.of_apply, obsCross, Finset.mul_sum, Finset.sum_add_distrib]
  have e1 : ∀ i : Fin X.len, exposureCov κ (X.get i) c = exposureCov κ c (X.get i) := fun i => exposureCov_comm hc _ _
  simp only [e1]
  have e2 : (∑ i : Fin X.len, -w i * 1 * exposureCov κ c (X.get i)) = -∑ i : Fin X.len, w i * exposureCov κ c (X.get i) := by
    rw [← Finset.sum_neg_distrib]
    exact Finset.sum_congr rfl fun i _ => by ring
  have e3 : (∑ i : Fin X.len, 1 * -w i * exposureCov κ c (X.get i)) = -∑ i : Fin X.len, w i * exposureCov κ c (X.get i) := by
    rw [← Finset.sum_neg_distrib]
    exact Finset.sum_congr rfl fun i _ => by ring
  have e4 : (∑ i : Fin X.len, ∑ j : Fin X.len, -w i * -w j * exposureCov κ (X.get i) (X.get j)) =
      ∑ i : Fin X.len, ∑ j : Fin X.len, w i * (exposureCov κ (X.get i) (X.get j) * w j) :=
    Finset.sum_congr rfl fun i _ => Finset.sum_congr rfl fun j _ => by ring
  rw [e2, e3, e4, ← Finset.mul_sum]
  ring

/-- an exposure average varies no more than the process -/
theorem exposureCov_le {κ : ℝ → ℝ} (hc : Continuous fun u => κ |u|) (h : PosSemidefFn κ) (X Y : Coord) : exposureCov κ X Y ≤ κ 0 := by
  have hle : ∀ u, κ |u| ≤ κ 0 := by
    intro u
    have := h.quad (ι := Fin 2) ![u, 0] ![1, -1]
    simp [Fin.sum_univ_two, abs_neg] at this
    linarith
  have hterm : Continuous fun z : ℝ × ℝ => κ |X.at z.1 - Y.at z.2| :=
    hc.comp ((X.at_continuous.comp continuous_fst).sub (Y.at_continuous.comp continuous_snd))
  rw [exposureCov_unit]
  have hin : Continuous fun u => ∫ v in (0 : ℝ)..1, κ |X.at u - Y.at v| :=
    intervalIntegral.continuous_parametric_intervalIntegral_of_continuous' hterm 0 1
  have h1 : ∀ u, (∫ v in (0 : ℝ)..1, κ |X.at u - Y.at v|) ≤ κ 0 := fun u => by
    have := intervalIntegral.integral_mono_on (μ := volume) (a := 0) (b := 1) (f := fun v => κ |X.at u - Y.at v|) (g := fun _ => κ 0) zero_le_one
      ((hterm.comp (by fun_prop : Continuous fun v : ℝ => (u, v))).intervalIntegrable _ _) (continuous_const.intervalIntegrable _ _) fun v _ => hle _
    simpa using this
  have := intervalIntegral.integral_mono_on (μ := volume) (a := 0) (b := 1) (g := fun _ => κ 0) zero_le_one (hin.intervalIntegrable _ _) (continuous_const.intervalIntegrable _ _)
    fun u _ => h1 u
  simpa using this

section
variable {kernel : Kern} {X : XArg} {solver : Option SolverKind} {κ : ℝ → ℝ} {diag : Option (ℝ ⊕ Arr ℝ)} {mean : Option (Coord → ℝ)}
  {u : Bool} {gp gpc gpc' : GP} {y y' : Arr ℝ} {lp lp' : EReal}

/-! ### C81 -/

theorem Regression.influence (h : Regression kernel X solver κ) {R : Arr ℝ} (hR : ∀ i < X.coords.len, 0 < R.get i) (c : Coord) (y y' : Arr ℝ) :
    (postMean (obsGram κ X.coords R) (fun j => y.get j) (obsCross κ c X.coords) -
      postMean (obsGram κ X.coords R) (fun j => y'.get j) (obsCross κ c X.coords)) ^ 2 ≤
      postVar (obsGram κ X.coords R) (exposureCov κ c c) (obsCross κ c X.coords) *
        ∑ i : Fin X.coords.len, (y.get i - y'.get i) ^ 2 / R.get i :=
  Verif.influence (fun i : Fin X.coords.len => hR i i.2) (h.gram_pd hR) (exposureCov_joint h.continuous h.psd c X.coords) _ _

/-- **C81, predictions.** Condition a GP on two data vectors. The difference of the two predictions, in units of the predicted standard deviation, is
at most the distance of the data in units of their errors. In particular one outlier, however large the number of data, moves a prediction by at
most `Δ/σ` predicted standard deviations. -/
theorem C81_predict (h : Regression kernel X solver κ) (hnew : GP.new kernel X diag mean solver u = .ok gp)
    (hR : ∀ i < X.coords.len, 0 < (GP.noiseOf X.coords.len diag).get i) (hcond : gp.condition y = .ok (lp, gpc))
    (hcond' : gp.condition y' = .ok (lp', gpc')) (ts : Arr ℝ) :
    ∃ mu mu' var, gpc.predict (some (.times ts)) = .ok (mu, var) ∧ (∃ var', gpc'.predict (some (.times ts)) = .ok (mu', var')) ∧
      ∀ j < ts.len, (mu.get j - mu'.get j) ^ 2 ≤ var.get j *
        ∑ i : Fin X.coords.len, (y.get i - y'.get i) ^ 2 / (GP.noiseOf X.coords.len diag).get i := by
  obtain ⟨mu, var, hp, -, -, hm⟩ := C61_predict h hnew hR hcond ts
  obtain ⟨mu', var', hp', -, -, hm'⟩ := C61_predict h hnew hR hcond' ts
  refine ⟨mu, mu', var, hp, ⟨var', hp'⟩, fun j hj => ?_⟩
  rw [(hm j hj).1, (hm j hj).2, (hm' j hj).1]
  have := h.influence hR (.time (ts.get j)) y y'
  rwa [exposureCov_times, sub_self, abs_zero] at this

/-- **C81, at the data.** The same for the conditioned mean; and the conditioned variance is smaller than that of the measurement's error, so that
a change of one datum by `Δ` moves the conditioned mean there by less than `Δ`. -/
theorem C81_condition (h : Regression kernel X solver κ) (hnew : GP.new kernel X diag mean solver u = .ok gp)
    (hR : ∀ i < X.coords.len, 0 < (GP.noiseOf X.coords.len diag).get i) (hcond : gp.condition y = .ok (lp, gpc))
    (hcond' : gp.condition y' = .ok (lp', gpc')) :
    ∃ var, gpc.var = some var ∧ ∀ j < X.coords.len, var.get j < (GP.noiseOf X.coords.len diag).get j ∧
      (gpc.mean.get j - gpc'.mean.get j) ^ 2 ≤ var.get j *
        ∑ i : Fin X.coords.len, (y.get i - y'.get i) ^ 2 / (GP.noiseOf X.coords.len diag).get i := by
  obtain ⟨-, -, var, hvar, -, hm⟩ := C61_condition h hnew hR hcond
  obtain ⟨-, -, _, -, -, hm'⟩ := C61_condition h hnew hR hcond'
  refine ⟨var, hvar, fun j hj => ⟨?_, ?_⟩⟩
  · rw [(hm j hj).2]
    set R := GP.noiseOf X.coords.len diag with hRdef
    have hK := h.gram_pd hR
    have e := postVar_at_data hK (⟨j, hj⟩ : Fin X.coords.len) (R.get j)
    have e1 : (fun i => obsGram κ X.coords R ⟨j, hj⟩ i - if (⟨j, hj⟩ : Fin X.coords.len) = i then R.get j else 0) =
        obsCross κ (X.coords.get j) X.coords := by
      funext i
      show exposureCov κ (X.coords.get j) (X.coords.get i) + (if (⟨j, hj⟩ : Fin X.coords.len) = i then R.get j else 0) - _ = _
      rw [add_sub_cancel_right]
      rfl
    have e2 : obsGram κ X.coords R ⟨j, hj⟩ ⟨j, hj⟩ - R.get j = exposureCov κ (X.coords.get j) (X.coords.get j) := by
      simp [obsGram, noisyGram]
    rw [e1, e2] at e
    rw [e]
    have hpos : 0 < Pi.single (⟨j, hj⟩ : Fin X.coords.len) (1 : ℝ) ⬝ᵥ (obsGram κ X.coords R)⁻¹ *ᵥ Pi.single ⟨j, hj⟩ 1 := by
      have := hK.inv.dotProduct_mulVec_pos (x := Pi.single (⟨j, hj⟩ : Fin X.coords.len) (1 : ℝ)) (by simp)
      simpa using this
    have := hR j hj
    have : 0 < R.get j ^ 2 * (Pi.single (⟨j, hj⟩ : Fin X.coords.len) (1 : ℝ) ⬝ᵥ (obsGram κ X.coords R)⁻¹ *ᵥ Pi.single ⟨j, hj⟩ 1) := by positivity
    linarith
  · rw [(hm j hj).1, (hm j hj).2, (hm' j hj).1]
    exact h.influence hR (X.coords.get j) y y'

/-! ### C82 -/

theorem Regression.many (h : Regression kernel X solver κ) {R : Arr ℝ} (hR : ∀ i < X.coords.len, 0 < R.get i) {s δ ε r : ℝ}
    (hκ : ∀ a, 0 ≤ a → a ≤ δ → κ 0 - κ a ≤ ε) (S : Finset (Fin X.coords.len)) (hS : S.Nonempty)
    (hn : ∀ i ∈ S, Within δ s (X.coords.get i) ∧ R.get i ≤ r) :
    postVar (obsGram κ X.coords R) (κ 0) (obsCross κ (.time s) X.coords) ≤ 2 * ε + r / S.card := by
  have hn0 : (0 : ℝ) < S.card := by exact_mod_cast hS.card_pos
  set w : Fin X.coords.len → ℝ := fun i => if i ∈ S then (S.card : ℝ)⁻¹ else 0 with hw
  have hsum : ∀ f : Fin X.coords.len → ℝ, ∑ i, w i * f i = (S.card : ℝ)⁻¹ * ∑ i ∈ S, f i := by
    intro f
    rw [Finset.mul_sum, ← Finset.sum_filter_add_sum_filter_not Finset.univ (· ∈ S)]
    have e1 : ∑ i ∈ Finset.univ.filter (· ∉ S), w i * f i = 0 := Finset.sum_eq_zero fun i hi => by
      have := (Finset.mem_filter.1 hi).2
      simp [hw, this]
    rw [e1, add_zero]
    have : Finset.univ.filter (· ∈ S) = S := by ext; simp
    rw [this]
    exact Finset.sum_congr rfl fun i hi => by simp [hw, hi]
  have hcross : κ 0 - ε ≤ w ⬝ᵥ obsCross κ (.time s) X.coords := by
    show _ ≤ ∑ i, w i * obsCross κ (.time s) X.coords i
    rw [hsum]
    have : ∑ i ∈ S, (κ 0 - ε) ≤ ∑ i ∈ S, obsCross κ (.time s) X.coords i := by
      refine Finset.sum_le_sum fun i hi => ?_
      show _ ≤ exposureCov κ (.time s) (X.coords.get i)
      rw [exposureCov_time]
      have hc : Continuous fun v => κ |s - (X.coords.get i).at v| :=
        h.continuous.comp (continuous_const.sub (X.coords.get i).at_continuous)
      have := intervalIntegral.integral_mono_on (μ := volume) (a := 0) (b := 1) (f := fun _ => κ 0 - ε) (g := fun v => κ |s - (X.coords.get i).at v|) zero_le_one
        (continuous_const.intervalIntegrable _ _) (hc.intervalIntegrable _ _) fun v hv => by
          have := hκ _ (abs_nonneg (s - (X.coords.get i).at v)) ((hn i hi).1.at hv.1 hv.2)
          linarith
      simpa using this
    rw [Finset.sum_const, nsmul_eq_mul] at this
    rw [inv_mul_eq_div, le_div_iff₀ hn0]
    linarith
  have hquad : w ⬝ᵥ (Matrix.of fun i j : Fin X.coords.len => exposureCov κ (X.coords.get i) (X.coords.get j)) *ᵥ w ≤ κ 0 := by
    show ∑ i, w i * ∑ j : Fin X.coords.len, exposureCov κ (X.coords.get i) (X.coords.get j) * w j ≤ _
    rw [hsum]
    have : ∑ i ∈ S, ∑ j : Fin X.coords.len, exposureCov κ (X.coords.get i) (X.coords.get j) * w j ≤ ∑ i ∈ S, κ 0 := by
      refine Finset.sum_le_sum fun i hi => ?_
      have e : ∀ j : Fin X.coords.len, exposureCov κ (X.coords.get i) (X.coords.get j) * w j = w j * exposureCov κ (X.coords.get i) (X.coords.get j) := fun j => mul_comm _ _
      simp only [e]
      rw [hsum, inv_mul_eq_div, div_le_iff₀ hn0]
      refine (Finset.sum_le_sum fun j _ => exposureCov_le h.continuous h.psd _ _).trans_eq ?_
      rw [Finset.sum_const, nsmul_eq_mul, mul_comm]
    rw [Finset.sum_const, nsmul_eq_mul] at this
    rw [inv_mul_eq_div, div_le_iff₀ hn0]
    linarith
  have hnoise : ∑ i : Fin X.coords.len, R.get i * w i ^ 2 ≤ r / S.card := by
    have e : ∀ i : Fin X.coords.len, R.get i * w i ^ 2 = w i * (R.get i * w i) := fun i => by ring
    simp only [e]
    rw [hsum, inv_mul_eq_div, div_le_div_iff_of_pos_right hn0]
    have : ∑ i ∈ S, R.get i * w i ≤ ∑ i ∈ S, r * (S.card : ℝ)⁻¹ := Finset.sum_le_sum fun i hi => by
      simp only [hw, if_pos hi]
      exact mul_le_mul_of_nonneg_right (hn i hi).2 (inv_nonneg.2 hn0.le)
    rw [Finset.sum_const, nsmul_eq_mul] at this
    refine this.trans_eq ?_
    field_simp
  have := postVar_le (h.gram_pd hR) (κ 0) (obsCross κ (.time s) X.coords) w
  have e := noisyGram_quad (fun i j : Fin X.coords.len => exposureCov κ (X.coords.get i) (X.coords.get j)) (fun i => R.get i) w
  unfold obsGram at this ⊢
  rw [e] at this
  linarith

/-- **C82, bound.** If `n` of the data, with error variance at most `r`, lie within `δ` of a test time, and the covariance function falls by at most `ε`
over the lag `δ`, then the predicted variance is at most `2ε + r/n`, whatever the other data are. -/
theorem C82_predict (h : Regression kernel X solver κ) (hnew : GP.new kernel X diag mean solver u = .ok gp)
    (hR : ∀ i < X.coords.len, 0 < (GP.noiseOf X.coords.len diag).get i) (hcond : gp.condition y = .ok (lp, gpc)) (ts : Arr ℝ) {δ ε r : ℝ}
    (hκ : ∀ a, 0 ≤ a → a ≤ δ → κ 0 - κ a ≤ ε) :
    ∃ mu var, gpc.predict (some (.times ts)) = .ok (mu, var) ∧ ∀ j < ts.len, ∀ S : Finset (Fin X.coords.len), S.Nonempty →
      (∀ i ∈ S, Within δ (ts.get j) (X.coords.get i) ∧ (GP.noiseOf X.coords.len diag).get i ≤ r) → var.get j ≤ 2 * ε + r / S.card := by
  obtain ⟨mu, var, hp, -, -, hm⟩ := C61_predict h hnew hR hcond ts
  refine ⟨mu, var, hp, fun j hj S hS hn => ?_⟩
  rw [(hm j hj).2]
  exact h.many hR hκ S hS hn

/-- thresholds which depend on the covariance function only -/
theorem many_threshold (hc : Continuous fun u => κ |u|) {ε r : ℝ} (hε : 0 < ε) (hr : 0 < r) :
    ∃ δ : ℝ, 0 < δ ∧ (∀ a, 0 ≤ a → a ≤ δ → κ 0 - κ a ≤ ε / 4) ∧ ∃ M : ℕ, 0 < M ∧ ∀ n : ℕ, M ≤ n → 2 * (ε / 4) + r / n ≤ ε := by
  have h0 := Metric.continuous_iff.1 hc 0 (ε / 4) (by linarith)
  obtain ⟨δ, hδ, h0⟩ := h0
  refine ⟨δ / 2, by linarith, fun a ha ha' => ?_, ?_⟩
  · have := h0 a (by rw [Real.dist_eq, sub_zero, abs_of_nonneg ha]; linarith)
    rw [Real.dist_eq, abs_of_nonneg ha, abs_zero, abs_lt] at this
    linarith
  · obtain ⟨M, hM⟩ := exists_nat_gt (2 * r / ε)
    have hMp : (0 : ℝ) < M := lt_trans (by positivity) hM
    refine ⟨M, by exact_mod_cast hMp, fun n hn => ?_⟩
    have hn' : (M : ℝ) ≤ n := by exact_mod_cast hn
    have hnp : (0 : ℝ) < n := lt_of_lt_of_le hMp hn'
    have : r / n ≤ ε / 2 := by
      rw [div_le_iff₀ hnp]
      rw [div_lt_iff₀ hε] at hM
      nlinarith
    linarith

/-- **C82, consistency.** To every tolerance there are a distance `δ` and a number `M`, which depend on the covariance function and on the size of the
errors only, such that wherever at least `M` data lie within `δ` of a test time the predicted variance is at most the tolerance: for any solver,
any further data, and any exposures. -/
theorem C82_consistent (h : Regression kernel X solver κ) {ε r : ℝ} (hε : 0 < ε) (hr : 0 < r) :
    ∃ δ : ℝ, 0 < δ ∧ ∃ M : ℕ, ∀ (kernel' : Kern) (X' : XArg) (solver' : Option SolverKind) (diag : Option (ℝ ⊕ Arr ℝ)) (mean : Option (Coord → ℝ))
      (u : Bool) (gp gpc : GP) (y ts : Arr ℝ) (lp : EReal), Regression kernel' X' solver' κ → GP.new kernel' X' diag mean solver' u = .ok gp →
      (∀ i < X'.coords.len, 0 < (GP.noiseOf X'.coords.len diag).get i) → gp.condition y = .ok (lp, gpc) →
      ∃ mu var, gpc.predict (some (.times ts)) = .ok (mu, var) ∧ ∀ j < ts.len, ∀ S : Finset (Fin X'.coords.len), M ≤ S.card →
        (∀ i ∈ S, Within δ (ts.get j) (X'.coords.get i) ∧ (GP.noiseOf X'.coords.len diag).get i ≤ r) → var.get j ≤ ε := by
  obtain ⟨δ, hδ, hκ, M, hM, hb⟩ := many_threshold h.continuous hε hr
  refine ⟨δ, hδ, M, fun kernel' X' solver' diag mean u gp gpc y ts lp h' hnew hR hcond => ?_⟩
  obtain ⟨mu, var, hp, hv⟩ := C82_predict h' hnew hR hcond ts hκ (r := r)
  exact ⟨mu, var, hp, fun j hj S hS hn => (hv j hj S (Finset.card_pos.1 (hM.trans_le hS)) hn).trans (hb _ hS)⟩

open ProbabilityTheory in
/-- **C82, mean square error.** In the random experiment of C77, the mean square error of the predicted mean is at most the tolerance, at every time
with that many measurements nearby. -/
theorem C82_mean_square (h : Regression kernel X solver κ) {ε r : ℝ} (hε : 0 < ε) (hr : 0 < r) :
    ∃ δ : ℝ, 0 < δ ∧ ∃ M : ℕ, ∀ (kernel' : Kern) (X' : XArg) (solver' : Option SolverKind) (diag : Option (ℝ ⊕ Arr ℝ)) (mean : Option (Coord → ℝ))
      (u : Bool) (gp : GP) (ts : Arr ℝ) (j : ℕ) (Ω : Type) (_ : MeasurableSpace Ω) (P : Measure Ω) (T : Set Coord) (g : Coord → Ω → ℝ)
      (Y : Fin X'.coords.len → Ω → ℝ) (S : Finset (Fin X'.coords.len)), Regression kernel' X' solver' κ →
      GP.new kernel' X' diag mean solver' u = .ok gp → (∀ i < X'.coords.len, 0 < (GP.noiseOf X'.coords.len diag).get i) →
      Measured P κ T g X'.coords (GP.noiseOf X'.coords.len diag) Y → j < ts.len → Coord.time (ts.get j) ∈ T → M ≤ S.card →
      (∀ i ∈ S, Within δ (ts.get j) (X'.coords.get i) ∧ (GP.noiseOf X'.coords.len diag).get i ≤ r) →
      ∃ m : (Fin X'.coords.len → ℝ) → ℝ, P[fun ω => (g (.time (ts.get j)) ω - m fun i => Y i ω) ^ 2] ≤ ε ∧
        ∀ (y : Arr ℝ) (lp : EReal) (gpc : GP), gp.condition y = .ok (lp, gpc) →
          ∃ mu var, gpc.predict (some (.times ts)) = .ok (mu, var) ∧ mu.get j = m fun i => y.get i := by
  obtain ⟨δ, hδ, hκ, M, hM, hb⟩ := many_threshold h.continuous hε hr
  refine ⟨δ, hδ, M, fun kernel' X' solver' diag mean u gp ts j Ω _ P T g Y S h' hnew hR hMe hj hT hS hn => ?_⟩
  have hP := hMe.latent.gaussian.isProbabilityMeasure
  have hpost := posterior_of_measured h' hR hMe hT
  refine ⟨fun y => postMean (obsGram κ X'.coords (GP.noiseOf X'.coords.len diag)) y (obsCross κ (.time (ts.get j)) X'.coords), ?_,
    fun y lp gpc hcond => ?_⟩
  · rw [hpost.error, exposureCov_times, sub_self, abs_zero]
    exact (h'.many hR hκ S (Finset.card_pos.1 (hM.trans_le hS)) hn).trans (hb _ hS)
  · obtain ⟨mu, var, hp, -, -, hm⟩ := C61_predict h' hnew hR hcond ts
    exact ⟨mu, var, hp, (hm j hj).1⟩

/-! ### C83 -/

/-- **C83.** The log likelihood is at most that of independent data of value zero with the errors as the only uncertainty. It is at least the sum of the
terms for independent data in which the squares are divided by the error variances alone, and the logarithms are those of prior variance plus
error variance. Neither bound involves correlations. -/
theorem C83_bounds (h : Regression kernel X solver κ) (hnew : GP.new kernel X diag mean solver u = .ok gp)
    (hR : ∀ i < X.coords.len, 0 < (GP.noiseOf X.coords.len diag).get i) (hy : y.len = X.coords.len) :
    ∃ l : ℝ, gp.logProbability y = .ok (l : EReal) ∧
      l ≤ -(1 / 2) * ∑ i : Fin X.coords.len, Real.log (2 * Real.pi * (GP.noiseOf X.coords.len diag).get i) ∧
      -(1 / 2) * ∑ i : Fin X.coords.len, (y.get i ^ 2 / (GP.noiseOf X.coords.len diag).get i +
        Real.log (2 * Real.pi * (κ 0 + (GP.noiseOf X.coords.len diag).get i))) ≤ l := by
  refine ⟨_, C61_log_probability h hnew hy hR, ?_⟩
  obtain ⟨h1, h2⟩ := gaussLogDensity_bounds (exposureGram_psd h.continuous h.psd fun i : Fin X.coords.len => X.coords.get i)
    (fun i : Fin X.coords.len => hR i i.2) fun i : Fin X.coords.len => y.get i
  refine ⟨h1, le_trans ?_ h2⟩
  have hpos : ∀ i : Fin X.coords.len, 0 < exposureCov κ (X.coords.get i) (X.coords.get i) + (GP.noiseOf X.coords.len diag).get i := fun i => by
    have := ((psd_iff _).1 (exposureGram_psd h.continuous h.psd fun _ : Fin 1 => X.coords.get i)).2 ![1]
    have h3 : 0 ≤ exposureCov κ (X.coords.get i) (X.coords.get i) := by simpa [dotProduct, mulVec] using this
    have := hR i i.2
    linarith
  have : ∑ i : Fin X.coords.len, (y.get i ^ 2 / (GP.noiseOf X.coords.len diag).get i +
        Real.log (2 * Real.pi * (exposureCov κ (X.coords.get i) (X.coords.get i) + (GP.noiseOf X.coords.len diag).get i))) ≤
      ∑ i : Fin X.coords.len, (y.get i ^ 2 / (GP.noiseOf X.coords.len diag).get i +
        Real.log (2 * Real.pi * (κ 0 + (GP.noiseOf X.coords.len diag).get i))) := by
    refine Finset.sum_le_sum fun i _ => ?_
    gcongr
    · have := hpos i
      positivity
    · exact exposureCov_le h.continuous h.psd _ _
  linarith

end

/-! ### Examples -/

section examples

/-- C81 applies: one outlier in a hundred data, at whatever distance -/
example (t : Arr ℝ) (ht : Sorted t) (hN : t.len = 100) (y : Arr ℝ) (a : ℝ) (ts : Arr ℝ) :
    ∃ gp lp gpc lp' gpc' mu mu' var var', GP.new (.exp 1 1 "a") (.times t) (some (.inl 4)) none none false = .ok gp ∧
      gp.condition y = .ok (lp, gpc) ∧ gp.condition ⟨y.len, fun i => if i = 17 then y.get i + a else y.get i⟩ = .ok (lp', gpc') ∧
      gpc.predict (some (.times ts)) = .ok (mu, var) ∧ gpc'.predict (some (.times ts)) = .ok (mu', var') ∧
      ∀ j < ts.len, (mu.get j - mu'.get j) ^ 2 ≤ var.get j * (a ^ 2 / 4) := by
  have hr := exp_regression ht (by omega)
  obtain ⟨gp, lp, gpc, h, hc⟩ := exp_gp t (by omega) (some (.inl 4)) y
  obtain ⟨gp2, lp', gpc', h2, hc'⟩ := exp_gp t (by omega) (some (.inl 4)) ⟨y.len, fun i => if i = 17 then y.get i + a else y.get i⟩
  rw [h] at h2
  cases h2
  obtain ⟨mu, mu', var, hp, ⟨var', hp'⟩, hb⟩ := C81_predict hr h (fun i _ => by show (0 : ℝ) < 4; norm_num) hc hc' ts
  refine ⟨gp, lp, gpc, lp', gpc', mu, mu', var, var', h, hc, hc', hp, hp', fun j hj => (hb j hj).trans_eq ?_⟩
  congr 1
  have hlt : 17 < (XArg.times t).coords.len := by show 17 < t.len; omega
  rw [Finset.sum_eq_single (⟨17, hlt⟩ : Fin (XArg.times t).coords.len)]
  · show (y.get 17 - if 17 = 17 then y.get 17 + a else y.get 17) ^ 2 / (4 : ℝ) = _
    rw [if_pos rfl]
    ring
  · intro i _ hi
    have : (i : ℕ) ≠ 17 := fun e => hi (Fin.ext e)
    show (y.get i - if (i : ℕ) = 17 then y.get i + a else y.get i) ^ 2 / _ = 0
    rw [if_neg this, sub_self]
    simp
  · exact fun hn => (hn (Finset.mem_univ _)).elim

/-- C82 applies: a thousand data within a thousandth of the length scale leave a variance of at most 3/1000 of the prior -/
example (y ts : Arr ℝ) (h0 : ts.len = 1 ∧ ts.get 0 = 0) :
    ∃ gp lp gpc mu var, GP.new (.exp 1 1 "a") (.times ⟨1000, fun i => (i : ℝ) / 1000000⟩) (some (.inl 1)) none none false = .ok gp ∧
      gp.condition y = .ok (lp, gpc) ∧ gpc.predict (some (.times ts)) = .ok (mu, var) ∧ var.get 0 ≤ 3 / 1000 := by
  have hs : Sorted (⟨1000, fun i => (i : ℝ) / 1000000⟩ : Arr ℝ) := fun i j hij _ => by
    show (i : ℝ) / 1000000 ≤ (j : ℝ) / 1000000
    have : (i : ℝ) ≤ j := by exact_mod_cast hij
    linarith
  have hr := exp_regression hs (by show 0 < 1000; decide)
  obtain ⟨gp, lp, gpc, h, hc⟩ := exp_gp ⟨1000, fun i => (i : ℝ) / 1000000⟩ (by show 1000 ≠ 1; decide) (some (.inl 1)) y
  obtain ⟨mu, var, hp, hb⟩ := C82_predict hr h (fun i _ => by show (0 : ℝ) < 1; norm_num) hc ts (δ := 1 / 1000) (ε := 1 / 1000) (r := 1) (fun a ha ha' => by
    have := Real.add_one_le_exp (-a)
    simp only [covExp]
    norm_num
    linarith)
  refine ⟨gp, lp, gpc, mu, var, h, hc, hp, (hb 0 (by rw [h0.1]; norm_num) Finset.univ ⟨⟨0, by show 0 < 1000; decide⟩, Finset.mem_univ _⟩ fun i _ => ⟨?_, ?_⟩).trans ?_⟩
  · have hi : (i : ℕ) < 1000 := i.2
    have : ((i : ℕ) : ℝ) < 1000 := by exact_mod_cast hi
    show |((i : ℕ) : ℝ) / 1000000 - ts.get 0| + max 0 0 / 2 ≤ 1 / 1000
    rw [h0.2, sub_zero, abs_of_nonneg (by positivity)]
    norm_num
    linarith
  · exact le_refl (1 : ℝ)
  · rw [Finset.card_univ, Fintype.card_fin]
    show 2 * (1 / 1000) + 1 / ((1000 : ℕ) : ℝ) ≤ (3 : ℝ) / 1000
    norm_num

/-- C83 applies -/
example : ∃ gp, GP.new (.exp 1 1 "a") (.times twoT) (some (.inl 1)) none none false = .ok gp ∧
    ∀ y : Arr ℝ, y.len = 2 → ∃ l : ℝ, gp.logProbability y = .ok (l : EReal) ∧ l ≤ -Real.log (2 * Real.pi) ∧
      -(1 / 2) * (y.get 0 ^ 2 + y.get 1 ^ 2) - Real.log (4 * Real.pi) ≤ l := by
  have hr := exp_regression twoT_sorted (by show 0 < 2; decide)
  obtain ⟨gp, -, -, h, -⟩ := exp_gp twoT (by show 2 ≠ 1; decide) (some (.inl 1)) twoT
  refine ⟨gp, h, fun y hy => ?_⟩
  obtain ⟨l, hl, h1, h2⟩ := C83_bounds hr h two_noise hy
  have e : ∀ f : ℕ → ℝ, ∑ i : Fin (XArg.times twoT).coords.len, f i = f 0 + f 1 := fun f => by
    rw [Fin.sum_univ_eq_sum_range f]
    show ∑ i ∈ Finset.range 2, f i = _
    rw [Finset.sum_range_succ, Finset.sum_range_one]
  rw [e fun i => Real.log (2 * Real.pi * (GP.noiseOf (XArg.times twoT).coords.len (some (.inl 1))).get i)] at h1
  rw [e fun i => y.get i ^ 2 / (GP.noiseOf (XArg.times twoT).coords.len (some (.inl 1))).get i +
    Real.log (2 * Real.pi * (covExp 1 1 0 + (GP.noiseOf (XArg.times twoT).coords.len (some (.inl 1))).get i))] at h2
  have hn : ∀ i, (GP.noiseOf (XArg.times twoT).coords.len (some (.inl 1))).get i = 1 := fun _ => rfl
  have h0 : covExp 1 1 0 = 1 := by rw [(C24_variance 1 1 1 1 0).1, one_pow]
  simp only [hn, h0] at h1 h2
  refine ⟨l, hl, h1.trans (le_of_eq (by rw [mul_one]; ring)), le_trans (le_of_eq ?_) h2⟩
  rw [show 2 * Real.pi * (1 + 1) = 4 * Real.pi by ring]
  ring

end examples

end Verif
