import Verif.Props.C58_LatentPrediction
import Verif.Props.C53_Mixed

/-!
# C55: predicting an exposure average

`predict` evaluates the state at the centre of the test exposure and reads off the integral accumulated by the instrument so far. That
is not the average over the test exposure; here is what it is.
-/

set_option linter.unusedSectionVars false

namespace Verif
open Matrix Spec MeasureTheory

/-- the exposure from `s` to `x` by instrument `i` -/
noncomputable def exposureFrom (s x : ℝ) (i : ℤ) : Coord := .exposure ((s + x) / 2) (x - s) i

theorem integrated_obs_scale {name : String} {m' : ℕ} {base : SSM} {first : base.n} {phibar : ℝ → ℝ → Matrix base.n base.n ℝ}
    {q12 : ℝ → ℝ → base.n → ℝ} {q22 : ℝ → ℝ → ℝ} {c d : Coord} (hc : 0 < c.delta) (hd : 0 < d.delta) (h : c.inst = d.inst) :
    (integratedSSM name m' base first phibar q12 q22).obsModel c none =
      (d.delta / c.delta) • (integratedSSM name m' base first phibar q12 q22).obsModel d none := by
  have e : ∀ c, (integratedSSM name m' base first phibar q12 q22).obsModel c none = integratedSSM.obs m' base first c :=
    fun c => defaultObs_none _ _ _
  rw [e, e]
  cases c with
  | time t => exact absurd hc (lt_irrefl _)
  | exposure t δ o =>
    cases d with
    | time t => exact absurd hd (lt_irrefl _)
    | exposure t' δ' o' =>
      change 0 < δ at hc
      change 0 < δ' at hd
      change o = o' at h
      subst h
      refine Matrix.ext fun i a => ?_
      show _ = (δ' / δ) • integratedSSM.obs m' base first (.exposure t' δ' o) i a
      rcases a with a | a
      · simp only [integratedSSM.obs, of_apply, gt_iff_lt, if_pos hc, if_pos hd, Sum.elim_inl, smul_zero]
      · simp only [integratedSSM.obs, of_apply, gt_iff_lt, if_pos hc, if_pos hd, Sum.elim_inr, smul_eq_mul]
        split_ifs
        · field_simp
        · simp

/-- the rows of two exposures of the same instrument are proportional -/
theorem IntegratedSum.obs_scale {p : ℝ → Prop} {m : ℕ} {k : SSM} {κ : ℝ → ℝ} (hk : IntegratedSum p m k κ) {c d : Coord} (hc : 0 < c.delta)
    (hd : 0 < d.delta) (h : c.inst = d.inst) : k.obsModel c none = (d.delta / c.delta) • k.obsModel d none := by
  induction hk with
  | exp | matern32 | matern52 | cosine | sho => exact integrated_obs_scale hc hd h
  | @sum k1 k2 κ1 κ2 _ _ h1 h2 =>
    show hstack (k1.obsModel c none) (k2.obsModel c none) = _ • hstack (k1.obsModel d none) (k2.obsModel d none)
    rw [h1, h2]
    ext i a
    rcases a with a | a <;> rfl

/-- the last exposure of an instrument that started before `x` -/
structure LastStarted (X : Arr Coord) (i : ℤ) (x : ℝ) (n : ℕ) : Prop where
  lt : n < X.len
  inst : (X.get n).inst = i
  before : (X.get n).start < x
  last : ∀ n' < X.len, (X.get n').inst = i → (X.get n').start ≤ x → (X.get n').start ≤ (X.get n).start

theorem LastStarted.probe {X : Arr Coord} {i : ℤ} {x : ℝ} {n : ℕ} (h : LastStarted X i x n) :
    LineProbe (testLine X x) (testReset X x) (testPos X x) (exposureFrom (X.get n).start x i) := by
  have ha : IsStart X n (startStep X n) := (isStart_iff h.lt).2 rfl
  have hta : (stateCoords X).t.get (startStep X n) = (X.get n).start := by rw [← evTime_lt ha.1, evTime_start h.lt ha]
  have hlt : startStep X n < testPos X x :=
    (searchsorted_lt_iff sc_sorted x (by rw [sc_len]; exact ha.1)).2 (by rw [hta]; exact h.before.le)
  have hidx : ∀ {l}, l < testPos X x → testReset X x l = evReset X l := fun {l} hl => by
    have := testReset_insIdx (X := X) (x := x) l
    rwa [insIdx, if_pos hl] at this
  refine .exposure (a := startStep X n) (sub_pos.2 h.before) hlt ?_ ?_ ?_ ?_
  · rw [hidx hlt]
    unfold evReset
    rw [if_pos ⟨ha.1, ha.2.2⟩, ha.2.1, sc_instid, h.inst]
    rfl
  · rw [testLine_lt hlt, hta]
    simp only [exposureFrom, Coord.start, Coord.sortable, Coord.delta]
    ring
  · rw [testLine_pos]
    simp only [exposureFrom, Coord.stop, Coord.sortable, Coord.delta]
    ring
  · intro l h1 h2 h3
    rw [hidx h2] at h3
    unfold evReset at h3
    split_ifs at h3 with h0
    have hst : IsStart X ((stateCoords X).obsid.get l) l := ⟨h0.1, rfl, h0.2⟩
    have ho := obsid_lt h0.1
    have htl : (stateCoords X).t.get l = (X.get ((stateCoords X).obsid.get l)).start := by rw [← evTime_lt h0.1, evTime_start ho hst]
    have hin : (X.get ((stateCoords X).obsid.get l)).inst = i := by
      have := Option.some.inj h3
      rw [sc_instid] at this
      exact this
    rw [testLine_lt h2, testLine_lt hlt]
    refine le_antisymm ?_ (sc_sorted _ _ h1.le (by rw [sc_len]; exact h0.1))
    rw [htl, hta]
    exact h.last _ ho hin (htl ▸ testPos_before h2)

/-- **What `predict` returns for an exposure.** If the test exposure (length `δ > 0`, instrument `i`) is centred at `x` and the
instrument's last exposure before `x` began at `s`, then the mean and variance returned are those of `(x - s) / δ` times the average
over `[s, x]`, whatever the extent of the test exposure. -/
theorem C55_prediction_law (k : SSM) (κ : ℝ → ℝ) (m : ℕ)
    (hk : DrivenSum (fun q => SHO.Genuine q ∧ SHO.NotUnderdamped q) m k κ) (X : Arr Coord) (hX : Schedule m X)
    (hd : DistinctStarts X) (y R : Arr ℝ) (hR : ∀ i < X.len, 0 < R.get i)
    (Xtest : Arr Coord) (n : ℕ) (hδ : 0 < (Xtest.get n).delta) (a : ℕ)
    (ha : LastStarted X (Xtest.get n).inst (Xtest.get n).sortable a) :
    (k.integratedPredictAt X y R Xtest).get n =
      (((Xtest.get n).sortable - (X.get a).start) / (Xtest.get n).delta *
        postMean (noisyGram (fun i j : Fin X.len => exposureCov κ (X.get i) (X.get j)) fun i => R.get i) (fun i => y.get i)
          (fun i => exposureCov κ (exposureFrom (X.get a).start (Xtest.get n).sortable (Xtest.get n).inst) (X.get i)),
       (((Xtest.get n).sortable - (X.get a).start) / (Xtest.get n).delta) ^ 2 *
        postVar (noisyGram (fun i j : Fin X.len => exposureCov κ (X.get i) (X.get j)) fun i => R.get i)
          (exposureCov κ (exposureFrom (X.get a).start (Xtest.get n).sortable (Xtest.get n).inst)
            (exposureFrom (X.get a).start (Xtest.get n).sortable (Xtest.get n).inst))
          (fun i => exposureCov κ (exposureFrom (X.get a).start (Xtest.get n).sortable (Xtest.get n).inst) (X.get i))) := by
  have hN : 0 < X.len := by have := ha.lt; omega
  have hg := hk.mono (q := SHO.Genuine) fun _ h => h.1
  have hQ : k.NoiseOnEvents X := fun _ _ => hk.toSum.noise _
  have main := predict_probe k κ m hg.toSum X hX hN hQ y R hR
    (fun j hj => pd_det (C56_systems_posdef k κ m hg X hX hd hQ y R hR j hj)) (last_event_is_end X hN hd.pos) _
    ⟨fun _ => hk.toSum.noise _, fun _ => hk.toSum.noise _⟩ _ ha.probe
  have hsc := hk.toSum.obs_scale hδ (d := exposureFrom (X.get a).start (Xtest.get n).sortable (Xtest.get n).inst)
    (sub_pos.2 ha.before) rfl
  rw [← main.1, ← main.2]
  have k1 : ∀ v : k.n → ℝ, (k.obsModel (Xtest.get n) none *ᵥ v) 0 = ((Xtest.get n).sortable - (X.get a).start) / (Xtest.get n).delta *
      (k.obsModel (exposureFrom (X.get a).start (Xtest.get n).sortable (Xtest.get n).inst) none *ᵥ v) 0 := by
    intro v
    rw [hsc, smul_mulVec]
    rfl
  have k2 : ∀ P : Matrix k.n k.n ℝ, (k.obsModel (Xtest.get n) none * P * (k.obsModel (Xtest.get n) none)ᵀ) 0 0 =
      (((Xtest.get n).sortable - (X.get a).start) / (Xtest.get n).delta) ^ 2 *
      (k.obsModel (exposureFrom (X.get a).start (Xtest.get n).sortable (Xtest.get n).inst) none * P *
        (k.obsModel (exposureFrom (X.get a).start (Xtest.get n).sortable (Xtest.get n).inst) none)ᵀ) 0 0 := by
    intro P
    rw [hsc, transpose_smul, Matrix.smul_mul, Matrix.smul_mul, Matrix.mul_smul, smul_smul, Matrix.smul_apply, smul_eq_mul, sq]
    rfl
  exact Prod.ext (k1 _) (k2 _)

/-! ### a single exposure, predicted at its own coordinates -/

/-- the average over the first half of an exposure and the whole average have the covariance of the whole average with itself -/
theorem exposureCov_first_half {κ : ℝ → ℝ} (hκ : Continuous fun u => κ |u|) (t : ℝ) {δ : ℝ} (hδ : 0 < δ) (i : ℤ) :
    exposureCov κ (exposureFrom (Coord.exposure t δ i).start t i) (.exposure t δ i) =
      exposureCov κ (.exposure t δ i) (.exposure t δ i) := by
  set g : ℝ → ℝ := fun u => (Coord.exposure t δ i).average fun v => κ |u - v| with hg
  have hgc : Continuous g := average_continuous _ hκ
  have hsym : ∀ u, g (2 * t - u) = g u := by
    intro u
    have hgu : ∀ u, g u = 1 / δ * ∫ v in (t - δ / 2)..(t + δ / 2), κ |u - v| := fun u => if_pos hδ
    rw [hgu, hgu]
    have := intervalIntegral.integral_comp_sub_left (fun v => κ |2 * t - u - v|) (2 * t) (a := t - δ / 2) (b := t + δ / 2)
    rw [show 2 * t - (t + δ / 2) = t - δ / 2 by ring, show 2 * t - (t - δ / 2) = t + δ / 2 by ring] at this
    rw [← this]
    refine congrArg (1 / δ * ·) (intervalIntegral.integral_congr fun v _ => ?_)
    show κ |2 * t - u - (2 * t - v)| = κ |u - v|
    rw [show 2 * t - u - (2 * t - v) = -(u - v) by ring, abs_neg]
  have hhalf : ∫ u in t..(t + δ / 2), g u = ∫ u in (t - δ / 2)..t, g u := by
    have := intervalIntegral.integral_comp_sub_left g (2 * t) (a := t - δ / 2) (b := t)
    rw [show 2 * t - t = t by ring, show 2 * t - (t - δ / 2) = t + δ / 2 by ring] at this
    rw [← this]
    exact intervalIntegral.integral_congr fun u _ => hsym u
  have hadd := intervalIntegral.integral_add_adjacent_intervals (hgc.intervalIntegrable (μ := volume) (t - δ / 2) t)
    (hgc.intervalIntegrable (μ := volume) t (t + δ / 2))
  have h1 : exposureCov κ (.exposure t δ i) (.exposure t δ i) = 1 / δ * ∫ u in (t - δ / 2)..(t + δ / 2), g u := by
    exact if_pos hδ
  have hpos : 0 < (exposureFrom (Coord.exposure t δ i).start t i).delta := by
    simp only [exposureFrom, Coord.start, Coord.sortable, Coord.delta]; linarith
  have h2 : exposureCov κ (exposureFrom (Coord.exposure t δ i).start t i) (.exposure t δ i) = 1 / (δ / 2) * ∫ u in (t - δ / 2)..t, g u := by
    unfold exposureCov
    rw [Coord.average, if_pos hpos]
    simp only [exposureFrom, Coord.start, Coord.sortable, Coord.delta]
    congr 2
    · ring
    · ring
    · ring
  rw [h1, h2, ← hadd, hhalf]
  field_simp
  ring

theorem DrivenSum.cont {m : ℕ} {k : SSM} {κ : ℝ → ℝ} (hk : DrivenSum (fun q => SHO.Genuine q ∧ SHO.NotUnderdamped q) m k κ) :
    Continuous fun u => κ |u| := (hk.mono (q := SHO.Genuine) fun _ h => h.1).toSum.ok.cont

/-- **C55 refuted, in general.** For every exported integrated kernel driven by noise and a single exposure, predicting at the very
coordinates of that exposure returns HALF of the posterior mean of its average (which is also the mean reported by `condition` for
it). -/
theorem C55_own_exposure_half (k : SSM) (κ : ℝ → ℝ) (m : ℕ)
    (hk : DrivenSum (fun q => SHO.Genuine q ∧ SHO.NotUnderdamped q) m k κ) (t δ : ℝ) (hδ : 0 < δ) (i : ℤ) (hi : 0 ≤ i ∧ i ≤ m)
    (y R : Arr ℝ) (hR : 0 < R.get 0) :
    ((k.integratedPredictAt ⟨1, fun _ => .exposure t δ i⟩ y R ⟨1, fun _ => .exposure t δ i⟩).get 0).1 =
      1 / 2 * postMean (noisyGram (fun _ _ : Fin 1 => exposureCov κ (.exposure t δ i) (.exposure t δ i)) fun _ => R.get 0)
        (fun _ => y.get 0) (fun _ => exposureCov κ (.exposure t δ i) (.exposure t δ i)) := by
  set X : Arr Coord := ⟨1, fun _ => .exposure t δ i⟩ with hXdef
  have hX : Schedule m X := ⟨fun _ _ => hδ.le, fun _ _ => hi, fun a ha b hb hab => absurd (by
    change a < 1 at ha; change b < 1 at hb; omega) hab⟩
  have hds : DistinctStarts X := ⟨fun _ _ => hδ, fun a ha b hb hab => absurd (by
    change a < 1 at ha; change b < 1 at hb; omega) hab⟩
  have hL : LastStarted X i t 0 := ⟨Nat.one_pos, rfl, by
    show t - δ / 2 < t
    linarith, fun _ _ _ _ => le_rfl⟩
  have hR' : ∀ i < X.len, 0 < R.get i := fun i h => by
    change i < 1 at h
    rwa [Nat.lt_one_iff.1 h]
  rw [C55_prediction_law k κ m hk X hX hds y R hR' X 0 hδ 0 hL]
  have e : ((X.get 0).sortable - (X.get 0).start) / (X.get 0).delta = 1 / 2 := by
    show (t - (t - δ / 2)) / δ = 1 / 2
    field_simp
    ring
  rw [e]
  have hc : ∀ j : Fin X.len, exposureCov κ (exposureFrom (X.get 0).start (X.get 0).sortable (X.get 0).inst) (X.get j) =
      exposureCov κ (.exposure t δ i) (.exposure t δ i) := fun _ => exposureCov_first_half hk.cont t hδ i
  simp only [hc]
  have one : ∀ j : Fin X.len, (j : ℕ) = 0 := fun j => Nat.lt_one_iff.1 j.2
  simp only [one]
  rfl

/-! ### before the data -/

/-- **Before the first exposure starts**, `predict` returns mean zero and a variance of at least `1 / δ²` for any test exposure,
whatever the data (the slot of the instrument then holds an arbitrary unit variance). -/
theorem C55_before_the_data (k : SSM) (κ : ℝ → ℝ) (m : ℕ)
    (hk : DrivenSum (fun q => SHO.Genuine q ∧ SHO.NotUnderdamped q) m k κ) (X : Arr Coord) (hX : Schedule m X)
    (hN : 0 < X.len) (hd : DistinctStarts X) (y R : Arr ℝ) (hR : ∀ i < X.len, 0 < R.get i)
    (Xtest : Arr Coord) (n : ℕ) (hδ : 0 < (Xtest.get n).delta) (hbefore : ∀ i < X.len, (Xtest.get n).sortable < (X.get i).start) :
    ((k.integratedPredictAt X y R Xtest).get n).1 = 0 ∧ 1 / (Xtest.get n).delta ^ 2 ≤ ((k.integratedPredictAt X y R Xtest).get n).2 := by
  have hg := hk.mono (q := SHO.Genuine) fun _ h => h.1
  have hQ : k.NoiseOnEvents X := fun _ _ => hk.toSum.noise _
  have he : ∀ n < X.len, IsEnd X n (endStep X n) := fun n hn => (isEnd_iff hn).2 rfl
  have hok := hg.toSum.ok
  have hpsd := SSM.NoiseOnEvents.psd hok hQ
  set c := Xtest.get n with hc
  have hp : testPos X c.sortable = 0 := by
    by_contra h
    have h0 : 0 < testPos X c.sortable := Nat.pos_of_ne_zero h
    have h1 := testPos_before h0
    have hj : 0 < 2 * X.len := by omega
    have ho := obsid_lt (X := X) hj
    have hlow : (X.get ((stateCoords X).obsid.get 0)).start ≤ (stateCoords X).t.get 0 := by
      by_cases hs : (stateCoords X).stateid.get 0 = 0
      · rw [← evTime_lt hj, evTime_start ho ⟨hj, rfl, hs⟩]
      · have hend : IsEnd X ((stateCoords X).obsid.get 0) 0 := ⟨hj, rfl, by rw [sc_stateid] at hs ⊢; omega⟩
        rw [← evTime_lt hj, evTime_end ho hend]
        unfold Coord.start Coord.stop
        have := hd.pos _ ho
        linarith
    exact absurd (hlow.trans h1) (not_le.2 (hbefore _ ho))
  have main := predict_before (y := y) (R := R) hpsd.symm hN hg.toSum.transitionIsExp.At_zero hok.Q0 hp
    (fun n hn => (hpsd.S_pos hR hn (he n hn)).ne') (fun j hj => pd_det (C56_systems_posdef k κ m hg X hX hd hQ y R hR j hj))
    (last_event_is_end X hN hd.pos) (k.obsModel c none)
  have hcross : (fun i : Fin X.len => testCross k X c.sortable (k.obsModel c none) i) = 0 := by
    funext i
    unfold testCross
    rw [hp]
    refine hok.fresh _ _ (testLine_ok (x := c.sortable) hX hN) (fun _ => hk.toSum.noise _) c _ _ hδ ?_
    have := testLine_measurement (x := c.sortable) hX i.2
    rwa [hp] at this
  rw [hcross] at main
  refine ⟨main.1.trans ?_, ?_⟩
  · unfold postMean
    rw [zero_dotProduct]
  · refine (hok.fresh_var c hδ).trans (le_of_eq (Eq.trans ?_ main.2.symm))
    unfold postVar
    rw [zero_dotProduct, sub_zero]

/-- conditioning on data never raises a variance above its prior value -/
theorem exposure_postVar_le (k : SSM) (κ : ℝ → ℝ) (m : ℕ) (hk : IntegratedSum (fun q => SHO.Genuine q ∧ SHO.NotUnderdamped q) m k κ)
    (X : Arr Coord) (hX : Schedule m X) (hN : 0 < X.len) (R : Arr ℝ) (hR : ∀ i < X.len, 0 < R.get i) (v : ℝ) (c : ℕ → ℝ) :
    postVar (noisyGram (fun i j : Fin X.len => exposureCov κ (X.get i) (X.get j)) fun i => R.get i) v (fun i => c i) ≤ v := by
  have hg := hk.mono (q := SHO.Genuine) fun _ h => h.1
  have hQ : k.NoiseOnEvents X := fun _ _ => hk.noise _
  have he : ∀ n < X.len, IsEnd X n (endStep X n) := fun n hn => (isEnd_iff hn).2 rfl
  have hpsd := SSM.NoiseOnEvents.psd hg.ok hQ
  have hS : ∀ n < X.len, 0 < ((k.integratedKalman X ⟨X.len, c⟩ R).get (endStep X n)).S 0 0 := fun n hn => hpsd.S_pos hR hn (he n hn)
  have h := (integrated_gram (y := ⟨X.len, c⟩) hpsd.symm he hN fun n hn => (hS n hn).ne').2
  rw [augmentedGram_eq hg.ok hX hQ he R] at h
  have hnn : 0 ≤ (fun i : Fin X.len => c i) ⬝ᵥ (noisyGram (fun i j : Fin X.len => exposureCov κ (X.get i) (X.get j)) fun i => R.get i)⁻¹ *ᵥ
      (fun i : Fin X.len => c i) :=
    h.ge.trans' (Finset.sum_nonneg fun i _ => div_nonneg (sq_nonneg _) (hS i i.2).le)
  unfold postVar
  linarith

/-- two exposures of length two by one instrument -/
def twoExposures : Arr Coord := ⟨2, fun i => .exposure (if i = 0 then 0 else 3) 2 0⟩

theorem twoExposures_schedule : Schedule 0 twoExposures where
  delta_nonneg _ _ := zero_le_two
  inst _ _ := ⟨le_rfl, le_rfl⟩
  disjoint a ha b hb hab _ := by
    change a < 2 at ha
    change b < 2 at hb
    simp only [twoExposures, Coord.sortable, Coord.delta]
    split_ifs <;> first | omega | norm_num

theorem twoExposures_distinct : DistinctStarts twoExposures where
  pos _ _ := two_pos
  ne a ha b hb hab := by
    change a < 2 at ha
    change b < 2 at hb
    simp only [twoExposures, Coord.sortable, Coord.delta]
    split_ifs <;> first | omega | norm_num

/-- **C55 refuted**: two exposures of length two and a test exposure of length one tenth before them. The variance returned is at least
100 whatever the data and the noise, though the process has variance 1. -/
theorem C55_refuted (y R : Arr ℝ) (hR : ∀ i < 2, 0 < R.get i) :
    ((integratedExp 1 1 0 "a").integratedPredictAt twoExposures y R ⟨1, fun _ => .exposure (-2) (1/10) 0⟩).get 0 ≠
      (postMean (noisyGram (fun i j : Fin 2 => exposureCov (covExp 1 1) (twoExposures.get i) (twoExposures.get j)) fun i => R.get i)
        (fun i => y.get i) (fun i => exposureCov (covExp 1 1) (.exposure (-2) (1/10) 0) (twoExposures.get i)),
       postVar (noisyGram (fun i j : Fin 2 => exposureCov (covExp 1 1) (twoExposures.get i) (twoExposures.get j)) fun i => R.get i)
        (exposureCov (covExp 1 1) (.exposure (-2) (1/10) 0) (.exposure (-2) (1/10) 0))
        (fun i => exposureCov (covExp 1 1) (.exposure (-2) (1/10) 0) (twoExposures.get i))) := by
  intro h
  have h1 := (C55_before_the_data (integratedExp 1 1 0 "a") (covExp 1 1) 0 (.exp one_pos one_ne_zero le_rfl) twoExposures
    twoExposures_schedule Nat.two_pos twoExposures_distinct y R hR ⟨1, fun _ => .exposure (-2) (1/10) 0⟩ 0
    (by show (0 : ℝ) < 1/10; norm_num) (fun i _ => by
      simp only [twoExposures, Coord.start, Coord.sortable, Coord.delta]
      split_ifs <;> norm_num)).2
  rw [h] at h1
  have h2 : postVar (noisyGram (fun i j : Fin 2 => exposureCov (covExp 1 1) (twoExposures.get i) (twoExposures.get j)) fun i => R.get i)
        (exposureCov (covExp 1 1) (.exposure (-2) (1/10) 0) (.exposure (-2) (1/10) 0))
        (fun i => exposureCov (covExp 1 1) (.exposure (-2) (1/10) 0) (twoExposures.get i)) ≤ _ :=
    exposure_postVar_le (integratedExp 1 1 0 "a") (covExp 1 1) 0 (.exp one_pos le_rfl) twoExposures twoExposures_schedule Nat.two_pos R hR
      (exposureCov (covExp 1 1) (.exposure (-2) (1/10) 0) (.exposure (-2) (1/10) 0))
      fun i => exposureCov (covExp 1 1) (.exposure (-2) (1/10) 0) (twoExposures.get i)
  have h3 := (exposureCov_exp_mem (.exposure (-2) (1/10) 0) (.exposure (-2) (1/10) 0)).2
  have h4 : (1 : ℝ) / (1/10) ^ 2 ≤ 1 := (h1.trans h2).trans h3
  norm_num at h4

/-- predicting in the middle of the second exposure: an exposure of length `δ` of the same instrument is answered with the integral over
the first half of the second exposure, divided by `δ` -/
example (y : Arr ℝ) (δ : ℝ) (hδ : 0 < δ) :
    (((integratedExp 1 1 0 "a").integratedPredictAt twoExposures y ⟨2, fun _ => 1/10⟩ ⟨1, fun _ => .exposure 3 δ 0⟩).get 0).1 =
      (3 - (3 - 2 / 2)) / δ *
        postMean (noisyGram (fun i j : Fin 2 => exposureCov (covExp 1 1) (twoExposures.get i) (twoExposures.get j)) fun _ => 1/10)
          (fun i => y.get i) (fun i => exposureCov (covExp 1 1) (exposureFrom (3 - 2 / 2) 3 0) (twoExposures.get i)) :=
  congrArg Prod.fst (C55_prediction_law (integratedExp 1 1 0 "a") (covExp 1 1) 0 (.exp one_pos one_ne_zero le_rfl) twoExposures
    twoExposures_schedule twoExposures_distinct y ⟨2, fun _ => 1/10⟩ (fun _ _ => by norm_num) ⟨1, fun _ => .exposure 3 δ 0⟩ 0 hδ 1
    ⟨Nat.one_lt_two, rfl, by show (3 : ℝ) - 2 / 2 < 3; norm_num, fun n' _ _ _ => by
      simp only [twoExposures, Coord.start, Coord.sortable, Coord.delta]
      split_ifs <;> first | contradiction | norm_num⟩)

end Verif
