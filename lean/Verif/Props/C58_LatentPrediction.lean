import Verif.Lemmas.IntPredict

/-!
# C58: prediction of the latent process from exposure-averaged data
-/

set_option linter.unusedSectionVars false

namespace Verif
open Matrix Spec

theorem SSM.IntegratedOk.Q0 {k : SSM} {m : ℕ} {κ : ℝ → ℝ} (h : k.IntegratedOk m κ) : k.Qt 0 0 = 0 := noise_zero_of_over h.zero

theorem SSM.TransitionIsExp.At_zero {k : SSM} (h : k.TransitionIsExp) : k.At 0 0 = 1 := by
  have := h (.time 0) (.time 0)
  rw [sub_self, zero_smul, NormedSpace.exp_zero] at this
  exact this

/-- the process noise is the accumulated one over the steps from and to the test time `x` -/
def SSM.NoiseAround (k : SSM) (X : Arr Coord) (x : ℝ) : Prop :=
  (0 < testPos X x → k.NoiseIntegralOver (x - (stateCoords X).t.get (testPos X x - 1))) ∧
    (testPos X x < 2 * X.len → k.NoiseIntegralOver ((stateCoords X).t.get (testPos X x) - x))

theorem testLine_noise {k : SSM} {X : Arr Coord} {x : ℝ} (hN : 0 < X.len) (h0 : k.NoiseIntegralOver 0) (hQ : k.NoiseOnEvents X)
    (hx : k.NoiseAround X x) (j : ℕ) : k.NoiseIntegralOver (testLine X x (j + 1) - testLine X x j) :=
  testLine_step (P := k.NoiseIntegralOver) hN h0 hQ hx.1 hx.2 j

/-- prediction at `x` of the quantity observed at a coordinate `d` which is measured at the time `x` of the events with `x` inserted:
the latent process at `x`, or the average over an exposure that ends at `x` -/
theorem predict_probe (k : SSM) (κ : ℝ → ℝ) (m : ℕ) (hk : IntegratedSum SHO.Genuine m k κ) (X : Arr Coord) (hX : Schedule m X)
    (hN : 0 < X.len) (hQ : k.NoiseOnEvents X) (y R : Arr ℝ) (hR : ∀ i < X.len, 0 < R.get i)
    (hP : ∀ j, j < 2 * X.len → IsUnit ((k.integratedKalman X y R).get j).PPred.det)
    (hlast : (stateCoords X).stateid.get (2 * X.len - 1) = 1) (x : ℝ) (hx : k.NoiseAround X x)
    (d : Coord) (hd : LineProbe (testLine X x) (testReset X x) (testPos X x) d) :
    (k.obsModel d none *ᵥ (ssPredictPoint k.At k.Qt k.Pinf (stateCoords X).t (k.integratedCondition X y R).1
        (k.integratedCondition X y R).2 x).m) 0 = postMean (noisyGram (fun i j : Fin X.len => exposureCov κ (X.get i) (X.get j))
          fun i => R.get i) (fun i => y.get i) (fun i => exposureCov κ d (X.get i)) ∧
      (k.obsModel d none * (ssPredictPoint k.At k.Qt k.Pinf (stateCoords X).t (k.integratedCondition X y R).1
        (k.integratedCondition X y R).2 x).P * (k.obsModel d none)ᵀ) 0 0 = postVar (noisyGram (fun i j : Fin X.len =>
          exposureCov κ (X.get i) (X.get j)) fun i => R.get i) (exposureCov κ d d) (fun i => exposureCov κ d (X.get i)) := by
  have he : ∀ n < X.len, IsEnd X n (endStep X n) := fun n hn => (isEnd_iff hn).2 rfl
  have hpsd := SSM.NoiseOnEvents.psd hk.ok hQ
  have hS : ∀ n < X.len, ((k.integratedKalman X y R).get (endStep X n)).S 0 0 ≠ 0 := fun n hn => (hpsd.S_pos hR hn (he n hn)).ne'
  have hexp := hk.transitionIsExp
  have hnoise := testLine_noise hN hk.ok.zero hQ hx
  have hline := hk.ok.line _ _ (testLine_ok (x := x) hX hN) hnoise
  have hgram : testGram k X x R = noisyGram (fun i j : Fin X.len => exposureCov κ (X.get i) (X.get j)) fun i => R.get i := by
    unfold testGram
    congr 1
    funext i j
    exact hline _ _ _ _ (testLine_measurement hX i.2) (testLine_measurement hX j.2)
  have hcross : (fun i : Fin X.len => testCross k X x (k.obsModel d none) i) = fun i : Fin X.len => exposureCov κ d (X.get i) :=
    funext fun i => hline _ _ _ _ hd (testLine_measurement hX i.2)
  have hvar : (k.obsModel d none * k.lineCov (testLine X x) (testReset X x) (testPos X x) (testPos X x) * (k.obsModel d none)ᵀ) 0 0 =
      exposureCov κ d d := hline _ _ _ _ hd hd
  have hA := augmentedGram_eq hk.ok hX hQ he R
  have hunit : IsUnit (testGram k X x R).det := by
    rw [hgram, ← hA, (integrated_gram hpsd.symm he hN hS).1]
    exact isUnit_iff_ne_zero.2 (Finset.prod_ne_zero_iff.2 fun i _ => hS i i.2)
  rcases Nat.eq_zero_or_pos (testPos X x) with hp | hp
  · have := predict_before (y := y) (R := R) hpsd.symm hN hexp.At_zero hk.ok.Q0 hp hS hP hlast (k.obsModel d none)
    rw [hcross, hA] at this
    have e : (k.obsModel d none * k.Pinf * (k.obsModel d none)ᵀ) 0 0 = exposureCov κ d d := by
      rw [← hvar, hp]
      unfold SSM.lineCov stateCov
      rw [if_pos le_rfl, propagator_self, transpose_one, Matrix.mul_one]
      rfl
    rwa [e] at this
  · have hsym : ∀ j, (k.lineQ (testLine X x) j)ᵀ = k.lineQ (testLine X x) j := fun j =>
      psd_symm ((hnoise j).psd (sub_nonneg.2 (testLine_mono hN (Nat.le_succ j))) hk.ok.src_psd)
    have hcomp : testPos X x < 2 * X.len →
        k.StepsCompose (x - (stateCoords X).t.get (testPos X x - 1)) ((stateCoords X).t.get (testPos X x) - x) := by
      intro hlt
      have h1 := hnoise (testPos X x - 1)
      have h2 := hnoise (testPos X x)
      rw [Nat.sub_add_cancel hp, testLine_pos, testLine_lt (by omega)] at h1
      rw [testLine_pos, testLine_succ le_rfl hlt] at h2
      refine h1.compose hexp h2 ?_
      have h3 := hQ (testPos X x - 1) (by omega)
      rw [Nat.sub_add_cancel hp] at h3
      rwa [show x - (stateCoords X).t.get (testPos X x - 1) + ((stateCoords X).t.get (testPos X x) - x) =
        (stateCoords X).t.get (testPos X x) - (stateCoords X).t.get (testPos X x - 1) by ring]
    have := predict_after (y := y) (R := R) hpsd.symm hN hsym hexp.At_zero hk.ok.Q0 hp hcomp hS (fun j hj => hP _ hj) hlast hunit
      (k.obsModel d none)
    rwa [hcross, hgram, hvar] at this

/-- **C58, general form**: the predicted covariances are regular, the last event is the end of an exposure, and the noise is exact over
all steps. -/
theorem C58_prediction_exact (k : SSM) (κ : ℝ → ℝ) (m : ℕ) (hk : IntegratedSum SHO.Genuine m k κ) (X : Arr Coord) (hX : Schedule m X)
    (hN : 0 < X.len) (hQ : k.NoiseOnEvents X) (y R : Arr ℝ) (hR : ∀ i < X.len, 0 < R.get i)
    (hP : ∀ j, j < 2 * X.len → IsUnit ((k.integratedKalman X y R).get j).PPred.det)
    (hlast : (stateCoords X).stateid.get (2 * X.len - 1) = 1)
    (Xtest : Arr Coord) (n : ℕ) (hδ : (Xtest.get n).delta = 0) (hx : k.NoiseAround X (Xtest.get n).sortable) :
    (k.integratedPredictAt X y R Xtest).get n =
      (postMean (noisyGram (fun i j : Fin X.len => exposureCov κ (X.get i) (X.get j)) fun i => R.get i) (fun i => y.get i)
        (fun i => exposureCov κ (Xtest.get n) (X.get i)),
       postVar (noisyGram (fun i j : Fin X.len => exposureCov κ (X.get i) (X.get j)) fun i => R.get i) (κ 0)
        (fun i => exposureCov κ (Xtest.get n) (X.get i))) := by
  have main := predict_probe k κ m hk X hX hN hQ y R hR hP hlast _ hx (Xtest.get n) (testLine_latent hδ rfl)
  have hself : exposureCov κ (Xtest.get n) (Xtest.get n) = κ 0 := by
    unfold exposureCov Coord.average
    rw [hδ]
    simp
  rw [hself] at main
  exact Prod.ext main.1 main.2

/-- **C58.** For every sum of exported integrated kernels driven by noise (no underdamped `SHO`), exposures starting at different times
and positive noise: the mean and variance predicted at any time (before, between or after the exposures, or inside one) are the exact
posterior ones of the latent process given the exposure-averaged data. -/
theorem C58_latent_prediction (k : SSM) (κ : ℝ → ℝ) (m : ℕ)
    (hk : DrivenSum (fun q => SHO.Genuine q ∧ SHO.NotUnderdamped q) m k κ) (X : Arr Coord) (hX : Schedule m X)
    (hN : 0 < X.len) (hd : DistinctStarts X) (y R : Arr ℝ) (hR : ∀ i < X.len, 0 < R.get i)
    (Xtest : Arr Coord) (n : ℕ) (hδ : (Xtest.get n).delta = 0) :
    (k.integratedPredictAt X y R Xtest).get n =
      (postMean (noisyGram (fun i j : Fin X.len => exposureCov κ (X.get i) (X.get j)) fun i => R.get i) (fun i => y.get i)
        (fun i => exposureCov κ (Xtest.get n) (X.get i)),
       postVar (noisyGram (fun i j : Fin X.len => exposureCov κ (X.get i) (X.get j)) fun i => R.get i) (κ 0)
        (fun i => exposureCov κ (Xtest.get n) (X.get i))) := by
  have hg := hk.mono (q := SHO.Genuine) fun _ h => h.1
  have hQ : k.NoiseOnEvents X := fun _ _ => hk.toSum.noise _
  exact C58_prediction_exact k κ m hg.toSum X hX hN hQ y R hR
    (fun j hj => pd_det (C56_systems_posdef k κ m hg X hX hd hQ y R hR j hj)) (last_event_is_end X hN hd.pos) Xtest n hδ
    ⟨fun _ => hk.toSum.noise _, fun _ => hk.toSum.noise _⟩

/-- the three exposures of C11, predicted at any list of times -/
example (y ts : Arr ℝ) (n : ℕ) :
    (((integratedExp 2 1 1 "a").sum (integratedMatern32 5 3 4 "b")).integratedPredictAt threeExposures y ⟨3, fun _ => 1/10⟩
      (ts.map .time)).get n =
      (postMean (noisyGram (fun i j : Fin 3 => exposureCov (fun r => covExp 2 1 r + covMatern32 5 3 r)
        (threeExposures.get i) (threeExposures.get j)) fun _ => 1/10) (fun i => y.get i)
        (fun i => exposureCov (fun r => covExp 2 1 r + covMatern32 5 3 r) (.time (ts.get n)) (threeExposures.get i)),
       postVar (noisyGram (fun i j : Fin 3 => exposureCov (fun r => covExp 2 1 r + covMatern32 5 3 r)
        (threeExposures.get i) (threeExposures.get j)) fun _ => 1/10) (covExp 2 1 0 + covMatern32 5 3 0)
        (fun i => exposureCov (fun r => covExp 2 1 r + covMatern32 5 3 r) (.time (ts.get n)) (threeExposures.get i))) :=
  C58_latent_prediction _ _ 1 (.sum (.exp two_pos one_ne_zero le_rfl) (.matern32 (by norm_num) (by norm_num) (by norm_num))) threeExposures
    threeExposures_schedule (by show 0 < 3; norm_num) threeExposures_distinct y _ (fun _ _ => by norm_num) (ts.map .time) n rfl

end Verif
