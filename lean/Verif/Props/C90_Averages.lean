import Verif.Lemmas.PosteriorCov
import Verif.Props.C69_Limits

/-!
# C90, C91: the predicted curve, its averages and its roughness

The values fitted to exposures are the averages of the predicted curve (C90), and the curve varies no faster than the kernel allows (C91).
-/

namespace Verif
open Matrix Kern Spec Filter Topology MeasureTheory

variable {kernel : Kern} {X : XArg} {solver : Option SolverKind} {κ : ℝ → ℝ} {diag : Option (ℝ ⊕ Arr ℝ)} {mean : Option (Coord → ℝ)} {u : Bool} {gp gp' : GP}
  {y : Arr ℝ} {lp : EReal}

theorem sub_dotProduct_postMean {ι : Type*} [Fintype ι] [DecidableEq ι] (K : Matrix ι ι ℝ) (y c d : ι → ℝ) :
    postMean K y (c - d) = postMean K y c - postMean K y d := sub_dotProduct _ _ _

/-- **C90.** Conditioning and predicting agree across exposures. Predictions lie on a curve of means `M` and a curve of variances `V`. The conditioned mean
of each measurement is the average of `M` over its exposure, and its conditioned variance is at most the average of `V` over it. An instant is an exposure
of no length, the average over which is the value. -/
theorem C90_averages (h : Regression kernel X solver κ) (hnew : GP.new kernel X diag mean solver u = .ok gp)
    (hR : ∀ i < X.coords.len, 0 < (GP.noiseOf X.coords.len diag).get i) (hcond : gp.condition y = .ok (lp, gp')) :
    ∃ M V : ℝ → ℝ, Continuous M ∧ Continuous V ∧
      (∀ ts : Arr ℝ, ∃ mu var, gp'.predict (some (.times ts)) = .ok (mu, var) ∧
        ∀ i < ts.len, mu.get i = M (ts.get i) ∧ var.get i = V (ts.get i)) ∧
      ∃ var, gp'.var = some var ∧ ∀ n < X.coords.len,
        gp'.mean.get n = (X.coords.get n).average M ∧ var.get n ≤ (X.coords.get n).average V := by
  obtain ⟨-, -, var, hvar, -, hm⟩ := C61_condition h hnew hR hcond
  refine ⟨fun s => postMean (obsGram κ X.coords (GP.noiseOf X.coords.len diag)) (fun j => y.get j) (obsCross κ (.time s) X.coords),
    fun s => postVar (obsGram κ X.coords (GP.noiseOf X.coords.len diag)) (κ 0) (obsCross κ (.time s) X.coords),
    (postMean_continuous _ _).comp (obsCross_continuous h.continuous X.coords),
    (postVar_continuous _ _).comp (obsCross_continuous h.continuous X.coords), fun ts => ?_, var, hvar, fun n hn => ⟨?_, ?_⟩⟩
  · obtain ⟨mu, var, hp, -, -, hmv⟩ := C61_predict h hnew hR hcond ts
    exact ⟨mu, var, hp, hmv⟩
  · rw [(hm n hn).1, postMean_average h.continuous]
  · rw [(hm n hn).2]
    exact postVar_average_le h.continuous h.psd (fun i hi => (hR i hi).le) (h.gram_pd hR) _

/-- **C91.** Predictions are no rougher than the kernel. The means predicted at two times differ by at most the prior standard deviation of the difference
times the size of the data in units of the noise, whatever the data; a mean predicted at one time is bounded likewise by the prior standard deviation; and
predicted standard deviations differ by at most the prior standard deviation of the difference. -/
theorem C91_smooth (h : Regression kernel X solver κ) (hnew : GP.new kernel X diag mean solver u = .ok gp)
    (hR : ∀ i < X.coords.len, 0 < (GP.noiseOf X.coords.len diag).get i) (hcond : gp.condition y = .ok (lp, gp')) (ts : Arr ℝ) :
    ∃ mu var, gp'.predict (some (.times ts)) = .ok (mu, var) ∧ ∀ S,
      S = ∑ n : Fin X.coords.len, y.get n ^ 2 / (GP.noiseOf X.coords.len diag).get n →
      (∀ i < ts.len, mu.get i ^ 2 ≤ κ 0 * S) ∧
      ∀ i < ts.len, ∀ j < ts.len,
        (mu.get i - mu.get j) ^ 2 ≤ 2 * (κ 0 - κ |ts.get i - ts.get j|) * S ∧
        (√(var.get i) - √(var.get j)) ^ 2 ≤ 2 * (κ 0 - κ |ts.get i - ts.get j|) := by
  obtain ⟨mu, var, hp, -, -, hm⟩ := C61_predict h hnew hR hcond ts
  have hK := h.gram_pd hR
  have hR0 : ∀ i < X.coords.len, 0 ≤ (GP.noiseOf X.coords.len diag).get i := fun i hi => (hR i hi).le
  have hy := quad_le_noise (exposureGram_psd h.continuous h.psd fun i : Fin X.coords.len => X.coords.get i)
    (fun i : Fin X.coords.len => hR i i.2) fun i : Fin X.coords.len => y.get i
  have hy0 := pd_inv_quad_nonneg hK fun i : Fin X.coords.len => y.get i
  have hb : ∀ c : Fin X.coords.len → ℝ, ∀ v, c ⬝ᵥ (obsGram κ X.coords (GP.noiseOf X.coords.len diag))⁻¹ *ᵥ c ≤ v →
      postMean (obsGram κ X.coords (GP.noiseOf X.coords.len diag)) (fun j => y.get j) c ^ 2 ≤
        v * ∑ n : Fin X.coords.len, y.get n ^ 2 / (GP.noiseOf X.coords.len diag).get n := fun c v hv =>
    (postMean_sq_le hK _ _).trans (mul_le_mul hv hy hy0 ((pd_inv_quad_nonneg hK c).trans hv))
  refine ⟨mu, var, hp, ?_⟩
  rintro S rfl
  refine ⟨fun i hi => ?_, fun i hi j hj => ⟨?_, ?_⟩⟩
  · rw [(hm i hi).1]
    exact hb _ _ (explained_at_le h.continuous h.psd hR0 hK _)
  · rw [(hm i hi).1, (hm j hj).1, ← sub_dotProduct_postMean]
    exact hb _ _ (explained_diff_le h.continuous h.psd hR0 hK _ _)
  · rw [(hm i hi).2, (hm j hj).2]
    exact postSd_diff h.continuous h.psd hR0 hK _ _

/-- C90 applies to two exposures of lengths 1/3: the fitted value of the first is three times the integral of the predicted curve over it -/
example (y : Arr ℝ) : ∃ gp lp gpc, GP.new (.integratedMatern32 2 1 0 "a") (.triple tPair (dShort 2) ⟨2, fun _ => 0⟩) (some (.inl 1)) none none false = .ok gp ∧
    gp.condition y = .ok (lp, gpc) ∧ ∃ M : ℝ → ℝ, (∀ ts : Arr ℝ, ∃ mu var, gpc.predict (some (.times ts)) = .ok (mu, var) ∧
      ∀ i < ts.len, mu.get i = M (ts.get i)) ∧ gpc.mean.get 0 = 3 * ∫ s in (-1 / 6 : ℝ)..(1 / 6), M s := by
  have hk : (Kern.integratedMatern32 2 1 0 "a").Integrates False 0 (covMatern32 2 1) := .matern32 two_pos one_ne_zero le_rfl
  obtain ⟨gp, hnew⟩ := (C45_integrated_constructor (t := tPair) (d := dShort 2) (inst := ⟨2, fun _ => 0⟩) hk (.inl rfl) (some (.inl 1)) none).1
  have hgk : gp.kernel = .integratedMatern32 2 1 0 "a" := by
    have := (GP.new_ok hnew).1
    rw [if_neg (by decide)] at this
    exact (Except.ok.inj this).symm
  obtain ⟨⟨lp, gpc⟩, hc⟩ := (C57_integrated_condition_succeeds hk (.inl rfl) hnew y).2 ⟨by show 2 ≠ 1; norm_num, _, by rw [hgk]; rfl⟩
  obtain ⟨M, V, -, -, hp, var, -, hm⟩ := C90_averages (short_regression 2) hnew (fun _ _ => one_pos) hc
  refine ⟨gp, lp, gpc, hnew, hc, M, fun ts => ?_, ?_⟩
  · obtain ⟨mu, var, h1, h2⟩ := hp ts
    exact ⟨mu, var, h1, fun i hi => (h2 i hi).1⟩
  · rw [(hm 0 (by show 0 < 2; decide)).1]
    show Coord.average (.exposure 0 (1 / (((2 : ℕ) : ℝ) + 1)) 0) M = _
    unfold Coord.average
    show (if (0 : ℝ) < 1 / (((2 : ℕ) : ℝ) + 1) then _ else _) = _
    rw [if_pos (by norm_num)]
    simp only [Coord.delta, Coord.sortable]
    norm_num

/-- C91 applies: one datum of size 3 and noise 1 moves no prediction beyond 3 in absolute value, and predictions a time `d` apart by no more than
`3 √(2 (1 - exp (-d)))` -/
example (t : Arr ℝ) (ht : Sorted t) (hN : t.len = 100) (ts : Arr ℝ) :
    ∃ gp lp gpc mu var, GP.new (.exp 1 1 "a") (.times t) (some (.inl 1)) none none false = .ok gp ∧
      gp.condition ⟨100, fun i => if i = 17 then 3 else 0⟩ = .ok (lp, gpc) ∧ gpc.predict (some (.times ts)) = .ok (mu, var) ∧
      ∀ i < ts.len, ∀ j < ts.len, |mu.get i| ≤ 3 ∧ (mu.get i - mu.get j) ^ 2 ≤ 18 * (1 - Real.exp (-|ts.get i - ts.get j|)) := by
  have hr := exp_regression ht (by omega)
  obtain ⟨gp, lp, gpc, h, hc⟩ := exp_gp t (by omega) (some (.inl 1)) ⟨100, fun i => if i = 17 then 3 else 0⟩
  obtain ⟨mu, var, hp, hb⟩ := C91_smooth hr h (fun i _ => by show (0 : ℝ) < 1; norm_num) hc ts
  have hlt : 17 < (XArg.times t).coords.len := by show 17 < t.len; omega
  obtain ⟨h1, h2⟩ := hb 9 (by
    rw [Finset.sum_eq_single (⟨17, hlt⟩ : Fin (XArg.times t).coords.len)]
    · show (9 : ℝ) = (if 17 = 17 then 3 else 0 : ℝ) ^ 2 / 1
      norm_num
    · intro i _ hi
      have : (i : ℕ) ≠ 17 := fun e => hi (Fin.ext e)
      show (if (i : ℕ) = 17 then 3 else 0 : ℝ) ^ 2 / _ = 0
      rw [if_neg this]
      simp
    · exact fun hn => (hn (Finset.mem_univ _)).elim)
  refine ⟨gp, lp, gpc, mu, var, h, hc, hp, fun i hi j hj => ⟨?_, ?_⟩⟩
  · have := h1 i hi
    simp only [covExp] at this
    refine abs_le_of_sq_le_sq ?_ (by norm_num)
    norm_num at this
    linarith
  · have := (h2 i hi j hj).1
    simp only [covExp] at this
    norm_num at this
    linarith

end Verif
