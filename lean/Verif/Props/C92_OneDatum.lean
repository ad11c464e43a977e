import Verif.Lemmas.OneDatum
import Verif.Props.C90_Averages

/-!
# C92: what one measurement does to the predictions, and masking by a large noise

A further measurement moves all predictions by multiples of its surprise, lowers all variances, and has no effect in the limit of a large noise:
giving a bad datum a huge error bar amounts to removing it.
-/

namespace Verif
open Matrix Kern Spec Filter Topology

section
variable {kernel kernel' : Kern} {X X' : XArg} {solver solver' : Option SolverKind} {κ : ℝ → ℝ} {diag diag' : Option (ℝ ⊕ Arr ℝ)}
  {mean mean' : Option (Coord → ℝ)} {u u' : Bool} {gp gpc gp' gpc' : GP} {y y' : Arr ℝ} {lp lp' : EReal}

theorem oneDatum_noise {X X' : Arr Coord} {R R' y y' : Arr ℝ} {f : Fin X.len → Fin X'.len} {p : Fin X'.len} (hd : OneDatumMore X R y X' R' y' f p)
    (hR' : ∀ i < X'.len, 0 < R'.get i) : ∀ i < X.len, 0 < R.get i := fun i hi => by
  have := hd.noise ⟨i, hi⟩
  rw [← this]
  exact hR' _ (f ⟨i, hi⟩).2

/-- **C92, update.** Let `M` be the curve of means predicted without the further measurement, `m` its average over the further exposure, and `v` the
variance of that average. Then every predicted mean moves by a multiple of the surprise `y' p - m`, and the same multiple gives the decrease of the
predicted variance. -/
theorem C92_update (h : Regression kernel X solver κ) (h' : Regression kernel' X' solver' κ)
    (hnew : GP.new kernel X diag mean solver u = .ok gp) (hnew' : GP.new kernel' X' diag' mean' solver' u' = .ok gp')
    (hR' : ∀ i < X'.coords.len, 0 < (GP.noiseOf X'.coords.len diag').get i)
    {f : Fin X.coords.len → Fin X'.coords.len} {p : Fin X'.coords.len}
    (hd : OneDatumMore X.coords (GP.noiseOf X.coords.len diag) y X'.coords (GP.noiseOf X'.coords.len diag') y' f p)
    (hcond : gp.condition y = .ok (lp, gpc)) (hcond' : gp'.condition y' = .ok (lp', gpc')) :
    ∃ (M : ℝ → ℝ) (v : ℝ), 0 ≤ v ∧ v ≤ κ 0 ∧ ∀ ts : Arr ℝ, ∃ mu var mu' var', gpc.predict (some (.times ts)) = .ok (mu, var) ∧
      gpc'.predict (some (.times ts)) = .ok (mu', var') ∧ ∀ j < ts.len, mu.get j = M (ts.get j) ∧
        ∃ C : ℝ, C ^ 2 ≤ var.get j * v ∧
          mu'.get j = mu.get j + C / (v + (GP.noiseOf X'.coords.len diag').get p) * (y'.get p - (X'.coords.get p).average M) ∧
          var'.get j = var.get j - C ^ 2 / (v + (GP.noiseOf X'.coords.len diag').get p) := by
  have hR := oneDatum_noise hd hR'
  have pd := h.gram_pd hR
  have pd' := h'.gram_pd hR'
  have key := oneDatum_update h.continuous h.psd hd (fun i hi => (hR' i hi).le) pd'
  have hv0 : 0 ≤ postVar (obsGram κ X.coords (GP.noiseOf X.coords.len diag)) (exposureCov κ (X'.coords.get p) (X'.coords.get p))
      (obsCross κ (X'.coords.get p) X.coords) := by
    obtain ⟨m, v, C, -, rfl, hv, -⟩ := key (.time 0)
    exact hv
  refine ⟨fun s => postMean (obsGram κ X.coords (GP.noiseOf X.coords.len diag)) (fun j => y.get j) (obsCross κ (.time s) X.coords), _, hv0,
    (postVar_le_prior pd _ _).trans (exposureCov_le h.continuous h.psd _ _), fun ts => ?_⟩
  obtain ⟨mu, var, hp, -, -, hm⟩ := C61_predict h hnew hR hcond ts
  obtain ⟨mu', var', hp', -, -, hm'⟩ := C61_predict h' hnew' hR' hcond' ts
  refine ⟨mu, var, mu', var', hp, hp', fun j hj => ⟨(hm j hj).1, ?_⟩⟩
  obtain ⟨m, v, C, hm1, rfl, -, hC, h1, h2⟩ := key (.time (ts.get j))
  rw [exposureCov_times, sub_self, abs_zero] at hC h2
  refine ⟨C, ?_, ?_, ?_⟩
  · rw [(hm j hj).2]
    exact hC
  · rw [(hm j hj).1, (hm' j hj).1, h1, hm1, postMean_average h.continuous _ _ (X'.coords.get p)]
  · rw [(hm j hj).2, (hm' j hj).2, h2]

/-- **C92, bounds.** The further measurement moves a predicted mean by at most `√(κ 0 var) / R` times its surprise, and takes at most the fraction
`κ 0 / (κ 0 + R)` off a predicted variance, where `R` is the variance of its noise. -/
theorem C92_bounds (h : Regression kernel X solver κ) (h' : Regression kernel' X' solver' κ)
    (hnew : GP.new kernel X diag mean solver u = .ok gp) (hnew' : GP.new kernel' X' diag' mean' solver' u' = .ok gp')
    (hR' : ∀ i < X'.coords.len, 0 < (GP.noiseOf X'.coords.len diag').get i)
    {f : Fin X.coords.len → Fin X'.coords.len} {p : Fin X'.coords.len}
    (hd : OneDatumMore X.coords (GP.noiseOf X.coords.len diag) y X'.coords (GP.noiseOf X'.coords.len diag') y' f p)
    (hcond : gp.condition y = .ok (lp, gpc)) (hcond' : gp'.condition y' = .ok (lp', gpc')) :
    ∃ M : ℝ → ℝ, ∀ ts : Arr ℝ, ∃ mu var mu' var', gpc.predict (some (.times ts)) = .ok (mu, var) ∧
      gpc'.predict (some (.times ts)) = .ok (mu', var') ∧ ∀ j < ts.len, mu.get j = M (ts.get j) ∧
        ∀ R, R = (GP.noiseOf X'.coords.len diag').get p →
          (mu'.get j - mu.get j) ^ 2 ≤ var.get j * κ 0 / R ^ 2 * (y'.get p - (X'.coords.get p).average M) ^ 2 ∧
          0 ≤ var.get j - var'.get j ∧ var.get j - var'.get j ≤ var.get j * (κ 0 / (κ 0 + R)) := by
  obtain ⟨M, v, hv, hvκ, hall⟩ := C92_update h h' hnew hnew' hR' hd hcond hcond'
  refine ⟨M, fun ts => ?_⟩
  obtain ⟨mu, var, mu', var', hp, hp', hj⟩ := hall ts
  obtain ⟨mu2, var2, hp2, -, -, hvar⟩ := C61_predict h hnew (oneDatum_noise hd hR') hcond ts
  rw [hp] at hp2
  obtain ⟨rfl, rfl⟩ := Prod.mk.inj (Except.ok.inj hp2)
  refine ⟨mu, var, mu', var', hp, hp', fun j hjl => ⟨(hj j hjl).1, ?_⟩⟩
  rintro R rfl
  obtain ⟨-, C, hC, e1, e2⟩ := hj j hjl
  set R := (GP.noiseOf X'.coords.len diag').get p with hRd
  have hRp : 0 < R := hR' p p.2
  have hvar0 : 0 ≤ var.get j := by
    have := post_quad h.continuous h.psd (fun i hi => (oneDatum_noise hd hR' i hi).le) (h.gram_pd (oneDatum_noise hd hR')) (.time (ts.get j)) (.time 0) 1 0
    rw [exposureCov_times, sub_self, abs_zero] at this
    rw [(hvar j hjl).2]
    linarith
  have hvR : 0 < v + R := add_pos_of_nonneg_of_pos hv hRp
  refine ⟨?_, ?_, ?_⟩
  · rw [e1, add_sub_cancel_left, mul_pow, div_pow]
    refine mul_le_mul_of_nonneg_right ?_ (sq_nonneg _)
    refine div_le_div₀ (mul_nonneg hvar0 (hv.trans hvκ)) (hC.trans (mul_le_mul_of_nonneg_left hvκ hvar0)) (by positivity) ?_
    exact pow_le_pow_left₀ hRp.le (by linarith) 2
  · rw [e2, sub_sub_cancel]
    positivity
  · rw [e2, sub_sub_cancel]
    have h1 : C ^ 2 / (v + R) ≤ var.get j * v / (v + R) := div_le_div_of_nonneg_right hC hvR.le
    refine h1.trans ?_
    rw [mul_div_assoc]
    refine mul_le_mul_of_nonneg_left ?_ hvar0
    rw [div_le_div_iff₀ hvR (by linarith)]
    nlinarith

/-- **C92, masking.** As the noise of one measurement grows without bound, the other data staying the same, predictions tend to those of the GP without that
measurement, and the log likelihood tends to its log likelihood apart from the normalisation `-log (2 π R) / 2` of the masked datum. -/
theorem C92_masking {diag' : ℕ → Option (ℝ ⊕ Arr ℝ)} {gp' gpc' : ℕ → GP} {lp' : ℕ → EReal}
    (h : Regression kernel X solver κ) (h' : Regression kernel' X' solver' κ)
    (hnew : GP.new kernel X diag mean solver u = .ok gp) (hnew' : ∀ n, GP.new kernel' X' (diag' n) mean' solver' u' = .ok (gp' n))
    (hR' : ∀ n, ∀ i < X'.coords.len, 0 < (GP.noiseOf X'.coords.len (diag' n)).get i) (hy : y.len = X.coords.len) (hy' : y'.len = X'.coords.len)
    {f : Fin X.coords.len → Fin X'.coords.len} {p : Fin X'.coords.len}
    (hd : ∀ n, OneDatumMore X.coords (GP.noiseOf X.coords.len diag) y X'.coords (GP.noiseOf X'.coords.len (diag' n)) y' f p)
    (hlarge : Tendsto (fun n => (GP.noiseOf X'.coords.len (diag' n)).get p) atTop atTop)
    (hcond : gp.condition y = .ok (lp, gpc)) (hcond' : ∀ n, (gp' n).condition y' = .ok (lp' n, gpc' n)) :
    (∃ (l : ℝ) (l' : ℕ → ℝ), gp.logProbability y = .ok (l : EReal) ∧ (∀ n, (gp' n).logProbability y' = .ok (l' n : EReal)) ∧
      Tendsto (fun n => l' n + 1 / 2 * Real.log (2 * Real.pi * (GP.noiseOf X'.coords.len (diag' n)).get p)) atTop (𝓝 l)) ∧
    ∀ ts : Arr ℝ, ∃ (mu var : Arr ℝ) (mu' var' : ℕ → Arr ℝ), gpc.predict (some (.times ts)) = .ok (mu, var) ∧
      (∀ n, (gpc' n).predict (some (.times ts)) = .ok (mu' n, var' n)) ∧ ∀ j < ts.len,
        Tendsto (fun n => (mu' n).get j) atTop (𝓝 (mu.get j)) ∧ Tendsto (fun n => (var' n).get j) atTop (𝓝 (var.get j)) := by
  constructor
  · choose m v hm hv hv0 hl _ using fun n => oneMore_facts h h' hnew (hnew' n) (hR' n) hy hy' (hd n)
    choose l l' hl1 hl2 e using hl
    have hmn : ∀ n, m n = m 0 := fun n => (hm n).trans (hm 0).symm
    have hvn : ∀ n, v n = v 0 := fun n => (hv n).trans (hv 0).symm
    have hln : ∀ n, l n = l 0 := fun n => EReal.coe_injective (Except.ok.inj ((hl1 n).symm.trans (hl1 0)))
    refine ⟨l 0, l', hl1 0, hl2, ?_⟩
    set R := fun n => (GP.noiseOf X'.coords.len (diag' n)).get p with hRd
    have hRp : ∀ n, 0 < R n := fun n => hR' n p p.2
    have e1 : ∀ n, l' n + 1 / 2 * Real.log (2 * Real.pi * R n) =
        l 0 + (-(1 / 2) * ((y'.get p - m 0) ^ 2 / (v 0 + R n)) - 1 / 2 * Real.log (1 + v 0 / R n)) := fun n => by
      have h1 := e n
      have hpos : 0 < v 0 + R n := add_pos_of_nonneg_of_pos (hv0 0) (hRp n)
      rw [hmn, hvn, hln, normalLogDensity_eq hpos] at h1
      have h2 : 2 * Real.pi * (v 0 + R n) = 2 * Real.pi * R n * (1 + v 0 / R n) := by
        have := (hRp n).ne'
        field_simp
        ring
      rw [h2, Real.log_mul (mul_pos (by positivity) (hRp n)).ne' (by have := div_nonneg (hv0 0) (hRp n).le; linarith)] at h1
      linarith
    rw [show (fun n => l' n + 1 / 2 * Real.log (2 * Real.pi * R n)) = _ from funext e1]
    have t1 : Tendsto (fun n => (y'.get p - m 0) ^ 2 / (v 0 + R n)) atTop (𝓝 0) :=
      Tendsto.const_div_atTop (tendsto_atTop_add_const_left _ _ hlarge) _
    have t2 : Tendsto (fun n => 1 + v 0 / R n) atTop (𝓝 (1 + 0)) := tendsto_const_nhds.add (Tendsto.const_div_atTop hlarge _)
    have t3 := (t2.log (by norm_num)).const_mul (1 / 2)
    have := ((t1.const_mul (-(1 / 2))).sub t3).const_add (l 0)
    simpa using this
  · intro ts
    obtain ⟨mu, var, hp, -, -, hm⟩ := C61_predict h hnew (oneDatum_noise (hd 0) (hR' 0)) hcond ts
    choose mu' var' hp' _ _ hm' using fun n => C61_predict h' (hnew' n) (hR' n) (hcond' n) ts
    refine ⟨mu, var, mu', var', hp, hp', fun j hjl => ?_⟩
    choose m v C hm1 hv1 hv0 hC e1 e2 using fun n =>
      oneDatum_update h.continuous h.psd (hd n) (fun i hi => (hR' n i hi).le) (h'.gram_pd (hR' n)) (.time (ts.get j))
    have hmn : ∀ n, m n = m 0 := fun n => (hm1 n).trans (hm1 0).symm
    have hvn : ∀ n, v n = v 0 := fun n => (hv1 n).trans (hv1 0).symm
    simp only [exposureCov_times, sub_self, abs_zero] at hC e2
    set R := fun n => (GP.noiseOf X'.coords.len (diag' n)).get p with hRd
    have hRp : ∀ n, 0 < R n := fun n => hR' n p p.2
    have hpos : ∀ n, 0 < v 0 + R n := fun n => add_pos_of_nonneg_of_pos (hv0 0) (hRp n)
    have hinf : Tendsto (fun n => v 0 + R n) atTop atTop := tendsto_atTop_add_const_left _ _ hlarge
    set B := postVar (obsGram κ X.coords (GP.noiseOf X.coords.len diag)) (κ 0) (obsCross κ (.time (ts.get j)) X.coords) * v 0 with hB
    have hCB : ∀ n, C n ^ 2 ≤ B := fun n => by
      have := hC n
      rwa [hvn] at this
    have hCa : ∀ n, |C n| ≤ √B := fun n => Real.abs_le_sqrt (hCB n)
    constructor
    · have e3 : ∀ n, (mu' n).get j = mu.get j + C n / (v 0 + R n) * (y'.get p - m 0) := fun n => by
        rw [(hm' n j hjl).1, (hm j hjl).1, e1 n, hvn, hmn]
      have t : Tendsto (fun n => C n / (v 0 + R n)) atTop (𝓝 0) := by
        refine squeeze_zero_norm (fun n => ?_) (Tendsto.const_div_atTop hinf √B)
        rw [Real.norm_eq_abs, abs_div, abs_of_pos (hpos n)]
        exact div_le_div_of_nonneg_right (hCa n) (hpos n).le
      have := (t.mul_const (y'.get p - m 0)).const_add (mu.get j)
      rw [zero_mul, add_zero] at this
      exact this.congr fun n => (e3 n).symm
    · have e3 : ∀ n, (var' n).get j = var.get j - C n ^ 2 / (v 0 + R n) := fun n => by
        rw [(hm' n j hjl).2, (hm j hjl).2, e2 n, hvn]
      have t : Tendsto (fun n => C n ^ 2 / (v 0 + R n)) atTop (𝓝 0) :=
        squeeze_zero (fun n => div_nonneg (sq_nonneg _) (hpos n).le) (fun n => div_le_div_of_nonneg_right (hCB n) (hpos n).le)
          (Tendsto.const_div_atTop hinf B)
      have := t.const_sub (var.get j)
      rw [sub_zero] at this
      exact this.congr fun n => (e3 n).symm

end

section examples

/-- noise of variance 1, except for the second datum -/
def rMask (r : ℝ) : Arr ℝ := ⟨3, fun n => if n = 1 then r else 1⟩

theorem mask_oneMore (y : Arr ℝ) (r : ℝ) : OneDatumMore (tOuter.map .time) (GP.noiseOf tOuter.len (some (.inl 1))) ⟨2, fun n => y.get (2 * n)⟩ (tAll.map .time)
    (GP.noiseOf tAll.len (some (.inr (rMask r)))) y (fun i => ⟨2 * i.val, by have h : i.val < 2 := i.2; show 2 * i.val < 3; omega⟩) ⟨1, by show 1 < 3; decide⟩ :=
  { outer_oneMore y with noise := fun i => if_neg (by show ¬ 2 * i.val = 1; omega) }

theorem rMask_pos {r : ℝ} (hr : 0 < r) (i : ℕ) : 0 < (GP.noiseOf tAll.len (some (.inr (rMask r)))).get i := by
  show 0 < if i = 1 then r else 1
  split_ifs
  · exact hr
  · exact one_pos

theorem rMask_masked (r : ℝ) : (GP.noiseOf tAll.len (some (.inr (rMask r)))).get 1 = r := by
  show (if 1 = 1 then r else 1) = r
  rw [if_pos rfl]

theorem tOuter_sorted : Sorted tOuter := fun i j hij _ => by
  show ((2 * i : ℕ) : ℝ) ≤ ((2 * j : ℕ) : ℝ)
  exact_mod_cast Nat.mul_le_mul_left 2 hij

theorem tAll_sorted : Sorted tAll := fun i j hij _ => by
  show (i : ℝ) ≤ j
  exact_mod_cast hij

/-- C92 applies: the second of three measurements, given a variance of noise of 1000, takes less than a thousandth off each predicted variance -/
example (y ts : Arr ℝ) : ∃ gp lp gpc gp' lp' gpc' mu var mu' var',
    GP.new (.exp 1 1 "a") (.times tOuter) (some (.inl 1)) none none false = .ok gp ∧
    gp.condition ⟨2, fun n => y.get (2 * n)⟩ = .ok (lp, gpc) ∧
    GP.new (.exp 1 1 "a") (.times tAll) (some (.inr (rMask 1000))) none none false = .ok gp' ∧ gp'.condition y = .ok (lp', gpc') ∧
    gpc.predict (some (.times ts)) = .ok (mu, var) ∧ gpc'.predict (some (.times ts)) = .ok (mu', var') ∧
    ∀ j < ts.len, 0 ≤ var.get j - var'.get j ∧ var.get j - var'.get j ≤ var.get j * (1 / 1001) := by
  obtain ⟨gp, lp, gpc, h, hc⟩ := exp_gp tOuter (by show (2 : ℕ) ≠ 1; decide) (some (.inl 1)) ⟨2, fun n => y.get (2 * n)⟩
  obtain ⟨gp', lp', gpc', h', hc'⟩ := exp_gp tAll (by show (3 : ℕ) ≠ 1; decide) (some (.inr (rMask 1000))) y
  obtain ⟨M, hall⟩ := C92_bounds (exp_regression tOuter_sorted (by show 0 < 2; decide)) (exp_regression tAll_sorted (by show 0 < 3; decide)) h h'
    (fun i _ => rMask_pos (by norm_num) i) (mask_oneMore y 1000) hc hc'
  obtain ⟨mu, var, mu', var', hp, hp', hj⟩ := hall ts
  refine ⟨gp, lp, gpc, gp', lp', gpc', mu, var, mu', var', h, hc, h', hc', hp, hp', fun j hjl => ?_⟩
  have := (hj j hjl).2 1000 (rMask_masked 1000).symm
  refine ⟨this.2.1, this.2.2.trans_eq ?_⟩
  simp only [covExp]
  norm_num

/-- masking applies: the likelihood of three data, the second of ever larger noise, tends to that of the two others -/
example (y : Arr ℝ) (hy : y.len = 3) : ∃ (gp : GP) (l : ℝ) (gp' : ℕ → GP) (l' : ℕ → ℝ),
    GP.new (.exp 1 1 "a") (.times tOuter) (some (.inl 1)) none none false = .ok gp ∧
    gp.logProbability ⟨2, fun n => y.get (2 * n)⟩ = .ok (l : EReal) ∧
    (∀ n : ℕ, GP.new (.exp 1 1 "a") (.times tAll) (some (.inr (rMask ((n : ℝ) + 1)))) none none false = .ok (gp' n)) ∧
    (∀ n, (gp' n).logProbability y = .ok (l' n : EReal)) ∧
    Tendsto (fun n : ℕ => l' n + 1 / 2 * Real.log (2 * Real.pi * ((n : ℝ) + 1))) atTop (𝓝 l) := by
  obtain ⟨gp, lp, gpc, h, hc⟩ := exp_gp tOuter (by show (2 : ℕ) ≠ 1; decide) (some (.inl 1)) ⟨2, fun n => y.get (2 * n)⟩
  choose gp' lp' gpc' h' hc' using fun n : ℕ => exp_gp tAll (by show (3 : ℕ) ≠ 1; decide) (some (.inr (rMask ((n : ℝ) + 1)))) y
  obtain ⟨⟨l, l', hl, hl', ht⟩, -⟩ := C92_masking (exp_regression tOuter_sorted (by show 0 < 2; decide)) (exp_regression tAll_sorted (by show 0 < 3; decide)) h h'
    (fun n i _ => rMask_pos (by positivity) i) (y := ⟨2, fun n => y.get (2 * n)⟩) rfl hy (fun n => mask_oneMore y _)
    ((tendsto_atTop_add_const_right _ 1 tendsto_natCast_atTop_atTop).congr fun n => (rMask_masked _).symm) hc hc'
  exact ⟨gp, l, gp', l', h, hl, h', hl', ht.congr fun n => by
    rw [show (GP.noiseOf (XArg.times tAll).coords.len (some (.inr (rMask ((n : ℝ) + 1))))).get 1 = (n : ℝ) + 1 from rMask_masked _]⟩

end examples

end Verif
