import Verif.Props.C68_Units

/-!
# C69: results depend continuously on the data

Measured values, times, exposures and noise variances that converge give log likelihoods and predictions that converge to those of the limit. In particular
exposures that shrink to zero give, in the limit, the results for instantaneous measurements.
-/

namespace Verif
open Matrix Kern Spec Filter Topology

theorem exposureCov_continuous {κ : ℝ → ℝ} (hc : Continuous fun u => κ |u|) : Continuous fun p : (ℝ × ℝ) × ℝ × ℝ =>
    ∫ u in (0 : ℝ)..1, ∫ v in (0 : ℝ)..1, κ |p.1.1 + max p.1.2 0 * (u - 1 / 2) - (p.2.1 + max p.2.2 0 * (v - 1 / 2))| := by
  have h : Continuous fun z : (((ℝ × ℝ) × ℝ × ℝ) × ℝ) × ℝ =>
      κ |z.1.1.1.1 + max z.1.1.1.2 0 * (z.1.2 - 1 / 2) - (z.1.1.2.1 + max z.1.1.2.2 0 * (z.2 - 1 / 2))| :=
    hc.comp (by fun_prop)
  have h1 := intervalIntegral.continuous_parametric_intervalIntegral_of_continuous'
    (f := fun (w : ((ℝ × ℝ) × ℝ × ℝ) × ℝ) v => κ |w.1.1.1 + max w.1.1.2 0 * (w.2 - 1 / 2) - (w.1.2.1 + max w.1.2.2 0 * (v - 1 / 2))|)
    (μ := MeasureTheory.volume) h 0 1
  exact intervalIntegral.continuous_parametric_intervalIntegral_of_continuous'
    (f := fun (p : (ℝ × ℝ) × ℝ × ℝ) u => ∫ v in (0 : ℝ)..1, κ |p.1.1 + max p.1.2 0 * (u - 1 / 2) - (p.2.1 + max p.2.2 0 * (v - 1 / 2))|)
    (μ := MeasureTheory.volume) h1 0 1

theorem exposureCov_tendsto {κ : ℝ → ℝ} (hc : Continuous fun u => κ |u|) {α : Type*} {F : Filter α} {X Y : α → Coord} {X0 Y0 : Coord}
    (hX : Tendsto (fun n => (X n).sortable) F (𝓝 X0.sortable)) (hXd : Tendsto (fun n => (X n).delta) F (𝓝 X0.delta))
    (hY : Tendsto (fun n => (Y n).sortable) F (𝓝 Y0.sortable)) (hYd : Tendsto (fun n => (Y n).delta) F (𝓝 Y0.delta)) :
    Tendsto (fun n => exposureCov κ (X n) (Y n)) F (𝓝 (exposureCov κ X0 Y0)) := by
  have h := ((exposureCov_continuous hc).tendsto ((X0.sortable, X0.delta), Y0.sortable, Y0.delta)).comp
    ((hX.prodMk_nhds hXd).prodMk_nhds (hY.prodMk_nhds hYd))
  simp only [exposureCov_unit]
  exact h

section
variable {N : ℕ} {α : Type*} {F : Filter α} {K : α → Matrix (Fin N) (Fin N) ℝ} {K0 : Matrix (Fin N) (Fin N) ℝ}

theorem tendsto_inv (hK : Tendsto K F (𝓝 K0)) (h0 : K0.det ≠ 0) : Tendsto (fun n => (K n)⁻¹) F (𝓝 K0⁻¹) := by
  have hd : Tendsto (fun n => (K n).det) F (𝓝 K0.det) := (continuous_id.matrix_det.tendsto K0).comp hK
  have ha : Tendsto (fun n => (K n).adjugate) F (𝓝 K0.adjugate) := (continuous_id.matrix_adjugate.tendsto K0).comp hK
  simp only [Matrix.inv_def, Ring.inverse_eq_inv']
  exact (hd.inv₀ h0).smul ha

theorem tendsto_quad (hK : Tendsto K F (𝓝 K0)) {x y : α → Fin N → ℝ} {x0 y0 : Fin N → ℝ} (hx : Tendsto x F (𝓝 x0)) (hy : Tendsto y F (𝓝 y0)) :
    Tendsto (fun n => x n ⬝ᵥ K n *ᵥ y n) F (𝓝 (x0 ⬝ᵥ K0 *ᵥ y0)) := by
  have h : Continuous fun z : (Fin N → ℝ) × Matrix (Fin N) (Fin N) ℝ × (Fin N → ℝ) => z.1 ⬝ᵥ z.2.1 *ᵥ z.2.2 := by
    unfold dotProduct mulVec dotProduct
    fun_prop
  exact (h.tendsto (x0, K0, y0)).comp (hx.prodMk_nhds (hK.prodMk_nhds hy))

theorem tendsto_logDensity (hK : Tendsto K F (𝓝 K0)) (h0 : K0.PosDef) {y : α → Fin N → ℝ} {y0 : Fin N → ℝ} (hy : Tendsto y F (𝓝 y0)) :
    Tendsto (fun n => gaussLogDensity (K n) (y n)) F (𝓝 (gaussLogDensity K0 y0)) := by
  have hd : Tendsto (fun n => (K n).det) F (𝓝 K0.det) := (continuous_id.matrix_det.tendsto K0).comp hK
  have h1 := tendsto_quad (tendsto_inv hK h0.det_pos.ne') hy hy
  have h2 := hd.log h0.det_pos.ne'
  exact ((h1.const_mul _).sub (h2.const_mul _)).sub_const _

end

/-- the covariance matrix, with its dimension written separately -/
noncomputable def gramOf (κ : ℝ → ℝ) (N : ℕ) (X : Arr Coord) (R : Arr ℝ) : Matrix (Fin N) (Fin N) ℝ :=
  noisyGram (fun i j => exposureCov κ (X.get i) (X.get j)) fun i => R.get i

theorem logDensity_gramOf {N : ℕ} {X : Arr Coord} (h : X.len = N) (κ : ℝ → ℝ) (R y : Arr ℝ) :
    gaussLogDensity (obsGram κ X R) (fun i => y.get i) = gaussLogDensity (gramOf κ N X R) fun i => y.get i := by
  subst h; rfl

theorem postMean_gramOf {N : ℕ} {X : Arr Coord} (h : X.len = N) (κ : ℝ → ℝ) (R y : Arr ℝ) (Xs : Coord) :
    postMean (obsGram κ X R) (fun i => y.get i) (obsCross κ Xs X) =
      postMean (gramOf κ N X R) (fun i => y.get i) fun i => exposureCov κ Xs (X.get i) := by
  subst h; rfl

theorem postVar_gramOf {N : ℕ} {X : Arr Coord} (h : X.len = N) (κ : ℝ → ℝ) (R : Arr ℝ) (v : ℝ) (Xs : Coord) :
    postVar (obsGram κ X R) v (obsCross κ Xs X) = postVar (gramOf κ N X R) v fun i => exposureCov κ Xs (X.get i) := by
  subst h; rfl

/-- A family of data sets with the times, exposures and noise variances of a limit. -/
structure DataTendsto {α : Type*} (F : Filter α) (N : ℕ) (X : α → Arr Coord) (R : α → Arr ℝ) (X0 : Arr Coord) (R0 : Arr ℝ) : Prop where
  len : ∀ n, (X n).len = N
  len0 : X0.len = N
  time : ∀ i < N, Tendsto (fun n => ((X n).get i).sortable) F (𝓝 (X0.get i).sortable)
  exposure : ∀ i < N, Tendsto (fun n => ((X n).get i).delta) F (𝓝 (X0.get i).delta)
  noise : ∀ i < N, Tendsto (fun n => (R n).get i) F (𝓝 (R0.get i))

theorem DataTendsto.gram {α : Type*} {F : Filter α} {N : ℕ} {X : α → Arr Coord} {R : α → Arr ℝ} {X0 : Arr Coord} {R0 : Arr ℝ}
    (h : DataTendsto F N X R X0 R0) {κ : ℝ → ℝ} (hc : Continuous fun u => κ |u|) :
    Tendsto (fun n => gramOf κ N (X n) (R n)) F (𝓝 (gramOf κ N X0 R0)) := by
  refine tendsto_pi_nhds.2 fun i => tendsto_pi_nhds.2 fun j => ?_
  show Tendsto (fun n => exposureCov κ ((X n).get i) ((X n).get j) + if i = j then (R n).get i else 0) F
    (𝓝 (exposureCov κ (X0.get i) (X0.get j) + if i = j then R0.get i else 0))
  refine (exposureCov_tendsto hc (h.time i i.2) (h.exposure i i.2) (h.time j j.2) (h.exposure j j.2)).add ?_
  by_cases hij : i = j
  · simp only [hij, if_true]
    exact h.noise j j.2
  · simp only [hij, if_false]
    exact tendsto_const_nhds

section
variable {α : Type*} {F : Filter α} {N : ℕ} {κ : ℝ → ℝ}
  {k : α → Kern} {X : α → XArg} {s : α → Option SolverKind} {diag : α → Option (ℝ ⊕ Arr ℝ)} {mean : α → Option (Coord → ℝ)} {u : α → Bool}
  {gp gpc : α → GP} {y : α → Arr ℝ} {lp : α → EReal}
  {k0 : Kern} {X0 : XArg} {s0 : Option SolverKind} {diag0 : Option (ℝ ⊕ Arr ℝ)} {mean0 : Option (Coord → ℝ)} {u0 : Bool}
  {gp0 gpc0 : GP} {y0 : Arr ℝ} {lp0 : EReal}

theorem gramOf_pd (h0 : Regression k0 X0 s0 κ) (hN : X0.coords.len = N) {R : Arr ℝ} (hR : ∀ i < X0.coords.len, 0 < R.get i) :
    (gramOf κ N X0.coords R).PosDef := by
  subst hN
  exact h0.gram_pd hR

/-- **C69, likelihood.** -/
theorem C69_log_probability (h : ∀ n, Regression (k n) (X n) (s n) κ) (h0 : Regression k0 X0 s0 κ)
    (hnew : ∀ n, GP.new (k n) (X n) (diag n) (mean n) (s n) (u n) = .ok (gp n)) (hnew0 : GP.new k0 X0 diag0 mean0 s0 u0 = .ok gp0)
    (hR : ∀ n, ∀ i < (X n).coords.len, 0 < (GP.noiseOf (X n).coords.len (diag n)).get i)
    (hR0 : ∀ i < X0.coords.len, 0 < (GP.noiseOf X0.coords.len diag0).get i)
    (hd : DataTendsto F N (fun n => (X n).coords) (fun n => GP.noiseOf (X n).coords.len (diag n)) X0.coords (GP.noiseOf X0.coords.len diag0))
    (hyl : ∀ n, (y n).len = N) (hyl0 : y0.len = N) (hy : ∀ i < N, Tendsto (fun n => (y n).get i) F (𝓝 (y0.get i))) :
    ∃ (l : α → ℝ) (l0 : ℝ), (∀ n, (gp n).logProbability (y n) = .ok (l n : EReal)) ∧ gp0.logProbability y0 = .ok (l0 : EReal) ∧
      Tendsto l F (𝓝 l0) := by
  refine ⟨_, _, fun n => C61_log_probability (h n) (hnew n) ((hyl n).trans (hd.len n).symm) (hR n),
    C61_log_probability h0 hnew0 (hyl0.trans hd.len0.symm) hR0, ?_⟩
  simp only [logDensity_gramOf (hd.len _), logDensity_gramOf hd.len0]
  exact tendsto_logDensity (hd.gram h0.continuous) (gramOf_pd h0 hd.len0 hR0) (tendsto_pi_nhds.2 fun i => hy i i.2)

/-- **C69, predictions.** -/
theorem C69_predict (h : ∀ n, Regression (k n) (X n) (s n) κ) (h0 : Regression k0 X0 s0 κ)
    (hnew : ∀ n, GP.new (k n) (X n) (diag n) (mean n) (s n) (u n) = .ok (gp n)) (hnew0 : GP.new k0 X0 diag0 mean0 s0 u0 = .ok gp0)
    (hR : ∀ n, ∀ i < (X n).coords.len, 0 < (GP.noiseOf (X n).coords.len (diag n)).get i)
    (hR0 : ∀ i < X0.coords.len, 0 < (GP.noiseOf X0.coords.len diag0).get i)
    (hd : DataTendsto F N (fun n => (X n).coords) (fun n => GP.noiseOf (X n).coords.len (diag n)) X0.coords (GP.noiseOf X0.coords.len diag0))
    (hy : ∀ i < N, Tendsto (fun n => (y n).get i) F (𝓝 (y0.get i)))
    (hcond : ∀ n, (gp n).condition (y n) = .ok (lp n, gpc n)) (hcond0 : gp0.condition y0 = .ok (lp0, gpc0))
    (ts : α → Arr ℝ) (ts0 : Arr ℝ) (hl : ∀ n, (ts n).len = ts0.len) (hts : ∀ i < ts0.len, Tendsto (fun n => (ts n).get i) F (𝓝 (ts0.get i))) :
    ∃ (m v : α → Arr ℝ) (m0 v0 : Arr ℝ), (∀ n, (gpc n).predict (some (.times (ts n))) = .ok (m n, v n)) ∧
      gpc0.predict (some (.times ts0)) = .ok (m0, v0) ∧
      ∀ i < ts0.len, Tendsto (fun n => (m n).get i) F (𝓝 (m0.get i)) ∧ Tendsto (fun n => (v n).get i) F (𝓝 (v0.get i)) := by
  choose m v hp _ _ hm using fun n => C61_predict (h n) (hnew n) (hR n) (hcond n) (ts n)
  obtain ⟨m0, v0, hp0, -, -, hm0⟩ := C61_predict h0 hnew0 hR0 hcond0 ts0
  refine ⟨m, v, m0, v0, hp, hp0, fun i hi => ?_⟩
  have hc : Tendsto (fun n => fun j : Fin N => exposureCov κ (.time ((ts n).get i)) ((X n).coords.get j)) F
      (𝓝 fun j : Fin N => exposureCov κ (.time (ts0.get i)) (X0.coords.get j)) :=
    tendsto_pi_nhds.2 fun j => exposureCov_tendsto (X := fun n => .time ((ts n).get i)) (X0 := .time (ts0.get i)) h0.continuous (hts i hi)
      tendsto_const_nhds (hd.time j j.2) (hd.exposure j j.2)
  have hinv := tendsto_inv (hd.gram h0.continuous) (gramOf_pd h0 hd.len0 hR0).det_pos.ne'
  have e1 : ∀ n, (m n).get i = _ := fun n => (hm n i (by rw [hl]; exact hi)).1
  have e2 : ∀ n, (v n).get i = _ := fun n => (hm n i (by rw [hl]; exact hi)).2
  simp only [e1, e2, (hm0 i hi).1, (hm0 i hi).2, postMean_gramOf (hd.len _), postMean_gramOf hd.len0, postVar_gramOf (hd.len _),
    postVar_gramOf hd.len0]
  exact ⟨tendsto_quad hinv hc (tendsto_pi_nhds.2 fun j => hy j j.2), (tendsto_quad hinv hc hc).const_sub _⟩

end

/-- **C69, short exposures.** As the exposures shrink to zero at fixed mid-times, the log likelihood and the predictions from an integrated kernel
tend to those of the kernel with the same covariance function for instantaneous measurements. -/
theorem C69_short_exposures {κ : ℝ → ℝ} {ki k0 : Kern} {t : Arr ℝ} {d : ℕ → Arr ℝ} {inst : Arr ℤ} {si s0 : Option SolverKind}
    (h : ∀ n, Regression ki (.triple t (d n) inst) si κ) (h0 : Regression k0 (.times t) s0 κ)
    (hd : ∀ i < t.len, Tendsto (fun n => (d n).get i) atTop (𝓝 0)) {diag : Option (ℝ ⊕ Arr ℝ)} {mean mean0 : Option (Coord → ℝ)} {u u0 : Bool}
    {gp : ℕ → GP} {gp0 : GP} (hnew : ∀ n, GP.new ki (.triple t (d n) inst) diag mean si u = .ok (gp n))
    (hnew0 : GP.new k0 (.times t) diag mean0 s0 u0 = .ok gp0) (hR : ∀ i < t.len, 0 < (GP.noiseOf t.len diag).get i) {y : Arr ℝ}
    (hy : y.len = t.len) :
    (∃ (l : ℕ → ℝ) (l0 : ℝ), (∀ n, (gp n).logProbability y = .ok (l n : EReal)) ∧ gp0.logProbability y = .ok (l0 : EReal) ∧
      Tendsto l atTop (𝓝 l0)) ∧
    ∀ (lp : ℕ → EReal) (lp0 : EReal) (gpc : ℕ → GP) (gpc0 : GP), (∀ n, (gp n).condition y = .ok (lp n, gpc n)) → gp0.condition y = .ok (lp0, gpc0) → ∀ ts : Arr ℝ,
      ∃ (m v : ℕ → Arr ℝ) (m0 v0 : Arr ℝ), (∀ n, (gpc n).predict (some (.times ts)) = .ok (m n, v n)) ∧
        gpc0.predict (some (.times ts)) = .ok (m0, v0) ∧
        ∀ i < ts.len, Tendsto (fun n => (m n).get i) atTop (𝓝 (m0.get i)) ∧ Tendsto (fun n => (v n).get i) atTop (𝓝 (v0.get i)) := by
  have hdata : DataTendsto atTop t.len (fun n => (XArg.triple t (d n) inst).coords) (fun _ => GP.noiseOf t.len diag) (XArg.times t).coords
      (GP.noiseOf t.len diag) :=
    ⟨fun _ => rfl, rfl, fun _ _ => tendsto_const_nhds, hd, fun _ _ => tendsto_const_nhds⟩
  exact ⟨C69_log_probability h h0 hnew hnew0 (fun _ => hR) hR hdata (fun _ => hy) hy fun _ _ => tendsto_const_nhds,
    fun lp lp0 gpc gpc0 hc hc0 ts => C69_predict h h0 hnew hnew0 (fun _ => hR) hR hdata (fun _ _ => tendsto_const_nhds) hc hc0 (fun _ => ts) ts
      (fun _ => rfl) fun _ _ => tendsto_const_nhds⟩

section examples

/-- exposures shrinking to zero -/
noncomputable def dShort (n : ℕ) : Arr ℝ := ⟨2, fun _ => 1 / ((n : ℝ) + 1)⟩

theorem dShort_pos (n i : ℕ) : 0 < (dShort n).get i := by
  show (0 : ℝ) < 1 / ((n : ℝ) + 1)
  positivity

/-- two exposures of the same instrument, centred at 0 and 1, of lengths 1, 1/2, 1/3, ... -/
theorem short_regression (n : ℕ) : Regression (.integratedMatern32 2 1 0 "a") (.triple tPair (dShort n) ⟨2, fun _ => 0⟩) none (covMatern32 2 1) := by
  have h1 : 1 / ((n : ℝ) + 1) ≤ 1 := by
    rw [div_le_one (by positivity)]
    linarith [Nat.cast_nonneg (α := ℝ) n]
  have hpos : (0 : ℝ) < 1 / ((n : ℝ) + 1) := by positivity
  refine .integrated (m := 0) (.matern32 two_pos one_ne_zero le_rfl) (.inl rfl) ⟨fun i _ => (dShort_pos n i).le, fun i _ => ⟨le_rfl, le_rfl⟩,
    fun i hi j hj hij _ => ?_⟩ ⟨fun i _ => dShort_pos n i, fun i hi j hj hij => ?_⟩ (by show 0 < 2; decide)
  · have hi' : i < 2 := hi
    have hj' : j < 2 := hj
    show (if i = 0 then (0 : ℝ) else 1) + 1 / ((n : ℝ) + 1) / 2 ≤ (if j = 0 then 0 else 1) - 1 / ((n : ℝ) + 1) / 2 ∨
      (if j = 0 then (0 : ℝ) else 1) + 1 / ((n : ℝ) + 1) / 2 ≤ (if i = 0 then 0 else 1) - 1 / ((n : ℝ) + 1) / 2
    interval_cases i <;> interval_cases j
    · exact absurd rfl hij
    · left; norm_num at h1 ⊢; linarith
    · right; norm_num at h1 ⊢; linarith
    · exact absurd rfl hij
  · have hi' : i < 2 := hi
    have hj' : j < 2 := hj
    show (if i = 0 then (0 : ℝ) else 1) - 1 / ((n : ℝ) + 1) / 2 ≠ (if j = 0 then 0 else 1) - 1 / ((n : ℝ) + 1) / 2
    interval_cases i <;> interval_cases j
    · exact absurd rfl hij
    · intro h; norm_num at h; linarith
    · intro h; norm_num at h
    · exact absurd rfl hij

/-- C69 applies: the likelihood of an integrated Matern kernel tends to that of the instantaneous one -/
example (y : Arr ℝ) (hy : y.len = 2) : ∃ (gp : ℕ → GP) (gp0 : GP) (l : ℕ → ℝ) (l0 : ℝ),
    (∀ n, GP.new (.integratedMatern32 2 1 0 "a") (.triple tPair (dShort n) ⟨2, fun _ => 0⟩) (some (.inl 1)) none none false = .ok (gp n)) ∧
    GP.new (.matern32 2 1 "a") (.times tPair) (some (.inl 1)) none none false = .ok gp0 ∧
    (∀ n, (gp n).logProbability y = .ok (l n : EReal)) ∧ gp0.logProbability y = .ok (l0 : EReal) ∧ Tendsto l atTop (𝓝 l0) := by
  have hk : (Kern.integratedMatern32 2 1 0 "a").Integrates False 0 (covMatern32 2 1) := .matern32 two_pos one_ne_zero le_rfl
  have hv : (Kern.matern32 2 1 "a").Valid := .matern32 two_pos one_ne_zero
  choose gp hnew using fun n => (C45_integrated_constructor (t := tPair) (d := dShort n) (inst := ⟨2, fun _ => 0⟩) hk (.inl rfl) (some (.inl 1)) none).1
  obtain ⟨gp0, hnew0⟩ := (C01_constructor hv (.inl rfl) tPair (some (.inl 1)) none).1
  obtain ⟨⟨l, l0, h1, h2, h3⟩, -⟩ := C69_short_exposures (κ := covMatern32 2 1) short_regression
    (.sequential hv (C24_matern32 2 1 "a" two_pos) (.inl rfl) tPair_sorted (by show 0 < 2; decide)) (fun _ _ => tendsto_one_div_add_atTop_nhds_zero_nat)
    hnew hnew0 (fun _ _ => one_pos) hy
  exact ⟨gp, gp0, l, l0, hnew, hnew0, h1, h2, h3⟩

end examples

end Verif
