import Verif.Props.C61_Regression
import Verif.Props.C36_Psd
import Verif.Props.C29_Periodic
import Verif.Lemmas.PosDefFn

/-!
# C62, C63: the predicted curve

The predicted mean and variance at a test time are continuous functions of that time, and far from the data they return to the prior if the
kernel loses memory.
-/

namespace Verif
open Matrix Kern Spec Filter Topology

/-! ### Covariance functions of the supported kernels -/

theorem SSM.HasCov.continuous {k : SSM} (hk : Combos (Leaf SHO.Any) k) {κ : ℝ → ℝ} (h : k.HasCov κ) : Continuous fun u => κ |u| := by
  obtain ⟨G, hG⟩ := hk.covModel
  have e : (fun u => κ |u|) = fun u => k.covAt G |u| := by
    funext u
    have h1 := h (.time u) (.time 0)
    rw [hG.evaluate_eq] at h1
    simpa [Coord.sortable] using h1.symm
  rw [e]
  refine Continuous.comp (g := fun r => k.covAt G r) ?_ continuous_abs
  unfold SSM.covAt
  simp only [Matrix.mul_apply]
  refine continuous_finsetSum _ fun b _ => Continuous.mul (continuous_finsetSum _ fun c _ => Continuous.mul
    (continuous_finsetSum _ fun d _ => continuous_const.mul (expm_continuous G d c)) continuous_const) continuous_const

theorem SSM.HasCov.psd {k : SSM} (hk : Combos (Leaf SHO.Any) k) {κ : ℝ → ℝ} (h : k.HasCov κ) : PosSemidefFn κ := by
  intro N s
  have := C26_gram_psd k hk (fun i : Fin N => .time (s i))
  simpa only [h _ _, Coord.sortable] using this

theorem SSM.HasCov.tendsto {k : SSM} (hk : Damped k) {κ : ℝ → ℝ} (h : k.HasCov κ) : Tendsto κ atTop (𝓝 0) := by
  obtain ⟨a, ha, C, hC, hb⟩ := hk.bound
  obtain ⟨G, hG⟩ := hk.combos.any.covModel
  have hT := C20_transition_is_exp_partial k hk.combos
  have hE : ∀ s : ℝ, NormedSpace.exp (s • G) = NormedSpace.exp (s • k.F) := by
    intro s
    have h1 := hG.A_exp (.time 0) (.time s)
    have h2 := hT (.time 0) (.time s)
    rw [h1] at h2
    simpa [Coord.sortable] using h2
  have h1 : Tendsto (fun r : ℝ => C * Real.exp (-a * r)) atTop (𝓝 0) := by
    have : Tendsto (fun r : ℝ => -a * r) atTop atBot := tendsto_id.const_mul_atTop_of_neg (by linarith)
    simpa using (Real.tendsto_exp_atBot.comp this).const_mul C
  have h2 : ∀ i j, Tendsto (fun r : ℝ => NormedSpace.exp (r • k.F) i j) atTop (𝓝 0) := fun i j =>
    squeeze_zero_norm' (eventually_atTop.2 ⟨0, fun r hr => hb r hr i j⟩) h1
  have h3 : Tendsto (fun r => k.covAt k.F r) atTop (𝓝 0) := by
    unfold SSM.covAt
    simp only [Matrix.mul_apply]
    have e : (0 : ℝ) = ∑ b, (∑ c, (∑ d, k.obsMatrix (.time 0) 0 d * 0) * k.Pinf c b) * (k.obsMatrix (.time 0))ᵀ b 0 := by simp
    refine Eq.mpr (congrArg (fun z => Tendsto _ atTop (𝓝 z)) e) ?_
    exact tendsto_finsetSum _ fun b _ => (tendsto_finsetSum _ fun c _ => (tendsto_finsetSum _ fun d _ =>
      (h2 d c).const_mul _).mul_const _).mul_const _
  refine h3.congr' (eventually_atTop.2 ⟨0, fun r hr => ?_⟩)
  have := h (.time r) (.time 0)
  rw [hG.evaluate_eq] at this
  simp only [Coord.sortable, sub_zero, abs_of_nonneg hr] at this
  rw [← this]
  unfold SSM.covAt
  rw [hE]

theorem PosSemidefFn.add {κ κ' : ℝ → ℝ} (h : PosSemidefFn κ) (h' : PosSemidefFn κ') : PosSemidefFn fun r => κ r + κ' r :=
  fun N s => (h N s).add (h' N s)

/-- what is needed of the covariance function of an integrated kernel -/
theorem Kern.Integrates.cov {m : ℕ} {k : Kern} {κ : ℝ → ℝ} (h : k.Integrates False m κ) :
    (Continuous fun u => κ |u|) ∧ PosSemidefFn κ ∧ Tendsto κ atTop (𝓝 0) := by
  induction h with
  | exp hs _ _ => exact ⟨(C24_exp _ _ "" hs).continuous (.leaf (.exp hs)), (C24_exp _ _ "" hs).psd (.leaf (.exp hs)),
      (C24_exp _ _ "" hs).tendsto (.exp hs)⟩
  | matern32 hs _ _ => exact ⟨(C24_matern32 _ _ "" hs).continuous (.leaf (.matern32 hs)),
      (C24_matern32 _ _ "" hs).psd (.leaf (.matern32 hs)), (C24_matern32 _ _ "" hs).tendsto (.matern32 hs)⟩
  | matern52 hs _ _ => exact ⟨(C24_matern52 _ _ "" hs).continuous (.leaf (.matern52 hs)),
      (C24_matern52 _ _ "" hs).psd (.leaf (.matern52 hs)), (C24_matern52 _ _ "" hs).tendsto (.matern52 hs)⟩
  | sho hw hq hd _ _ => exact ⟨(C24_sho _ _ _ "" hw hq hd.1).continuous (.leaf (.sho hw hq trivial)),
      (C24_sho _ _ _ "" hw hq hd.1).psd (.leaf (.sho hw hq trivial)), (C24_sho _ _ _ "" hw hq hd.1).tendsto (.sho hw hq hd.1)⟩
  | cosine h _ _ => exact h.elim
  | sum _ _ h1 h2 => exact ⟨h1.1.add h2.1, h1.2.1.add h2.2.1, by simpa using h1.2.2.add h2.2.2⟩

section
variable {kernel : Kern} {X : XArg} {solver : Option SolverKind} {κ : ℝ → ℝ} {diag : Option (ℝ ⊕ Arr ℝ)} {mean : Option (Coord → ℝ)}
  {u : Bool} {gp gp' : GP} {y : Arr ℝ} {lp : EReal}

theorem Regression.continuous (h : Regression kernel X solver κ) : Continuous fun u => κ |u| := by
  cases h with
  | sequential hv hκ => exact hκ.continuous hv.builtIn.leafCombos
  | parallel hv hκ => exact hκ.continuous hv.builtIn.leafCombos
  | integrated hk => exact hk.cov.1

theorem Regression.psd (h : Regression kernel X solver κ) : PosSemidefFn κ := by
  cases h with
  | sequential hv hκ => exact hκ.psd hv.builtIn.leafCombos
  | parallel hv hκ => exact hκ.psd hv.builtIn.leafCombos
  | integrated hk => exact hk.cov.2.1

theorem Regression.gram_pd (h : Regression kernel X solver κ) {R : Arr ℝ} (hR : ∀ i < X.coords.len, 0 < R.get i) :
    (obsGram κ X.coords R).PosDef := by
  have e : obsGram κ X.coords R = (Matrix.of fun i j : Fin X.coords.len => exposureCov κ (X.coords.get i) (X.coords.get j)) +
      Matrix.diagonal (fun i : Fin X.coords.len => R.get i) := by
    ext i j
    simp [obsGram, noisyGram, Matrix.diagonal_apply]
  rw [e]
  exact Matrix.PosDef.posSemidef_add (exposureGram_psd h.continuous h.psd _) (Matrix.PosDef.diagonal fun i => hR i i.2)

/-- covariance of the latent value at time `s` with an exposure average -/
theorem exposureCov_time (κ : ℝ → ℝ) (s : ℝ) (Y : Coord) : exposureCov κ (.time s) Y = ∫ v in (0 : ℝ)..1, κ |s - Y.at v| := by
  have : exposureCov κ (.time s) Y = Y.average fun v => κ |s - v| := by
    simp [exposureCov, Coord.average, Coord.delta, Coord.sortable]
  rw [this, Coord.average_unit]

theorem obsCross_continuous (hc : Continuous fun u => κ |u|) (X : Arr Coord) : Continuous fun s => obsCross κ (.time s) X := by
  refine continuous_pi fun j => ?_
  show Continuous fun s => exposureCov κ (.time s) (X.get j)
  simp only [exposureCov_time]
  have : Continuous (Function.uncurry fun s v : ℝ => κ |s - (X.get j).at v|) :=
    hc.comp (continuous_fst.sub ((X.get j).at_continuous.comp continuous_snd))
  exact intervalIntegral.continuous_parametric_intervalIntegral_of_continuous' this 0 1

theorem obsCross_tendsto (h0 : Tendsto κ atTop (𝓝 0)) (X : Arr Coord) :
    Tendsto (fun s => obsCross κ (.time s) X) (Bornology.cobounded ℝ) (𝓝 0) := by
  rw [tendsto_pi_nhds]
  intro j
  show Tendsto (fun s => exposureCov κ (.time s) (X.get j)) _ (𝓝 0)
  simp only [exposureCov_time]
  rw [Metric.tendsto_nhds]
  intro ε hε
  obtain ⟨M, hM⟩ := eventually_atTop.1 (Metric.tendsto_nhds.1 h0 (ε / 2) (by linarith))
  obtain ⟨C, hC⟩ := (isCompact_Icc (a := (0 : ℝ)) (b := 1)).exists_bound_of_continuousOn (X.get j).at_continuous.continuousOn
  have hev : ∀ᶠ s in Bornology.cobounded ℝ, M + C ≤ ‖s‖ := (tendsto_norm_cobounded_atTop (E := ℝ)).eventually_ge_atTop (M + C)
  filter_upwards [hev] with s hs
  rw [dist_zero_right]
  have hb : ∀ v ∈ Set.uIoc (0 : ℝ) 1, ‖κ |s - (X.get j).at v|‖ ≤ ε / 2 := by
    intro v hv
    rw [Set.uIoc_of_le zero_le_one] at hv
    have h1 := hC v ⟨hv.1.le, hv.2⟩
    have h2 := hM |s - (X.get j).at v| (by
      have := abs_sub_abs_le_abs_sub s ((X.get j).at v)
      rw [Real.norm_eq_abs] at h1 hs
      linarith)
    rw [dist_zero_right] at h2
    exact h2.le
  have := intervalIntegral.norm_integral_le_of_norm_le_const hb
  rw [sub_zero, abs_one, mul_one] at this
  linarith

theorem postMean_continuous {ι : Type*} [Fintype ι] [DecidableEq ι] (K : Matrix ι ι ℝ) (y : ι → ℝ) : Continuous (postMean K y) := by
  unfold postMean dotProduct
  fun_prop

theorem postVar_continuous {ι : Type*} [Fintype ι] [DecidableEq ι] (K : Matrix ι ι ℝ) (v : ℝ) : Continuous (postVar K v) := by
  unfold postVar dotProduct mulVec dotProduct
  fun_prop

/-- **C63.** Prediction evaluates two fixed continuous curves at the test times: one of the means, one of the variances. -/
theorem C63_continuous (h : Regression kernel X solver κ) (hnew : GP.new kernel X diag mean solver u = .ok gp)
    (hR : ∀ i < X.coords.len, 0 < (GP.noiseOf X.coords.len diag).get i) (hcond : gp.condition y = .ok (lp, gp')) :
    ∃ M V : ℝ → ℝ, Continuous M ∧ Continuous V ∧ ∀ ts : Arr ℝ, ∃ mu var, gp'.predict (some (.times ts)) = .ok (mu, var) ∧
      mu.len = ts.len ∧ var.len = ts.len ∧ ∀ i < ts.len, mu.get i = M (ts.get i) ∧ var.get i = V (ts.get i) :=
  ⟨_, _, (postMean_continuous _ _).comp (obsCross_continuous h.continuous X.coords),
    (postVar_continuous _ _).comp (obsCross_continuous h.continuous X.coords), fun ts => C61_predict h hnew hR hcond ts⟩

/-- **C62.** If the covariance function decays, predictions far from the data, in the past or in the future, return to the prior: mean zero and the
prior variance. -/
theorem C62_extrapolation (h : Regression kernel X solver κ) (h0 : Tendsto κ atTop (𝓝 0)) (hnew : GP.new kernel X diag mean solver u = .ok gp)
    (hR : ∀ i < X.coords.len, 0 < (GP.noiseOf X.coords.len diag).get i) (hcond : gp.condition y = .ok (lp, gp')) (ε : ℝ) (hε : 0 < ε) :
    ∃ T : ℝ, ∀ ts mu var, gp'.predict (some (.times ts)) = .ok (mu, var) → ∀ i < ts.len, T ≤ |ts.get i| →
      |mu.get i| < ε ∧ |var.get i - κ 0| < ε := by
  have hc := obsCross_tendsto h0 X.coords
  have h1 : Tendsto (fun s => postMean (obsGram κ X.coords (GP.noiseOf X.coords.len diag)) (fun j => y.get j)
      (obsCross κ (.time s) X.coords)) (Bornology.cobounded ℝ) (𝓝 0) := by
    have := ((postMean_continuous (obsGram κ X.coords (GP.noiseOf X.coords.len diag)) (fun j => y.get j)).tendsto 0).comp hc
    simpa [postMean, Function.comp_def] using this
  have h2 : Tendsto (fun s => postVar (obsGram κ X.coords (GP.noiseOf X.coords.len diag)) (κ 0)
      (obsCross κ (.time s) X.coords)) (Bornology.cobounded ℝ) (𝓝 (κ 0)) := by
    have := ((postVar_continuous (obsGram κ X.coords (GP.noiseOf X.coords.len diag)) (κ 0)).tendsto 0).comp hc
    simpa [postVar, Function.comp_def] using this
  have hev := (Metric.tendsto_nhds.1 h1 ε hε).and (Metric.tendsto_nhds.1 h2 ε hε)
  rw [← comap_norm_atTop, eventually_comap] at hev
  obtain ⟨T, hT⟩ := eventually_atTop.1 hev
  refine ⟨T, fun ts mu var hp i hi ht => ?_⟩
  obtain ⟨mu', var', hp', -, -, hm⟩ := C61_predict h hnew hR hcond ts
  rw [hp] at hp'
  obtain ⟨rfl, rfl⟩ := Prod.mk.inj (Except.ok.inj hp')
  have := hT _ ht (ts.get i) rfl
  rw [Real.dist_eq, Real.dist_eq, sub_zero] at this
  rw [(hm i hi).1, (hm i hi).2]
  exact this

/-- every kernel expression with a damped factor in each of its terms loses its memory: so do all integrated ones -/
theorem Regression.decays (h : Regression kernel X solver κ) (hd : GP.needsIntegrated kernel = true ∨ Damped kernel.model) :
    Tendsto κ atTop (𝓝 0) := by
  cases h with
  | sequential hv hκ => exact hκ.tendsto (hd.resolve_left (by rw [hv.instantaneous]; simp))
  | parallel hv hκ => exact hκ.tendsto (hd.resolve_left (by rw [hv.instantaneous]; simp))
  | integrated hk => exact hk.cov.2.2

/-- **C64.** If the covariance function is periodic, then so is the predicted curve, however far beyond the data. -/
theorem C64_periodic (h : Regression kernel X solver κ) (hnew : GP.new kernel X diag mean solver u = .ok gp)
    (hR : ∀ i < X.coords.len, 0 < (GP.noiseOf X.coords.len diag).get i) (hcond : gp.condition y = .ok (lp, gp')) {p : ℝ}
    (hp : ∀ r : ℝ, κ |r + p| = κ |r|) (n : ℤ) (ts ts' : Arr ℝ) (hl : ts'.len = ts.len) (hts : ∀ i < ts.len, ts'.get i = ts.get i + n * p) :
    ∃ mu var mu' var', gp'.predict (some (.times ts)) = .ok (mu, var) ∧ gp'.predict (some (.times ts')) = .ok (mu', var') ∧
      ∀ i < ts.len, mu'.get i = mu.get i ∧ var'.get i = var.get i := by
  obtain ⟨mu, var, h1, -, -, hm⟩ := C61_predict h hnew hR hcond ts
  obtain ⟨mu', var', h1', -, -, hm'⟩ := C61_predict h hnew hR hcond ts'
  refine ⟨mu, var, mu', var', h1, h1', fun i hi => ?_⟩
  have hper : ∀ r : ℝ, κ |r + n * p| = κ |r| := by
    have hP : Function.Periodic (fun r => κ |r|) p := hp
    exact fun r => hP.int_mul n r
  have e : obsCross κ (.time (ts'.get i)) X.coords = obsCross κ (.time (ts.get i)) X.coords := by
    funext j
    simp only [obsCross, exposureCov_time]
    congr 1
    funext v
    rw [hts i hi, show ts.get i + n * p - (X.coords.get j).at v = ts.get i - (X.coords.get j).at v + n * p by ring, hper]
  rw [(hm i hi).1, (hm i hi).2, (hm' i (hl ▸ hi)).1, (hm' i (hl ▸ hi)).2, e]
  exact ⟨rfl, rfl⟩

end

/-- kernel expressions in cosine and periodic kernels whose periods all divide `p` -/
inductive Kern.Repeats (p : ℝ) : Kern → Prop
  | cosine {scale sigma : ℝ} {name : String} (hs : 0 < scale) (n : ℤ) (hn : p = n * scale) : Repeats p (.cosine scale sigma name)
  | expSineSquared {period gamma sigma : ℝ} {order : ℕ} {name : String} (hp : 0 < period) (ho : 0 < order) (n : ℤ) (hn : p = n * period) :
      Repeats p (.expSineSquared period gamma sigma order name)
  | sum {a b : Kern} (ha : Repeats p a) (hb : Repeats p b) : Repeats p (.sum a b)
  | prod {a b : Kern} (ha : Repeats p a) (hb : Repeats p b) : Repeats p (.prod a b)

theorem Kern.Repeats.evaluate {p : ℝ} {k : Kern} (h : k.Repeats p) (r : ℝ) :
    k.model.evaluate (.time 0) (.time (r + p)) = k.model.evaluate (.time 0) (.time r) := by
  induction h with
  | @cosine scale sigma name hs n hn =>
    have e : ∀ z : ℝ, Real.cos (2 * Real.pi * |0 - z| / scale) = Real.cos (2 * Real.pi * z / scale) := fun z => by
      rw [zero_sub, abs_neg]
      rcases abs_cases z with ⟨h, _⟩ | ⟨h, _⟩ <;> rw [h]
      rw [mul_neg, neg_div, Real.cos_neg]
    show (Verif.cosine scale sigma name).evaluate _ _ = (Verif.cosine scale sigma name).evaluate _ _
    rw [C24_cosine scale sigma name hs, C24_cosine scale sigma name hs]
    simp only [covCosine, Coord.sortable]
    rw [e, e, hn, show 2 * Real.pi * (r + n * scale) / scale = 2 * Real.pi * r / scale + n * (2 * Real.pi) by field_simp,
      Real.cos_add_int_mul_two_pi]
  | @expSineSquared period gamma sigma order name hp ho n hn =>
    exact (C29_periodic period gamma sigma order name ho hp (.time 0) (.time r) (.time (r + p)) n (by rw [hn]; rfl)).1
  | @sum a b _ _ ha hb =>
    show (a.model.sum b.model).evaluate _ _ = (a.model.sum b.model).evaluate _ _
    rw [C27_sum_evaluate, C27_sum_evaluate, ha, hb]
  | @prod a b _ _ ha hb =>
    show (a.model.prod b.model).evaluate _ _ = (a.model.prod b.model).evaluate _ _
    rw [C27_prod_evaluate, C27_prod_evaluate, ha, hb]

/-- the hypothesis of C64, for these kernels -/
theorem Kern.Repeats.periodic {p : ℝ} {k : Kern} (h : k.Repeats p) {κ : ℝ → ℝ} (hκ : k.model.HasCov κ) (r : ℝ) : κ |r + p| = κ |r| := by
  have e := h.evaluate r
  rw [hκ, hκ] at e
  simpa only [Coord.sortable, zero_sub, abs_neg] using e

section examples

/-- a GP with an exponential kernel can be built and conditioned at any times -/
theorem exp_gp (t : Arr ℝ) (hl : t.len ≠ 1) (diag : Option (ℝ ⊕ Arr ℝ)) (y : Arr ℝ) :
    ∃ gp lp gp', GP.new (.exp 1 1 "a") (.times t) diag none none false = .ok gp ∧ gp.condition y = .ok (lp, gp') := by
  have hv : (Kern.exp 1 1 "a").Valid := .exp one_pos one_ne_zero
  obtain ⟨gp, h⟩ := (C01_constructor hv (.inl rfl) t diag none).1
  have hk : gp.kernel = .exp 1 1 "a" := by
    have := (GP.new_ok h).1
    rw [if_neg (by decide)] at this
    exact (Except.ok.inj this).symm
  obtain ⟨⟨lp, gp'⟩, hc⟩ := (C02_condition_succeeds hv (.inl rfl) h y).2 ⟨hl, _, by rw [hk]; rfl⟩
  exact ⟨gp, lp, gp', h, hc⟩

theorem exp_regression {t : Arr ℝ} (ht : Sorted t) (hN : 0 < t.len) : Regression (.exp 1 1 "a") (.times t) none (covExp 1 1) :=
  .sequential (.exp one_pos one_ne_zero) (C24_exp 1 1 "a" one_pos) (.inl rfl) ht hN

/-- C62 and C63 apply: with an exponential kernel, predictions vary continuously and vanish far away -/
example (y : Arr ℝ) : ∃ gp lp gp', GP.new (.exp 1 1 "a") (.times twoT) (some (.inl 1)) none none false = .ok gp ∧
    gp.condition y = .ok (lp, gp') ∧ ∃ T : ℝ, ∀ ts mu var, gp'.predict (some (.times ts)) = .ok (mu, var) → ∀ i < ts.len, T ≤ |ts.get i| →
      |mu.get i| < 1 / 100 ∧ |var.get i - 1| < 1 / 100 := by
  obtain ⟨gp, lp, gp', h, hc⟩ := exp_gp twoT (by show (2 : ℕ) ≠ 1; decide) (some (.inl 1)) y
  have hr := exp_regression twoT_sorted (by show 0 < 2; decide)
  obtain ⟨T, hT⟩ := C62_extrapolation hr (hr.decays (.inr (.exp one_pos))) h two_noise hc (1 / 100) (by norm_num)
  refine ⟨gp, lp, gp', h, hc, T, fun ts mu var hp i hi ht => ?_⟩
  have := hT ts mu var hp i hi ht
  rwa [(C24_variance 1 1 1 1 0).1, one_pow] at this

/-- C64 applies to a product of periodic kernels of periods 3 and 3/2 -/
example (y ts ts' : Arr ℝ) (hl : ts'.len = ts.len) (hts : ∀ i < ts.len, ts'.get i = ts.get i + (1000 : ℤ) * 3) :
    ∃ gp lp gp' mu var mu' var', GP.new (.prod (.cosine 3 1 "a") (.expSineSquared (3 / 2) 1 1 4 "b")) (.times twoT) (some (.inl 1)) none none false =
        .ok gp ∧ gp.condition y = .ok (lp, gp') ∧
      gp'.predict (some (.times ts)) = .ok (mu, var) ∧ gp'.predict (some (.times ts')) = .ok (mu', var') ∧ ∀ i < ts.len, mu'.get i = mu.get i := by
  have hv : (Kern.prod (.cosine 3 1 "a") (.expSineSquared (3 / 2) 1 1 4 "b")).Valid :=
    .prod (.cosine (by norm_num) one_ne_zero) (.expSineSquared (by norm_num) one_pos one_ne_zero)
  obtain ⟨κ, hκ⟩ := hv.hasCov
  obtain ⟨gp, h⟩ := (C01_constructor hv (.inl rfl) twoT (some (.inl 1)) none).1
  have hk : gp.kernel = .prod (.cosine 3 1 "a") (.expSineSquared (3 / 2) 1 1 4 "b") := by
    have := (GP.new_ok h).1
    rw [if_neg (by decide)] at this
    exact (Except.ok.inj this).symm
  obtain ⟨⟨lp, gp'⟩, hc⟩ := (C02_condition_succeeds hv (.inl rfl) h y).2 ⟨by show (2 : ℕ) ≠ 1; decide, _, by rw [hk]; rfl⟩
  have hr : Kern.Repeats 3 (.prod (.cosine 3 1 "a") (.expSineSquared (3 / 2) 1 1 4 "b")) :=
    .prod (.cosine (by norm_num) 1 (by norm_num)) (.expSineSquared (by norm_num) (by norm_num) 2 (by norm_num))
  obtain ⟨mu, var, mu', var', h1, h2, h3⟩ := C64_periodic (.sequential hv hκ (.inl rfl) twoT_sorted (by show 0 < 2; decide)) h two_noise hc
    (hr.periodic hκ) 1000 ts ts' hl hts
  exact ⟨gp, lp, gp', mu, var, mu', var', h, hc, h1, h2, fun i hi => (h3 i hi).1⟩

end examples

end Verif
