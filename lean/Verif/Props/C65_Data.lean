import Verif.Props.C62_Curves
import Verif.Lemmas.DenseFacts

/-!
# C65, C66, C67: more precise data, repeated data, redundant data

Three consequences of exact regression, for each of the solvers and for instantaneous and exposure-averaged data: less noise or more data
never increases a predicted variance, repeated measurements count as their average weighted by inverse variances, and measurements that agree with their
prediction leave all predicted means as they are.
-/

namespace Verif
open Matrix Kern Spec

section
variable {kernel kernel' : Kern} {X X' : XArg} {solver solver' : Option SolverKind} {κ : ℝ → ℝ} {diag diag' : Option (ℝ ⊕ Arr ℝ)}
  {mean mean' : Option (Coord → ℝ)} {u u' : Bool} {gp gpc gp' gpc' : GP} {y y' : Arr ℝ} {lp lp' : EReal}

/-- **C65.** If the data of the second GP contain the coordinates of the first, each with noise variance at most that of the first, then no
predicted variance of the second GP is larger. The measured values do not matter. -/
theorem C65_less_noise_more_data (h : Regression kernel X solver κ) (h' : Regression kernel' X' solver' κ)
    (hnew : GP.new kernel X diag mean solver u = .ok gp) (hnew' : GP.new kernel' X' diag' mean' solver' u' = .ok gp')
    (hR' : ∀ i < X'.coords.len, 0 < (GP.noiseOf X'.coords.len diag').get i) (f : Fin X.coords.len → Fin X'.coords.len)
    (hf : Function.Injective f) (hfX : ∀ i : Fin X.coords.len, X'.coords.get (f i) = X.coords.get i)
    (hfR : ∀ i : Fin X.coords.len, (GP.noiseOf X'.coords.len diag').get (f i) ≤ (GP.noiseOf X.coords.len diag).get i)
    (hcond : gp.condition y = .ok (lp, gpc)) (hcond' : gp'.condition y' = .ok (lp', gpc')) (ts : Arr ℝ) :
    ∃ mu var mu' var', gpc.predict (some (.times ts)) = .ok (mu, var) ∧ gpc'.predict (some (.times ts)) = .ok (mu', var') ∧
      ∀ i < ts.len, var'.get i ≤ var.get i := by
  have hR : ∀ i < X.coords.len, 0 < (GP.noiseOf X.coords.len diag).get i := fun i hi =>
    (hR' _ (f ⟨i, hi⟩).2).trans_le (hfR ⟨i, hi⟩)
  obtain ⟨mu, var, hp, -, -, hm⟩ := C61_predict h hnew hR hcond ts
  obtain ⟨mu', var', hp', -, -, hm'⟩ := C61_predict h' hnew' hR' hcond' ts
  refine ⟨mu, var, mu', var', hp, hp', fun i hi => ?_⟩
  rw [(hm i hi).2, (hm' i hi).2]
  refine (postVar_sub (h'.gram_pd hR') _ _ f hf).trans ?_
  have e1 : (obsGram κ X'.coords (GP.noiseOf X'.coords.len diag')).submatrix f f =
      noisyGram (fun i j : Fin X.coords.len => exposureCov κ (X.coords.get i) (X.coords.get j))
        fun i => (GP.noiseOf X'.coords.len diag').get (f i) := by
    ext i j
    simp only [obsGram, noisyGram, Matrix.submatrix_apply, Matrix.of_apply, hfX, hf.eq_iff]
  have e2 : obsCross κ (.time (ts.get i)) X'.coords ∘ f = obsCross κ (.time (ts.get i)) X.coords := by
    funext j
    simp only [obsCross, Function.comp, hfX]
  rw [e2]
  refine postVar_mono (h.gram_pd hR) ((h'.gram_pd hR').submatrix hf) ?_ _ _
  rw [e1]
  exact noisyGram_psd_sub _ hfR

/-- **C67.** If the second GP has further measurements, each equal to the mean that the first GP predicts there, then it predicts the same
means everywhere. -/
theorem C67_redundant_data (h : Regression kernel X solver κ) {t' : Arr ℝ} (h' : Regression kernel' (.times t') solver' κ)
    (hnew : GP.new kernel X diag mean solver u = .ok gp) (hnew' : GP.new kernel' (.times t') diag' mean' solver' u' = .ok gp')
    (hR : ∀ i < X.coords.len, 0 < (GP.noiseOf X.coords.len diag).get i) (hR' : ∀ i < t'.len, 0 < (GP.noiseOf t'.len diag').get i)
    (f : Fin X.coords.len → Fin t'.len) (hf : Function.Injective f) (hfX : ∀ i : Fin X.coords.len, Coord.time (t'.get (f i)) = X.coords.get i)
    (hfR : ∀ i : Fin X.coords.len, (GP.noiseOf t'.len diag').get (f i) = (GP.noiseOf X.coords.len diag).get i) (hfy : ∀ i : Fin X.coords.len, y'.get (f i) = y.get i)
    (hcond : gp.condition y = .ok (lp, gpc)) (hcond' : gp'.condition y' = .ok (lp', gpc')) {mu var : Arr ℝ}
    (hpred : gpc.predict (some (.times t')) = .ok (mu, var)) (hy' : ∀ p : Fin t'.len, p ∉ Set.range f → y'.get p = mu.get p) (ts : Arr ℝ) :
    ∃ m v m' v', gpc.predict (some (.times ts)) = .ok (m, v) ∧ gpc'.predict (some (.times ts)) = .ok (m', v') ∧
      ∀ i < ts.len, m'.get i = m.get i := by
  obtain ⟨m, v, hp, -, -, hm⟩ := C61_predict h hnew hR hcond ts
  obtain ⟨m', v', hp', -, -, hm'⟩ := C61_predict h' hnew' hR' hcond' ts
  obtain ⟨mu1, var1, hp1, -, -, hm1⟩ := C61_predict h hnew hR hcond t'
  rw [hpred] at hp1
  obtain ⟨rfl, rfl⟩ := Prod.mk.inj (Except.ok.inj hp1)
  refine ⟨m, v, m', v', hp, hp', fun i hi => ?_⟩
  rw [(hm i hi).1, (hm' i hi).1]
  have hfX' : ∀ i : Fin X.coords.len, (XArg.times t').coords.get (f i) = X.coords.get i := hfX
  refine postMean_extend (ι' := Fin (XArg.times t').coords.len) f hf (h.gram_pd hR) (h'.gram_pd hR') (fun i j => ?_) hfR hfy (fun p hpr => ?_)
    fun i => ?_
  · rw [hfX', hfX']
  · have := hy' p hpr
    rw [(hm1 p p.2).1] at this
    refine this.trans (congrArg (postMean _ _) ?_)
    funext j
    show exposureCov κ (.time (t'.get p)) (X.coords.get j) = exposureCov κ (.time (t'.get p)) ((XArg.times t').coords.get (f j))
    rw [hfX']
  · simp only [obsCross]
    rw [hfX']

/-- log density of a normal variable with mean zero and variance `r` -/
noncomputable def Spec.normalLogDensity (r z : ℝ) : ℝ := gaussLogDensity (Matrix.diagonal fun _ : Unit => r) fun _ => z

/-- **C66.** Let the measurements of the second GP be repeats of those of the first, `g` telling of which, and let the first have for each group
the average weighted by inverse variances, with the inverse variances added. Then both predict the same, and their log likelihoods differ by a number
that depends on the measurements and their noise alone, not on the kernel: nothing that a fit or a prediction could see is lost. -/
theorem C66_repeated_measurements (h : Regression kernel X solver κ) (h' : Regression kernel' X' solver' κ)
    (hnew : GP.new kernel X diag mean solver u = .ok gp) (hnew' : GP.new kernel' X' diag' mean' solver' u' = .ok gp')
    (hR : ∀ i < X.coords.len, 0 < (GP.noiseOf X.coords.len diag).get i) (hR' : ∀ i < X'.coords.len, 0 < (GP.noiseOf X'.coords.len diag').get i)
    (g : Fin X'.coords.len → Fin X.coords.len) (hgX : ∀ p : Fin X'.coords.len, X'.coords.get p = X.coords.get (g p))
    (hgR : ∀ m : Fin X.coords.len, 1 / (GP.noiseOf X.coords.len diag).get m =
      ∑ p, if g p = m then 1 / (GP.noiseOf X'.coords.len diag').get p else 0)
    (hgy : ∀ m : Fin X.coords.len, y.get m / (GP.noiseOf X.coords.len diag).get m =
      ∑ p, if g p = m then y'.get p / (GP.noiseOf X'.coords.len diag').get p else 0)
    (hy : y.len = X.coords.len) (hy' : y'.len = X'.coords.len) :
    (∃ l l' : ℝ, gp.logProbability y = .ok (l : EReal) ∧ gp'.logProbability y' = .ok (l' : EReal) ∧
      l' - l = ∑ p : Fin X'.coords.len, normalLogDensity ((GP.noiseOf X'.coords.len diag').get p) (y'.get p) -
        ∑ m : Fin X.coords.len, normalLogDensity ((GP.noiseOf X.coords.len diag).get m) (y.get m)) ∧
    ∀ lp lp' gpc gpc', gp.condition y = .ok (lp, gpc) → gp'.condition y' = .ok (lp', gpc') → ∀ ts : Arr ℝ,
      ∃ m v m' v', gpc.predict (some (.times ts)) = .ok (m, v) ∧ gpc'.predict (some (.times ts)) = .ok (m', v') ∧
        ∀ i < ts.len, m'.get i = m.get i ∧ v'.get i = v.get i := by
  have e1 : obsGram κ X'.coords (GP.noiseOf X'.coords.len diag') =
      noisyGram (fun p q => exposureCov κ (X.coords.get (g p)) (X.coords.get (g q)))
        fun p : Fin X'.coords.len => (GP.noiseOf X'.coords.len diag').get p := by
    unfold obsGram
    congr 1
    funext p q
    rw [hgX, hgX]
  have pd := h.gram_pd hR
  have pd' := h'.gram_pd hR'
  rw [e1] at pd'
  refine ⟨⟨_, _, C61_log_probability h hnew hy hR, C61_log_probability h' hnew' hy' hR', ?_⟩, fun lp lp' gpc gpc' hc hc' ts => ?_⟩
  · rw [e1]
    have := logDensity_replicates (b := fun i j : Fin X.coords.len => exposureCov κ (X.coords.get i) (X.coords.get j))
      (R := fun i : Fin X.coords.len => (GP.noiseOf X.coords.len diag).get i)
      (R' := fun p : Fin X'.coords.len => (GP.noiseOf X'.coords.len diag').get p) g pd pd' (fun p => hR' p p.2) (fun m => hR m m.2) hgR hgy
    rw [this]
    unfold obsGram normalLogDensity
    ring
  · obtain ⟨m, v, hp, -, -, hm⟩ := C61_predict h hnew hR hc ts
    obtain ⟨m', v', hp', -, -, hm'⟩ := C61_predict h' hnew' hR' hc' ts
    refine ⟨m, v, m', v', hp, hp', fun i hi => ?_⟩
    have e2 : obsCross κ (.time (ts.get i)) X'.coords = fun p => obsCross κ (.time (ts.get i)) X.coords (g p) := by
      funext p
      simp only [obsCross, hgX]
    rw [(hm i hi).1, (hm' i hi).1, (hm i hi).2, (hm' i hi).2, e1, e2]
    exact ⟨postMean_replicates (b := fun i j : Fin X.coords.len => exposureCov κ (X.coords.get i) (X.coords.get j)) g pd pd'
        (fun p => hR' p p.2) (fun m => hR m m.2) hgR hgy _,
      postVar_replicates (b := fun i j : Fin X.coords.len => exposureCov κ (X.coords.get i) (X.coords.get j)) g pd pd'
        (fun p => hR' p p.2) (fun m => hR m m.2) hgR _ _⟩

end

section examples

/-- two measurements, at times 0 and 1 -/
def tPair : Arr ℝ := ⟨2, fun n => if n = 0 then 0 else 1⟩
/-- the same, the second repeated -/
def tRepeat : Arr ℝ := ⟨3, fun n => if n = 0 then 0 else 1⟩
/-- noise variances of the two measurements -/
noncomputable def rPair : Arr ℝ := ⟨2, fun n => if n = 0 then 1 else 2 / 3⟩
/-- noise variances of the three: the repeated measurement has 1 and 2, together 2/3 -/
def rRepeat : Arr ℝ := ⟨3, fun n => if n = 2 then 2 else 1⟩
/-- two values, the second the weighted average of 4 and 1 -/
def yPair : Arr ℝ := ⟨2, fun n => if n = 0 then 5 else 3⟩
/-- three values -/
def yRepeat : Arr ℝ := ⟨3, fun n => if n = 0 then 5 else if n = 1 then 4 else 1⟩

theorem tPair_sorted : Sorted tPair := by
  intro i j hij _
  show (if i = 0 then (0 : ℝ) else 1) ≤ if j = 0 then 0 else 1
  by_cases h : i = 0
  · rw [if_pos h]; split_ifs <;> norm_num
  · rw [if_neg h, if_neg (by omega)]

theorem tRepeat_sorted : Sorted tRepeat := by
  intro i j hij _
  show (if i = 0 then (0 : ℝ) else 1) ≤ if j = 0 then 0 else 1
  by_cases h : i = 0
  · rw [if_pos h]; split_ifs <;> norm_num
  · rw [if_neg h, if_neg (by omega)]

theorem rPair_pos (i : ℕ) : 0 < rPair.get i := by
  show (0 : ℝ) < if i = 0 then 1 else 2 / 3
  split_ifs <;> norm_num

theorem rRepeat_pos (i : ℕ) : 0 < rRepeat.get i := by
  show (0 : ℝ) < if i = 2 then 2 else 1
  split_ifs <;> norm_num

/-- C66 applies: the measurements 4 (variance 1) and 1 (variance 2) at time 1 count as 3 with variance 2/3 -/
example (ts : Arr ℝ) : ∃ gp lp gpc gp' lp' gpc' m v m' v',
    GP.new (.exp 1 1 "a") (.times tPair) (some (.inr rPair)) none none false = .ok gp ∧ gp.condition yPair = .ok (lp, gpc) ∧
    GP.new (.exp 1 1 "a") (.times tRepeat) (some (.inr rRepeat)) none none false = .ok gp' ∧ gp'.condition yRepeat = .ok (lp', gpc') ∧
    gpc.predict (some (.times ts)) = .ok (m, v) ∧ gpc'.predict (some (.times ts)) = .ok (m', v') ∧
      ∀ i < ts.len, m'.get i = m.get i ∧ v'.get i = v.get i := by
  obtain ⟨gp, lp, gpc, h, hc⟩ := exp_gp tPair (by show (2 : ℕ) ≠ 1; decide) (some (.inr rPair)) yPair
  obtain ⟨gp', lp', gpc', h', hc'⟩ := exp_gp tRepeat (by show (3 : ℕ) ≠ 1; decide) (some (.inr rRepeat)) yRepeat
  obtain ⟨-, key⟩ := C66_repeated_measurements (exp_regression tPair_sorted (by show 0 < 2; decide))
    (exp_regression tRepeat_sorted (by show 0 < 3; decide)) h h' (fun i _ => rPair_pos i) (fun i _ => rRepeat_pos i)
    (y := yPair) (y' := yRepeat) (fun p : Fin 3 => (if p = 0 then 0 else 1 : Fin 2)) (by
      show ∀ p : Fin 3, Coord.time (if p.val = 0 then 0 else 1) = Coord.time (if (if p = 0 then (0 : Fin 2) else 1).val = 0 then 0 else 1)
      intro p
      fin_cases p <;> simp) (by
      show ∀ m : Fin 2, 1 / (if m.val = 0 then (1 : ℝ) else 2 / 3) =
        ∑ p : Fin 3, if (if p = 0 then (0 : Fin 2) else 1) = m then 1 / (if p.val = 2 then (2 : ℝ) else 1) else 0
      intro m
      fin_cases m <;> simp [Fin.sum_univ_three]; norm_num) (by
      show ∀ m : Fin 2, (if m.val = 0 then (5 : ℝ) else 3) / (if m.val = 0 then (1 : ℝ) else 2 / 3) =
        ∑ p : Fin 3, if (if p = 0 then (0 : Fin 2) else 1) = m then (if p.val = 0 then (5 : ℝ) else if p.val = 1 then 4 else 1) /
          (if p.val = 2 then (2 : ℝ) else 1) else 0
      intro m
      fin_cases m <;> simp [Fin.sum_univ_three]; norm_num) rfl rfl
  obtain ⟨m, v, m', v', hp, hp', hm⟩ := key _ _ _ _ hc hc' ts
  exact ⟨gp, lp, gpc, gp', lp', gpc', m, v, m', v', h, hc, h', hc', hp, hp', hm⟩

/-- C65 applies: a third measurement cannot increase a variance, nor can halving the noise of the second -/
example (ts y y' : Arr ℝ) : ∃ gp lp gpc gp' lp' gpc' m v m' v',
    GP.new (.exp 1 1 "a") (.times tPair) (some (.inl 2)) none none false = .ok gp ∧ gp.condition y = .ok (lp, gpc) ∧
    GP.new (.exp 1 1 "a") (.times tRepeat) (some (.inr rRepeat)) none none false = .ok gp' ∧ gp'.condition y' = .ok (lp', gpc') ∧
    gpc.predict (some (.times ts)) = .ok (m, v) ∧ gpc'.predict (some (.times ts)) = .ok (m', v') ∧ ∀ i < ts.len, v'.get i ≤ v.get i := by
  obtain ⟨gp, lp, gpc, h, hc⟩ := exp_gp tPair (by show (2 : ℕ) ≠ 1; decide) (some (.inl 2)) y
  obtain ⟨gp', lp', gpc', h', hc'⟩ := exp_gp tRepeat (by show (3 : ℕ) ≠ 1; decide) (some (.inr rRepeat)) y'
  obtain ⟨m, v, m', v', hp, hp', hm⟩ := C65_less_noise_more_data (exp_regression tPair_sorted (by show 0 < 2; decide))
    (exp_regression tRepeat_sorted (by show 0 < 3; decide)) h h' (fun i _ => rRepeat_pos i) (Fin.castLE (by show 2 ≤ 3; decide))
    (Fin.castLE_injective _) (fun i => rfl) (fun i => by
      show (if i.val = 2 then (2 : ℝ) else 1) ≤ 2
      split_ifs <;> norm_num) hc hc' ts
  exact ⟨gp, lp, gpc, gp', lp', gpc', m, v, m', v', h, hc, h', hc', hp, hp', hm⟩

/-- C67 applies: predict at time 1 a second time, add the prediction as a third measurement -/
example (ts y : Arr ℝ) : ∃ gp lp gpc mu var gp' lp' gpc' m v m' v',
    GP.new (.exp 1 1 "a") (.times tPair) (some (.inl 1)) none none false = .ok gp ∧ gp.condition y = .ok (lp, gpc) ∧
    gpc.predict (some (.times tRepeat)) = .ok (mu, var) ∧
    GP.new (.exp 1 1 "a") (.times tRepeat) (some (.inl 1)) none none false = .ok gp' ∧
    gp'.condition ⟨3, fun n => if n < 2 then y.get n else mu.get n⟩ = .ok (lp', gpc') ∧
    gpc.predict (some (.times ts)) = .ok (m, v) ∧ gpc'.predict (some (.times ts)) = .ok (m', v') ∧ ∀ i < ts.len, m'.get i = m.get i := by
  obtain ⟨gp, lp, gpc, h, hc⟩ := exp_gp tPair (by show (2 : ℕ) ≠ 1; decide) (some (.inl 1)) y
  have hr := exp_regression tPair_sorted (by show 0 < 2; decide)
  obtain ⟨mu, var, hp, -⟩ := C61_predict hr h (fun _ _ => one_pos) hc tRepeat
  obtain ⟨gp', lp', gpc', h', hc'⟩ := exp_gp tRepeat (by show (3 : ℕ) ≠ 1; decide) (some (.inl 1))
    ⟨3, fun n => if n < 2 then y.get n else mu.get n⟩
  obtain ⟨m, v, m', v', hp1, hp1', hm⟩ := C67_redundant_data hr (exp_regression tRepeat_sorted (by show 0 < 3; decide)) h h' (fun _ _ => one_pos)
    (fun _ _ => one_pos) (Fin.castLE (by show 2 ≤ 3; decide)) (Fin.castLE_injective _) (fun i => rfl) (fun i => rfl)
    (fun i => if_pos i.2) hc hc' hp (fun p hpr => if_neg fun hlt => hpr ⟨⟨p.val, hlt⟩, rfl⟩) ts
  exact ⟨gp, lp, gpc, mu, var, gp', lp', gpc', m, v, m', v', h, hc, hp, h', hc', hp1, hp1', hm⟩

end examples

end Verif
