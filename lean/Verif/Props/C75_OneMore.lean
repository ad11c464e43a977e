import Verif.Props.C65_Data
import Verif.Lemmas.OneMore

/-!
# C75: likelihood and prediction fit together

Let the data of one GP be those of another with one measurement more. The difference of the log likelihoods is the log density of the further
measurement in the prediction of the GP without it, and `condition` with all data updates that prediction by Bayes' rule for one normal
variable. Hence the prediction of each measurement from all others, and its share of the likelihood, can be read off the results of `condition`
with all data (leave-one-out cross-validation).
-/

namespace Verif
open Matrix Kern Spec

/-- The data `X'`, `R'`, `y'` are the data `X`, `R`, `y` and one more, with index `p`. -/
structure Spec.OneDatumMore (X : Arr Coord) (R y : Arr ℝ) (X' : Arr Coord) (R' y' : Arr ℝ) (f : Fin X.len → Fin X'.len) (p : Fin X'.len) : Prop where
  len : X'.len = X.len + 1
  inj : Function.Injective f
  out : p ∉ Set.range f
  coord : ∀ i : Fin X.len, X'.get (f i) = X.get i
  noise : ∀ i : Fin X.len, R'.get (f i) = R.get i
  value : ∀ i : Fin X.len, y'.get (f i) = y.get i

theorem normalLogDensity_eq {r : ℝ} (hr : 0 < r) (z : ℝ) :
    normalLogDensity r z = -(1 / 2) * (z ^ 2 / r) - 1 / 2 * Real.log (2 * Real.pi * r) := by
  have hinv : (Matrix.diagonal fun _ : Unit => r)⁻¹ = Matrix.diagonal fun _ : Unit => r⁻¹ := by
    refine Matrix.inv_eq_right_inv ?_
    rw [Matrix.diagonal_mul_diagonal, ← Matrix.diagonal_one]
    congr 1
    funext _
    exact mul_inv_cancel₀ hr.ne'
  unfold normalLogDensity gaussLogDensity
  rw [hinv, Real.log_mul (by positivity) hr.ne']
  simp [dotProduct, Matrix.mulVec_diagonal]
  ring

section
variable {kernel kernel' : Kern} {X X' : XArg} {solver solver' : Option SolverKind} {κ : ℝ → ℝ} {diag diag' : Option (ℝ ⊕ Arr ℝ)}
  {mean mean' : Option (Coord → ℝ)} {u u' : Bool} {gp gpc gp' gpc' : GP} {y y' : Arr ℝ} {lp lp' : EReal}

theorem obsGram_oneMore {X X' : Arr Coord} {R R' y y' : Arr ℝ} {f : Fin X.len → Fin X'.len} {p : Fin X'.len}
    (hd : OneDatumMore X R y X' R' y' f p) (κ : ℝ → ℝ) :
    (obsGram κ X' R').submatrix f f = obsGram κ X R ∧ (fun j => obsGram κ X' R' p (f j)) = obsCross κ (X'.get p) X ∧
      obsGram κ X' R' p p = exposureCov κ (X'.get p) (X'.get p) + R'.get p ∧ ((fun i : Fin X'.len => y'.get i) ∘ f) = fun i : Fin X.len => y.get i := by
  refine ⟨?_, ?_, ?_, ?_⟩
  · ext i j
    simp only [obsGram, noisyGram, Matrix.submatrix_apply, Matrix.of_apply, hd.coord, hd.noise, hd.inj.eq_iff]
  · funext j
    have : p ≠ f j := fun e => hd.out ⟨j, e.symm⟩
    simp only [obsGram, noisyGram, Matrix.of_apply, hd.coord, obsCross, if_neg this, add_zero]
  · simp only [obsGram, noisyGram, Matrix.of_apply, if_true]
  · funext i
    exact hd.value i

/-- what is known of the further datum, in terms of the dense matrices -/
theorem oneMore_facts (h : Regression kernel X solver κ) (h' : Regression kernel' X' solver' κ)
    (hnew : GP.new kernel X diag mean solver u = .ok gp) (hnew' : GP.new kernel' X' diag' mean' solver' u' = .ok gp')
    (hR' : ∀ i < X'.coords.len, 0 < (GP.noiseOf X'.coords.len diag').get i) (hy : y.len = X.coords.len) (hy' : y'.len = X'.coords.len)
    {f : Fin X.coords.len → Fin X'.coords.len} {p : Fin X'.coords.len}
    (hd : OneDatumMore X.coords (GP.noiseOf X.coords.len diag) y X'.coords (GP.noiseOf X'.coords.len diag') y' f p) :
    ∃ m v : ℝ, m = postMean (obsGram κ X.coords (GP.noiseOf X.coords.len diag)) (fun i => y.get i) (obsCross κ (X'.coords.get p) X.coords) ∧
      v = postVar (obsGram κ X.coords (GP.noiseOf X.coords.len diag)) (exposureCov κ (X'.coords.get p) (X'.coords.get p))
        (obsCross κ (X'.coords.get p) X.coords) ∧ 0 ≤ v ∧
      (∃ l l' : ℝ, gp.logProbability y = .ok (l : EReal) ∧ gp'.logProbability y' = .ok (l' : EReal) ∧
        l' - l = normalLogDensity (v + (GP.noiseOf X'.coords.len diag').get p) (y'.get p - m)) ∧
      ∀ lp' gpc', gp'.condition y' = .ok (lp', gpc') → ∃ var', gpc'.var = some var' ∧
        gpc'.mean.get p = m + v / (v + (GP.noiseOf X'.coords.len diag').get p) * (y'.get p - m) ∧
        var'.get p = v * (GP.noiseOf X'.coords.len diag').get p / (v + (GP.noiseOf X'.coords.len diag').get p) := by
  have hR : ∀ i < X.coords.len, 0 < (GP.noiseOf X.coords.len diag).get i := fun i hi => by
    have := hd.noise ⟨i, hi⟩
    rw [← this]
    exact hR' _ (f ⟨i, hi⟩).2
  set R' := GP.noiseOf X'.coords.len diag' with hR'def
  set R := GP.noiseOf X.coords.len diag with hRdef
  have hone : OneMore f p := .of_card hd.len hd.inj hd.out
  have pd := h.gram_pd hR
  have pd' := h'.gram_pd hR'
  obtain ⟨e1, e2, e3, e4⟩ := obsGram_oneMore hd κ
  set m := postMean (obsGram κ X.coords R) (fun i => y.get i) (obsCross κ (X'.coords.get p) X.coords) with hm
  set v := postVar (obsGram κ X.coords R) (exposureCov κ (X'.coords.get p) (X'.coords.get p)) (obsCross κ (X'.coords.get p) X.coords) with hv
  have ev : innovVar (obsGram κ X'.coords R') f p = v + R'.get p := by
    unfold innovVar
    rw [e1, e2, e3, hv]
    unfold postVar
    ring
  have em : innov (obsGram κ X'.coords R') f p (fun i => y'.get i) = y'.get p - m := by
    unfold innov
    rw [e1, e2, e4]
  have hRp := hR' p p.2
  have hsym : ∀ i j : Fin X'.coords.len, exposureCov κ (X'.coords.get i) (X'.coords.get j) = exposureCov κ (X'.coords.get j) (X'.coords.get i) := fun i j => by
    have := congrFun (congrFun (psd_symm pd'.posSemidef) i) j
    simp only [obsGram, noisyGram, Matrix.transpose_apply, Matrix.of_apply] at this
    by_cases hij : i = j
    · rw [hij]
    · rw [if_neg hij, if_neg (Ne.symm hij), add_zero, add_zero] at this
      exact this.symm
  have hv0 : 0 ≤ v := by
    refine le_of_forall_pos_lt_add fun ε hε => ?_
    set R'' : Arr ℝ := ⟨X'.coords.len, fun i => if i = p then ε else R'.get i⟩ with hR''
    have hd'' : OneDatumMore X.coords R y X'.coords R'' y' f p :=
      { hd with noise := fun i => (if_neg fun e => hd.out ⟨i, Fin.ext e⟩).trans (hd.noise i) }
    have pd'' : (obsGram κ X'.coords R'').PosDef := h'.gram_pd fun i hi => by
      show 0 < if i = p then ε else R'.get i
      split_ifs
      · exact hε
      · exact hR' i hi
    obtain ⟨f1, f2, f3, -⟩ := obsGram_oneMore hd'' κ
    have := hone.innovVar_pos pd''
    unfold innovVar at this
    rw [f1, f2, f3, show R''.get p = ε from if_pos rfl] at this
    rw [hv]
    unfold postVar at this ⊢
    linarith
  have hs : v + R'.get p ≠ 0 := (add_pos_of_nonneg_of_pos hv0 hRp).ne'
  refine ⟨m, v, rfl, rfl, hv0, ⟨_, _, C61_log_probability h hnew hy hR, C61_log_probability h' hnew' hy' hR', ?_⟩, fun lp' gpc' hcond' => ?_⟩
  · have := hone.logDensity pd' fun i => y'.get i
    rw [e1, e4, ev, em] at this
    rw [this]
    unfold normalLogDensity
    ring
  · obtain ⟨-, -, var', hvar', -, hmm⟩ := C61_condition h' hnew' hR' hcond'
    have key := hone.at_new hsym pd' fun i => y'.get i
    refine ⟨var', hvar', ?_, ?_⟩
    · rw [(hmm p p.2).1]
      refine key.1.trans ?_
      rw [show noisyGram (fun i j : Fin X'.coords.len => exposureCov κ (X'.coords.get i) (X'.coords.get j)) (fun i => R'.get i) =
        obsGram κ X'.coords R' from rfl, ev, em]
      field_simp
      ring
    · rw [(hmm p p.2).2]
      refine key.2.trans ?_
      rw [show noisyGram (fun i j : Fin X'.coords.len => exposureCov κ (X'.coords.get i) (X'.coords.get j)) (fun i => R'.get i) =
        obsGram κ X'.coords R' from rfl, ev]
      field_simp
      ring

/-- **C75, chain rule.** Predict the further measurement with the GP of the others: the log likelihood of all data is that of the others plus
the log density of the further measurement under the prediction, its noise included. -/
theorem C75_predictive_density {t t' : Arr ℝ} (h : Regression kernel (.times t) solver κ) (h' : Regression kernel' (.times t') solver' κ)
    (hnew : GP.new kernel (.times t) diag mean solver u = .ok gp) (hnew' : GP.new kernel' (.times t') diag' mean' solver' u' = .ok gp')
    (hR' : ∀ i < t'.len, 0 < (GP.noiseOf t'.len diag').get i) (hy : y.len = t.len) (hy' : y'.len = t'.len)
    {f : Fin t.len → Fin t'.len} {p : Fin t'.len}
    (hd : OneDatumMore (t.map .time) (GP.noiseOf t.len diag) y (t'.map .time) (GP.noiseOf t'.len diag') y' f p)
    (hcond : gp.condition y = .ok (lp, gpc)) {ts : Arr ℝ} {j : ℕ} (hj : j < ts.len) (hts : ts.get j = t'.get p) :
    ∃ l l' mu var, gp.logProbability y = .ok ((l : ℝ) : EReal) ∧ gp'.logProbability y' = .ok ((l' : ℝ) : EReal) ∧
      gpc.predict (some (.times ts)) = .ok (mu, var) ∧ 0 ≤ var.get j ∧
      l' - l = normalLogDensity (var.get j + (GP.noiseOf t'.len diag').get p) (y'.get p - mu.get j) := by
  obtain ⟨m, v, hm, hv, hv0, ⟨l, l', hl, hl', e⟩, -⟩ := oneMore_facts h h' hnew hnew' hR' hy hy' hd
  have hR : ∀ i < t.len, 0 < (GP.noiseOf t.len diag).get i := fun i hi => by
    have := hd.noise ⟨i, hi⟩
    rw [← this]
    exact hR' _ (f ⟨i, hi⟩).2
  obtain ⟨mu, var, hp, -, -, hmv⟩ := C61_predict h hnew hR hcond ts
  obtain ⟨h1, h2⟩ := hmv j hj
  have e0 : (XArg.times t').coords.get p = .time (ts.get j) := by rw [hts]; rfl
  rw [e0] at hm hv
  rw [exposureCov_times, sub_self, abs_zero] at hv
  rw [← hm] at h1
  rw [← hv] at h2
  exact ⟨l, l', mu, var, hl, hl', hp, h2 ▸ hv0, by rw [h1, h2]; exact e⟩

/-- **C75, Bayes' rule.** Conditioning with the further measurement moves the predicted mean towards it by the fraction `v / (v + R)` and
shrinks the variance `v` to `v R / (v + R)`. -/
theorem C75_update {t t' : Arr ℝ} (h : Regression kernel (.times t) solver κ) (h' : Regression kernel' (.times t') solver' κ)
    (hnew : GP.new kernel (.times t) diag mean solver u = .ok gp) (hnew' : GP.new kernel' (.times t') diag' mean' solver' u' = .ok gp')
    (hR' : ∀ i < t'.len, 0 < (GP.noiseOf t'.len diag').get i) (hy : y.len = t.len) (hy' : y'.len = t'.len)
    {f : Fin t.len → Fin t'.len} {p : Fin t'.len}
    (hd : OneDatumMore (t.map .time) (GP.noiseOf t.len diag) y (t'.map .time) (GP.noiseOf t'.len diag') y' f p)
    (hcond : gp.condition y = .ok (lp, gpc)) (hcond' : gp'.condition y' = .ok (lp', gpc'))
    {ts : Arr ℝ} {j : ℕ} (hj : j < ts.len) (hts : ts.get j = t'.get p) :
    ∃ mu var var', gpc.predict (some (.times ts)) = .ok (mu, var) ∧ gpc'.var = some var' ∧
      gpc'.mean.get p = mu.get j + var.get j / (var.get j + (GP.noiseOf t'.len diag').get p) * (y'.get p - mu.get j) ∧
      var'.get p = var.get j * (GP.noiseOf t'.len diag').get p / (var.get j + (GP.noiseOf t'.len diag').get p) := by
  obtain ⟨m, v, hm, hv, hv0, -, hc⟩ := oneMore_facts h h' hnew hnew' hR' hy hy' hd
  have hR : ∀ i < t.len, 0 < (GP.noiseOf t.len diag).get i := fun i hi => by
    have := hd.noise ⟨i, hi⟩
    rw [← this]
    exact hR' _ (f ⟨i, hi⟩).2
  obtain ⟨var', hvar', e1, e2⟩ := hc _ _ hcond'
  obtain ⟨mu, var, hp, -, -, hmv⟩ := C61_predict h hnew hR hcond ts
  obtain ⟨h1, h2⟩ := hmv j hj
  have e0 : (XArg.times t').coords.get p = .time (ts.get j) := by rw [hts]; rfl
  rw [e0] at hm hv
  rw [exposureCov_times, sub_self, abs_zero] at hv
  rw [← hm] at h1
  rw [← hv] at h2
  exact ⟨mu, var, var', hp, hvar', by rw [h1, h2]; exact e1, by rw [h2]; exact e2⟩

/-- **C75, leave-one-out.** For instantaneous and for exposure-averaged data: let `m` and `v` be the mean and variance which `condition` with all
data stores for one of the measurements, and `y`, `R` its value and noise variance. Then `v < R`, the posterior of that measurement's
noise-free value given the other data only has mean `(R m - v y) / (R - v)` and variance `R v / (R - v)`, and the measurement's share of the log
likelihood is the log density of a normal variable of variance `R² / (R - v)` at `R (y - m) / (R - v)`. -/
theorem C75_leave_one_out (h : Regression kernel X solver κ) (h' : Regression kernel' X' solver' κ)
    (hnew : GP.new kernel X diag mean solver u = .ok gp) (hnew' : GP.new kernel' X' diag' mean' solver' u' = .ok gp')
    (hR' : ∀ i < X'.coords.len, 0 < (GP.noiseOf X'.coords.len diag').get i) (hy : y.len = X.coords.len) (hy' : y'.len = X'.coords.len)
    {f : Fin X.coords.len → Fin X'.coords.len} {p : Fin X'.coords.len}
    (hd : OneDatumMore X.coords (GP.noiseOf X.coords.len diag) y X'.coords (GP.noiseOf X'.coords.len diag') y' f p)
    (hcond' : gp'.condition y' = .ok (lp', gpc')) :
    ∃ (l l' : ℝ) (var' : Arr ℝ), gp.logProbability y = .ok (l : EReal) ∧ gp'.logProbability y' = .ok (l' : EReal) ∧ gpc'.var = some var' ∧
      ∀ R m v, R = (GP.noiseOf X'.coords.len diag').get p → m = gpc'.mean.get p → v = var'.get p →
        v < R ∧
        postMean (obsGram κ X.coords (GP.noiseOf X.coords.len diag)) (fun i => y.get i) (obsCross κ (X'.coords.get p) X.coords) =
          (R * m - v * y'.get p) / (R - v) ∧
        postVar (obsGram κ X.coords (GP.noiseOf X.coords.len diag)) (exposureCov κ (X'.coords.get p) (X'.coords.get p))
          (obsCross κ (X'.coords.get p) X.coords) = R * v / (R - v) ∧
        l' - l = normalLogDensity (R ^ 2 / (R - v)) (R * (y'.get p - m) / (R - v)) := by
  obtain ⟨m0, v0, hm0, hv0, hv00, ⟨l, l', hl, hl', e⟩, hc⟩ := oneMore_facts h h' hnew hnew' hR' hy hy' hd
  obtain ⟨var', hvar', e1, e2⟩ := hc _ _ hcond'
  refine ⟨l, l', var', hl, hl', hvar', ?_⟩
  rintro R m v hR rfl rfl
  have hRp : 0 < R := hR ▸ hR' p p.2
  rw [← hR] at e e1 e2
  rw [← hm0, ← hv0, e, e1, e2]
  have hs : 0 < v0 + R := by linarith
  have hd1 : R - v0 * R / (v0 + R) = R ^ 2 / (v0 + R) := by
    field_simp
    ring
  have hpos : 0 < R ^ 2 / (v0 + R) := by positivity
  refine ⟨by linarith, ?_, ?_, ?_⟩
  · rw [hd1]
    field_simp
    ring
  · rw [hd1]
    field_simp
  · rw [hd1]
    congr 1
    · field_simp
    · field_simp
      ring

end

section examples

/-- times 0, 2 -/
def tOuter : Arr ℝ := ⟨2, fun n => ((2 * n : ℕ) : ℝ)⟩
/-- times 0, 1, 2 -/
def tAll : Arr ℝ := ⟨3, fun n => (n : ℝ)⟩

theorem outer_oneMore (y : Arr ℝ) : OneDatumMore (tOuter.map .time) (GP.noiseOf tOuter.len (some (.inl 1))) ⟨2, fun n => y.get (2 * n)⟩ (tAll.map .time)
    (GP.noiseOf tAll.len (some (.inl 1))) y (fun i => ⟨2 * i.val, by have h : i.val < 2 := i.2; show 2 * i.val < 3; omega⟩) ⟨1, by show 1 < 3; decide⟩ where
  len := rfl
  inj i j hij := by
    have := congrArg Fin.val hij
    exact Fin.ext (by simp only at this; omega)
  out := by
    rintro ⟨i, hi⟩
    have := congrArg Fin.val hi
    simp only at this
    omega
  coord _ := rfl
  noise _ := rfl
  value _ := rfl

/-- C75 applies: the second of three measurements is left out, and predicted from the others -/
example (y : Arr ℝ) (hy : y.len = 3) : ∃ gp lp gpc gp' lp' gpc' l l' mu var,
    GP.new (.exp 1 1 "a") (.times tOuter) (some (.inl 1)) none none false = .ok gp ∧
    gp.condition ⟨2, fun n => y.get (2 * n)⟩ = .ok (lp, gpc) ∧
    GP.new (.exp 1 1 "a") (.times tAll) (some (.inl 1)) none none false = .ok gp' ∧ gp'.condition y = .ok (lp', gpc') ∧
    gp.logProbability ⟨2, fun n => y.get (2 * n)⟩ = .ok ((l : ℝ) : EReal) ∧ gp'.logProbability y = .ok ((l' : ℝ) : EReal) ∧
    gpc.predict (some (.times ⟨1, fun _ => 1⟩)) = .ok (mu, var) ∧ l' - l = normalLogDensity (var.get 0 + 1) (y.get 1 - mu.get 0) := by
  obtain ⟨gp, lp, gpc, h, hc⟩ := exp_gp tOuter (by show (2 : ℕ) ≠ 1; decide) (some (.inl 1)) ⟨2, fun n => y.get (2 * n)⟩
  obtain ⟨gp', lp', gpc', h', hc'⟩ := exp_gp tAll (by show (3 : ℕ) ≠ 1; decide) (some (.inl 1)) y
  have hr := exp_regression (t := tOuter) (fun i j hij _ => by
    show ((2 * i : ℕ) : ℝ) ≤ ((2 * j : ℕ) : ℝ)
    exact_mod_cast Nat.mul_le_mul_left 2 hij) (by show 0 < 2; decide)
  have hr' := exp_regression (t := tAll) (fun i j hij _ => by
    show (i : ℝ) ≤ j
    exact_mod_cast hij) (by show 0 < 3; decide)
  obtain ⟨l, l', mu, var, hl, hl', hp, -, e⟩ := C75_predictive_density (y := ⟨2, fun n => y.get (2 * n)⟩) hr hr' h h' (fun _ _ => one_pos)
    rfl hy (outer_oneMore y) hc (ts := ⟨1, fun _ => 1⟩) (j := 0) (by show 0 < 1; decide) Nat.cast_one.symm
  exact ⟨gp, lp, gpc, gp', lp', gpc', l, l', mu, var, h, hc, h', hc', hl, hl', hp, e⟩

/-- the update and the leave-one-out formula for the same measurement -/
example (y : Arr ℝ) (hy : y.len = 3) : ∃ gp lp gpc gp' lp' gpc' mu var var',
    GP.new (.exp 1 1 "a") (.times tOuter) (some (.inl 1)) none none false = .ok gp ∧
    gp.condition ⟨2, fun n => y.get (2 * n)⟩ = .ok (lp, gpc) ∧
    GP.new (.exp 1 1 "a") (.times tAll) (some (.inl 1)) none none false = .ok gp' ∧ gp'.condition y = .ok (lp', gpc') ∧
    gpc.predict (some (.times ⟨1, fun _ => 1⟩)) = .ok (mu, var) ∧ gpc'.var = some var' ∧
    gpc'.mean.get 1 = mu.get 0 + var.get 0 / (var.get 0 + 1) * (y.get 1 - mu.get 0) ∧ var'.get 1 = var.get 0 * 1 / (var.get 0 + 1) ∧ var'.get 1 < 1 := by
  obtain ⟨gp, lp, gpc, h, hc⟩ := exp_gp tOuter (by show (2 : ℕ) ≠ 1; decide) (some (.inl 1)) ⟨2, fun n => y.get (2 * n)⟩
  obtain ⟨gp', lp', gpc', h', hc'⟩ := exp_gp tAll (by show (3 : ℕ) ≠ 1; decide) (some (.inl 1)) y
  have hr := exp_regression (t := tOuter) (fun i j hij _ => by
    show ((2 * i : ℕ) : ℝ) ≤ ((2 * j : ℕ) : ℝ)
    exact_mod_cast Nat.mul_le_mul_left 2 hij) (by show 0 < 2; decide)
  have hr' := exp_regression (t := tAll) (fun i j hij _ => by
    show (i : ℝ) ≤ j
    exact_mod_cast hij) (by show 0 < 3; decide)
  obtain ⟨mu, var, var', hp, hv, e1, e2⟩ := C75_update (y := ⟨2, fun n => y.get (2 * n)⟩) hr hr' h h' (fun _ _ => one_pos)
    rfl hy (outer_oneMore y) hc hc' (ts := ⟨1, fun _ => 1⟩) (j := 0) (by show 0 < 1; decide) Nat.cast_one.symm
  obtain ⟨l, l', var'', -, -, hv', key⟩ := C75_leave_one_out (y := ⟨2, fun n => y.get (2 * n)⟩) hr hr' h h' (fun _ _ => one_pos)
    rfl hy (outer_oneMore y) hc'
  obtain rfl : var' = var'' := Option.some.inj (hv.symm.trans hv')
  exact ⟨gp, lp, gpc, gp', lp', gpc', mu, var, var', h, hc, h', hc', hp, hv, e1, e2, (key _ _ _ rfl rfl rfl).1⟩

end examples
end Verif
