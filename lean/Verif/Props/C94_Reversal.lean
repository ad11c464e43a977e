import Verif.Props.C90_Averages
import Verif.Props.C75_OneMore
import Verif.Lemmas.BlockGauss

/-!
# C94: direction of time, order of the data and labels of the instruments

The code runs through the data forwards. Its results do not show it: data mirrored in time give mirrored results. Nor do the order in which exposures are
listed and the numbers of their instruments matter.
-/

namespace Verif
open Matrix Kern Spec

/-- the coordinate `c'` is `c` with its time moved by `b`, after a reflection if `s = -1`; instruments are not compared -/
structure Spec.MovedBy (s b : ℝ) (c c' : Coord) : Prop where
  time : c'.sortable = s * c.sortable + b
  delta : c'.delta = c.delta

section
variable {s b : ℝ} {c d c' d' : Coord} {κ : ℝ → ℝ}

theorem Spec.MovedBy.average (hs : s = 1 ∨ s = -1) (h : MovedBy s b c c') (f : ℝ → ℝ) : c'.average f = c.average fun x => f (s * x + b) := by
  rw [Coord.average_unit, Coord.average_unit]
  rcases hs with rfl | rfl
  · congr 1
    funext u
    congr 1
    unfold Coord.at
    rw [h.time, h.delta]
    ring
  · have e := intervalIntegral.integral_comp_sub_left (a := 0) (b := 1) (fun u => f (-1 * c.at u + b)) 1
    rw [sub_self, sub_zero] at e
    rw [← e]
    congr 1
    funext u
    congr 1
    unfold Coord.at
    rw [h.time, h.delta]
    ring

theorem Spec.MovedBy.cov (hs : s = 1 ∨ s = -1) (h : MovedBy s b c c') (h' : MovedBy s b d d') (κ : ℝ → ℝ) :
    exposureCov κ c' d' = exposureCov κ c d := by
  unfold Verif.exposureCov
  rw [h.average hs]
  congr 1
  funext x
  rw [h'.average hs]
  congr 1
  funext z
  congr 1
  have : s * x + b - (s * z + b) = s * (x - z) := by ring
  rw [this, abs_mul]
  rcases hs with rfl | rfl <;> simp

end

section
variable {kernel kernel' : Kern} {X X' : XArg} {solver solver' : Option SolverKind} {κ : ℝ → ℝ} {diag diag' : Option (ℝ ⊕ Arr ℝ)}
  {mean mean' : Option (Coord → ℝ)} {u u' : Bool} {gp gpc gp' gpc' : GP} {y y' : Arr ℝ} {lp lp' : EReal} {s b : ℝ}

/-- **C94.** List the data in another order, number the instruments anew, move the origin of time and, with `s = -1`, reverse its direction: the log likelihood
is the same, the conditioned means and variances are the same for each datum, and predictions are the same at the moved times. -/
theorem C94_symmetries (hs : s = 1 ∨ s = -1) (b : ℝ) (h : Regression kernel X solver κ) (h' : Regression kernel' X' solver' κ)
    (hnew : GP.new kernel X diag mean solver u = .ok gp) (hnew' : GP.new kernel' X' diag' mean' solver' u' = .ok gp')
    (hR : ∀ i < X.coords.len, 0 < (GP.noiseOf X.coords.len diag).get i) (hy : y.len = X.coords.len) (hyl : y'.len = X'.coords.len)
    (e : Fin X'.coords.len ≃ Fin X.coords.len) (heX : ∀ p, MovedBy s b (X.coords.get (e p)) (X'.coords.get p))
    (heR : ∀ p : Fin X'.coords.len, (GP.noiseOf X'.coords.len diag').get p = (GP.noiseOf X.coords.len diag).get (e p)) (hey : ∀ p : Fin X'.coords.len, y'.get p = y.get (e p)) :
    (∃ l : ℝ, gp.logProbability y = .ok (l : EReal) ∧ gp'.logProbability y' = .ok (l : EReal)) ∧
    ∀ lp lp' gpc gpc', gp.condition y = .ok (lp, gpc) → gp'.condition y' = .ok (lp', gpc') →
      (∀ p : Fin X'.coords.len, gpc'.mean.get p = gpc.mean.get (e p)) ∧
      (∃ v v', gpc.var = some v ∧ gpc'.var = some v' ∧ ∀ p : Fin X'.coords.len, v'.get p = v.get (e p)) ∧
      ∀ ts : Arr ℝ, ∃ m v m' v', gpc.predict (some (.times ts)) = .ok (m, v) ∧
        gpc'.predict (some (.times (ts.map fun t => s * t + b))) = .ok (m', v') ∧ ∀ j < ts.len, m'.get j = m.get j ∧ v'.get j = v.get j := by
  have hR' : ∀ i < X'.coords.len, 0 < (GP.noiseOf X'.coords.len diag').get i := fun i hi => by
    rw [heR ⟨i, hi⟩]
    exact hR _ (e ⟨i, hi⟩).2
  have eG : obsGram κ X'.coords (GP.noiseOf X'.coords.len diag') = (obsGram κ X.coords (GP.noiseOf X.coords.len diag)).submatrix e e := by
    ext p q
    simp only [obsGram, noisyGram, Matrix.submatrix_apply, Matrix.of_apply, (heX p).cov hs (heX q), e.injective.eq_iff, heR]
  have eC : ∀ c c', MovedBy s b c c' → obsCross κ c' X'.coords = obsCross κ c X.coords ∘ e := fun c c' hcc => by
    funext p
    exact hcc.cov hs (heX p) κ
  have eY : (fun p : Fin X'.coords.len => y'.get p) = (fun n : Fin X.coords.len => y.get n) ∘ e := funext hey
  refine ⟨⟨_, C61_log_probability h hnew hy hR, ?_⟩, fun lp lp' gpc gpc' hc hc' => ?_⟩
  · rw [C61_log_probability h' hnew' hyl hR', eG, eY]
    congr 2
    unfold gaussLogDensity
    rw [Matrix.det_submatrix_equiv_self, Fintype.card_congr e]
    have := postMean_relabel e (obsGram κ X.coords (GP.noiseOf X.coords.len diag)) (fun n => y.get n) fun n => y.get n
    unfold postMean at this
    rw [this]
  · obtain ⟨-, -, v, hv, -, hm⟩ := C61_condition h hnew hR hc
    obtain ⟨-, -, v', hv', -, hm'⟩ := C61_condition h' hnew' hR' hc'
    refine ⟨fun p => ?_, ⟨v, v', hv, hv', fun p => ?_⟩, fun ts => ?_⟩
    · rw [(hm' p p.2).1, (hm _ (e p).2).1, eG, eY, eC _ _ (heX p)]
      exact postMean_relabel e _ _ _
    · rw [(hm' p p.2).2, (hm _ (e p).2).2, eG, eC _ _ (heX p), (heX p).cov hs (heX p)]
      exact postVar_relabel e _ _ _
    · obtain ⟨m, w, hp, -, -, hmw⟩ := C61_predict h hnew hR hc ts
      obtain ⟨m', w', hp', -, -, hmw'⟩ := C61_predict h' hnew' hR' hc' (ts.map fun t => s * t + b)
      refine ⟨m, w, m', w', hp, hp', fun j hj => ?_⟩
      have hmv : MovedBy s b (.time (ts.get j)) (.time ((ts.map fun t => s * t + b).get j)) := ⟨rfl, rfl⟩
      rw [(hmw j hj).1, (hmw j hj).2, (hmw' j hj).1, (hmw' j hj).2, eG, eY, eC _ _ hmv]
      exact ⟨postMean_relabel e _ _ _, postVar_relabel e _ _ _⟩

/-- **C94, reversal.** With instantaneous data: reverse the list of times and change their signs, and reverse the lists of values and noise. -/
theorem C94_reversal {t r y : Arr ℝ} (h : Regression kernel (.times t) solver κ)
    (h' : Regression kernel (.times ⟨t.len, fun i => -t.get (t.len - 1 - i)⟩) solver κ)
    (hnew : GP.new kernel (.times t) (some (.inr r)) mean solver u = .ok gp)
    (hnew' : GP.new kernel (.times ⟨t.len, fun i => -t.get (t.len - 1 - i)⟩) (some (.inr ⟨r.len, fun i => r.get (t.len - 1 - i)⟩)) mean' solver u' = .ok gp')
    (hR : ∀ i < t.len, 0 < r.get i) (hy : y.len = t.len) :
    (∃ l : ℝ, gp.logProbability y = .ok (l : EReal) ∧ gp'.logProbability ⟨t.len, fun i => y.get (t.len - 1 - i)⟩ = .ok (l : EReal)) ∧
    ∀ lp lp' gpc gpc', gp.condition y = .ok (lp, gpc) → gp'.condition ⟨t.len, fun i => y.get (t.len - 1 - i)⟩ = .ok (lp', gpc') →
      (∀ i < t.len, gpc'.mean.get i = gpc.mean.get (t.len - 1 - i)) ∧
      ∀ ts : Arr ℝ, ∃ m v m' v', gpc.predict (some (.times ts)) = .ok (m, v) ∧
        gpc'.predict (some (.times (ts.map fun t => -t))) = .ok (m', v') ∧ ∀ j < ts.len, m'.get j = m.get j ∧ v'.get j = v.get j := by
  have hrev : ∀ p : Fin t.len, ((Fin.revPerm p : Fin t.len) : ℕ) = t.len - 1 - p := fun p => by
    rw [Fin.revPerm_apply, Fin.val_rev]
    omega
  have htime : ∀ p : Fin t.len, -t.get (t.len - 1 - p) = -1 * t.get (Fin.revPerm p : Fin t.len) + 0 := fun p => by
    rw [hrev]
    ring
  obtain ⟨h1, h2⟩ := C94_symmetries (s := -1) (.inr rfl) 0 h h' hnew hnew' hR hy (y' := ⟨t.len, fun i => y.get (t.len - 1 - i)⟩) rfl
    (Fin.revPerm (n := t.len)) (fun p => ⟨htime p, rfl⟩) (fun p => (congrArg r.get (hrev p)).symm) fun p => (congrArg y.get (hrev p)).symm
  refine ⟨h1, fun lp lp' gpc gpc' hc hc' => ?_⟩
  obtain ⟨h3, -, h4⟩ := h2 lp lp' gpc gpc' hc hc'
  refine ⟨fun i hi => ?_, fun ts => ?_⟩
  · exact (h3 ⟨i, hi⟩).trans (congrArg gpc.mean.get (hrev ⟨i, hi⟩))
  · have e : (ts.map fun t => -1 * t + 0) = ts.map fun t => -t := by
      congr 1
      funext t
      ring
    rw [← e]
    exact h4 ts

end

/-- C94 applies: three data, mirrored -/
example (y : Arr ℝ) (hy : y.len = 3) : ∃ gp gp' l,
    GP.new (.exp 1 1 "a") (.times tAll) (some (.inr ⟨3, fun n => (n : ℝ) + 1⟩)) none none false = .ok gp ∧
    GP.new (.exp 1 1 "a") (.times ⟨3, fun i => -tAll.get (2 - i)⟩) (some (.inr ⟨3, fun n => ((2 - n : ℕ) : ℝ) + 1⟩)) none none false = .ok gp' ∧
    gp.logProbability y = .ok ((l : ℝ) : EReal) ∧ gp'.logProbability ⟨3, fun i => y.get (2 - i)⟩ = .ok (l : EReal) := by
  obtain ⟨gp, -, -, h, -⟩ := exp_gp tAll (by show (3 : ℕ) ≠ 1; decide) (some (.inr ⟨3, fun n => (n : ℝ) + 1⟩)) y
  obtain ⟨gp', -, -, h', -⟩ := exp_gp ⟨3, fun i => -tAll.get (2 - i)⟩ (by show (3 : ℕ) ≠ 1; decide) (some (.inr ⟨3, fun n => ((2 - n : ℕ) : ℝ) + 1⟩)) y
  obtain ⟨⟨l, hl, hl'⟩, -⟩ := C94_reversal (t := tAll) (exp_regression (fun i j hij _ => by
      show (i : ℝ) ≤ j
      exact_mod_cast hij) (by show 0 < 3; decide)) (exp_regression (fun i j hij _ => by
      show -((2 - i : ℕ) : ℝ) ≤ -((2 - j : ℕ) : ℝ)
      have : ((2 - j : ℕ) : ℝ) ≤ ((2 - i : ℕ) : ℝ) := by exact_mod_cast Nat.sub_le_sub_left hij 2
      linarith) (by show 0 < 3; decide)) h h' (fun i _ => by show (0 : ℝ) < (i : ℝ) + 1; positivity) hy
  exact ⟨gp, gp', l, h, h', hl, hl'⟩

/-- the two exposures of `short_regression`, listed in the other order -/
theorem swapped_regression : Regression (.integratedMatern32 2 1 0 "a") (.triple ⟨2, fun n => if n = 0 then 1 else 0⟩ (dShort 1) ⟨2, fun _ => 0⟩) none
    (covMatern32 2 1) := by
  refine .integrated (m := 0) (.matern32 two_pos one_ne_zero le_rfl) (.inl rfl) ⟨fun i _ => (dShort_pos 1 i).le, fun i _ => ⟨le_rfl, le_rfl⟩,
    fun i hi j hj hij _ => ?_⟩ ⟨fun i _ => dShort_pos 1 i, fun i hi j hj hij => ?_⟩ (by show 0 < 2; decide)
  · have hi' : i < 2 := hi
    have hj' : j < 2 := hj
    show (if i = 0 then (1 : ℝ) else 0) + 1 / (((1 : ℕ) : ℝ) + 1) / 2 ≤ (if j = 0 then 1 else 0) - 1 / (((1 : ℕ) : ℝ) + 1) / 2 ∨
      (if j = 0 then (1 : ℝ) else 0) + 1 / (((1 : ℕ) : ℝ) + 1) / 2 ≤ (if i = 0 then 1 else 0) - 1 / (((1 : ℕ) : ℝ) + 1) / 2
    interval_cases i <;> interval_cases j
    · exact absurd rfl hij
    · right; norm_num
    · left; norm_num
    · exact absurd rfl hij
  · have hi' : i < 2 := hi
    have hj' : j < 2 := hj
    show (if i = 0 then (1 : ℝ) else 0) - 1 / (((1 : ℕ) : ℝ) + 1) / 2 ≠ (if j = 0 then 1 else 0) - 1 / (((1 : ℕ) : ℝ) + 1) / 2
    interval_cases i <;> interval_cases j
    · exact absurd rfl hij
    · norm_num
    · norm_num
    · exact absurd rfl hij

/-- C94 applies: two exposures may be listed in either order -/
example (a b : ℝ) : ∃ gp gp' l,
    GP.new (.integratedMatern32 2 1 0 "a") (.triple tPair (dShort 1) ⟨2, fun _ => 0⟩) (some (.inl 1)) none none false = .ok gp ∧
    GP.new (.integratedMatern32 2 1 0 "a") (.triple ⟨2, fun n => if n = 0 then 1 else 0⟩ (dShort 1) ⟨2, fun _ => 0⟩) (some (.inl 1)) none none false = .ok gp' ∧
    gp.logProbability ⟨2, fun n => if n = 0 then a else b⟩ = .ok ((l : ℝ) : EReal) ∧
    gp'.logProbability ⟨2, fun n => if n = 0 then b else a⟩ = .ok (l : EReal) := by
  have hk : (Kern.integratedMatern32 2 1 0 "a").Integrates False 0 (covMatern32 2 1) := .matern32 two_pos one_ne_zero le_rfl
  obtain ⟨gp, h⟩ := (C45_integrated_constructor (t := tPair) (d := dShort 1) (inst := ⟨2, fun _ => 0⟩) hk (.inl rfl) (some (.inl 1)) none).1
  obtain ⟨gp', h'⟩ := (C45_integrated_constructor (t := ⟨2, fun n => if n = 0 then 1 else 0⟩) (d := dShort 1) (inst := ⟨2, fun _ => 0⟩) hk (.inl rfl)
    (some (.inl 1)) none).1
  have hsw : ∀ (x z : ℝ) (p : Fin 2), (if (p : ℕ) = 0 then z else x) = if ((Equiv.swap (0 : Fin 2) 1 p : Fin 2) : ℕ) = 0 then x else z := fun x z p => by
    fin_cases p <;> simp
  obtain ⟨⟨l, hl, hl'⟩, -⟩ := C94_symmetries (s := 1) (.inl rfl) 0 (short_regression 1) swapped_regression h h' (fun _ _ => one_pos)
    (y := ⟨2, fun n => if n = 0 then a else b⟩) (y' := ⟨2, fun n => if n = 0 then b else a⟩) rfl rfl (Equiv.swap (0 : Fin 2) (1 : Fin 2) : Fin 2 ≃ Fin 2)
    (fun p => ⟨by
      refine (hsw 0 1 p).trans ?_
      rw [one_mul, add_zero]
      rfl, rfl⟩) (fun _ => rfl) (hsw a b)
  exact ⟨gp, gp', l, h, h', hl, hl'⟩

end Verif
