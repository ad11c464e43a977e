import Verif.Props.C69_Limits
import Verif.Props.C75_OneMore
import Verif.Lemmas.BlockGauss
import Verif.Props.C15_InputOrder

/-!
# C84, C85: short and long time scales; data far apart

As the time scales of a kernel shrink to zero, its results tend to those for independent data; as they grow beyond the span of the data, to those for a
constant. Two sets of data, moved apart, cease to influence each other.
-/

namespace Verif
open Matrix Kern Spec Filter Topology

/-- exact regression with all time scales of the kernel multiplied by `a` -/
theorem Regression.stretch {kernel : Kern} {X : XArg} {solver : Option SolverKind} {κ : ℝ → ℝ} (h : Regression kernel X solver κ) {a : ℝ} (ha : 0 < a) :
    Regression (kernel.inUnits a 1) X solver fun r => κ (r / a) := by
  have e : (fun r => κ (r / a)) = fun r => (1 : ℝ) ^ 2 * κ (r / a) := by funext r; ring
  rw [e]
  cases h with
  | sequential hv hκ hsol ht hN => exact .sequential (hv.inUnits ha one_ne_zero) (hv.hasCov_inUnits ha one_ne_zero hκ) hsol ht hN
  | parallel hv hκ hexp ht hN =>
    exact .parallel (hv.inUnits ha one_ne_zero) (hv.hasCov_inUnits ha one_ne_zero hκ) (fun h => hexp (kernel.uses_inUnits h)) ht hN
  | integrated hk hsol hX hd hN =>
    refine .integrated (hk.inUnits ha one_ne_zero) ?_ hX hd hN
    rcases hsol with h | h | ⟨h, hp⟩
    · exact .inl h
    · exact .inr (.inl h)
    · exact .inr (.inr ⟨h, fun h => hp.noExp (kernel.uses_inUnits h), hp.nonempty, hp.pos⟩)

/-! ### General statement: pointwise limits of the covariances -/

section
variable {α : Type*} {F : Filter α} {X : XArg} {κ : α → ℝ → ℝ} {k : α → Kern} {s : α → Option SolverKind} {diag : Option (ℝ ⊕ Arr ℝ)}
  {mean : α → Option (Coord → ℝ)} {u : α → Bool} {gp gpc : α → GP} {y : Arr ℝ} {lp : α → EReal}

theorem limit_log_probability (h : ∀ n, Regression (k n) X (s n) (κ n)) (hnew : ∀ n, GP.new (k n) X diag (mean n) (s n) (u n) = .ok (gp n))
    (hR : ∀ i < X.coords.len, 0 < (GP.noiseOf X.coords.len diag).get i) (hy : y.len = X.coords.len)
    {b : Fin X.coords.len → Fin X.coords.len → ℝ} (hb : (noisyGram b fun i => (GP.noiseOf X.coords.len diag).get i).PosDef)
    (hlim : ∀ i j : Fin X.coords.len, Tendsto (fun n => exposureCov (κ n) (X.coords.get i) (X.coords.get j)) F (𝓝 (b i j))) :
    ∃ l : α → ℝ, (∀ n, (gp n).logProbability y = .ok (l n : EReal)) ∧
      Tendsto l F (𝓝 (gaussLogDensity (noisyGram b fun i => (GP.noiseOf X.coords.len diag).get i) fun i => y.get i)) :=
  ⟨_, fun n => C61_log_probability (h n) (hnew n) hy hR,
    tendsto_logDensity (tendsto_pi_nhds.2 fun i => tendsto_pi_nhds.2 fun j => (hlim i j).add tendsto_const_nhds) hb tendsto_const_nhds⟩

theorem limit_predict (h : ∀ n, Regression (k n) X (s n) (κ n)) (hnew : ∀ n, GP.new (k n) X diag (mean n) (s n) (u n) = .ok (gp n))
    (hR : ∀ i < X.coords.len, 0 < (GP.noiseOf X.coords.len diag).get i) (hcond : ∀ n, (gp n).condition y = .ok (lp n, gpc n))
    {b : Fin X.coords.len → Fin X.coords.len → ℝ} (hb : (noisyGram b fun i => (GP.noiseOf X.coords.len diag).get i).PosDef)
    (hlim : ∀ i j : Fin X.coords.len, Tendsto (fun n => exposureCov (κ n) (X.coords.get i) (X.coords.get j)) F (𝓝 (b i j))) (ts : Arr ℝ) :
    ∃ m v : α → Arr ℝ, (∀ n, (gpc n).predict (some (.times ts)) = .ok (m n, v n)) ∧
      ∀ (p : ℝ) (c : Fin X.coords.len → ℝ), Tendsto (fun n => κ n 0) F (𝓝 p) → ∀ i < ts.len,
        (∀ j : Fin X.coords.len, Tendsto (fun n => exposureCov (κ n) (.time (ts.get i)) (X.coords.get j)) F (𝓝 (c j))) →
        Tendsto (fun n => (m n).get i) F (𝓝 (postMean (noisyGram b fun i => (GP.noiseOf X.coords.len diag).get i) (fun j => y.get j) c)) ∧
        Tendsto (fun n => (v n).get i) F (𝓝 (postVar (noisyGram b fun i => (GP.noiseOf X.coords.len diag).get i) p c)) := by
  choose m v hp _ _ hm using fun n => C61_predict (h n) (hnew n) hR (hcond n) ts
  refine ⟨m, v, hp, fun p c hpl i hi hc => ?_⟩
  have hK : Tendsto (fun n => obsGram (κ n) X.coords (GP.noiseOf X.coords.len diag)) F (𝓝 (noisyGram b fun i => (GP.noiseOf X.coords.len diag).get i)) :=
    tendsto_pi_nhds.2 fun i => tendsto_pi_nhds.2 fun j => (hlim i j).add tendsto_const_nhds
  have hc' : Tendsto (fun n => obsCross (κ n) (.time (ts.get i)) X.coords) F (𝓝 c) := tendsto_pi_nhds.2 hc
  have hinv := tendsto_inv hK hb.det_pos.ne'
  have e1 : ∀ n, (m n).get i = _ := fun n => (hm n i hi).1
  have e2 : ∀ n, (v n).get i = _ := fun n => (hm n i hi).2
  simp only [e1, e2]
  exact ⟨tendsto_quad hinv hc' tendsto_const_nhds, hpl.sub (tendsto_quad hinv hc' hc')⟩

end

/-! ### C84 -/

section
variable {α : Type*} {F : Filter α} {kernel : Kern} {X : XArg} {t : Arr ℝ} {solver : Option SolverKind} {κ : ℝ → ℝ} {diag : Option (ℝ ⊕ Arr ℝ)}
  {mean : Option (Coord → ℝ)} {u : Bool} {a : α → ℝ} {gp gpc : α → GP} {y : Arr ℝ} {lp : α → EReal}

theorem Regression.variance_nonneg (h : Regression kernel X solver κ) : 0 ≤ κ 0 := by
  have := h.psd.quad (ι := Fin 1) ![0] ![1]
  simpa using this

theorem short_cov (h0 : Tendsto κ atTop (𝓝 0)) (ha : ∀ n, 0 < a n) (hlim : Tendsto a F (𝓝 0)) (s x : ℝ) :
    Tendsto (fun n => exposureCov (fun r => κ (r / a n)) (.time s) (.time x)) F (𝓝 (if s = x then κ 0 else 0)) := by
  simp only [exposureCov_times]
  split_ifs with hsx
  · simp only [hsx, sub_self, abs_zero, zero_div]
    exact tendsto_const_nhds
  · refine h0.comp ?_
    have hpos : 0 < |s - x| := abs_pos.2 (sub_ne_zero.2 hsx)
    have : Tendsto (fun n => (a n)⁻¹) F atTop :=
      tendsto_inv_nhdsGT_zero.comp (tendsto_nhdsWithin_iff.2 ⟨hlim, Eventually.of_forall ha⟩)
    simpa [div_eq_mul_inv] using this.const_mul_atTop hpos

theorem diagonal_gram (p : ℝ) (R : Fin X.coords.len → ℝ) :
    noisyGram (fun i j : Fin X.coords.len => if i = j then p else 0) R = Matrix.diagonal fun i => p + R i := by
  ext i j
  by_cases hij : i = j <;> simp [noisyGram, hij]

theorem diagonal_inv {N : ℕ} {d : Fin N → ℝ} (h : ∀ i, d i ≠ 0) : (Matrix.diagonal d)⁻¹ = Matrix.diagonal fun i => (d i)⁻¹ := by
  refine Matrix.inv_eq_right_inv ?_
  rw [Matrix.diagonal_mul_diagonal, ← Matrix.diagonal_one]
  congr 1
  funext i
  exact mul_inv_cancel₀ (h i)

/-- independent data: the log densities add -/
theorem gaussLogDensity_diagonal {N : ℕ} {d : Fin N → ℝ} (h : ∀ i, 0 < d i) (y : Fin N → ℝ) :
    gaussLogDensity (Matrix.diagonal d) y = ∑ i, normalLogDensity (d i) (y i) := by
  unfold gaussLogDensity
  rw [diagonal_inv fun i => (h i).ne', Matrix.det_diagonal, Real.log_prod fun i _ => (h i).ne']
  have : ∀ i, normalLogDensity (d i) (y i) = -(1 / 2) * (y i * ((d i)⁻¹ * y i)) - 1 / 2 * Real.log (d i) - 1 / 2 * Real.log (2 * Real.pi) := fun i => by
    rw [normalLogDensity_eq (h i), Real.log_mul (by positivity) (h i).ne']
    ring
  simp only [this, Finset.sum_sub_distrib, dotProduct, mulVec_diagonal, Finset.mul_sum, Finset.sum_const, Finset.card_univ, nsmul_eq_mul]
  ring

/-- **C84, short time scales.** Instantaneous measurements at different times, with a kernel that loses its memory: as all its time scales shrink to zero,
the log likelihood tends to that of independent data, predictions between the data tend to the prior, and predictions at the time of a datum
to the combination of the prior with that datum alone. -/
theorem C84_short_scales (h : Regression kernel (.times t) solver κ) (h0 : Tendsto κ atTop (𝓝 0)) (ha : ∀ n, 0 < a n) (hlim : Tendsto a F (𝓝 0))
    (hnew : ∀ n, GP.new (kernel.inUnits (a n) 1) (.times t) diag mean solver u = .ok (gp n)) (hR : ∀ i < t.len, 0 < (GP.noiseOf t.len diag).get i)
    (hne : ∀ i < t.len, ∀ j < t.len, i ≠ j → t.get i ≠ t.get j) (hy : y.len = t.len) :
    (∃ l : α → ℝ, (∀ n, (gp n).logProbability y = .ok (l n : EReal)) ∧
      Tendsto l F (𝓝 (∑ i : Fin t.len, normalLogDensity (κ 0 + (GP.noiseOf t.len diag).get i) (y.get i)))) ∧
    ((∀ n, (gp n).condition y = .ok (lp n, gpc n)) → ∀ ts : Arr ℝ, ∃ m v : α → Arr ℝ, (∀ n, (gpc n).predict (some (.times ts)) = .ok (m n, v n)) ∧
      ∀ i < ts.len,
        ((∀ j < t.len, ts.get i ≠ t.get j) → Tendsto (fun n => (m n).get i) F (𝓝 0) ∧ Tendsto (fun n => (v n).get i) F (𝓝 (κ 0))) ∧
        ∀ j < t.len, ts.get i = t.get j →
          Tendsto (fun n => (m n).get i) F (𝓝 (κ 0 / (κ 0 + (GP.noiseOf t.len diag).get j) * y.get j)) ∧
          Tendsto (fun n => (v n).get i) F (𝓝 (κ 0 * (GP.noiseOf t.len diag).get j / (κ 0 + (GP.noiseOf t.len diag).get j)))) := by
  set R := GP.noiseOf t.len diag with hRdef
  have hk0 := h.variance_nonneg
  have hd : ∀ i : Fin t.len, 0 < κ 0 + R.get i := fun i => add_pos_of_nonneg_of_pos hk0 (hR i i.2)
  have hK : noisyGram (fun i j : Fin t.len => if i = j then κ 0 else 0) (fun i => R.get i) = Matrix.diagonal fun i : Fin t.len => κ 0 + R.get i :=
    diagonal_gram (X := .times t) _ _
  have hpd : (noisyGram (fun i j : Fin t.len => if i = j then κ 0 else 0) fun i => R.get i).PosDef := by
    rw [hK]
    exact Matrix.PosDef.diagonal hd
  have hcov : ∀ i j : Fin t.len, Tendsto (fun n => exposureCov (fun r => κ (r / a n)) (.time (t.get i)) (.time (t.get j))) F
      (𝓝 (if i = j then κ 0 else 0)) := fun i j => by
    have := short_cov h0 ha hlim (t.get i) (t.get j)
    by_cases hij : i = j
    · subst hij
      simpa using this
    · rwa [if_neg (hne i i.2 j j.2 fun e => hij (Fin.ext e)), ← if_neg (c := i = j) (t := κ 0) (e := (0 : ℝ)) hij] at this
  have hreg : ∀ n, Regression (kernel.inUnits (a n) 1) (.times t) solver fun r => κ (r / a n) := fun n => h.stretch (ha n)
  constructor
  · obtain ⟨l, hl, hlim'⟩ := limit_log_probability (F := F) hreg hnew hR hy hpd hcov
    refine ⟨l, hl, ?_⟩
    convert hlim' using 2
    show _ = gaussLogDensity (noisyGram (fun i j : Fin t.len => if i = j then κ 0 else 0) fun i => R.get i) _
    rw [hK]
    exact (gaussLogDensity_diagonal hd fun i => y.get i).symm
  · intro hcond ts
    obtain ⟨m, v, hp, hm⟩ := limit_predict (F := F) hreg hnew hR hcond hpd hcov ts
    refine ⟨m, v, hp, fun i hi => ⟨fun hn => ?_, fun j hj hij => ?_⟩⟩
    · have := hm (κ 0) 0 (by simp only [zero_div]; exact tendsto_const_nhds) i hi fun j => by
        have := short_cov h0 ha hlim (ts.get i) (t.get j)
        rw [if_neg (hn j j.2)] at this
        exact this
      simpa [postMean, postVar] using this
    · have := hm (κ 0) (Pi.single ⟨j, hj⟩ (κ 0)) (by simp only [zero_div]; exact tendsto_const_nhds) i hi fun j' => by
        have := short_cov h0 ha hlim (ts.get i) (t.get j')
        by_cases hjj : j' = ⟨j, hj⟩
        · subst hjj
          rw [if_pos hij] at this
          rw [Pi.single_eq_same]
          exact this
        · have hne' : ts.get i ≠ t.get j' := by
            rw [hij]
            exact hne j hj j' j'.2 fun e => hjj (Fin.ext e.symm)
          rw [if_neg hne'] at this
          rw [Pi.single_eq_of_ne hjj]
          exact this
      have e : (noisyGram (fun i j : Fin t.len => if i = j then κ 0 else 0) fun i => R.get i)⁻¹ = Matrix.diagonal fun i : Fin t.len => (κ 0 + R.get i)⁻¹ := by
        rw [hK, diagonal_inv fun i => (hd i).ne']
      have hdj := (hd ⟨j, hj⟩).ne'
      have e1 : postMean (noisyGram (fun i j : Fin t.len => if i = j then κ 0 else 0) fun i => R.get i) (fun j => y.get j) (Pi.single ⟨j, hj⟩ (κ 0)) =
          κ 0 / (κ 0 + R.get j) * y.get j := by
        unfold postMean
        rw [e, single_dotProduct, mulVec_diagonal]
        ring
      have e2 : postVar (noisyGram (fun i j : Fin t.len => if i = j then κ 0 else 0) fun i => R.get i) (κ 0) (Pi.single ⟨j, hj⟩ (κ 0)) =
          κ 0 * R.get j / (κ 0 + R.get j) := by
        unfold postVar
        rw [e, single_dotProduct, mulVec_diagonal, Pi.single_eq_same]
        field_simp
        ring
      rw [← e1, ← e2]
      exact this

theorem long_cov (hc : Continuous fun u => κ |u|) (ha : ∀ n, 0 < a n) (hlim : Tendsto a F atTop) (c d : Coord) :
    Tendsto (fun n => exposureCov (fun r => κ (r / a n)) c d) F (𝓝 (κ 0)) := by
  have hinv : Tendsto (fun n => (a n)⁻¹) F (𝓝 0) := tendsto_inv_atTop_zero.comp hlim
  have e : ∀ n, exposureCov (fun r => κ (r / a n)) c d = exposureCov κ (c.inUnits (a n)⁻¹ 0) (d.inUnits (a n)⁻¹ 0) := fun n => by
    have h1 := exposureCov_inUnits (c := 1) (b := 0) (ha n) κ (c.inUnits (a n)⁻¹ 0) (d.inUnits (a n)⁻¹ 0)
    have h2 : ∀ c : Coord, (c.inUnits (a n)⁻¹ 0).inUnits (a n) 0 = c := fun c => by
      cases c <;> simp [Coord.inUnits, mul_inv_cancel_left₀ (ha n).ne']
    rw [h2, h2, one_pow, one_mul] at h1
    rw [← h1]
    congr 1
    funext r
    ring
  simp only [e]
  have hs : ∀ c : Coord, Tendsto (fun n => (c.inUnits (a n)⁻¹ 0).sortable) F (𝓝 0) := fun c => by
    cases c with
    | time x => simpa [Coord.inUnits, Coord.sortable] using hinv.mul_const x
    | exposure x w i => simpa [Coord.inUnits, Coord.sortable] using hinv.mul_const x
  have hdl : ∀ c : Coord, Tendsto (fun n => (c.inUnits (a n)⁻¹ 0).delta) F (𝓝 0) := fun c => by
    cases c with
    | time x => exact tendsto_const_nhds
    | exposure x w i => simpa [Coord.inUnits, Coord.delta] using hinv.mul_const w
  have := exposureCov_tendsto (X0 := .time 0) (Y0 := .time 0) hc (hs c) (hdl c) (hs d) (hdl d)
  rwa [exposureCov_times, sub_self, abs_zero] at this

/-- **C84, long time scales.** As all time scales of the kernel grow, the log likelihood tends to that for a constant whose prior variance is the
variance of the process, and at every time the prediction tends to that of the constant: the average of the data weighted by their noise, shrunk
by the prior. -/
theorem C84_long_scales (h : Regression kernel X solver κ) (ha : ∀ n, 0 < a n) (hlim : Tendsto a F atTop)
    (hnew : ∀ n, GP.new (kernel.inUnits (a n) 1) X diag mean solver u = .ok (gp n)) (hR : ∀ i < X.coords.len, 0 < (GP.noiseOf X.coords.len diag).get i)
    (hy : y.len = X.coords.len) :
    (∃ l : α → ℝ, (∀ n, (gp n).logProbability y = .ok (l n : EReal)) ∧
      Tendsto l F (𝓝 (gaussLogDensity (noisyGram (fun _ _ => κ 0) fun i : Fin X.coords.len => (GP.noiseOf X.coords.len diag).get i) fun i => y.get i))) ∧
    ((∀ n, (gp n).condition y = .ok (lp n, gpc n)) → ∀ ts : Arr ℝ, ∃ m v : α → Arr ℝ, (∀ n, (gpc n).predict (some (.times ts)) = .ok (m n, v n)) ∧
      ∀ i < ts.len,
        Tendsto (fun n => (m n).get i) F (𝓝 (κ 0 * (∑ j : Fin X.coords.len, y.get j / (GP.noiseOf X.coords.len diag).get j) /
          (1 + κ 0 * ∑ j : Fin X.coords.len, 1 / (GP.noiseOf X.coords.len diag).get j))) ∧
        Tendsto (fun n => (v n).get i) F (𝓝 (κ 0 / (1 + κ 0 * ∑ j : Fin X.coords.len, 1 / (GP.noiseOf X.coords.len diag).get j)))) := by
  set R := GP.noiseOf X.coords.len diag with hRdef
  have hk0 := h.variance_nonneg
  have hpd : (noisyGram (fun _ _ => κ 0) fun i : Fin X.coords.len => R.get i).PosDef := constGram_pd hk0 fun i => hR i i.2
  have hreg : ∀ n, Regression (kernel.inUnits (a n) 1) X solver fun r => κ (r / a n) := fun n => h.stretch (ha n)
  refine ⟨limit_log_probability (F := F) hreg hnew hR hy hpd fun i j => long_cov h.continuous ha hlim _ _, fun hcond ts => ?_⟩
  obtain ⟨m, v, hp, hm⟩ := limit_predict (F := F) hreg hnew hR hcond hpd (fun i j => long_cov h.continuous ha hlim _ _) ts
  refine ⟨m, v, hp, fun i hi => ?_⟩
  have := hm (κ 0) (fun _ => κ 0) (by simp only [zero_div]; exact tendsto_const_nhds) i hi fun j => long_cov h.continuous ha hlim _ _
  rw [constGram_postMean hk0 fun i : Fin X.coords.len => hR i i.2, constGram_postVar hk0 fun i : Fin X.coords.len => hR i i.2] at this
  exact this

end

/-! ### C85 -/

/-- the coordinate `D` later -/
def Spec.later (D : ℝ) : Coord → Coord
  | .time t => .time (t + D)
  | .exposure t d i => .exposure (t + D) d i

/-- The data `X`, `R`, `y` are the data `XA`, `RA`, `yA` followed by `XB`, `RB`, `yB` taken `D` later. -/
structure Spec.Joined (D : ℝ) (XA : Arr Coord) (RA yA : Arr ℝ) (XB : Arr Coord) (RB yB : Arr ℝ) (X : Arr Coord) (R y : Arr ℝ) : Prop where
  len : X.len = XA.len + XB.len
  first : ∀ i < XA.len, X.get i = XA.get i ∧ R.get i = RA.get i ∧ y.get i = yA.get i
  second : ∀ i < XB.len, X.get (XA.len + i) = later D (XB.get i) ∧ R.get (XA.len + i) = RB.get i ∧ y.get (XA.len + i) = yB.get i

theorem later_at (D : ℝ) (c : Coord) (v : ℝ) : (later D c).at v = c.at v + D := by
  cases c <;> simp only [later, Coord.at, Coord.sortable, Coord.delta] <;> ring

theorem exposureCov_later (κ : ℝ → ℝ) (D : ℝ) (c d : Coord) : exposureCov κ (later D c) (later D d) = exposureCov κ c d := by
  rw [exposureCov_unit, exposureCov_unit]
  simp only [later_at, add_sub_add_right_eq_sub]

theorem exposureCov_far {κ : ℝ → ℝ} (h0 : Tendsto κ atTop (𝓝 0)) {α : Type*} {F : Filter α} {D : α → ℝ} (hD : Tendsto D F atTop) (c d : Coord) :
    Tendsto (fun n => exposureCov κ c (later (D n) d)) F (𝓝 0) := by
  rw [Metric.tendsto_nhds]
  intro ε hε
  obtain ⟨M, hM⟩ := eventually_atTop.1 (Metric.tendsto_nhds.1 h0 (ε / 2) (by linarith))
  obtain ⟨C, hC⟩ := (isCompact_Icc (a := (0 : ℝ)) (b := 1)).exists_bound_of_continuousOn c.at_continuous.continuousOn
  obtain ⟨C', hC'⟩ := (isCompact_Icc (a := (0 : ℝ)) (b := 1)).exists_bound_of_continuousOn d.at_continuous.continuousOn
  filter_upwards [hD.eventually_ge_atTop (M + C + C')] with n hn
  rw [dist_zero_right, exposureCov_unit]
  have hb : ∀ u ∈ Set.uIoc (0 : ℝ) 1, ∀ v ∈ Set.uIoc (0 : ℝ) 1, ‖κ |c.at u - (later (D n) d).at v|‖ ≤ ε / 2 := by
    intro u hu v hv
    rw [Set.uIoc_of_le zero_le_one] at hu hv
    have h1 := hC u ⟨hu.1.le, hu.2⟩
    have h2 := hC' v ⟨hv.1.le, hv.2⟩
    rw [Real.norm_eq_abs] at h1 h2
    have h3 := hM |c.at u - (later (D n) d).at v| (by
      rw [later_at, abs_sub_comm]
      refine le_trans ?_ (le_abs_self _)
      have := (abs_le.1 h1).2
      have := (abs_le.1 h2).1
      linarith)
    rw [dist_zero_right] at h3
    exact h3.le
  have h1 : ∀ u ∈ Set.uIoc (0 : ℝ) 1, ‖∫ v in (0 : ℝ)..1, κ |c.at u - (later (D n) d).at v|‖ ≤ ε / 2 := fun u hu => by
    have := intervalIntegral.norm_integral_le_of_norm_le_const (hb u hu)
    rwa [sub_zero, abs_one, mul_one] at this
  have := intervalIntegral.norm_integral_le_of_norm_le_const h1
  rw [sub_zero, abs_one, mul_one] at this
  linarith

section
variable {α : Type*} {F : Filter α} {κ : ℝ → ℝ} {kA kB : Kern} {k : α → Kern} {XA XB : XArg} {X : α → XArg} {sA sB : Option SolverKind}
  {s : α → Option SolverKind} {diagA diagB : Option (ℝ ⊕ Arr ℝ)} {diag : α → Option (ℝ ⊕ Arr ℝ)} {meanA meanB : Option (Coord → ℝ)}
  {mean : α → Option (Coord → ℝ)} {uA uB : Bool} {u : α → Bool} {gpA gpB gpcA : GP} {gp gpc : α → GP} {yA yB : Arr ℝ} {y : α → Arr ℝ}
  {lpA : EReal} {lp : α → EReal} {D : α → ℝ}

theorem joined_entry {D : ℝ} {XA XB X : Arr Coord} {RA yA RB yB R y : Arr ℝ} (h : Joined D XA RA yA XB RB yB X R y) (hc : Continuous fun u => κ |u|) :
    (gramOf κ (XA.len + XB.len) X R).submatrix finSumFinEquiv finSumFinEquiv =
      Matrix.fromBlocks (obsGram κ XA RA) (Matrix.of fun i j : Fin _ => exposureCov κ (XA.get i) (later D (XB.get j)))
        (Matrix.of fun i j : Fin _ => exposureCov κ (XA.get j) (later D (XB.get i))) (obsGram κ XB RB) := by
  ext a b
  rcases a with i | i <;> rcases b with j | j
  · simp only [Matrix.submatrix_apply, gramOf, obsGram, noisyGram, Matrix.of_apply, finSumFinEquiv_apply_left, Matrix.fromBlocks_apply₁₁,
      Fin.val_castAdd, (h.first i i.2).1, (h.first j j.2).1, (h.first i i.2).2.1, (Fin.castAdd_injective _ _).eq_iff]
  · have hne : Fin.castAdd XB.len i ≠ Fin.natAdd XA.len j := fun e => by
      have := congrArg Fin.val e
      simp only [Fin.val_castAdd, Fin.val_natAdd] at this
      omega
    simp only [Matrix.submatrix_apply, gramOf, noisyGram, Matrix.of_apply, finSumFinEquiv_apply_left, finSumFinEquiv_apply_right,
      Matrix.fromBlocks_apply₁₂, Fin.val_castAdd, Fin.val_natAdd, (h.first i i.2).1, (h.second j j.2).1, if_neg hne, add_zero]
  · have hne : Fin.natAdd XA.len i ≠ Fin.castAdd XB.len j := fun e => by
      have := congrArg Fin.val e
      simp only [Fin.val_castAdd, Fin.val_natAdd] at this
      omega
    simp only [Matrix.submatrix_apply, gramOf, noisyGram, Matrix.of_apply, finSumFinEquiv_apply_left, finSumFinEquiv_apply_right,
      Matrix.fromBlocks_apply₂₁, Fin.val_castAdd, Fin.val_natAdd, (h.first j j.2).1, (h.second i i.2).1, if_neg hne, add_zero]
    exact exposureCov_comm hc _ _
  · simp only [Matrix.submatrix_apply, gramOf, obsGram, noisyGram, Matrix.of_apply, finSumFinEquiv_apply_right, Matrix.fromBlocks_apply₂₂,
      Fin.val_natAdd, (h.second i i.2).1, (h.second j j.2).1, (h.second i i.2).2.1, exposureCov_later, (Fin.natAdd_injective _ _).eq_iff]

theorem joined_gram_tendsto (h0 : Tendsto κ atTop (𝓝 0)) (hc : Continuous fun u => κ |u|) (hD : Tendsto D F atTop) {XA XB : Arr Coord} {X : α → Arr Coord}
    {RA yA RB yB : Arr ℝ} {R y : α → Arr ℝ} (hJ : ∀ n, Joined (D n) XA RA yA XB RB yB (X n) (R n) (y n)) :
    Tendsto (fun n => (gramOf κ (XA.len + XB.len) (X n) (R n)).submatrix finSumFinEquiv finSumFinEquiv) F
      (𝓝 (Matrix.fromBlocks (obsGram κ XA RA) 0 0 (obsGram κ XB RB))) := by
  simp only [joined_entry (hJ _) hc]
  refine tendsto_pi_nhds.2 fun a => tendsto_pi_nhds.2 fun b => ?_
  rcases a with i | i <;> rcases b with j | j
  · exact tendsto_const_nhds
  · exact exposureCov_far h0 hD _ _
  · exact exposureCov_far h0 hD _ _
  · exact tendsto_const_nhds

theorem joined_data {D : ℝ} {XA XB X : Arr Coord} {RA yA RB yB R y : Arr ℝ} (h : Joined D XA RA yA XB RB yB X R y) :
    (fun i : Fin (XA.len + XB.len) => y.get i) ∘ finSumFinEquiv = Sum.elim (fun i : Fin XA.len => yA.get i) fun i : Fin XB.len => yB.get i := by
  funext a
  rcases a with i | i
  · simp only [Function.comp, finSumFinEquiv_apply_left, Fin.val_castAdd, (h.first i i.2).2.2, Sum.elim_inl]
  · simp only [Function.comp, finSumFinEquiv_apply_right, Fin.val_natAdd, (h.second i i.2).2.2, Sum.elim_inr]

/-- **C85, likelihood.** Move one set of data away in time: with a kernel that loses its memory, the log likelihood of the two sets together tends to the
sum of the log likelihoods of each. -/
theorem C85_log_probability (hA : Regression kA XA sA κ) (hB : Regression kB XB sB κ) (h : ∀ n, Regression (k n) (X n) (s n) κ)
    (h0 : Tendsto κ atTop (𝓝 0)) (hnewA : GP.new kA XA diagA meanA sA uA = .ok gpA) (hnewB : GP.new kB XB diagB meanB sB uB = .ok gpB)
    (hnew : ∀ n, GP.new (k n) (X n) (diag n) (mean n) (s n) (u n) = .ok (gp n))
    (hRA : ∀ i < XA.coords.len, 0 < (GP.noiseOf XA.coords.len diagA).get i) (hRB : ∀ i < XB.coords.len, 0 < (GP.noiseOf XB.coords.len diagB).get i)
    (hR : ∀ n, ∀ i < (X n).coords.len, 0 < (GP.noiseOf (X n).coords.len (diag n)).get i) (hyA : yA.len = XA.coords.len)
    (hyB : yB.len = XB.coords.len) (hy : ∀ n, (y n).len = (X n).coords.len) (hD : Tendsto D F atTop)
    (hJ : ∀ n, Joined (D n) XA.coords (GP.noiseOf XA.coords.len diagA) yA XB.coords (GP.noiseOf XB.coords.len diagB) yB (X n).coords
      (GP.noiseOf (X n).coords.len (diag n)) (y n)) :
    ∃ (l : α → ℝ) (lA lB : ℝ), (∀ n, (gp n).logProbability (y n) = .ok (l n : EReal)) ∧ gpA.logProbability yA = .ok (lA : EReal) ∧
      gpB.logProbability yB = .ok (lB : EReal) ∧ Tendsto l F (𝓝 (lA + lB)) := by
  refine ⟨_, _, _, fun n => C61_log_probability (h n) (hnew n) (hy n) (hR n), C61_log_probability hA hnewA hyA hRA,
    C61_log_probability hB hnewB hyB hRB, ?_⟩
  have pA := hA.gram_pd hRA
  have pB := hB.gram_pd hRB
  rw [← gaussLogDensity_fromBlocks pA pB]
  simp only [logDensity_gramOf (hJ _).len, ← gaussLogDensity_relabel (finSumFinEquiv (m := XA.coords.len) (n := XB.coords.len)), joined_data (hJ _)]
  exact tendsto_logDensity' (joined_gram_tendsto h0 hA.continuous hD hJ) (fromBlocks_pd pA pB) tendsto_const_nhds

/-- **C85, predictions.** Far from the second set of data, predictions tend to those of the first set alone. -/
theorem C85_predict (hA : Regression kA XA sA κ) (hB : Regression kB XB sB κ) (h : ∀ n, Regression (k n) (X n) (s n) κ)
    (h0 : Tendsto κ atTop (𝓝 0)) (hnewA : GP.new kA XA diagA meanA sA uA = .ok gpA)
    (hnew : ∀ n, GP.new (k n) (X n) (diag n) (mean n) (s n) (u n) = .ok (gp n))
    (hRA : ∀ i < XA.coords.len, 0 < (GP.noiseOf XA.coords.len diagA).get i) (hRB : ∀ i < XB.coords.len, 0 < (GP.noiseOf XB.coords.len diagB).get i)
    (hR : ∀ n, ∀ i < (X n).coords.len, 0 < (GP.noiseOf (X n).coords.len (diag n)).get i) (hD : Tendsto D F atTop)
    (hJ : ∀ n, Joined (D n) XA.coords (GP.noiseOf XA.coords.len diagA) yA XB.coords (GP.noiseOf XB.coords.len diagB) yB (X n).coords
      (GP.noiseOf (X n).coords.len (diag n)) (y n))
    (hcondA : gpA.condition yA = .ok (lpA, gpcA)) (hcond : ∀ n, (gp n).condition (y n) = .ok (lp n, gpc n)) (ts : Arr ℝ) :
    ∃ (m v : α → Arr ℝ) (mA vA : Arr ℝ), (∀ n, (gpc n).predict (some (.times ts)) = .ok (m n, v n)) ∧
      gpcA.predict (some (.times ts)) = .ok (mA, vA) ∧
      ∀ i < ts.len, Tendsto (fun n => (m n).get i) F (𝓝 (mA.get i)) ∧ Tendsto (fun n => (v n).get i) F (𝓝 (vA.get i)) := by
  choose m v hp _ _ hm using fun n => C61_predict (h n) (hnew n) (hR n) (hcond n) ts
  obtain ⟨mA, vA, hpA, -, -, hmA⟩ := C61_predict hA hnewA hRA hcondA ts
  refine ⟨m, v, mA, vA, hp, hpA, fun i hi => ?_⟩
  have pA := hA.gram_pd hRA
  have pB := hB.gram_pd hRB
  have hc : Tendsto (fun n => (fun j : Fin (XA.coords.len + XB.coords.len) => exposureCov κ (.time (ts.get i)) ((X n).coords.get j)) ∘ finSumFinEquiv) F
      (𝓝 (Sum.elim (obsCross κ (.time (ts.get i)) XA.coords) 0)) := by
    refine tendsto_pi_nhds.2 fun a => ?_
    rcases a with j | j
    · simp only [Function.comp, finSumFinEquiv_apply_left, Fin.val_castAdd, ((hJ _).first j j.2).1, Sum.elim_inl]
      exact tendsto_const_nhds
    · simp only [Function.comp, finSumFinEquiv_apply_right, Fin.val_natAdd, ((hJ _).second j j.2).1, Sum.elim_inr]
      exact exposureCov_far h0 hD _ _
  have hinv := tendsto_inv' (joined_gram_tendsto h0 hA.continuous hD hJ) (fromBlocks_pd pA pB).det_pos.ne'
  have e1 : ∀ n, (m n).get i = _ := fun n => (hm n i hi).1
  have e2 : ∀ n, (v n).get i = _ := fun n => (hm n i hi).2
  simp only [e1, e2, (hmA i hi).1, (hmA i hi).2, postMean_gramOf (hJ _).len, postVar_gramOf (hJ _).len]
  simp only [← postMean_relabel (finSumFinEquiv (m := XA.coords.len) (n := XB.coords.len)), joined_data (hJ _),
    ← postVar_relabel (finSumFinEquiv (m := XA.coords.len) (n := XB.coords.len))]
  have t1 := tendsto_quad' hinv hc (tendsto_const_nhds (x := Sum.elim (fun i : Fin XA.coords.len => yA.get i) fun i : Fin XB.coords.len => yB.get i))
  have t2 := (tendsto_quad' hinv hc hc).const_sub (κ 0)
  have f1 := postMean_fromBlocks pA pB (fun i : Fin XA.coords.len => yA.get i) (fun i : Fin XB.coords.len => yB.get i)
    (obsCross κ (.time (ts.get i)) XA.coords)
  have f2 := postVar_fromBlocks pA pB (κ 0) (obsCross κ (.time (ts.get i)) XA.coords)
  rw [← f1, ← f2]
  exact ⟨t1, t2⟩

end

section examples

/-- exponential kernels of any length scale `a` can be used for a GP that can be conditioned -/
theorem exp_scaled (a : ℕ → ℝ) (ha : ∀ n, 0 < a n) (t : Arr ℝ) (hl : t.len ≠ 1) (y : Arr ℝ) :
    ∃ (gp : ℕ → GP) (lp : ℕ → EReal) (gpc : ℕ → GP),
      (∀ n, GP.new ((Kern.exp 1 1 "a").inUnits (a n) 1) (.times t) (some (.inl 1)) none none false = .ok (gp n)) ∧
      ∀ n, (gp n).condition y = .ok (lp n, gpc n) := by
  have hv : ∀ n, ((Kern.exp 1 1 "a").inUnits (a n) 1).Valid := fun n => (Kern.Valid.exp one_pos one_ne_zero).inUnits (ha n) one_ne_zero
  choose gp hnew using fun n => (C01_constructor (hv n) (.inl rfl) t (some (.inl 1)) none).1
  have hcnd : ∀ n, ∃ lp gpc, (gp n).condition y = .ok (lp, gpc) := fun n => by
    have hk : (gp n).kernel = (Kern.exp 1 1 "a").inUnits (a n) 1 := by
      have := (GP.new_ok (hnew n)).1
      rw [if_neg (by decide)] at this
      exact (Except.ok.inj this).symm
    obtain ⟨⟨lp, gp'⟩, hc⟩ := (C02_condition_succeeds (hv n) (.inl rfl) (hnew n) y).2 ⟨hl, _, by rw [hk]; rfl⟩
    exact ⟨lp, gp', hc⟩
  choose lp gpc hc using hcnd
  exact ⟨gp, lp, gpc, hnew, hc⟩

theorem covExp_zero : covExp 1 1 0 = 1 := by rw [(C24_variance 1 1 1 1 0).1, one_pow]

/-- C84 applies: exponential kernels of length scales 1, 1/2, 1/3, ..., data `2` and `4` at times 0 and 1 with unit noise -/
example (ts : Arr ℝ) (h0 : ts.len = 2 ∧ ts.get 0 = 1 ∧ ts.get 1 = 1 / 2) :
    ∃ (gp : ℕ → GP) (lp : ℕ → EReal) (gpc : ℕ → GP) (m v : ℕ → Arr ℝ),
      (∀ n : ℕ, GP.new (.exp (1 / ((n : ℝ) + 1) * 1) (1 * 1) "a") (.times tPair) (some (.inl 1)) none none false = .ok (gp n)) ∧
      (∀ n, (gp n).condition ⟨2, fun i => if i = 0 then 2 else 4⟩ = .ok (lp n, gpc n)) ∧ (∀ n, (gpc n).predict (some (.times ts)) = .ok (m n, v n)) ∧
      Tendsto (fun n => (m n).get 0) atTop (𝓝 2) ∧ Tendsto (fun n => (v n).get 0) atTop (𝓝 (1 / 2)) ∧
      Tendsto (fun n => (m n).get 1) atTop (𝓝 0) ∧ Tendsto (fun n => (v n).get 1) atTop (𝓝 1) := by
  have hr := exp_regression tPair_sorted (by show 0 < 2; decide)
  have ha : ∀ n : ℕ, (0 : ℝ) < 1 / ((n : ℝ) + 1) := fun n => by positivity
  obtain ⟨gp, lp, gpc, hnew, hc⟩ := exp_scaled _ ha tPair (by show (2 : ℕ) ≠ 1; decide) ⟨2, fun i => if i = 0 then 2 else 4⟩
  have hne : ∀ i < tPair.len, ∀ j < tPair.len, i ≠ j → tPair.get i ≠ tPair.get j := fun i hi j hj hij => by
    have hi : i < 2 := hi
    have hj : j < 2 := hj
    show (if i = 0 then (0 : ℝ) else 1) ≠ if j = 0 then 0 else 1
    split_ifs <;> first | omega | norm_num
  obtain ⟨m, v, hp, hm⟩ := (C84_short_scales hr (hr.decays (.inr (.exp one_pos))) ha tendsto_one_div_add_atTop_nhds_zero_nat hnew
    (fun _ _ => one_pos) hne (y := ⟨2, fun i => if i = 0 then 2 else 4⟩) rfl).2 hc ts
  obtain ⟨h1, h2⟩ := (hm 0 (by rw [h0.1]; decide)).2 1 (by show 1 < 2; decide) h0.2.1
  obtain ⟨h3, h4⟩ := (hm 1 (by rw [h0.1]; decide)).1 fun j _ => by
    rw [h0.2.2]
    show (1 : ℝ) / 2 ≠ if j = 0 then 0 else 1
    split_ifs <;> norm_num
  have hn : (GP.noiseOf tPair.len (some (.inl 1))).get 1 = 1 := rfl
  rw [covExp_zero, hn] at h1 h2
  rw [covExp_zero] at h4
  refine ⟨gp, lp, gpc, m, v, hnew, hc, hp, ?_, ?_, h3, h4⟩
  · convert h1 using 2
    show (2 : ℝ) = 1 / (1 + 1) * 4
    norm_num
  · convert h2 using 2
    norm_num

/-- C84 applies: exponential kernels of length scales 1, 2, 3, ..., the same data; the prediction for a constant is `6/3 = 2` with variance `1/3` -/
example (ts : Arr ℝ) (h0 : ts.len = 1) :
    ∃ (gp : ℕ → GP) (lp : ℕ → EReal) (gpc : ℕ → GP) (m v : ℕ → Arr ℝ),
      (∀ n : ℕ, GP.new (.exp (((n : ℝ) + 1) * 1) (1 * 1) "a") (.times tPair) (some (.inl 1)) none none false = .ok (gp n)) ∧
      (∀ n, (gp n).condition ⟨2, fun i => if i = 0 then 2 else 4⟩ = .ok (lp n, gpc n)) ∧ (∀ n, (gpc n).predict (some (.times ts)) = .ok (m n, v n)) ∧
      Tendsto (fun n => (m n).get 0) atTop (𝓝 2) ∧ Tendsto (fun n => (v n).get 0) atTop (𝓝 (1 / 3)) := by
  have hr := exp_regression tPair_sorted (by show 0 < 2; decide)
  have ha : ∀ n : ℕ, (0 : ℝ) < (n : ℝ) + 1 := fun n => by positivity
  have hlim : Tendsto (fun n : ℕ => (n : ℝ) + 1) atTop atTop := tendsto_atTop_add_const_right _ _ tendsto_natCast_atTop_atTop
  obtain ⟨gp, lp, gpc, hnew, hc⟩ := exp_scaled _ ha tPair (by show (2 : ℕ) ≠ 1; decide) ⟨2, fun i => if i = 0 then 2 else 4⟩
  obtain ⟨m, v, hp, hm⟩ := (C84_long_scales hr ha hlim hnew (fun _ _ => one_pos) (y := ⟨2, fun i => if i = 0 then 2 else 4⟩) rfl).2 hc ts
  obtain ⟨h1, h2⟩ := hm 0 (by rw [h0]; decide)
  have hs : ∀ f : ℕ → ℝ, ∑ i : Fin (XArg.times tPair).coords.len, f i = f 0 + f 1 := fun f => by
    rw [Fin.sum_univ_eq_sum_range f]
    show ∑ i ∈ Finset.range 2, f i = _
    rw [Finset.sum_range_succ, Finset.sum_range_one]
  have hn : ∀ i, (GP.noiseOf (XArg.times tPair).coords.len (some (.inl 1))).get i = 1 := fun _ => rfl
  simp only [covExp_zero, hn] at h1 h2
  rw [hs fun j => (if j = 0 then 2 else 4) / 1, hs fun _ => 1 / 1] at h1
  rw [hs fun _ => 1 / 1] at h2
  refine ⟨gp, lp, gpc, m, v, hnew, hc, hp, ?_, ?_⟩
  · convert h1 using 2
    norm_num
  · convert h2 using 2
    norm_num

/-- two data at times 0, 1 and two at `n + 1`, `n + 2` -/
def farT (n : ℕ) : Arr ℝ := ⟨4, fun i => if i = 0 then 0 else if i = 1 then 1 else if i = 2 then (n : ℝ) + 1 else (n : ℝ) + 2⟩

theorem farT_sorted (n : ℕ) : Sorted (farT n) := fun i j hij _ => by
  have : (0 : ℝ) ≤ n := Nat.cast_nonneg n
  show (if i = 0 then (0 : ℝ) else if i = 1 then 1 else if i = 2 then (n : ℝ) + 1 else (n : ℝ) + 2) ≤
    if j = 0 then 0 else if j = 1 then 1 else if j = 2 then (n : ℝ) + 1 else (n : ℝ) + 2
  split_ifs <;> first | omega | linarith

/-- C85 applies -/
example (y : Arr ℝ) (hy : y.len = 4) : ∃ (gp : ℕ → GP) (gp0 : GP) (l : ℕ → ℝ) (l1 l2 : ℝ),
    (∀ n, GP.new (.exp 1 1 "a") (.times (farT n)) (some (.inl 1)) none none false = .ok (gp n)) ∧
    GP.new (.exp 1 1 "a") (.times tPair) (some (.inl 1)) none none false = .ok gp0 ∧ (∀ n, (gp n).logProbability y = .ok (l n : EReal)) ∧
    gp0.logProbability ⟨2, y.get⟩ = .ok (l1 : EReal) ∧ gp0.logProbability ⟨2, fun i => y.get (2 + i)⟩ = .ok (l2 : EReal) ∧
    Tendsto l atTop (𝓝 (l1 + l2)) := by
  have hr := exp_regression tPair_sorted (by show 0 < 2; decide)
  choose gp lp gpc hnew hc using fun n => exp_gp (farT n) (by show (4 : ℕ) ≠ 1; decide) (some (.inl 1)) y
  obtain ⟨gp0, -, -, hnew0, -⟩ := exp_gp tPair (by show (2 : ℕ) ≠ 1; decide) (some (.inl 1)) y
  have hlim : Tendsto (fun n : ℕ => (n : ℝ) + 1) atTop atTop := tendsto_atTop_add_const_right _ _ tendsto_natCast_atTop_atTop
  obtain ⟨l, l1, l2, h1, h2, h3, h4⟩ := C85_log_probability hr hr (fun n => exp_regression (farT_sorted n) (by show 0 < 4; decide))
    (hr.decays (.inr (.exp one_pos))) hnew0 hnew0 hnew (fun _ _ => one_pos) (fun _ _ => one_pos) (fun _ _ _ => one_pos)
    (yA := ⟨2, y.get⟩) (yB := ⟨2, fun i => y.get (2 + i)⟩) (y := fun _ => y) rfl rfl (fun _ => hy) hlim fun n =>
      { len := rfl
        first := fun i hi => by
          have hi : i < 2 := hi
          refine ⟨?_, rfl, rfl⟩
          show Coord.time (if i = 0 then 0 else if i = 1 then 1 else if i = 2 then (n : ℝ) + 1 else (n : ℝ) + 2) = Coord.time (if i = 0 then 0 else 1)
          interval_cases i <;> simp
        second := fun i hi => by
          have hi : i < 2 := hi
          refine ⟨?_, rfl, rfl⟩
          show Coord.time (if 2 + i = 0 then 0 else if 2 + i = 1 then 1 else if 2 + i = 2 then (n : ℝ) + 1 else (n : ℝ) + 2) =
            Coord.time ((if i = 0 then 0 else 1) + ((n : ℝ) + 1))
          interval_cases i
          · simp
          · simp
            ring }
  exact ⟨gp, gp0, l, l1, l2, hnew, hnew0, h1, h2, h3, h4⟩

end examples

end Verif
