import Verif.Props.C65_Data
import Verif.Props.C42_Interface

/-!
# C98: conditioning further

The documentation of `ConditionResult.gp` calls the conditioned GP "a fully functional GP that can ... condition further". Conditioning it on a
second set of measurements at the same coordinates forgets the first. The posterior given both is that of a GP with the mean of the two
measurements and half the noise variances.
-/

namespace Verif
open Matrix Kern Spec

/-- mean of the posterior given two sets of measurements `y₁`, `y₂` of the same quantities, each with the noise `R` -/
noncomputable def Spec.bothMean (κ : ℝ → ℝ) (X : Arr Coord) (R : Arr ℝ) (y₁ y₂ : Arr ℝ) (c : Coord) : ℝ :=
  let g : Fin X.len ⊕ Fin X.len → Fin X.len := Sum.elim id id
  postMean (noisyGram (fun p q => exposureCov κ (X.get (g p)) (X.get (g q))) fun p => R.get (g p))
    (Sum.elim (fun i => y₁.get i) fun i => y₂.get i) fun p => exposureCov κ c (X.get (g p))

/-- variance of that posterior -/
noncomputable def Spec.bothVar (κ : ℝ → ℝ) (X : Arr Coord) (R : Arr ℝ) (c : Coord) : ℝ :=
  let g : Fin X.len ⊕ Fin X.len → Fin X.len := Sum.elim id id
  postVar (noisyGram (fun p q => exposureCov κ (X.get (g p)) (X.get (g q))) fun p => R.get (g p)) (exposureCov κ c c)
    fun p => exposureCov κ c (X.get (g p))

section
variable {kernel : Kern} {X : XArg} {solver : Option SolverKind} {κ : ℝ → ℝ} {diag diag' : Option (ℝ ⊕ Arr ℝ)} {mean mean' : Option (Coord → ℝ)}
  {u u' : Bool} {gp gp' gp₁ gp₂ gpc : GP} {y₁ y₂ y : Arr ℝ} {lp lp₁ lp₂ : EReal}

/-- averages of the two measurements, with half the noise -/
theorem both_average (h : Regression kernel X solver κ) {R R' : Arr ℝ} (hR : ∀ i < X.coords.len, 0 < R.get i)
    (hR' : ∀ i < X.coords.len, R'.get i = R.get i / 2) (hy : ∀ i < X.coords.len, y.get i = (y₁.get i + y₂.get i) / 2) (c : Coord) :
    bothMean κ X.coords R y₁ y₂ c = postMean (obsGram κ X.coords R') (fun i => y.get i) (obsCross κ c X.coords) ∧
    bothVar κ X.coords R c = postVar (obsGram κ X.coords R') (exposureCov κ c c) (obsCross κ c X.coords) := by
  have hRp : ∀ i < X.coords.len, 0 < R'.get i := fun i hi => by rw [hR' i hi]; exact half_pos (hR i hi)
  have pd := h.gram_pd hRp
  set g : Fin X.coords.len ⊕ Fin X.coords.len → Fin X.coords.len := Sum.elim id id with hg
  have pd' : (noisyGram (fun p q => exposureCov κ (X.coords.get (g p)) (X.coords.get (g q))) fun p => R.get (g p)).PosDef := by
    have e : (noisyGram (fun p q => exposureCov κ (X.coords.get (g p)) (X.coords.get (g q))) fun p => R.get (g p)) =
        (Matrix.of fun i j : Fin X.coords.len => exposureCov κ (X.coords.get i) (X.coords.get j)).submatrix g g +
        Matrix.diagonal fun p => R.get (g p) := by
      ext p q
      simp [noisyGram, Matrix.diagonal_apply]
    rw [e]
    exact Matrix.PosDef.posSemidef_add ((exposureGram_psd h.continuous h.psd _).submatrix g) (Matrix.PosDef.diagonal fun p => hR _ (g p).2)
  have e1 : ∀ m : Fin X.coords.len, 1 / R'.get m = ∑ p, if g p = m then 1 / R.get (g p) else 0 := fun m => by
    rw [Fintype.sum_sum_type, hR' m m.2]
    simp only [hg, Sum.elim_inl, Sum.elim_inr, id, Finset.sum_ite_eq', Finset.mem_univ, if_true]
    have := (hR m m.2).ne'
    field_simp
    norm_num
  refine ⟨?_, ?_⟩
  · refine postMean_replicates g pd pd' (fun p => hR _ (g p).2) (fun m => hRp m m.2) e1 (fun m => ?_) (obsCross κ c X.coords)
    rw [Fintype.sum_sum_type, hR' m m.2, hy m m.2]
    simp only [hg, Sum.elim_inl, Sum.elim_inr, id, Finset.sum_ite_eq', Finset.mem_univ, if_true]
    have := (hR m m.2).ne'
    field_simp
  · exact postVar_replicates g pd pd' (fun p => hR _ (g p).2) (fun m => hRp m m.2) e1 _ (obsCross κ c X.coords)

theorem condition_other (h₁ : gp.condition y₁ = .ok (lp₁, gp₁)) (y : Arr ℝ) : ∃ r, gp.condition y = .ok r := by
  obtain ⟨hrun, -, hk, -, -, -, -, -, -, -, -, hl, hX⟩ := GP.condition_ok h₁
  exact GP.condition_eq hrun hk hX hl (GP.condition_obs h₁)

/-- with distinct component names, what can be conditioned once can be conditioned again -/
theorem condition_again (h₀ : gp.condition y = .ok (lp, gpc)) (hn : gp.kernel.componentNames.Nodup) (y₁ y₂ : Arr ℝ) :
    ∃ lp₁ gp₁ lp₂ gp₂, gp.condition y₁ = .ok (lp₁, gp₁) ∧ gp₁.condition y₂ = .ok (lp₂, gp₂) := by
  obtain ⟨⟨lp₁, gp₁⟩, h₁⟩ := condition_other h₀ y₁
  obtain ⟨hrun, -, hk, hs, hX, -, -, -, -, hsol, -, hl, hi⟩ := GP.condition_ok h₁
  have hn' : gp.kernel.assignUniqueNames = .ok gp.kernel := if_pos hn
  have e : gp₁.kernel = gp.kernel := Except.ok.inj (hk.symm.trans hn')
  obtain ⟨⟨lp₂, gp₂⟩, h₂⟩ := GP.condition_eq (gp := gp₁) (k := gp.kernel) (y := y₂) (by unfold GP.runError at hrun ⊢; rw [e, hsol]; exact hrun)
    (by rw [e]; exact hn') (by rw [e, hX]; exact hi) (by rw [hX]; exact hl) (by rw [e, hX]; exact GP.condition_obs h₁)
  exact ⟨lp₁, gp₁, lp₂, gp₂, h₁, h₂⟩

/-- **C98, what is computed.** Conditioning the conditioned GP gives the regression from the second set of measurements alone, and its
`log_probability` is that of the prior. -/
theorem C98_second_alone (h : Regression kernel X solver κ) (hnew : GP.new kernel X diag mean solver u = .ok gp)
    (hR : ∀ i < X.coords.len, 0 < (GP.noiseOf X.coords.len diag).get i)
    (h₁ : gp.condition y₁ = .ok (lp₁, gp₁)) (h₂ : gp₁.condition y₂ = .ok (lp₂, gp₂)) :
    gp.logProbability y₂ = .ok lp₂ ∧ ∀ i < X.coords.len,
      gp₂.mean.get i = postMean (obsGram κ X.coords (GP.noiseOf X.coords.len diag)) (fun j => y₂.get j) (obsCross κ (X.coords.get i) X.coords) := by
  obtain ⟨⟨lp₃, gp₃⟩, h₃⟩ := condition_other h₁ y₂
  obtain ⟨e1, e2, -⟩ := C42_recondition gp gp₁ gp₂ gp₃ y₁ y₂ lp₁ lp₂ lp₃ h₁ h₂ h₃
  obtain ⟨h4, -, var, -, -, h5⟩ := C61_condition h hnew hR h₃
  exact ⟨e1 ▸ h4, fun i hi => e2 ▸ (h5 i hi).1⟩

/-- **C98, refuted.** For every supported kernel, coordinates and solver there are measurements `y₁` such that conditioning on `y₁` and then on
zeros gives a mean of zero at the first datum, while the posterior given both has a positive one. -/
theorem C98_forgets (h : Regression kernel X solver κ) (hnew : GP.new kernel X diag mean solver u = .ok gp)
    (hR : ∀ i < X.coords.len, 0 < (GP.noiseOf X.coords.len diag).get i)
    (hκ : 0 < exposureCov κ (X.coords.get 0) (X.coords.get 0)) (h₀ : gp.condition y = .ok (lp, gpc)) (hn : gp.kernel.componentNames.Nodup) :
    ∃ y₁ y₂ : Arr ℝ, y₁.len = X.coords.len ∧ y₂.len = X.coords.len ∧
      0 < bothMean κ X.coords (GP.noiseOf X.coords.len diag) y₁ y₂ (X.coords.get 0) ∧
      ∃ lp₁ gp₁ lp₂ gp₂, gp.condition y₁ = .ok (lp₁, gp₁) ∧ gp₁.condition y₂ = .ok (lp₂, gp₂) ∧ gp₂.mean.get 0 = 0 := by
  set N := X.coords.len with hN
  set y₁ : Arr ℝ := ⟨N, fun i => exposureCov κ (X.coords.get 0) (X.coords.get i)⟩ with hy₁
  obtain ⟨lp₁, gp₁, lp₂, gp₂, h₁, h₂⟩ := condition_again h₀ hn y₁ ⟨N, fun _ => 0⟩
  refine ⟨y₁, ⟨N, fun _ => 0⟩, rfl, rfl, ?_, lp₁, gp₁, lp₂, gp₂, h₁, h₂, ?_⟩
  · have e := (both_average (y₁ := y₁) (y₂ := ⟨N, fun _ => 0⟩) (y := ⟨N, fun i => y₁.get i / 2⟩) h hR
      (R' := ⟨N, fun i => (GP.noiseOf N diag).get i / 2⟩) (fun _ _ => rfl) (fun i _ => by simp) (X.coords.get 0)).1
    rw [e]
    have pd := h.gram_pd (R := ⟨N, fun i => (GP.noiseOf N diag).get i / 2⟩) fun i hi => half_pos (hR i hi)
    set G := obsGram κ X.coords ⟨N, fun i => (GP.noiseOf N diag).get i / 2⟩
    set c := obsCross κ (X.coords.get 0) X.coords with hc
    have hc0 : c ≠ 0 := fun h0 => hκ.ne' (congrFun h0 ⟨0, h.nonempty⟩)
    have e2 : (fun i : Fin N => y₁.get i / 2) = (1 / 2 : ℝ) • c := by
      funext i
      show exposureCov κ (X.coords.get 0) (X.coords.get i) / 2 = 1 / 2 * exposureCov κ (X.coords.get 0) (X.coords.get i)
      ring
    show 0 < postMean G (fun i : Fin N => y₁.get i / 2) c
    rw [e2]
    unfold postMean
    rw [Matrix.mulVec_smul, dotProduct_smul, smul_eq_mul]
    have := pd.inv.dotProduct_mulVec_pos hc0
    simp only [star_trivial] at this
    linarith
  · rw [(C98_second_alone h hnew hR h₁ h₂).2 0 h.nonempty]
    show postMean _ (fun _ => 0) _ = 0
    unfold postMean
    have : (fun _ : Fin X.coords.len => (0 : ℝ)) = 0 := rfl
    rw [this, Matrix.mulVec_zero, dotProduct_zero]

/-- **C98 (partial).** The posterior given both is what a GP with half the noise variances returns for the mean of the two sets. Missing: the
conditioned GP itself cannot do this (`C98_forgets`). -/
theorem C98_both_partial (h : Regression kernel X solver κ) (hnew : GP.new kernel X diag' mean' solver u' = .ok gp')
    (hR : ∀ i < X.coords.len, 0 < (GP.noiseOf X.coords.len diag).get i)
    (hR' : ∀ i < X.coords.len, (GP.noiseOf X.coords.len diag').get i = (GP.noiseOf X.coords.len diag).get i / 2)
    (hy : ∀ i < X.coords.len, y.get i = (y₁.get i + y₂.get i) / 2) (hcond : gp'.condition y = .ok (lp, gpc)) :
    (∃ var, gpc.var = some var ∧ ∀ i < X.coords.len,
      gpc.mean.get i = bothMean κ X.coords (GP.noiseOf X.coords.len diag) y₁ y₂ (X.coords.get i) ∧
      var.get i = bothVar κ X.coords (GP.noiseOf X.coords.len diag) (X.coords.get i)) ∧
    ∀ ts : Arr ℝ, ∃ mu var, gpc.predict (some (.times ts)) = .ok (mu, var) ∧ ∀ m < ts.len,
      mu.get m = bothMean κ X.coords (GP.noiseOf X.coords.len diag) y₁ y₂ (.time (ts.get m)) ∧
      var.get m = bothVar κ X.coords (GP.noiseOf X.coords.len diag) (.time (ts.get m)) := by
  have hRp : ∀ i < X.coords.len, 0 < (GP.noiseOf X.coords.len diag').get i := fun i hi => by rw [hR' i hi]; exact half_pos (hR i hi)
  refine ⟨?_, fun ts => ?_⟩
  · obtain ⟨-, -, var, hv, -, hall⟩ := C61_condition h hnew hRp hcond
    refine ⟨var, hv, fun i hi => ?_⟩
    obtain ⟨e1, e2⟩ := both_average h hR hR' hy (X.coords.get i)
    rw [e1, e2]
    exact hall i hi
  · obtain ⟨mu, var, hp, -, -, hall⟩ := C61_predict h hnew hRp hcond ts
    refine ⟨mu, var, hp, fun m hm => ?_⟩
    obtain ⟨e1, e2⟩ := both_average h hR hR' hy (.time (ts.get m))
    rw [e1, e2, exposureCov_times, sub_self, abs_zero]
    exact hall m hm

end

section examples

/-- two measurements at time zero: the mean returned is 0 for some data of positive posterior mean -/
example (y : Arr ℝ) : ∃ gp lp gp', GP.new (.exp 1 1 "a") (.times twoT) (some (.inl 1)) none none false = .ok gp ∧
    gp.condition y = .ok (lp, gp') ∧ ∃ y₁ y₂ : Arr ℝ, 0 < bothMean (covExp 1 1) (twoT.map .time) ⟨2, fun _ => 1⟩ y₁ y₂ (.time 0) ∧
      ∃ lp₁ gp₁ lp₂ gp₂, gp.condition y₁ = .ok (lp₁, gp₁) ∧ gp₁.condition y₂ = .ok (lp₂, gp₂) ∧ gp₂.mean.get 0 = 0 := by
  obtain ⟨gp, lp, gp', h, hc⟩ := exp_gp twoT (by show (2 : ℕ) ≠ 1; decide) (some (.inl 1)) y
  have hr := exp_regression twoT_sorted (by show 0 < 2; decide)
  have hk : gp.kernel = .exp 1 1 "a" := by
    have := (GP.new_ok h).1
    rw [if_neg (by decide)] at this
    exact (Except.ok.inj this).symm
  obtain ⟨y₁, y₂, -, -, h1, h2⟩ := C98_forgets hr h (fun _ _ => one_pos) (by
    show 0 < exposureCov (covExp 1 1) (.time 0) (.time 0)
    rw [exposureCov_times]
    unfold covExp
    positivity) hc (by rw [hk]; simp [Kern.componentNames, Kern.extractLeafKernels])
  exact ⟨gp, lp, gp', h, hc, y₁, y₂, h1, h2⟩

/-- and the combined data give what they should -/
example (y : Arr ℝ) (y₁ y₂ : Arr ℝ) (hy : ∀ i < 2, y.get i = (y₁.get i + y₂.get i) / 2) : ∃ gp lp gp',
    GP.new (.exp 1 1 "a") (.times twoT) (some (.inl (1 / 2))) none none false = .ok gp ∧ gp.condition y = .ok (lp, gp') ∧
    gp'.mean.get 0 = bothMean (covExp 1 1) (twoT.map .time) ⟨2, fun _ => 1⟩ y₁ y₂ (.time 0) := by
  obtain ⟨gp, lp, gp', h, hc⟩ := exp_gp twoT (by show (2 : ℕ) ≠ 1; decide) (some (.inl (1 / 2))) y
  have hr := exp_regression twoT_sorted (by show 0 < 2; decide)
  obtain ⟨⟨var, -, hm⟩, -⟩ := C98_both_partial (diag := some (.inl 1)) hr h (fun _ _ => one_pos) (fun _ _ => rfl) hy hc
  exact ⟨gp, lp, gp', h, hc, (hm 0 (by show 0 < 2; decide)).1⟩

end examples

end Verif
