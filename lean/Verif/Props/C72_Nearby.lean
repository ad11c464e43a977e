import Verif.Lemmas.NearPosterior
import Verif.Props.C62_Curves
import Verif.Props.C29_Tail
import Verif.Lemmas.QualityBound
import Verif.Props.C47_DenseSHO

/-!
# C72: nearby covariance functions give nearby results

If `κ'` is any continuous covariance function within `δ` of the one a kernel implements, then the log likelihood, the conditioned means and
variances and the predictions of the package are within explicit bounds of those of regression with `κ'`. With the bound on the Fourier
series of `ExpSineSquared` this tells how far its results, and those of sums and products that contain it, are from exact periodic ones.
-/

namespace Verif
open Matrix Kern Spec

section
variable {κ κ' : ℝ → ℝ} {δ : ℝ}

theorem exposureCov_close (hc : Continuous fun u => κ |u|) (hc' : Continuous fun u => κ' |u|) (h : ∀ s, 0 ≤ s → |κ' s - κ s| ≤ δ) (X Y : Coord) :
    |exposureCov κ' X Y - exposureCov κ X Y| ≤ δ :=
  X.average_close (average_continuous Y hc') (average_continuous Y hc) fun _ _ =>
    Y.average_close (hc'.comp (continuous_const.sub continuous_id)) (hc.comp (continuous_const.sub continuous_id)) fun _ _ => h _ (abs_nonneg _)

theorem obsGram_eq_add (κ : ℝ → ℝ) (X : Arr Coord) (R : Arr ℝ) : obsGram κ X R =
    (Matrix.of fun i j : Fin X.len => exposureCov κ (X.get i) (X.get j)) + Matrix.diagonal (fun i : Fin X.len => R.get i) := by
  ext i j
  simp [obsGram, noisyGram, Matrix.diagonal_apply]

theorem obsGram_low (hc : Continuous fun u => κ |u|) (hp : PosSemidefFn κ) (X : Arr Coord) {R : Arr ℝ} {r : ℝ} (hR : ∀ i < X.len, r ≤ R.get i)
    (v : Fin X.len → ℝ) : r * (v ⬝ᵥ v) ≤ v ⬝ᵥ obsGram κ X R *ᵥ v := by
  rw [obsGram_eq_add, add_mulVec, dotProduct_add]
  have h1 := ((psd_iff _).1 (exposureGram_psd hc hp fun i : Fin X.len => X.get i)).2 v
  have h2 : r * (v ⬝ᵥ v) ≤ v ⬝ᵥ Matrix.diagonal (fun i : Fin X.len => R.get i) *ᵥ v := by
    simp only [dotProduct, mulVec_diagonal, Finset.mul_sum]
    refine Finset.sum_le_sum fun i _ => ?_
    nlinarith [mul_le_mul_of_nonneg_right (hR i i.2) (mul_self_nonneg (v i))]
  linarith

/-- prior variance minus explained variance is not negative -/
theorem cross_le (hc : Continuous fun u => κ |u|) (hp : PosSemidefFn κ) (X : Arr Coord) {R : Arr ℝ} (hR : ∀ i < X.len, 0 < R.get i) (Xs : Coord) :
    obsCross κ Xs X ⬝ᵥ (obsGram κ X R)⁻¹ *ᵥ obsCross κ Xs X ≤ exposureCov κ Xs Xs := by
  have hpd : (obsGram κ X R).PosDef := by
    rw [obsGram_eq_add]
    exact Matrix.PosDef.posSemidef_add (exposureGram_psd hc hp _) (Matrix.PosDef.diagonal fun i => hR i i.2)
  set c := obsCross κ Xs X with hcdef
  set w := (obsGram κ X R)⁻¹ *ᵥ c with hw
  have h1 : obsGram κ X R *ᵥ w = c := solve_spec hpd _
  have h2 : w ⬝ᵥ (Matrix.of fun i j : Fin X.len => exposureCov κ (X.get i) (X.get j)) *ᵥ w ≤ c ⬝ᵥ w := by
    have e : w ⬝ᵥ obsGram κ X R *ᵥ w = c ⬝ᵥ w := by rw [h1, dotProduct_comm]
    rw [← e, obsGram_eq_add, add_mulVec, dotProduct_add]
    have : 0 ≤ w ⬝ᵥ Matrix.diagonal (fun i : Fin X.len => R.get i) *ᵥ w :=
      ((psd_iff _).1 (Matrix.PosSemidef.diagonal fun i : Fin X.len => (hR i i.2).le)).2 w
    linarith
  have h3 := exposureCov_quad hc hp (ι := Option (Fin X.len)) (fun o => o.elim Xs fun i => X.get i) (fun o => o.elim 1 fun i => - w i)
  simp only [Fintype.sum_option, Option.elim_none, Option.elim_some, one_mul, mul_one, neg_mul, mul_neg, neg_neg] at h3
  simp only [Finset.sum_add_distrib, Finset.sum_neg_distrib] at h3
  have e1 : (∑ i, w i * exposureCov κ Xs (X.get i)) = c ⬝ᵥ w := by
    rw [dotProduct_comm]; rfl
  have e2 : (∑ i : Fin X.len, w i * exposureCov κ (X.get i) Xs) = c ⬝ᵥ w := by
    rw [← e1]
    exact Finset.sum_congr rfl fun i _ => by rw [exposureCov_comm hc]
  have e3 : (∑ i : Fin X.len, ∑ j : Fin X.len, w i * w j * exposureCov κ (X.get i) (X.get j)) =
      w ⬝ᵥ (Matrix.of fun i j : Fin X.len => exposureCov κ (X.get i) (X.get j)) *ᵥ w := by
    simp only [dotProduct, mulVec, Matrix.of_apply, Finset.mul_sum]
    exact Finset.sum_congr rfl fun i _ => Finset.sum_congr rfl fun j _ => by ring
  rw [e1, e2, e3] at h3
  linarith

theorem obsGram_near (hc : Continuous fun u => κ |u|) (hp : PosSemidefFn κ) (hc' : Continuous fun u => κ' |u|)
    (h : ∀ s, 0 ≤ s → |κ' s - κ s| ≤ δ) (X : Arr Coord) {R : Arr ℝ} {r : ℝ} (hr : 0 < r) (hR : ∀ i < X.len, r ≤ R.get i)
    (hsmall : X.len * δ ≤ r / 2) : Near (X.len * δ / r) (obsGram κ X R) (obsGram κ' X R) := by
  have hd : 0 ≤ δ := (abs_nonneg _).trans (h 0 le_rfl)
  have hsym : ∀ κ : ℝ → ℝ, (Continuous fun u => κ |u|) → (obsGram κ X R)ᵀ = obsGram κ X R := by
    intro κ hc
    rw [obsGram_eq_add, transpose_add, diagonal_transpose]
    congr 1
    ext i j
    exact exposureCov_comm hc _ _
  have := Near.of_entries (hsym κ hc) (hsym κ' hc') hr hd (obsGram_low hc hp X hR) (fun i j => by
    rw [obsGram_eq_add, obsGram_eq_add, Matrix.add_apply, Matrix.add_apply, add_sub_add_right_eq_sub]
    exact exposureCov_close hc hc' h _ _) (by simpa using hsmall)
  simpa using this

variable {kernel : Kern} {X : XArg} {solver : Option SolverKind} {diag : Option (ℝ ⊕ Arr ℝ)} {mean : Option (Coord → ℝ)}
  {u : Bool} {gp gp' : GP} {y : Arr ℝ} {lp : EReal} {r : ℝ}

/-- `yᵀ G⁻¹ y`, where `G` is the covariance matrix of the data -/
noncomputable def Spec.misfit (κ : ℝ → ℝ) (X : Arr Coord) (R y : Arr ℝ) : ℝ :=
  (fun i : Fin X.len => y.get i) ⬝ᵥ (obsGram κ X R)⁻¹ *ᵥ fun i => y.get i

/-- **C72, likelihood.** -/
theorem C72_log_probability (h : Regression kernel X solver κ) (hc' : Continuous fun u => κ' |u|) (hκ : ∀ s, 0 ≤ s → |κ' s - κ s| ≤ δ)
    (hnew : GP.new kernel X diag mean solver u = .ok gp) (hy : y.len = X.coords.len) (hr : 0 < r)
    (hR : ∀ i < X.coords.len, r ≤ (GP.noiseOf X.coords.len diag).get i) (hsmall : X.coords.len * δ ≤ r / 2) :
    ∃ ℓ : ℝ, gp.logProbability y = .ok (ℓ : EReal) ∧
      |ℓ - gaussLogDensity (obsGram κ' X.coords (GP.noiseOf X.coords.len diag)) (fun i => y.get i)| ≤
        X.coords.len * δ / r * (misfit κ X.coords (GP.noiseOf X.coords.len diag) y + X.coords.len) := by
  refine ⟨_, C61_log_probability h hnew hy fun i hi => hr.trans_le (hR i hi), ?_⟩
  have := (obsGram_near h.continuous h.psd hc' hκ X.coords hr hR hsmall).logDensity fun i => y.get i
  rw [abs_sub_comm]
  simpa [misfit] using this

/-- **C72, `condition`.** Mean and variance at every data point. -/
theorem C72_condition (h : Regression kernel X solver κ) (hc' : Continuous fun u => κ' |u|) (hκ : ∀ s, 0 ≤ s → |κ' s - κ s| ≤ δ)
    (hnew : GP.new kernel X diag mean solver u = .ok gp) (hr : 0 < r)
    (hR : ∀ i < X.coords.len, r ≤ (GP.noiseOf X.coords.len diag).get i) (hsmall : X.coords.len * δ ≤ r / 2)
    (hcond : gp.condition y = .ok (lp, gp')) :
    ∃ var, gp'.var = some var ∧ ∀ i < X.coords.len,
      (gp'.mean.get i - postMean (obsGram κ' X.coords (GP.noiseOf X.coords.len diag)) (fun j => y.get j)
          (obsCross κ' (X.coords.get i) X.coords)) ^ 2 ≤
        4 * (X.coords.len * δ / r) ^ 2 * (GP.noiseOf X.coords.len diag).get i * misfit κ X.coords (GP.noiseOf X.coords.len diag) y ∧
      |var.get i - postVar (obsGram κ' X.coords (GP.noiseOf X.coords.len diag)) (exposureCov κ' (X.coords.get i) (X.coords.get i))
          (obsCross κ' (X.coords.get i) X.coords)| ≤ 2 * (X.coords.len * δ / r) * (GP.noiseOf X.coords.len diag).get i := by
  have hR0 : ∀ i < X.coords.len, 0 < (GP.noiseOf X.coords.len diag).get i := fun i hi => hr.trans_le (hR i hi)
  obtain ⟨-, -, var, hvar, -, hm⟩ := C61_condition h hnew hR0 hcond
  refine ⟨var, hvar, fun i hi => ?_⟩
  have hn := obsGram_near h.continuous h.psd hc' hκ X.coords hr hR hsmall
  have := Near.at_data (b := fun i j : Fin X.coords.len => exposureCov κ (X.coords.get i) (X.coords.get j))
    (exposureGram_psd h.continuous h.psd _) (fun i => hR0 i i.2) hn (fun j => y.get j) ⟨i, hi⟩
  have e1 : (fun j : Fin X.coords.len => obsGram κ' X.coords (GP.noiseOf X.coords.len diag) ⟨i, hi⟩ j -
      if (⟨i, hi⟩ : Fin X.coords.len) = j then (GP.noiseOf X.coords.len diag).get i else 0) = obsCross κ' (X.coords.get i) X.coords := by
    funext j
    simp only [obsGram, noisyGram, Matrix.of_apply, obsCross]
    ring
  have e2 : obsGram κ' X.coords (GP.noiseOf X.coords.len diag) ⟨i, hi⟩ ⟨i, hi⟩ - (GP.noiseOf X.coords.len diag).get i =
      exposureCov κ' (X.coords.get i) (X.coords.get i) := by
    simp [obsGram, noisyGram]
  dsimp only at this
  rw [e1, e2] at this
  rw [(hm i hi).1, (hm i hi).2]
  refine ⟨?_, ?_⟩
  · rw [← neg_sub, neg_sq]; exact this.1
  · rw [abs_sub_comm]; exact this.2

/-- **C72, `predict`.** Mean and variance of the latent process at every test time. -/
theorem C72_predict (h : Regression kernel X solver κ) (hc' : Continuous fun u => κ' |u|) (hκ : ∀ s, 0 ≤ s → |κ' s - κ s| ≤ δ)
    (hnew : GP.new kernel X diag mean solver u = .ok gp) (hr : 0 < r)
    (hR : ∀ i < X.coords.len, r ≤ (GP.noiseOf X.coords.len diag).get i) (hsmall : X.coords.len * δ ≤ r / 2)
    (hcond : gp.condition y = .ok (lp, gp')) (ts : Arr ℝ) :
    ∃ mu var, gp'.predict (some (.times ts)) = .ok (mu, var) ∧ mu.len = ts.len ∧ var.len = ts.len ∧ ∀ i < ts.len,
      |mu.get i - postMean (obsGram κ' X.coords (GP.noiseOf X.coords.len diag)) (fun j => y.get j)
          (obsCross κ' (.time (ts.get i)) X.coords)| ≤
        2 * (X.coords.len * δ / r * Real.sqrt (κ 0) + δ * Real.sqrt (X.coords.len / r)) *
          Real.sqrt (misfit κ X.coords (GP.noiseOf X.coords.len diag) y) ∧
      |var.get i - postVar (obsGram κ' X.coords (GP.noiseOf X.coords.len diag)) (κ' 0) (obsCross κ' (.time (ts.get i)) X.coords)| ≤
        δ + 2 * (X.coords.len * δ / r) * κ 0 + 4 * (δ * Real.sqrt (X.coords.len / r)) * Real.sqrt (κ 0) +
          2 * (δ * Real.sqrt (X.coords.len / r)) ^ 2 := by
  have hR0 : ∀ i < X.coords.len, 0 < (GP.noiseOf X.coords.len diag).get i := fun i hi => hr.trans_le (hR i hi)
  obtain ⟨mu, var, hp, hl, hl', hm⟩ := C61_predict h hnew hR0 hcond ts
  refine ⟨mu, var, hp, hl, hl', fun i hi => ?_⟩
  have hd : 0 ≤ δ := (abs_nonneg _).trans (hκ 0 le_rfl)
  have hn := obsGram_near h.continuous h.psd hc' hκ X.coords hr hR hsmall
  have h0 : exposureCov κ (.time (ts.get i)) (.time (ts.get i)) = κ 0 := by rw [exposureCov_times, sub_self, abs_zero]
  have hcr := cross_le h.continuous h.psd X.coords hR0 (.time (ts.get i))
  rw [h0] at hcr
  have := hn.posterior (v := κ 0) (v' := κ' 0) (c' := obsCross κ' (.time (ts.get i)) X.coords)
    (g := δ * Real.sqrt (X.coords.len / r)) (by positivity) hcr (by
    refine (inv_le_of_low hn.pd hr (obsGram_low h.continuous h.psd X.coords hR) _).trans ?_
    rw [mul_pow, Real.sq_sqrt (by positivity), mul_div_assoc']
    refine div_le_div_of_nonneg_right ?_ hr.le
    have : ∀ j : Fin X.coords.len, (obsCross κ' (.time (ts.get i)) X.coords - obsCross κ (.time (ts.get i)) X.coords) j *
        (obsCross κ' (.time (ts.get i)) X.coords - obsCross κ (.time (ts.get i)) X.coords) j ≤ δ ^ 2 := fun j => by
      rw [← sq, ← sq_abs]
      exact pow_le_pow_left₀ (abs_nonneg _) (exposureCov_close h.continuous hc' hκ _ _) 2
    refine (Finset.sum_le_sum fun j _ => this j).trans_eq ?_
    simp [mul_comm]) (fun j => y.get j)
  rw [(hm i hi).1, (hm i hi).2]
  refine ⟨?_, ?_⟩
  · rw [abs_sub_comm]; exact this.1
  · rw [abs_sub_comm]
    refine this.2.trans ?_
    have := hκ 0 le_rfl
    linarith

end

/-! ## Kernels that contain `ExpSineSquared` -/

/-- `Approximates k κ' δ p`: `k` is made of valid kernels by sums and products, `κ'` is the covariance function obtained by using the exact
periodic covariance for every `ExpSineSquared` and the covariance of the oscillator's own quality for every `SHO` that is taken for critically damped, `p` bounds both in absolute value, and `δ` bounds their distance. -/
inductive Kern.Approximates : Kern → (ℝ → ℝ) → ℝ → ℝ → Prop
  | exact {k : Kern} {κ : ℝ → ℝ} {p : ℝ} (hv : k.Valid) (hκ : k.model.HasCov κ) (hp : κ 0 ≤ p) : Approximates k κ 0 p
  | periodic {period gamma sigma : ℝ} {order : ℕ} {name : String} (hp : 0 < period) (hg : 0 < gamma) (hσ : sigma ≠ 0) (ho : 0 < order) :
      Approximates (.expSineSquared period gamma sigma order name) (covExpSineSquared period gamma sigma)
        (2 * sigma ^ 2 * ((gamma / 4) ^ min order 50 / (min order 50).factorial)) (sigma ^ 2)
  | nearCritical {omega quality sigma : ℝ} {name : String} (hw : 0 < omega) (hc : SHO.isCritical quality) (hσ : sigma ≠ 0) :
      Approximates (.sho omega quality sigma name) (covSHO omega quality sigma) (6e-6 * sigma ^ 2) (sigma ^ 2)
  | sum {k1 k2 : Kern} {κ1 κ2 : ℝ → ℝ} {δ1 δ2 p1 p2 : ℝ} (h1 : Approximates k1 κ1 δ1 p1) (h2 : Approximates k2 κ2 δ2 p2) :
      Approximates (.sum k1 k2) (fun r => κ1 r + κ2 r) (δ1 + δ2) (p1 + p2)
  | prod {k1 k2 : Kern} {κ1 κ2 : ℝ → ℝ} {δ1 δ2 p1 p2 : ℝ} (h1 : Approximates k1 κ1 δ1 p1) (h2 : Approximates k2 κ2 δ2 p2) :
      Approximates (.prod k1 k2) (fun r => κ1 r * κ2 r) (p1 * δ2 + δ1 * p2) (p1 * p2)

theorem covExpSineSquared_abs (period gamma sigma r : ℝ) : covExpSineSquared period gamma sigma |r| = covExpSineSquared period gamma sigma r := by
  unfold covExpSineSquared
  rcases abs_choice r with h | h
  · rw [h]
  · rw [h, neg_div, mul_neg, Real.sin_neg, neg_sq]

theorem SHO.critical_pos {q : ℝ} (hc : SHO.isCritical q) : 0 < q := by
  unfold SHO.isCritical at hc
  have := (abs_le.1 hc).1
  norm_num [abs_of_pos] at this
  linarith

namespace Kern.Approximates
variable {k : Kern} {κ' : ℝ → ℝ} {δ p : ℝ}

theorem valid (h : k.Approximates κ' δ p) : k.Valid := by
  induction h with
  | exact hv => exact hv
  | periodic hp hg hσ => exact .expSineSquared hp hg hσ
  | nearCritical hw hc hσ => exact .sho hw (SHO.critical_pos hc) (.inl hc) hσ
  | sum _ _ h1 h2 => exact .sum h1 h2
  | prod _ _ h1 h2 => exact .prod h1 h2

theorem continuous (h : k.Approximates κ' δ p) : Continuous fun u => κ' |u| := by
  induction h with
  | exact hv hκ => exact hκ.continuous hv.builtIn.leafCombos
  | periodic =>
    unfold covExpSineSquared
    fun_prop
  | nearCritical hw hc hσ => exact (covSHO_continuous (SHO.critical_pos hc)).comp continuous_abs
  | sum _ _ h1 h2 => exact h1.add h2
  | prod _ _ h1 h2 => exact h1.mul h2

theorem close (h : k.Approximates κ' δ p) (s : ℝ) (hs : 0 ≤ s) :
    |κ' s - k.model.evaluate (.time s) (.time 0)| ≤ δ ∧ |κ' s| ≤ p ∧ |k.model.evaluate (.time s) (.time 0)| ≤ p := by
  induction h with
  | exact hv hκ hp =>
    rename_i k κ p
    have e : k.model.evaluate (.time s) (.time 0) = κ s := by
      rw [hκ]
      show κ |s - 0| = _
      rw [sub_zero, abs_of_nonneg hs]
    have hb : |κ s| ≤ κ 0 := by
      have := (psd_iff _).1 (hκ.psd hv.builtIn.leafCombos 2 ![s, 0])
      have a := this.2 ![1, 1]
      have b := this.2 ![1, -1]
      simp [dotProduct, mulVec, Fin.sum_univ_two, abs_of_nonneg hs] at a b
      rw [abs_le]
      constructor <;> linarith
    rw [e, sub_self, abs_zero]
    exact ⟨le_rfl, hb.trans hp, hb.trans hp⟩
  | periodic hp hg hσ ho =>
    rename_i period gamma sigma order name
    have hσ2 := sq_nonneg sigma
    refine ⟨?_, ?_, ?_⟩
    · have := C29_truncation_bound period gamma sigma order name ho hg (.time s) (.time 0)
      rw [abs_sub_comm]
      simp only [Coord.sortable, sub_zero] at this
      exact this
    · unfold covExpSineSquared
      rw [abs_mul, abs_of_nonneg hσ2, abs_of_pos (Real.exp_pos _)]
      refine mul_le_of_le_one_right hσ2 (Real.exp_le_one_iff.2 ?_)
      have := mul_nonneg hg.le (sq_nonneg (Real.sin (Real.pi * (s / period))))
      linarith
    · exact (C29_bounded period gamma sigma order name ho (.time s) (.time 0) (.time 0)).trans
        (C29_variance_too_small period gamma sigma order name ho hg hσ (.time 0)).le
  | nearCritical hw hc hσ =>
    rename_i omega quality sigma name
    have e : (Kern.sho omega quality sigma name).model.evaluate (.time s) (.time 0) = covSHO omega (1 / 2) sigma s := by
      refine (C24_sho_window omega quality sigma name hw (SHO.critical_pos hc) hc (.time s) (.time 0)).trans ?_
      show covSHO _ _ _ |s - 0| = _
      rw [sub_zero, abs_of_nonneg hs]
    rw [e]
    exact ⟨covSHO_near_critical hw.le hc hs, covSHO_abs_le hw.le (SHO.critical_pos hc) hs, covSHO_abs_le hw.le (by norm_num) hs⟩
  | sum _ _ h1 h2 =>
    rename_i k1 k2 κ1 κ2 δ1 δ2 p1 p2 _ _
    obtain ⟨a1, b1, c1⟩ := h1
    obtain ⟨a2, b2, c2⟩ := h2
    rw [show (Kern.sum k1 k2).model.evaluate (.time s) (.time 0) = k1.model.evaluate (.time s) (.time 0) + k2.model.evaluate (.time s) (.time 0) from
      C27_sum_evaluate _ _ _ _]
    refine ⟨?_, (abs_add_le _ _).trans (add_le_add b1 b2), (abs_add_le _ _).trans (add_le_add c1 c2)⟩
    rw [add_sub_add_comm]
    exact (abs_add_le _ _).trans (add_le_add a1 a2)
  | prod _ _ h1 h2 =>
    rename_i k1 k2 κ1 κ2 δ1 δ2 p1 p2 _ _
    obtain ⟨a1, b1, c1⟩ := h1
    obtain ⟨a2, b2, c2⟩ := h2
    have q1 : 0 ≤ p1 := (abs_nonneg _).trans b1
    have d1 : 0 ≤ δ1 := (abs_nonneg _).trans a1
    rw [show (Kern.prod k1 k2).model.evaluate (.time s) (.time 0) = k1.model.evaluate (.time s) (.time 0) * k2.model.evaluate (.time s) (.time 0) from
      C27_prod_evaluate _ _ _ _]
    refine ⟨?_, by rw [abs_mul]; exact mul_le_mul b1 b2 (abs_nonneg _) q1, by rw [abs_mul]; exact mul_le_mul c1 c2 (abs_nonneg _) q1⟩
    set e1 := k1.model.evaluate (.time s) (.time 0)
    set e2 := k2.model.evaluate (.time s) (.time 0)
    rw [show κ1 s * κ2 s - e1 * e2 = e1 * (κ2 s - e2) + (κ1 s - e1) * κ2 s by ring]
    refine (abs_add_le _ _).trans (add_le_add ?_ ?_)
    · rw [abs_mul]; exact mul_le_mul c1 a2 (abs_nonneg _) q1
    · rw [abs_mul]; exact mul_le_mul a1 b2 (abs_nonneg _) d1

/-- the hypotheses of C72 for such a kernel -/
theorem hasCov (h : k.Approximates κ' δ p) : ∃ κ, k.model.HasCov κ ∧ (∀ s, 0 ≤ s → |κ' s - κ s| ≤ δ) ∧ κ 0 ≤ p := by
  obtain ⟨κ, hκ⟩ := h.valid.hasCov
  have e : ∀ s, 0 ≤ s → k.model.evaluate (.time s) (.time 0) = κ s := fun s hs => by
    rw [hκ]
    show κ |s - 0| = _
    rw [sub_zero, abs_of_nonneg hs]
  refine ⟨κ, hκ, fun s hs => ?_, ?_⟩
  · rw [← e s hs]; exact (h.close s hs).1
  · rw [← e 0 le_rfl]; exact (le_abs_self _).trans (h.close 0 le_rfl).2.2

end Kern.Approximates

section
variable {kernel : Kern} {t : Arr ℝ} {solver : Option SolverKind} {diag : Option (ℝ ⊕ Arr ℝ)} {mean : Option (Coord → ℝ)}
  {u : Bool} {gp gp' : GP} {y : Arr ℝ} {lp : EReal} {κ' : ℝ → ℝ} {δ p r : ℝ}

/-- **C72, periodic kernels, likelihood.** For trees with `ExpSineSquared` or near-critical `SHO`, the log likelihood differs from that of
the exact covariance by at most `N δ / r` times (misfit plus number of data). -/
theorem C72_periodic_log_probability (hk : kernel.Approximates κ' δ p) (hsol : Sequential solver)
    (hnew : GP.new kernel (.times t) diag mean solver u = .ok gp) (ht : Sorted t) (hN : 0 < t.len) (hy : y.len = t.len) (hr : 0 < r)
    (hR : ∀ i < t.len, r ≤ (GP.noiseOf t.len diag).get i) (hsmall : t.len * δ ≤ r / 2) :
    ∃ κ ℓ, kernel.model.HasCov κ ∧ gp.logProbability y = .ok ((ℓ : ℝ) : EReal) ∧
      |ℓ - gaussLogDensity (obsGram κ' (t.map .time) (GP.noiseOf t.len diag)) (fun i : Fin t.len => y.get i)| ≤
        t.len * δ / r * (misfit κ (t.map .time) (GP.noiseOf t.len diag) y + t.len) := by
  obtain ⟨κ, hκ, hcl, -⟩ := hk.hasCov
  obtain ⟨ℓ, h1, h2⟩ := C72_log_probability (.sequential hk.valid hκ hsol ht hN) hk.continuous hcl hnew hy hr hR hsmall
  exact ⟨κ, ℓ, hκ, h1, h2⟩

/-- **C72, periodic kernels, predictions.** -/
theorem C72_periodic_predict (hk : kernel.Approximates κ' δ p) (hsol : Sequential solver)
    (hnew : GP.new kernel (.times t) diag mean solver u = .ok gp) (ht : Sorted t) (hN : 0 < t.len) (hr : 0 < r)
    (hR : ∀ i < t.len, r ≤ (GP.noiseOf t.len diag).get i) (hsmall : t.len * δ ≤ r / 2) (hcond : gp.condition y = .ok (lp, gp')) (ts : Arr ℝ) :
    ∃ κ mu var, kernel.model.HasCov κ ∧ gp'.predict (some (.times ts)) = .ok (mu, var) ∧ ∀ i < ts.len,
      |mu.get i - postMean (obsGram κ' (t.map .time) (GP.noiseOf t.len diag)) (fun j : Fin t.len => y.get j)
          (obsCross κ' (.time (ts.get i)) (t.map .time))| ≤
        2 * (t.len * δ / r * Real.sqrt p + δ * Real.sqrt (t.len / r)) * Real.sqrt (misfit κ (t.map .time) (GP.noiseOf t.len diag) y) ∧
      |var.get i - postVar (obsGram κ' (t.map .time) (GP.noiseOf t.len diag)) (κ' 0) (obsCross κ' (.time (ts.get i)) (t.map .time))| ≤
        δ + 2 * (t.len * δ / r) * p + 4 * (δ * Real.sqrt (t.len / r)) * Real.sqrt p + 2 * (δ * Real.sqrt (t.len / r)) ^ 2 := by
  obtain ⟨κ, hκ, hcl, hp⟩ := hk.hasCov
  obtain ⟨mu, var, h1, -, -, h2⟩ := C72_predict (.sequential hk.valid hκ hsol ht hN) hk.continuous hcl hnew hr hR hsmall hcond ts
  have hd : 0 ≤ δ := (abs_nonneg _).trans (hcl 0 le_rfl)
  have hs := Real.sqrt_le_sqrt hp
  refine ⟨κ, mu, var, hκ, h1, fun i hi => ⟨(h2 i hi).1.trans ?_, (h2 i hi).2.trans ?_⟩⟩
  · show 2 * ((t.len : ℝ) * δ / r * _ + δ * Real.sqrt (t.len / r)) * _ ≤ _
    gcongr
    rfl
  · show δ + 2 * ((t.len : ℝ) * δ / r) * κ 0 + 4 * (δ * Real.sqrt (t.len / r)) * Real.sqrt (κ 0) + 2 * (δ * Real.sqrt (t.len / r)) ^ 2 ≤ _
    gcongr

/-- the quasi-periodic kernel: `Matern32 * ExpSineSquared`, automatic order -/
noncomputable def quasiPeriodic : Kern := .prod (.matern32 10 1 "m") (.expSineSquared 1 1 1 4 "p")

theorem quasiPeriodic_approximates :
    quasiPeriodic.Approximates (fun r => covMatern32 10 1 r * covExpSineSquared 1 1 1 r) (1 * (2 * 1 ^ 2 * ((1 / 4) ^ min 4 50 / (min 4 50).factorial)) + 0 * 1 ^ 2)
      (1 * 1 ^ 2) :=
  .prod (.exact (.matern32 (by norm_num) one_ne_zero) (C24_matern32 10 1 "m" (by norm_num)) (by simp [covMatern32]))
    (.periodic one_pos one_pos one_ne_zero (by norm_num))

/-- the hypotheses can be met: the quasi-periodic kernel, two data, unit noise; the predicted variance is within 1/100 of the exact one -/
example (y ts : Arr ℝ) : ∃ gp lp gp' mu var, GP.new quasiPeriodic (.times twoT) (some (.inl 1)) none none false = .ok gp ∧
    gp.condition y = .ok (lp, gp') ∧ gp'.predict (some (.times ts)) = .ok (mu, var) ∧ ∀ i < ts.len,
      |var.get i - postVar (obsGram (fun r => covMatern32 10 1 r * covExpSineSquared 1 1 1 r) (twoT.map .time) (GP.noiseOf 2 (some (.inl 1))))
        (covMatern32 10 1 0 * covExpSineSquared 1 1 1 0)
        (obsCross (fun r => covMatern32 10 1 r * covExpSineSquared 1 1 1 r) (.time (ts.get i)) (twoT.map .time))| ≤ 1 / 100 := by
  have hk := quasiPeriodic_approximates
  obtain ⟨gp, h⟩ := (C01_constructor hk.valid (.inl rfl) twoT (some (.inl 1)) none).1
  have hk' : gp.kernel = quasiPeriodic := by
    have := (GP.new_ok h).1
    rw [if_neg (by decide)] at this
    exact (Except.ok.inj this).symm
  obtain ⟨⟨lp, gp'⟩, hc⟩ := (C02_condition_succeeds hk.valid (.inl rfl) h y).2 ⟨by show (2 : ℕ) ≠ 1; decide, _, by rw [hk']; rfl⟩
  have h2 : (twoT.len : ℝ) = 2 := by show ((2 : ℕ) : ℝ) = 2; norm_num
  have hδ : (1 * (2 * 1 ^ 2 * (((1 : ℝ) / 4) ^ min 4 50 / ((min 4 50).factorial : ℝ))) + 0 * 1 ^ 2) = 1 / 3072 := by norm_num [Nat.factorial]
  obtain ⟨κ, mu, var, -, hp, hb⟩ := C72_periodic_predict hk (.inl rfl) h twoT_sorted (by show 0 < 2; decide) one_pos (fun i _ => le_rfl)
    (by rw [h2, hδ]; norm_num) hc ts
  refine ⟨gp, lp, gp', mu, var, h, hc, hp, fun i hi => (hb i hi).2.trans ?_⟩
  rw [h2, hδ]
  have hs : Real.sqrt (2 / 1) ≤ 2 := Real.sqrt_le_iff.2 ⟨by norm_num, by norm_num⟩
  have hs1 : Real.sqrt (1 * 1 ^ 2) = 1 := by norm_num
  have hs0 := Real.sqrt_nonneg (2 / 1)
  have hs2 : Real.sqrt (2 / 1) ^ 2 = 2 := by rw [Real.sq_sqrt (by norm_num)]; norm_num
  rw [hs1, mul_pow, hs2]
  linarith

end

end Verif
