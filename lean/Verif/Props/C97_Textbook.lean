import Verif.Props.C97_Resolved
import Verif.Props.C76_Gradient
import Verif.Props.C68_Units

/-!
# C97: closed forms and gradients for oscillators of any damping

The exact regression of C97_Resolved in terms of the closed forms of the covariance functions, and the derivatives of `log_probability` with
respect to parameters of the kernel and noise at parameters for which every entry of the noise of the oscillators is above the cut-off.
-/

namespace Verif
open Matrix Kern Spec Filter Topology

/-- the closed form of the covariance function of a kernel expression, with oscillators of any damping -/
inductive Spec.TextbookAny : Kern → (ℝ → ℝ) → Prop
  | base {k : Kern} {κ : ℝ → ℝ} (h : Textbook k κ) : TextbookAny k κ
  | underdamped {omega quality sigma : ℝ} {name : String} (hw : 0 < omega) (hq : 1 / 2 < quality) (hd : ¬ SHO.isCritical quality)
      (hσ : sigma ≠ 0) : TextbookAny (.sho omega quality sigma name) (covSHO omega quality sigma)
  | sum {k1 k2 : Kern} {κ1 κ2 : ℝ → ℝ} (h1 : TextbookAny k1 κ1) (h2 : TextbookAny k2 κ2) : TextbookAny (.sum k1 k2) fun r => κ1 r + κ2 r
  | prod {k1 k2 : Kern} {κ1 κ2 : ℝ → ℝ} (h1 : TextbookAny k1 κ1) (h2 : TextbookAny k2 κ2) : TextbookAny (.prod k1 k2) fun r => κ1 r * κ2 r

theorem Spec.TextbookAny.facts {k : Kern} {κ : ℝ → ℝ} (h : TextbookAny k κ) : k.AnyDamping ∧ k.model.HasCov κ := by
  induction h with
  | base h => exact ⟨.valid h.facts.1, h.facts.2⟩
  | underdamped hw hq hd hσ => exact ⟨.sho hw hq hd hσ, C24_sho _ _ _ _ hw (by linarith) (.inr hd)⟩
  | sum _ _ h1 h2 =>
    refine ⟨.sum h1.1 h2.1, fun X1 X2 => (C27_sum_evaluate _ _ X1 X2).trans ?_⟩
    rw [h1.2, h2.2]
  | prod _ _ h1 h2 =>
    refine ⟨.prod h1.1 h2.1, fun X1 X2 => (C27_prod_evaluate _ _ X1 X2).trans ?_⟩
    rw [h1.2, h2.2]

theorem SolverFor.instantaneous {kernel : Kern} {solver : Option SolverKind} (h : SolverFor kernel solver) : InstantSolver kernel solver := by
  rcases h with h | h | h
  exacts [.inl (.inl h), .inl (.inr h), .inr h]

section
variable {kernel : Kern} {t : Arr ℝ} {solver : Option SolverKind} {κ : ℝ → ℝ} {diag : Option (ℝ ⊕ Arr ℝ)} {mean : Option (Coord → ℝ)}
  {u : Bool} {gp gp' : GP} {y : Arr ℝ} {lp : EReal}

/-- **C97, likelihood, closed form.** -/
theorem C97_textbook_log_probability (h : TextbookAny kernel κ) (hsol : SolverFor kernel solver)
    (hnew : GP.new kernel (.times t) diag mean solver u = .ok gp) (ht : Sorted t) (hN : 0 < t.len)
    (hg : ∀ i, i + 1 < t.len → kernel.Resolves (t.get (i + 1) - t.get i)) (hR : ∀ i < t.len, 0 < noiseVar diag i) :
    gp.logProbability y = .ok ((-(1 / 2) * ((fun i : Fin t.len => y.get i) ⬝ᵥ (dataMatrix κ t diag)⁻¹ *ᵥ fun i => y.get i) -
      1 / 2 * Real.log (dataMatrix κ t diag).det - (t.len : ℝ) / 2 * Real.log (2 * Real.pi) : ℝ) : EReal) := by
  have := C97_log_probability h.facts.1 h.facts.2 hsol.instantaneous hnew ht hN hg (fun i hi => by rw [noiseOf_get]; exact hR i hi) y
  have e := obsGram_textbook κ t diag
  rw [this]
  rw [← e]
  unfold gaussLogDensity
  rw [Fintype.card_fin]
  rfl

/-- **C97, prediction, closed form.** -/
theorem C97_textbook_predict (h : TextbookAny kernel κ) (hsol : SolverFor kernel solver)
    (hnew : GP.new kernel (.times t) diag mean solver u = .ok gp) (ht : Sorted t) (hN : 0 < t.len)
    (hg : ∀ i, i + 1 < t.len → kernel.Resolves (t.get (i + 1) - t.get i)) (hR : ∀ i < t.len, 0 < noiseVar diag i)
    (hcond : gp.condition y = .ok (lp, gp')) (ts : Arr ℝ) :
    ∃ mu var, gp'.predict (some (.times ts)) = .ok (mu, var) ∧ mu.len = ts.len ∧ var.len = ts.len ∧ ∀ m,
      (∀ i < t.len, t.get i ≤ ts.get m → (∀ j < t.len, t.get j ≤ ts.get m → t.get j ≤ t.get i) → kernel.Resolves (ts.get m - t.get i)) →
      mu.get m = (fun j : Fin t.len => κ |ts.get m - t.get j|) ⬝ᵥ (dataMatrix κ t diag)⁻¹ *ᵥ (fun j => y.get j) ∧
      var.get m = κ 0 - (fun j : Fin t.len => κ |ts.get m - t.get j|) ⬝ᵥ (dataMatrix κ t diag)⁻¹ *ᵥ fun j => κ |ts.get m - t.get j| := by
  obtain ⟨mu, var, h1, h2, h3, h4⟩ := C97_predict h.facts.1 h.facts.2 hsol.instantaneous hnew ht hN hg
    (fun i hi => by rw [noiseOf_get]; exact hR i hi) hcond ts
  refine ⟨mu, var, h1, h2, h3, fun m hm => ?_⟩
  have := h4 m hm
  rw [obsCross_textbook] at this
  rw [← obsGram_textbook]
  exact this

end

section gradient
variable {kernel : ℝ → Kern} {t : Arr ℝ} {solver : Option SolverKind} {κ : ℝ → ℝ → ℝ} {κ' : ℝ → ℝ} {diag : ℝ → Option (ℝ ⊕ Arr ℝ)}
  {mean : Option (Coord → ℝ)} {u : Bool} {gp gpc : ℝ → GP} {y : Arr ℝ} {θ₀ : ℝ} {lp : ℝ → EReal} {R' : Fin t.len → ℝ}

/-- expressions whose parameters are differentiable functions of one variable, with oscillators of any damping -/
inductive Spec.DifferentiableAny (θ₀ : ℝ) : (ℝ → Kern) → (ℝ → ℝ → ℝ) → Prop
  | base {k : ℝ → Kern} {κ : ℝ → ℝ → ℝ} (h : Spec.Differentiable θ₀ k κ) : DifferentiableAny θ₀ k κ
  | underdamped {w q σ : ℝ → ℝ} {name : String} (hw : DifferentiableAt ℝ w θ₀) (hq : DifferentiableAt ℝ q θ₀) (hσ : DifferentiableAt ℝ σ θ₀)
      (h1 : 0 < w θ₀) (h4 : 1 / 2 < q θ₀) (h5 : ¬ SHO.isCritical (q θ₀)) (h2 : σ θ₀ ≠ 0) :
      DifferentiableAny θ₀ (fun θ => .sho (w θ) (q θ) (σ θ) name) fun θ => covSHO (w θ) (q θ) (σ θ)
  | sum {k1 k2 : ℝ → Kern} {κ1 κ2 : ℝ → ℝ → ℝ} (h1 : DifferentiableAny θ₀ k1 κ1) (h2 : DifferentiableAny θ₀ k2 κ2) :
      DifferentiableAny θ₀ (fun θ => .sum (k1 θ) (k2 θ)) fun θ r => κ1 θ r + κ2 θ r
  | prod {k1 k2 : ℝ → Kern} {κ1 κ2 : ℝ → ℝ → ℝ} (h1 : DifferentiableAny θ₀ k1 κ1) (h2 : DifferentiableAny θ₀ k2 κ2) :
      DifferentiableAny θ₀ (fun θ => .prod (k1 θ) (k2 θ)) fun θ r => κ1 θ r * κ2 θ r

/-- every entry of the noise of the underdamped oscillators is above the cut-off -/
def Kern.AboveCutoff (s : ℝ) (k : Kern) : Prop := k.OscillatorNoise (fun e => 1e-14 < |e|) s

theorem Kern.AnyDamping.resolves_of_above {k : Kern} (h : k.AnyDamping) {s : ℝ} (hs : k.AboveCutoff s) : k.Resolves s := by
  induction h with
  | valid hv => exact hv.oscillatorNoise _ _
  | sho hw hq hd => exact (oscillatorNoise_sho hw hq hd).2 fun i j => .inr ((oscillatorNoise_sho hw hq hd).1 hs i j).le
  | sum _ _ h1 h2 => exact ⟨h1 hs.1, h2 hs.2⟩
  | prod _ _ h1 h2 => exact ⟨h1 hs.1, h2 hs.2⟩

theorem Spec.DifferentiableAny.facts (h : DifferentiableAny θ₀ kernel κ) :
    (∀ᶠ θ in 𝓝 θ₀, TextbookAny (kernel θ) (κ θ)) ∧ (∀ r, 0 ≤ r → DifferentiableAt ℝ (fun θ => κ θ r) θ₀) ∧
    ∀ s, (kernel θ₀).AboveCutoff s → ∀ᶠ θ in 𝓝 θ₀, (kernel θ).Resolves s := by
  induction h with
  | base h =>
    refine ⟨h.facts.1.mono fun θ hθ => .base hθ, h.facts.2, fun s _ => ?_⟩
    filter_upwards [h.facts.1] with θ hθ
    exact hθ.facts.1.oscillatorNoise _ _
  | @underdamped w q σ name hw hq hσ h1 h4 h5 h2 =>
    have hev : ∀ᶠ θ in 𝓝 θ₀, 1 / 2 < q θ := hq.continuousAt.eventually (lt_mem_nhds h4)
    have hcrit : ∀ᶠ θ in 𝓝 θ₀, ¬ SHO.isCritical (q θ) := by
      have h6 : 1e-8 + 1e-5 * |(0.5 : ℝ)| < |q θ₀ - 0.5| := not_le.1 h5
      have hc : ContinuousAt (fun θ => |q θ - 0.5|) θ₀ := (hq.continuousAt.sub continuousAt_const).abs
      filter_upwards [hc.eventually (lt_mem_nhds h6)] with θ hθ
      exact not_le.2 hθ
    set E : ℝ → ℝ := fun θ => Real.sqrt (1 - 1 / (4 * q θ ^ 2)) with hE
    have hlt : ∀ x : ℝ, 1 / 2 < x → 0 < 1 - 1 / (4 * x ^ 2) := fun x hx => by
      rw [sub_pos, div_lt_iff₀ (by nlinarith)]
      nlinarith
    have hpos := hlt _ h4
    have hq0 : 0 < q θ₀ := by linarith
    have hne : 4 * q θ₀ ^ 2 ≠ 0 := by positivity
    have hEd : DifferentiableAt ℝ E θ₀ := by
      have h6 : DifferentiableAt ℝ (fun θ => 1 - 1 / (4 * q θ ^ 2)) θ₀ := by fun_prop (disch := assumption)
      exact h6.sqrt hpos.ne'
    have hEpos : 0 < E θ₀ := Real.sqrt_pos.2 hpos
    have hE0 : 2 * E θ₀ * q θ₀ ≠ 0 := (mul_pos (mul_pos two_pos hEpos) hq0).ne'
    have hq2 : 2 * q θ₀ ≠ 0 := by positivity
    have he : ∀ᶠ θ in 𝓝 θ₀, Real.sqrt |1 - 1 / (4 * q θ ^ 2)| = E θ := by
      filter_upwards [hev] with θ a
      rw [abs_of_pos (hlt _ a)]
    refine ⟨?_, fun r _ => ?_, fun s hs => ?_⟩
    · filter_upwards [eventually_pos hw h1, hev, hcrit, eventually_ne hσ h2] with θ a c d e
      exact .underdamped a c d e
    · have hd : DifferentiableAt ℝ (fun θ => σ θ ^ 2 * Real.exp (-(w θ * r / (2 * q θ))) *
          (Real.cos (E θ * w θ * r) + 1 / (2 * E θ * q θ) * Real.sin (E θ * w θ * r))) θ₀ := by
        fun_prop (disch := assumption)
      refine hd.congr_of_eventuallyEq ?_
      filter_upwards [hev, he] with θ a e
      show covSHO (w θ) (q θ) (σ θ) r = _
      unfold covSHO
      simp only [e, if_neg a.ne', if_neg a.le.not_gt]
    · have hs' := (oscillatorNoise_sho h1 h4 h5).1 hs
      have hc : ∀ i j, ContinuousAt (fun θ => SHO.QunderExact (w θ) (q θ) (σ θ) s i j) θ₀ := by
        have hη : ∀ᶠ θ in 𝓝 θ₀, SHO.eta (q θ) = E θ := he
        have hc1 := hw.continuousAt
        have hc2 := hq.continuousAt
        have hc3 := hσ.continuousAt
        have hc4 := hEd.continuousAt
        have n1 : q θ₀ ≠ 0 := hq0.ne'
        have n2 : 2 * E θ₀ ^ 2 * q θ₀ ^ 2 ≠ 0 := by positivity
        have n3 : E θ₀ ^ 2 * q θ₀ ≠ 0 := by positivity
        intro i j
        have hcE : ContinuousAt (fun θ =>
            let f := 2 * E θ * q θ
            let sin2 := Real.sin (2 * (E θ * w θ * s))
            let sinsq := Real.sin (E θ * w θ * s) ^ 2
            let exp := Real.exp (-(w θ * s / q θ))
            let expm1 := Real.exp (-(w θ * s / q θ)) - 1
            (σ θ ^ 2 • (!![-expm1 - (sin2 / f + sinsq / (2 * E θ ^ 2 * q θ ^ 2)) * exp, exp * (w θ * sinsq / (E θ ^ 2 * q θ));
              exp * (w θ * sinsq / (E θ ^ 2 * q θ)), w θ ^ 2 * (-expm1 + exp * (sin2 / f - sinsq / (2 * E θ ^ 2 * q θ ^ 2)))] :
              Matrix (Fin 2) (Fin 2) ℝ)) i j) θ₀ := by
          fin_cases i <;> fin_cases j <;> simp [Matrix.smul_apply] <;> fun_prop (disch := assumption)
        refine hcE.congr ?_
        filter_upwards [hη] with θ e
        unfold SHO.QunderExact
        rw [e]
      have hev2 : ∀ i j, ∀ᶠ θ in 𝓝 θ₀, 1e-14 < |SHO.QunderExact (w θ) (q θ) (σ θ) s i j| := fun i j =>
        (hc i j).abs.eventually (lt_mem_nhds (hs' i j))
      filter_upwards [eventually_pos hw h1, hev, hcrit, eventually_all.2 fun i => eventually_all.2 fun j => hev2 i j] with θ a c d e
      exact (oscillatorNoise_sho a c d).2 fun i j => .inr (e i j).le
  | sum _ _ ih1 ih2 =>
    refine ⟨?_, fun r hr => (ih1.2.1 r hr).add (ih2.2.1 r hr), fun s hs => (ih1.2.2 s hs.1).and (ih2.2.2 s hs.2)⟩
    filter_upwards [ih1.1, ih2.1] with θ a b
    exact .sum a b
  | prod _ _ ih1 ih2 =>
    refine ⟨?_, fun r hr => (ih1.2.1 r hr).mul (ih2.2.1 r hr), fun s hs => (ih1.2.2 s hs.1).and (ih2.2.2 s hs.2)⟩
    filter_upwards [ih1.1, ih2.1] with θ a b
    exact .prod a b

/-- **C97, gradient of the likelihood.** -/
theorem C97_gradient (h : DifferentiableAny θ₀ kernel κ) (hsol : ∀ᶠ θ in 𝓝 θ₀, SolverFor (kernel θ) solver)
    (hnew : ∀ᶠ θ in 𝓝 θ₀, GP.new (kernel θ) (.times t) (diag θ) mean solver u = .ok (gp θ)) (ht : Sorted t) (hN : 0 < t.len)
    (hg : ∀ i, i + 1 < t.len → (kernel θ₀).AboveCutoff (t.get (i + 1) - t.get i)) (hR : ∀ i < t.len, 0 < noiseVar (diag θ₀) i)
    (hκ : ∀ r, 0 ≤ r → HasDerivAt (fun θ => κ θ r) (κ' r) θ₀)
    (hR' : ∀ i : Fin t.len, HasDerivAt (fun θ => noiseVar (diag θ) i) (R' i) θ₀) :
    ∃ l : ℝ → ℝ, (∀ᶠ θ in 𝓝 θ₀, (gp θ).logProbability y = .ok (l θ : EReal)) ∧
      HasDerivAt l (logDensityDeriv (dataMatrix (κ θ₀) t (diag θ₀)) (dataMatrixDeriv κ' t R') fun i => y.get i) θ₀ := by
  obtain ⟨h1, -, h3⟩ := h.facts
  have hres : ∀ᶠ θ in 𝓝 θ₀, ∀ i ∈ Finset.range (t.len - 1), (kernel θ).Resolves (t.get (i + 1) - t.get i) := by
    rw [eventually_all_finset]
    intro i hi
    exact h3 _ (hg i (by have := Finset.mem_range.1 hi; omega))
  have hnoise : ∀ᶠ θ in 𝓝 θ₀, ∀ i : Fin t.len, 0 < noiseVar (diag θ) i :=
    eventually_all.2 fun i => (hR' i).continuousAt.eventually (lt_mem_nhds (hR i i.2))
  refine ⟨fun θ => gaussLogDensity (dataMatrix (κ θ) t (diag θ)) fun i => y.get i, ?_, ?_⟩
  · filter_upwards [h1, hsol, hnew, hres, hnoise] with θ a b c d e
    rw [C97_textbook_log_probability a b c ht hN (fun i hi => d i (Finset.mem_range.2 (by omega))) fun i hi => e ⟨i, hi⟩]
    unfold gaussLogDensity
    rw [Fintype.card_fin]
  · have hpd : (dataMatrix (κ θ₀) t (diag θ₀)).PosDef := by
      obtain ⟨hk, hκ₀⟩ := h1.self_of_nhds.facts
      have := dataGram_pd_any hk.combos (XArg.times t).coords (GP.noiseOf (XArg.times t).coords.len (diag θ₀))
        fun i hi => by rw [noiseOf_get]; exact hR i hi
      have e := dataGram_eq_obsGram hκ₀ (t := t) (R := GP.noiseOf (XArg.times t).coords.len (diag θ₀))
      rw [← obsGram_textbook]
      exact e ▸ this
    refine logDensity_deriv hpd (fun i j => ?_) _
    simp only [dataMatrix, dataMatrixDeriv, Matrix.of_apply]
    refine (hκ _ (abs_nonneg _)).add ?_
    by_cases hij : i = j
    · simp only [if_pos hij]
      exact hR' i
    · simp only [if_neg hij]
      exact hasDerivAt_const _ _

/-- **C97, differentiability of the likelihood**, in terms of the parameters only. -/
theorem C97_differentiable (h : DifferentiableAny θ₀ kernel κ) (hsol : ∀ᶠ θ in 𝓝 θ₀, SolverFor (kernel θ) solver)
    (hnew : ∀ᶠ θ in 𝓝 θ₀, GP.new (kernel θ) (.times t) (diag θ) mean solver u = .ok (gp θ)) (ht : Sorted t) (hN : 0 < t.len)
    (hg : ∀ i, i + 1 < t.len → (kernel θ₀).AboveCutoff (t.get (i + 1) - t.get i)) (hR : ∀ i < t.len, 0 < noiseVar (diag θ₀) i)
    (hR' : ∀ i < t.len, DifferentiableAt ℝ (fun θ => noiseVar (diag θ) i) θ₀) (y : Arr ℝ) :
    ∃ l : ℝ → ℝ, (∀ᶠ θ in 𝓝 θ₀, (gp θ).logProbability y = .ok (l θ : EReal)) ∧ DifferentiableAt ℝ l θ₀ := by
  obtain ⟨l, h3, h4⟩ := C97_gradient (y := y) (κ' := fun r => deriv (fun θ => κ θ r) θ₀)
    (R' := fun i => deriv (fun θ => noiseVar (diag θ) i) θ₀) h hsol hnew ht hN hg hR (fun r hr => (h.facts.2.1 r hr).hasDerivAt)
    (fun i => (hR' i i.2).hasDerivAt)
  exact ⟨l, h3, h4.differentiableAt⟩

end gradient

section examples

theorem SHO.quarter_oscillation (i j : Fin 2) : 1e-14 < |SHO.QunderExact 1 1 1 (Real.pi / 2 / SHO.eta 1) i j| := by
  have hn : 0 < SHO.eta 1 := SHO.eta_pos_under (by norm_num)
  have hx : SHO.eta 1 * (Real.pi / 2 / SHO.eta 1) = Real.pi / 2 := by field_simp
  have hn2 : SHO.eta 1 ^ 2 = 3 / 4 := by
    unfold SHO.eta
    rw [Real.sq_sqrt (abs_nonneg _)]
    norm_num [abs_of_pos]
  have hn1 : SHO.eta 1 ≤ 1 := by nlinarith
  have ha : 1 ≤ Real.pi / 2 / SHO.eta 1 := by
    rw [le_div_iff₀ hn]; linarith [Real.two_le_pi]
  have ha4 : Real.pi / 2 / SHO.eta 1 ≤ 4 := by
    have : 1 / 2 ≤ SHO.eta 1 := by nlinarith
    rw [div_le_iff₀ hn]; linarith [Real.pi_le_four]
  have he1 : Real.exp (-1) ≤ 1 / 2 := by
    rw [Real.exp_neg, one_div]
    exact inv_anti₀ two_pos (by linarith [Real.add_one_le_exp (1 : ℝ)])
  have he : Real.exp (-(Real.pi / 2 / SHO.eta 1)) ≤ 1 / 2 := (Real.exp_le_exp.2 (by linarith)).trans he1
  have hlow : 1 / 100 ≤ Real.exp (-(Real.pi / 2 / SHO.eta 1)) := by
    refine le_trans ?_ (Real.exp_le_exp.2 (by linarith : (-4 : ℝ) ≤ _))
    rw [Real.exp_neg, one_div]
    refine inv_anti₀ (Real.exp_pos _) ?_
    have h1 := Real.exp_one_lt_d9
    have : Real.exp 4 = Real.exp 1 ^ 4 := by rw [← Real.exp_nat_mul]; norm_num
    rw [this]
    calc Real.exp 1 ^ 4 ≤ 3 ^ 4 := pow_le_pow_left₀ (Real.exp_pos _).le (by linarith) 4
      _ ≤ 100 := by norm_num
  have h2x : Real.sin (2 * (Real.pi / 2)) = 0 := by rw [mul_div_cancel₀ _ two_ne_zero, Real.sin_pi]
  unfold SHO.QunderExact
  simp only [hx, hn2, h2x, Real.sin_pi_div_two, one_mul, div_one, one_pow, zero_div, mul_one, zero_add, zero_sub, one_smul]
  set e := Real.exp (-(Real.pi / 2 / SHO.eta 1))
  fin_cases i <;> fin_cases j <;> refine lt_of_lt_of_le ?_ (le_abs_self _) <;> norm_num <;> linarith

noncomputable def quarterOscT : Arr ℝ := ⟨3, fun i => i * (Real.pi / 2 / SHO.eta 1)⟩

/-- the likelihood of an underdamped oscillator is a differentiable function of its quality -/
example (y : Arr ℝ) : ∃ gp : ℝ → GP, (∀ q, GP.new (.sho 1 q 1 "osc") (.times quarterOscT) (some (.inl 1)) none (some .parallel) true = .ok (gp q)) ∧
    ∃ l : ℝ → ℝ, (∀ᶠ q in 𝓝 1, (gp q).logProbability y = .ok (l q : EReal)) ∧ DifferentiableAt ℝ l 1 := by
  have hnew : ∀ q : ℝ, ∃ gp, GP.new (.sho 1 q 1 "osc") (.times quarterOscT) (some (.inl 1)) none (some .parallel) true = .ok gp := fun q =>
    GP.new_eq (u := true) _ _ (k := .sho 1 q 1 "osc") rfl (fun h => by cases h) rfl
  choose gp hgp using hnew
  refine ⟨gp, hgp, C97_differentiable (κ := fun q => covSHO 1 q 1) (.underdamped (differentiableAt_const _) differentiableAt_id
    (differentiableAt_const _) one_pos (by norm_num) SHO.not_critical_one one_ne_zero) (.of_forall fun q => .inr (.inr ⟨rfl, ?_⟩))
    (.of_forall hgp) (fun i j hij _ => ?_) (by decide) (fun i _ => ?_) (fun _ _ => one_pos) (fun _ _ => differentiableAt_const _) y⟩
  · exact ((transitionError_iff true _).1 rfl).2 rfl
  · exact mul_le_mul_of_nonneg_right (by exact_mod_cast hij) (div_nonneg (by positivity) (Real.sqrt_nonneg _))
  · have e : quarterOscT.get (i + 1) - quarterOscT.get i = Real.pi / 2 / SHO.eta 1 := by
      show ((i + 1 : ℕ) : ℝ) * _ - (i : ℝ) * _ = _
      push_cast; ring
    rw [e]
    exact (oscillatorNoise_sho one_pos (by norm_num) SHO.not_critical_one).2 SHO.quarter_oscillation

end examples

end Verif
