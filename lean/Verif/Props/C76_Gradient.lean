import Verif.Props.C62_Curves
import Verif.Props.C71_Textbook
import Verif.Lemmas.DetDeriv
import Verif.Lemmas.ExposureDeriv
import Mathlib.Analysis.SpecialFunctions.Trigonometric.Deriv
import Mathlib.Analysis.SpecialFunctions.Trigonometric.DerivHyp
import Mathlib.Analysis.SpecialFunctions.Sqrt

/-!
# C76: gradients

`log_probability` and the predictions are differentiable functions of the parameters of the kernel and of the noise, and their derivatives are
those of the textbook: `½ (K⁻¹y)ᵀ K' (K⁻¹y) - ½ tr(K⁻¹K')` and so on, where `K'` is the derivative of the covariance matrix of the data. (What
`jax.grad` returns is not modelled; if it is the derivative of the function computed, it is this.)
-/

namespace Verif
open Matrix Kern Spec Filter Topology

section
variable {kernel : ℝ → Kern} {X : XArg} {solver : Option SolverKind} {κ : ℝ → ℝ → ℝ} {diag : ℝ → Option (ℝ ⊕ Arr ℝ)}
  {mean : Option (Coord → ℝ)} {u : Bool} {gp gpc : ℝ → GP} {y : Arr ℝ} {θ₀ : ℝ} {lp : ℝ → EReal}
  {B' : Fin X.coords.len → Fin X.coords.len → ℝ} {R' : Fin X.coords.len → ℝ}

/-- A family of GPs of one parameter: near `θ₀` they do exact regression with the covariance function `κ θ`, the covariances of the data have
the derivatives `B'` and the noise variances, positive at `θ₀`, have the derivatives `R'`. -/
structure GradientFamily (kernel : ℝ → Kern) (X : XArg) (solver : Option SolverKind) (κ : ℝ → ℝ → ℝ) (diag : ℝ → Option (ℝ ⊕ Arr ℝ))
    (mean : Option (Coord → ℝ)) (u : Bool) (gp : ℝ → GP) (θ₀ : ℝ) (B' : Fin X.coords.len → Fin X.coords.len → ℝ) (R' : Fin X.coords.len → ℝ) :
    Prop where
  regression : ∀ᶠ θ in 𝓝 θ₀, Regression (kernel θ) X solver (κ θ)
  new : ∀ᶠ θ in 𝓝 θ₀, GP.new (kernel θ) X (diag θ) mean solver u = .ok (gp θ)
  noise_pos : ∀ i < X.coords.len, 0 < noiseVar (diag θ₀) i
  cov_deriv : ∀ i j : Fin X.coords.len, HasDerivAt (fun θ => exposureCov (κ θ) (X.coords.get i) (X.coords.get j)) (B' i j) θ₀
  noise_deriv : ∀ i : Fin X.coords.len, HasDerivAt (fun θ => noiseVar (diag θ) i) (R' i) θ₀

namespace GradientFamily
variable (h : GradientFamily kernel X solver κ diag mean u gp θ₀ B' R')
include h

theorem noise : ∀ᶠ θ in 𝓝 θ₀, ∀ i < X.coords.len, 0 < (GP.noiseOf X.coords.len (diag θ)).get i := by
  have h1 : ∀ i : Fin X.coords.len, ∀ᶠ θ in 𝓝 θ₀, 0 < noiseVar (diag θ) i := fun i =>
    (h.noise_deriv i).continuousAt.eventually (lt_mem_nhds (h.noise_pos i i.2))
  filter_upwards [eventually_all.2 h1] with θ hθ i hi
  rw [noiseOf_get]
  exact hθ ⟨i, hi⟩

theorem gram : MDeriv (fun θ => obsGram (κ θ) X.coords (GP.noiseOf X.coords.len (diag θ))) (noisyGram B' R') θ₀ := fun i j => by
  simp only [obsGram, noisyGram, Matrix.of_apply, noiseOf_get]
  refine (h.cov_deriv i j).add ?_
  by_cases hij : i = j
  · simp only [if_pos hij]
    exact h.noise_deriv i
  · simp only [if_neg hij]
    exact hasDerivAt_const _ _

theorem gram_pd : (obsGram (κ θ₀) X.coords (GP.noiseOf X.coords.len (diag θ₀))).PosDef :=
  h.regression.self_of_nhds.gram_pd h.noise.self_of_nhds

end GradientFamily

/-- **C76, likelihood.** `log_probability` has the textbook derivative with respect to any parameter of kernel and noise. -/
theorem C76_log_probability (h : GradientFamily kernel X solver κ diag mean u gp θ₀ B' R') (hy : y.len = X.coords.len) :
    ∃ l : ℝ → ℝ, (∀ᶠ θ in 𝓝 θ₀, (gp θ).logProbability y = .ok (l θ : EReal)) ∧
      HasDerivAt l (logDensityDeriv (obsGram (κ θ₀) X.coords (GP.noiseOf X.coords.len (diag θ₀))) (noisyGram B' R') fun i => y.get i) θ₀ := by
  refine ⟨fun θ => gaussLogDensity (obsGram (κ θ) X.coords (GP.noiseOf X.coords.len (diag θ))) fun i => y.get i, ?_, ?_⟩
  · filter_upwards [h.regression, h.new, h.noise] with θ h1 h2 h3
    exact C61_log_probability h1 h2 hy h3
  · exact logDensity_deriv h.gram_pd h.gram _

/-- **C76, prediction.** Predicted means and variances have the textbook derivatives. -/
theorem C76_predict (h : GradientFamily kernel X solver κ diag mean u gp θ₀ B' R')
    (hcond : ∀ᶠ θ in 𝓝 θ₀, (gp θ).condition y = .ok (lp θ, gpc θ)) (ts : Arr ℝ) {c' : ℕ → Fin X.coords.len → ℝ} {v' : ℝ}
    (hv : HasDerivAt (fun θ => κ θ 0) v' θ₀)
    (hc : ∀ i < ts.len, ∀ j : Fin X.coords.len, HasDerivAt (fun θ => exposureCov (κ θ) (.time (ts.get i)) (X.coords.get j)) (c' i j) θ₀) :
    ∃ mu var : ℝ → Arr ℝ, (∀ᶠ θ in 𝓝 θ₀, (gpc θ).predict (some (.times ts)) = .ok (mu θ, var θ)) ∧ ∀ i < ts.len,
      HasDerivAt (fun θ => (mu θ).get i) (postMeanDeriv (obsGram (κ θ₀) X.coords (GP.noiseOf X.coords.len (diag θ₀))) (noisyGram B' R')
        (fun j => y.get j) (obsCross (κ θ₀) (.time (ts.get i)) X.coords) (c' i)) θ₀ ∧
      HasDerivAt (fun θ => (var θ).get i) (postVarDeriv (obsGram (κ θ₀) X.coords (GP.noiseOf X.coords.len (diag θ₀))) (noisyGram B' R')
        v' (obsCross (κ θ₀) (.time (ts.get i)) X.coords) (c' i)) θ₀ := by
  have hev : ∀ᶠ θ in 𝓝 θ₀, ∃ mv : Arr ℝ × Arr ℝ, (gpc θ).predict (some (.times ts)) = .ok mv ∧ ∀ i < ts.len,
      mv.1.get i = postMean (obsGram (κ θ) X.coords (GP.noiseOf X.coords.len (diag θ))) (fun j => y.get j)
        (obsCross (κ θ) (.time (ts.get i)) X.coords) ∧
      mv.2.get i = postVar (obsGram (κ θ) X.coords (GP.noiseOf X.coords.len (diag θ))) (κ θ 0) (obsCross (κ θ) (.time (ts.get i)) X.coords) := by
    filter_upwards [h.regression, h.new, h.noise, hcond] with θ h1 h2 h3 h4
    obtain ⟨mu, var, hp, -, -, hm⟩ := C61_predict h1 h2 h3 h4 ts
    exact ⟨(mu, var), hp, hm⟩
  classical
  set mv : ℝ → Arr ℝ × Arr ℝ := fun θ => if hθ : ∃ mv : Arr ℝ × Arr ℝ, (gpc θ).predict (some (.times ts)) = .ok mv ∧ ∀ i < ts.len,
      mv.1.get i = postMean (obsGram (κ θ) X.coords (GP.noiseOf X.coords.len (diag θ))) (fun j => y.get j)
        (obsCross (κ θ) (.time (ts.get i)) X.coords) ∧
      mv.2.get i = postVar (obsGram (κ θ) X.coords (GP.noiseOf X.coords.len (diag θ))) (κ θ 0) (obsCross (κ θ) (.time (ts.get i)) X.coords)
    then hθ.choose else (⟨0, fun _ => 0⟩, ⟨0, fun _ => 0⟩) with hmv
  have hmv' : ∀ᶠ θ in 𝓝 θ₀, (gpc θ).predict (some (.times ts)) = .ok (mv θ) ∧ ∀ i < ts.len,
      (mv θ).1.get i = postMean (obsGram (κ θ) X.coords (GP.noiseOf X.coords.len (diag θ))) (fun j => y.get j)
        (obsCross (κ θ) (.time (ts.get i)) X.coords) ∧
      (mv θ).2.get i = postVar (obsGram (κ θ) X.coords (GP.noiseOf X.coords.len (diag θ))) (κ θ 0)
        (obsCross (κ θ) (.time (ts.get i)) X.coords) := by
    filter_upwards [hev] with θ hθ
    have : mv θ = hθ.choose := dif_pos hθ
    rw [this]
    exact hθ.choose_spec
  refine ⟨fun θ => (mv θ).1, fun θ => (mv θ).2, hmv'.mono fun θ hθ => hθ.1, fun i hi => ⟨?_, ?_⟩⟩
  · exact (postMean_deriv h.gram_pd h.gram _ (fun j => hc i hi j)).congr_of_eventuallyEq (hmv'.mono fun θ hθ => (hθ.2 i hi).1)
  · exact (postVar_deriv h.gram_pd h.gram hv (fun j => hc i hi j)).congr_of_eventuallyEq (hmv'.mono fun θ hθ => (hθ.2 i hi).2)

end

section textbook
variable {kernel : ℝ → Kern} {t : Arr ℝ} {solver : Option SolverKind} {κ : ℝ → ℝ → ℝ} {κ' : ℝ → ℝ} {diag : ℝ → Option (ℝ ⊕ Arr ℝ)}
  {mean : Option (Coord → ℝ)} {u : Bool} {gp gpc : ℝ → GP} {y : Arr ℝ} {θ₀ : ℝ} {lp : ℝ → EReal} {R' : Fin t.len → ℝ}

/-- derivative of the covariance matrix of instantaneous data -/
noncomputable def Spec.dataMatrixDeriv (κ' : ℝ → ℝ) (t : Arr ℝ) (R' : Fin t.len → ℝ) : Matrix (Fin t.len) (Fin t.len) ℝ :=
  Matrix.of fun i j => κ' |t.get i - t.get j| + if i = j then R' i else 0

theorem textbook_gradientFamily (h : ∀ᶠ θ in 𝓝 θ₀, Textbook (kernel θ) (κ θ)) (hsol : ∀ᶠ θ in 𝓝 θ₀, SolverFor (kernel θ) solver)
    (hnew : ∀ᶠ θ in 𝓝 θ₀, GP.new (kernel θ) (.times t) (diag θ) mean solver u = .ok (gp θ)) (ht : Sorted t) (hN : 0 < t.len)
    (hκ : ∀ r, 0 ≤ r → HasDerivAt (fun θ => κ θ r) (κ' r) θ₀) (hR : ∀ i < t.len, 0 < noiseVar (diag θ₀) i)
    (hR' : ∀ i : Fin t.len, HasDerivAt (fun θ => noiseVar (diag θ) i) (R' i) θ₀) :
    GradientFamily kernel (.times t) solver κ diag mean u gp θ₀ (fun i j => κ' |t.get i - t.get j|) R' where
  regression := by
    filter_upwards [h, hsol] with θ h1 h2
    exact textbook_regression h1 h2 ht hN
  new := hnew
  noise_pos := hR
  cov_deriv i j := by
    have e : ∀ θ, exposureCov (κ θ) ((XArg.times t).coords.get i) ((XArg.times t).coords.get j) = κ θ |t.get i - t.get j| := fun θ =>
      exposureCov_times (κ θ) (t.get i) (t.get j)
    simp only [e]
    exact hκ _ (abs_nonneg _)
  noise_deriv := hR'

/-- **C76, likelihood of instantaneous data.** In terms of the textbook covariance functions and their derivatives only. -/
theorem C76_textbook_log_probability (h : ∀ᶠ θ in 𝓝 θ₀, Textbook (kernel θ) (κ θ)) (hsol : ∀ᶠ θ in 𝓝 θ₀, SolverFor (kernel θ) solver)
    (hnew : ∀ᶠ θ in 𝓝 θ₀, GP.new (kernel θ) (.times t) (diag θ) mean solver u = .ok (gp θ)) (ht : Sorted t) (hN : 0 < t.len)
    (hκ : ∀ r, 0 ≤ r → HasDerivAt (fun θ => κ θ r) (κ' r) θ₀) (hR : ∀ i < t.len, 0 < noiseVar (diag θ₀) i)
    (hR' : ∀ i : Fin t.len, HasDerivAt (fun θ => noiseVar (diag θ) i) (R' i) θ₀) (hy : y.len = t.len) :
    ∃ l : ℝ → ℝ, (∀ᶠ θ in 𝓝 θ₀, (gp θ).logProbability y = .ok (l θ : EReal)) ∧
      HasDerivAt l (logDensityDeriv (dataMatrix (κ θ₀) t (diag θ₀)) (dataMatrixDeriv κ' t R') fun i => y.get i) θ₀ := by
  obtain ⟨l, h1, h2⟩ := C76_log_probability (textbook_gradientFamily h hsol hnew ht hN hκ hR hR') hy
  rw [obsGram_textbook] at h2
  exact ⟨l, h1, h2⟩

/-- **C76, prediction from instantaneous data.** -/
theorem C76_textbook_predict (h : ∀ᶠ θ in 𝓝 θ₀, Textbook (kernel θ) (κ θ)) (hsol : ∀ᶠ θ in 𝓝 θ₀, SolverFor (kernel θ) solver)
    (hnew : ∀ᶠ θ in 𝓝 θ₀, GP.new (kernel θ) (.times t) (diag θ) mean solver u = .ok (gp θ)) (ht : Sorted t) (hN : 0 < t.len)
    (hκ : ∀ r, 0 ≤ r → HasDerivAt (fun θ => κ θ r) (κ' r) θ₀) (hR : ∀ i < t.len, 0 < noiseVar (diag θ₀) i)
    (hR' : ∀ i : Fin t.len, HasDerivAt (fun θ => noiseVar (diag θ) i) (R' i) θ₀)
    (hcond : ∀ᶠ θ in 𝓝 θ₀, (gp θ).condition y = .ok (lp θ, gpc θ)) (ts : Arr ℝ) :
    ∃ mu var : ℝ → Arr ℝ, (∀ᶠ θ in 𝓝 θ₀, (gpc θ).predict (some (.times ts)) = .ok (mu θ, var θ)) ∧ ∀ i < ts.len,
      HasDerivAt (fun θ => (mu θ).get i) (postMeanDeriv (dataMatrix (κ θ₀) t (diag θ₀)) (dataMatrixDeriv κ' t R')
        (fun j => y.get j) (fun j => κ θ₀ |ts.get i - t.get j|) (fun j => κ' |ts.get i - t.get j|)) θ₀ ∧
      HasDerivAt (fun θ => (var θ).get i) (postVarDeriv (dataMatrix (κ θ₀) t (diag θ₀)) (dataMatrixDeriv κ' t R')
        (κ' 0) (fun j => κ θ₀ |ts.get i - t.get j|) (fun j => κ' |ts.get i - t.get j|)) θ₀ := by
  obtain ⟨mu, var, h1, h2⟩ := C76_predict (textbook_gradientFamily h hsol hnew ht hN hκ hR hR') hcond ts
    (c' := fun i j => κ' |ts.get i - t.get j|) (hκ 0 le_rfl) (fun i _ j => by
      have e : ∀ θ, exposureCov (κ θ) (.time (ts.get i)) ((XArg.times t).coords.get j) = κ θ |ts.get i - t.get j| := fun θ =>
        exposureCov_times (κ θ) (ts.get i) (t.get j)
      simp only [e]
      exact hκ _ (abs_nonneg _))
  refine ⟨mu, var, h1, fun i hi => ?_⟩
  have := h2 i hi
  rw [obsGram_textbook, obsCross_textbook] at this
  exact this

/-- Kernel expressions whose parameters are differentiable functions of one variable, with their covariance functions. The quality of an
oscillator stays below the window in which it is taken for 1/2, or is 1/2. -/
inductive Spec.Differentiable (θ₀ : ℝ) : (ℝ → Kern) → (ℝ → ℝ → ℝ) → Prop
  | exp {s σ : ℝ → ℝ} {name : String} (hs : DifferentiableAt ℝ s θ₀) (hσ : DifferentiableAt ℝ σ θ₀) (h1 : 0 < s θ₀) (h2 : σ θ₀ ≠ 0) :
      Differentiable θ₀ (fun θ => .exp (s θ) (σ θ) name) fun θ => covExp (s θ) (σ θ)
  | matern32 {s σ : ℝ → ℝ} {name : String} (hs : DifferentiableAt ℝ s θ₀) (hσ : DifferentiableAt ℝ σ θ₀) (h1 : 0 < s θ₀) (h2 : σ θ₀ ≠ 0) :
      Differentiable θ₀ (fun θ => .matern32 (s θ) (σ θ) name) fun θ => covMatern32 (s θ) (σ θ)
  | matern52 {s σ : ℝ → ℝ} {name : String} (hs : DifferentiableAt ℝ s θ₀) (hσ : DifferentiableAt ℝ σ θ₀) (h1 : 0 < s θ₀) (h2 : σ θ₀ ≠ 0) :
      Differentiable θ₀ (fun θ => .matern52 (s θ) (σ θ) name) fun θ => covMatern52 (s θ) (σ θ)
  | cosine {s σ : ℝ → ℝ} {name : String} (hs : DifferentiableAt ℝ s θ₀) (hσ : DifferentiableAt ℝ σ θ₀) (h1 : 0 < s θ₀) (h2 : σ θ₀ ≠ 0) :
      Differentiable θ₀ (fun θ => .cosine (s θ) (σ θ) name) fun θ => covCosine (s θ) (σ θ)
  | critical {w σ : ℝ → ℝ} {name : String} (hw : DifferentiableAt ℝ w θ₀) (hσ : DifferentiableAt ℝ σ θ₀) (h1 : 0 < w θ₀) (h2 : σ θ₀ ≠ 0) :
      Differentiable θ₀ (fun θ => .sho (w θ) (1 / 2) (σ θ) name) fun θ => covSHO (w θ) (1 / 2) (σ θ)
  | overdamped {w q σ : ℝ → ℝ} {name : String} (hw : DifferentiableAt ℝ w θ₀) (hq : DifferentiableAt ℝ q θ₀) (hσ : DifferentiableAt ℝ σ θ₀)
      (h1 : 0 < w θ₀) (h3 : 0 < q θ₀) (h4 : q θ₀ < 1 / 2) (h5 : ¬ SHO.isCritical (q θ₀)) (h2 : σ θ₀ ≠ 0) :
      Differentiable θ₀ (fun θ => .sho (w θ) (q θ) (σ θ) name) fun θ => covSHO (w θ) (q θ) (σ θ)
  | periodic {p g σ : ℝ → ℝ} {order : ℕ} {name : String} (hp : DifferentiableAt ℝ p θ₀) (hg : DifferentiableAt ℝ g θ₀)
      (hσ : DifferentiableAt ℝ σ θ₀) (h1 : 0 < p θ₀) (h3 : 0 < g θ₀) (h2 : σ θ₀ ≠ 0) (ho : 0 < order) :
      Differentiable θ₀ (fun θ => .expSineSquared (p θ) (g θ) (σ θ) order name)
        fun θ r => σ θ ^ 2 * ∑ j ∈ Finset.range order, periodicCoeff (g θ) j * Real.cos (2 * Real.pi * j * r / p θ)
  | sum {k1 k2 : ℝ → Kern} {κ1 κ2 : ℝ → ℝ → ℝ} (h1 : Differentiable θ₀ k1 κ1) (h2 : Differentiable θ₀ k2 κ2) :
      Differentiable θ₀ (fun θ => .sum (k1 θ) (k2 θ)) fun θ r => κ1 θ r + κ2 θ r
  | prod {k1 k2 : ℝ → Kern} {κ1 κ2 : ℝ → ℝ → ℝ} (h1 : Differentiable θ₀ k1 κ1) (h2 : Differentiable θ₀ k2 κ2) :
      Differentiable θ₀ (fun θ => .prod (k1 θ) (k2 θ)) fun θ r => κ1 θ r * κ2 θ r

theorem eventually_ne {f : ℝ → ℝ} (hf : DifferentiableAt ℝ f θ₀) (h : f θ₀ ≠ 0) : ∀ᶠ θ in 𝓝 θ₀, f θ ≠ 0 := hf.continuousAt.eventually_ne h

theorem eventually_pos {f : ℝ → ℝ} (hf : DifferentiableAt ℝ f θ₀) (h : 0 < f θ₀) : ∀ᶠ θ in 𝓝 θ₀, 0 < f θ := hf.continuousAt.eventually (lt_mem_nhds h)

theorem Spec.Differentiable.facts (h : Differentiable θ₀ kernel κ) :
    (∀ᶠ θ in 𝓝 θ₀, Textbook (kernel θ) (κ θ)) ∧ ∀ r, 0 ≤ r → DifferentiableAt ℝ (fun θ => κ θ r) θ₀ := by
  induction h with
  | exp hs hσ h1 h2 =>
    refine ⟨?_, fun r _ => ?_⟩
    · filter_upwards [eventually_pos hs h1, eventually_ne hσ h2] with θ a b
      exact .exp a b
    · have := h1.ne'
      unfold covExp
      fun_prop (disch := assumption)
  | matern32 hs hσ h1 h2 =>
    refine ⟨?_, fun r _ => ?_⟩
    · filter_upwards [eventually_pos hs h1, eventually_ne hσ h2] with θ a b
      exact .matern32 a b
    · have := h1.ne'
      unfold covMatern32
      fun_prop (disch := assumption)
  | matern52 hs hσ h1 h2 =>
    refine ⟨?_, fun r _ => ?_⟩
    · filter_upwards [eventually_pos hs h1, eventually_ne hσ h2] with θ a b
      exact .matern52 a b
    · have := h1.ne'
      unfold covMatern52
      fun_prop (disch := assumption)
  | cosine hs hσ h1 h2 =>
    refine ⟨?_, fun r _ => ?_⟩
    · filter_upwards [eventually_pos hs h1, eventually_ne hσ h2] with θ a b
      exact .cosine a b
    · have := h1.ne'
      unfold covCosine
      fun_prop (disch := assumption)
  | critical hw hσ h1 h2 =>
    refine ⟨?_, fun r _ => ?_⟩
    · filter_upwards [eventually_pos hw h1, eventually_ne hσ h2] with θ a b
      exact .sho a (by norm_num) (.inl rfl) b
    · simp only [covSHO, if_true]
      fun_prop
  | @overdamped w q σ name hw hq hσ h1 h3 h4 h5 h2 =>
    have hev : ∀ᶠ θ in 𝓝 θ₀, q θ < 1 / 2 := hq.continuousAt.eventually (gt_mem_nhds h4)
    have hcrit : ∀ᶠ θ in 𝓝 θ₀, ¬ SHO.isCritical (q θ) := by
      have h6 : 1e-8 + 1e-5 * |(0.5 : ℝ)| < |q θ₀ - 0.5| := not_le.1 h5
      have hc : ContinuousAt (fun θ => |q θ - 0.5|) θ₀ := (hq.continuousAt.sub continuousAt_const).abs
      filter_upwards [hc.eventually (lt_mem_nhds h6)] with θ hθ
      exact not_le.2 hθ
    refine ⟨?_, fun r _ => ?_⟩
    · filter_upwards [eventually_pos hw h1, eventually_pos hq h3, hev, hcrit, eventually_ne hσ h2] with θ a b c d e
      exact .sho a b (.inr ⟨c, d⟩) e
    · set E : ℝ → ℝ := fun θ => Real.sqrt (1 / (4 * q θ ^ 2) - 1) with hE
      have hlt : ∀ x : ℝ, 0 < x → x < 1 / 2 → 0 < 1 / (4 * x ^ 2) - 1 := fun x hx hx' => by
        rw [sub_pos, lt_div_iff₀ (by positivity)]
        nlinarith
      have hpos := hlt _ h3 h4
      have hne : 4 * q θ₀ ^ 2 ≠ 0 := by positivity
      have hEd : DifferentiableAt ℝ E θ₀ := by
        have h6 : DifferentiableAt ℝ (fun θ => 1 / (4 * q θ ^ 2) - 1) θ₀ := by fun_prop (disch := assumption)
        exact h6.sqrt hpos.ne'
      have hE0 : 2 * E θ₀ * q θ₀ ≠ 0 := (mul_pos (mul_pos two_pos (Real.sqrt_pos.2 hpos)) h3).ne'
      have hq2 : 2 * q θ₀ ≠ 0 := by positivity
      have hd : DifferentiableAt ℝ (fun θ => σ θ ^ 2 * Real.exp (-(w θ * r / (2 * q θ))) *
          (Real.cosh (E θ * w θ * r) + 1 / (2 * E θ * q θ) * Real.sinh (E θ * w θ * r))) θ₀ := by
        fun_prop (disch := assumption)
      refine hd.congr_of_eventuallyEq ?_
      filter_upwards [hev, eventually_pos hq h3] with θ a b
      have e : Real.sqrt |1 - 1 / (4 * q θ ^ 2)| = E θ := by
        have := hlt _ b a
        rw [abs_of_neg (by linarith), neg_sub]
      show covSHO (w θ) (q θ) (σ θ) r = _
      unfold covSHO
      simp only [e, if_neg a.ne, if_pos a]
  | @periodic p g σ order name hp hg hσ h1 h3 h2 ho =>
    refine ⟨?_, fun r _ => ?_⟩
    · filter_upwards [eventually_pos hp h1, eventually_pos hg h3, eventually_ne hσ h2] with θ a b c
      exact .expSineSquared a b c ho
    · have := h1.ne'
      unfold periodicCoeff
      fun_prop (disch := assumption)
  | sum _ _ ih1 ih2 =>
    refine ⟨?_, fun r hr => (ih1.2 r hr).add (ih2.2 r hr)⟩
    filter_upwards [ih1.1, ih2.1] with θ a b
    exact .sum a b
  | prod _ _ ih1 ih2 =>
    refine ⟨?_, fun r hr => (ih1.2 r hr).mul (ih2.2 r hr)⟩
    filter_upwards [ih1.1, ih2.1] with θ a b
    exact .prod a b

/-- **C76, every kernel expression.** With instantaneous data, any solver that applies and noise variances that are positive,
`log_probability` is differentiable in the parameters of every sum and product of the kernels listed. -/
theorem C76_log_probability_differentiable (h : Differentiable θ₀ kernel κ) (hsol : ∀ᶠ θ in 𝓝 θ₀, SolverFor (kernel θ) solver)
    (hnew : ∀ᶠ θ in 𝓝 θ₀, GP.new (kernel θ) (.times t) (diag θ) mean solver u = .ok (gp θ)) (ht : Sorted t) (hN : 0 < t.len)
    (hR : ∀ i < t.len, 0 < noiseVar (diag θ₀) i) (hR' : ∀ i < t.len, DifferentiableAt ℝ (fun θ => noiseVar (diag θ) i) θ₀)
    (hy : y.len = t.len) :
    ∃ l : ℝ → ℝ, (∀ᶠ θ in 𝓝 θ₀, (gp θ).logProbability y = .ok (l θ : EReal)) ∧ DifferentiableAt ℝ l θ₀ := by
  obtain ⟨h1, h2⟩ := h.facts
  obtain ⟨l, h3, h4⟩ := C76_textbook_log_probability (κ' := fun r => deriv (fun θ => κ θ r) θ₀)
    (R' := fun i => deriv (fun θ => noiseVar (diag θ) i) θ₀) h1 hsol hnew ht hN (fun r hr => (h2 r hr).hasDerivAt) hR
    (fun i => (hR' i i.2).hasDerivAt) hy
  exact ⟨l, h3, h4.differentiableAt⟩

/-- **C76, every kernel expression.** So are the predicted means and variances. -/
theorem C76_predict_differentiable (h : Differentiable θ₀ kernel κ) (hsol : ∀ᶠ θ in 𝓝 θ₀, SolverFor (kernel θ) solver)
    (hnew : ∀ᶠ θ in 𝓝 θ₀, GP.new (kernel θ) (.times t) (diag θ) mean solver u = .ok (gp θ)) (ht : Sorted t) (hN : 0 < t.len)
    (hR : ∀ i < t.len, 0 < noiseVar (diag θ₀) i) (hR' : ∀ i < t.len, DifferentiableAt ℝ (fun θ => noiseVar (diag θ) i) θ₀)
    (hcond : ∀ᶠ θ in 𝓝 θ₀, (gp θ).condition y = .ok (lp θ, gpc θ)) (ts : Arr ℝ) :
    ∃ mu var : ℝ → Arr ℝ, (∀ᶠ θ in 𝓝 θ₀, (gpc θ).predict (some (.times ts)) = .ok (mu θ, var θ)) ∧ ∀ i < ts.len,
      DifferentiableAt ℝ (fun θ => (mu θ).get i) θ₀ ∧ DifferentiableAt ℝ (fun θ => (var θ).get i) θ₀ := by
  obtain ⟨h1, h2⟩ := h.facts
  obtain ⟨mu, var, h3, h4⟩ := C76_textbook_predict (κ' := fun r => deriv (fun θ => κ θ r) θ₀)
    (R' := fun i => deriv (fun θ => noiseVar (diag θ) i) θ₀) h1 hsol hnew ht hN (fun r hr => (h2 r hr).hasDerivAt) hR
    (fun i => (hR' i i.2).hasDerivAt) hcond ts
  exact ⟨mu, var, h3, fun i hi => ⟨(h4 i hi).1.differentiableAt, (h4 i hi).2.differentiableAt⟩⟩

end textbook

section exposures
variable {kernel : ℝ → Kern} {κ κ' : ℝ → ℝ → ℝ} {t d : Arr ℝ} {inst : Arr ℤ} {m : ℕ} {solver : Option SolverKind}
  {diag : ℝ → Option (ℝ ⊕ Arr ℝ)} {mean : Option (Coord → ℝ)} {u : Bool} {gp gpc : ℝ → GP} {y : Arr ℝ} {lp : ℝ → EReal} {U : Set ℝ} {θ₀ : ℝ}
  {R' : Fin t.len → ℝ}

/-- derivative of the covariance matrix of exposure averages -/
noncomputable def Spec.exposureMatrixDeriv (κ' : ℝ → ℝ) (t d : Arr ℝ) (R' : Fin t.len → ℝ) : Matrix (Fin t.len) (Fin t.len) ℝ :=
  Matrix.of fun i j => 1 / (d.get i * d.get j) * (∫ u in (t.get i - d.get i / 2)..(t.get i + d.get i / 2),
    ∫ v in (t.get j - d.get j / 2)..(t.get j + d.get j / 2), κ' |u - v|) + if i = j then R' i else 0

/-- For all parameters in the open set `U`: the kernel integrates the covariance function `κ θ`, which is differentiable in `θ` with a derivative
`κ' θ` continuous in parameter and lag, and the GP can be built. -/
structure ExposureFamily (kernel : ℝ → Kern) (κ κ' : ℝ → ℝ → ℝ) (m : ℕ) (t d : Arr ℝ) (inst : Arr ℤ) (solver : Option SolverKind)
    (diag : ℝ → Option (ℝ ⊕ Arr ℝ)) (mean : Option (Coord → ℝ)) (u : Bool) (gp : ℝ → GP) (U : Set ℝ) (θ₀ : ℝ) (R' : Fin t.len → ℝ) : Prop where
  exposures : Exposures m t d inst
  nonempty : 0 < t.len
  is_open : IsOpen U
  mem : θ₀ ∈ U
  integrates : ∀ θ ∈ U, (kernel θ).Integrates False m (κ θ)
  solves : ∀ θ ∈ U, IntegratedSolver (kernel θ) (XArg.triple t d inst).coords solver
  new : ∀ θ ∈ U, GP.new (kernel θ) (.triple t d inst) (diag θ) mean solver u = .ok (gp θ)
  deriv : ∀ θ ∈ U, ∀ r, 0 ≤ r → HasDerivAt (fun θ => κ θ r) (κ' θ r) θ
  deriv_continuous : ContinuousOn (fun p : ℝ × ℝ => κ' p.1 |p.2|) (U ×ˢ Set.univ)
  noise_pos : ∀ i < t.len, 0 < noiseVar (diag θ₀) i
  noise_deriv : ∀ i : Fin t.len, HasDerivAt (fun θ => noiseVar (diag θ) i) (R' i) θ₀

theorem ExposureFamily.cov_deriv (h : ExposureFamily kernel κ κ' m t d inst solver diag mean u gp U θ₀ R') (X Y : Coord) :
    HasDerivAt (fun θ => exposureCov (κ θ) X Y) (exposureCov (κ' θ₀) X Y) θ₀ :=
  exposureCov_deriv h.is_open h.deriv (fun θ hθ => (h.integrates θ hθ).cov.1) h.deriv_continuous h.mem X Y

theorem ExposureFamily.family (h : ExposureFamily kernel κ κ' m t d inst solver diag mean u gp U θ₀ R') :
    GradientFamily kernel (.triple t d inst) solver κ diag mean u gp θ₀
      (fun i j => exposureCov (κ' θ₀) ((XArg.triple t d inst).coords.get i) ((XArg.triple t d inst).coords.get j)) R' where
  regression := by
    filter_upwards [h.is_open.mem_nhds h.mem] with θ hθ
    exact exposures_regression (h.integrates θ hθ) (h.solves θ hθ) h.exposures h.nonempty
  new := by
    filter_upwards [h.is_open.mem_nhds h.mem] with θ hθ
    exact h.new θ hθ
  noise_pos := h.noise_pos
  cov_deriv i j := h.cov_deriv _ _
  noise_deriv := h.noise_deriv

theorem exposures_deriv_matrix (hX : Exposures m t d inst) (κ' : ℝ → ℝ) :
    noisyGram (fun i j : Fin (XArg.triple t d inst).coords.len =>
      exposureCov κ' ((XArg.triple t d inst).coords.get i) ((XArg.triple t d inst).coords.get j)) R' =
      exposureMatrixDeriv κ' t d R' := by
  ext i j
  have h := congrFun (congrFun (obsGram_exposures (κ := κ') (diag := some (.inr ⟨t.len, fun _ => 0⟩)) hX) i) j
  have e : (GP.noiseOf (XArg.triple t d inst).coords.len (some (.inr ⟨t.len, fun _ => (0 : ℝ)⟩))).get i = 0 := noiseOf_get _ _ _
  simp only [obsGram, noisyGram, exposureMatrix, Matrix.of_apply, noiseVar, e, ite_self, add_zero] at h
  simp only [noisyGram, Matrix.of_apply]
  rw [h]
  rfl

/-- **C76, exposures, likelihood.** The derivative is taken under the integrals over the exposures. -/
theorem C76_exposures_log_probability (h : ExposureFamily kernel κ κ' m t d inst solver diag mean u gp U θ₀ R') (hy : y.len = t.len) :
    ∃ l : ℝ → ℝ, (∀ᶠ θ in 𝓝 θ₀, (gp θ).logProbability y = .ok (l θ : EReal)) ∧
      HasDerivAt l (logDensityDeriv (exposureMatrix (κ θ₀) t d (diag θ₀)) (exposureMatrixDeriv (κ' θ₀) t d R') fun i => y.get i) θ₀ := by
  obtain ⟨l, h1, h2⟩ := C76_log_probability h.family hy
  rw [obsGram_exposures h.exposures, exposures_deriv_matrix h.exposures] at h2
  exact ⟨l, h1, h2⟩

/-- **C76, exposures, prediction.** -/
theorem C76_exposures_predict (h : ExposureFamily kernel κ κ' m t d inst solver diag mean u gp U θ₀ R')
    (hcond : ∀ᶠ θ in 𝓝 θ₀, (gp θ).condition y = .ok (lp θ, gpc θ)) (ts : Arr ℝ) :
    ∃ mu var : ℝ → Arr ℝ, (∀ᶠ θ in 𝓝 θ₀, (gpc θ).predict (some (.times ts)) = .ok (mu θ, var θ)) ∧ ∀ i < ts.len,
      HasDerivAt (fun θ => (mu θ).get i) (postMeanDeriv (exposureMatrix (κ θ₀) t d (diag θ₀)) (exposureMatrixDeriv (κ' θ₀) t d R')
        (fun j => y.get j) (exposureVector (κ θ₀) t d (ts.get i)) (exposureVector (κ' θ₀) t d (ts.get i))) θ₀ ∧
      HasDerivAt (fun θ => (var θ).get i) (postVarDeriv (exposureMatrix (κ θ₀) t d (diag θ₀)) (exposureMatrixDeriv (κ' θ₀) t d R')
        (κ' θ₀ 0) (exposureVector (κ θ₀) t d (ts.get i)) (exposureVector (κ' θ₀) t d (ts.get i))) θ₀ := by
  obtain ⟨mu, var, h1, h2⟩ := C76_predict h.family hcond ts (h.deriv θ₀ h.mem 0 le_rfl)
    (c' := fun i => obsCross (κ' θ₀) (.time (ts.get i)) (XArg.triple t d inst).coords) (fun i _ j => h.cov_deriv _ _)
  refine ⟨mu, var, h1, fun i hi => ?_⟩
  have := h2 i hi
  rw [obsGram_exposures h.exposures, exposures_deriv_matrix h.exposures, obsCross_exposures h.exposures, obsCross_exposures h.exposures] at this
  exact this

end exposures

section examples

theorem matern32_scale_deriv (r : ℝ) :
    HasDerivAt (fun ℓ => covMatern32 ℓ 1 r) (3 * r ^ 2 / 2 ^ 3 * Real.exp (-(Real.sqrt 3 * r / 2))) 2 := by
  have hd : HasDerivAt (fun ℓ : ℝ => Real.sqrt 3 * r / ℓ) (-(Real.sqrt 3 * r) / 2 ^ 2) 2 := by
    simpa [div_eq_mul_inv, neg_div] using (hasDerivAt_inv (two_ne_zero : (2 : ℝ) ≠ 0)).const_mul (Real.sqrt 3 * r)
  have h := (hd.const_add 1).fun_mul hd.fun_neg.exp
  have h3 : Real.sqrt 3 ^ 2 = 3 := Real.sq_sqrt (by norm_num)
  refine (h.congr_deriv ?_).congr_of_eventuallyEq (Eventually.of_forall fun ℓ => ?_)
  · linear_combination (r ^ 2 / 8 * Real.exp (-(Real.sqrt 3 * r / 2))) * h3
  · show covMatern32 ℓ 1 r = _
    unfold covMatern32
    rw [div_mul_eq_mul_div]
    ring

/-- the derivative with respect to the scale of a Matérn-3/2 kernel, for two data: the covariance function has the derivative
`3σ² r²/ℓ³ exp(-√3 r/ℓ)` -/
example (y : Arr ℝ) (hy : y.len = 2) (s : Option SolverKind) (hs : s = none ∨ s = some .stateSpace ∨ s = some .parallel) :
    ∃ (gp : ℝ → GP) (l : ℝ → ℝ), (∀ ℓ, GP.new (.matern32 ℓ 1 "a") (.times twoT) (some (.inl 1)) none s false = .ok (gp ℓ)) ∧
      (∀ᶠ ℓ in 𝓝 2, (gp ℓ).logProbability y = .ok (l ℓ : EReal)) ∧
      HasDerivAt l (logDensityDeriv (dataMatrix (covMatern32 2 1) twoT (some (.inl 1)))
        (dataMatrixDeriv (fun r => 3 * r ^ 2 / 2 ^ 3 * Real.exp (-(Real.sqrt 3 * r / 2))) twoT fun _ => 0) fun i => y.get i) 2 := by
  have hnew : ∀ ℓ, ∃ gp, GP.new (.matern32 ℓ 1 "a") (.times twoT) (some (.inl 1)) none s false = .ok gp := fun ℓ => by
    rcases hs with rfl | rfl | rfl <;> exact ⟨_, rfl⟩
  choose gp hgp using hnew
  have hexp : ∀ ℓ : ℝ, ¬ Uses IsExp (.matern32 ℓ 1 "a") := fun ℓ => ((transitionError_iff true _).1 rfl).2 rfl
  obtain ⟨l, h1, h2⟩ := C76_textbook_log_probability (kernel := fun ℓ => .matern32 ℓ 1 "a") (κ := fun ℓ => covMatern32 ℓ 1) (t := twoT)
    (κ' := fun r => 3 * r ^ 2 / 2 ^ 3 * Real.exp (-(Real.sqrt 3 * r / 2))) (diag := fun _ => some (.inl 1)) (R' := fun _ => 0) (θ₀ := 2)
    (solver := s) (y := y) (gp := gp)
    (by filter_upwards [lt_mem_nhds (two_pos : (0 : ℝ) < 2)] with ℓ hℓ
        exact .matern32 hℓ one_ne_zero)
    (Eventually.of_forall fun ℓ => by
      rcases hs with h | h | h
      · exact .inl h
      · exact .inr (.inl h)
      · exact .inr (.inr ⟨h, hexp ℓ⟩))
    (Eventually.of_forall hgp) twoT_sorted (by show 0 < 2; decide)
    (fun r _ => matern32_scale_deriv r)
    (fun i _ => by show (0 : ℝ) < 1; norm_num) (fun i => hasDerivAt_const _ _) hy
  exact ⟨gp, l, hgp, h1, h2⟩

/-- the derivative with respect to the noise, which is the same for all data -/
example (y : Arr ℝ) (hy : y.len = 2) : ∃ (gp : ℝ → GP) (l : ℝ → ℝ),
    (∀ r, GP.new (.exp 1 1 "a") (.times twoT) (some (.inl r)) none none false = .ok (gp r)) ∧
      (∀ᶠ r in 𝓝 5, (gp r).logProbability y = .ok (l r : EReal)) ∧
      HasDerivAt l (logDensityDeriv (dataMatrix (covExp 1 1) twoT (some (.inl 5))) (dataMatrixDeriv (fun _ => 0) twoT fun _ => 1)
        fun i => y.get i) 5 := by
  have hnew : ∀ r, ∃ gp, GP.new (.exp 1 1 "a") (.times twoT) (some (.inl r)) none none false = .ok gp := fun r => ⟨_, rfl⟩
  choose gp hgp using hnew
  obtain ⟨l, h1, h2⟩ := C76_textbook_log_probability (kernel := fun _ => .exp 1 1 "a") (κ := fun _ => covExp 1 1) (t := twoT)
    (κ' := fun _ => 0) (diag := fun r => some (.inl r)) (R' := fun _ => 1) (θ₀ := 5) (solver := none) (y := y) (gp := gp)
    (Eventually.of_forall fun _ => .exp one_pos one_ne_zero) (Eventually.of_forall fun _ => .inl rfl) (Eventually.of_forall hgp) twoT_sorted
    (by show 0 < 2; decide) (fun r _ => hasDerivAt_const _ _) (fun i _ => by show (0 : ℝ) < 5; norm_num) (fun i => hasDerivAt_id _) hy
  exact ⟨gp, l, hgp, h1, h2⟩

/-- the derivative of the formula is the one expected for a single datum `y` of variance `θ` -/
example (y θ : ℝ) (h : 0 < θ) : logDensityDeriv (Matrix.of fun _ _ : Fin 1 => θ) (Matrix.of fun _ _ => 1) (fun _ => y) = 1 / 2 * (y ^ 2 / θ ^ 2) - 1 / 2 / θ := by
  have hi : (Matrix.of fun _ _ : Fin 1 => θ)⁻¹ = Matrix.of fun _ _ => θ⁻¹ := by
    refine Matrix.inv_eq_left_inv ?_
    ext i j
    simp [Matrix.mul_apply, h.ne', Matrix.one_apply, Subsingleton.elim i j]
  unfold logDensityDeriv
  rw [hi]
  simp [Matrix.mulVec, dotProduct, Matrix.trace, Matrix.mul_apply, Matrix.diag]
  field_simp

/-- a product of a periodic kernel and an overdamped oscillator, as the quality of the oscillator varies -/
example (y : Arr ℝ) (hy : y.len = 2) : ∃ (gp : ℝ → GP) (l : ℝ → ℝ),
    (∀ q, GP.new (.prod (.expSineSquared 3 1 1 4 "b") (.sho 1 q 2 "a")) (.times twoT) none none (some .parallel) false = .ok (gp q)) ∧
    (∀ᶠ q in 𝓝 (1 / 4), (gp q).logProbability y = .ok (l q : EReal)) ∧ DifferentiableAt ℝ l (1 / 4) := by
  have hnew : ∀ q, ∃ gp, GP.new (.prod (.expSineSquared 3 1 1 4 "b") (.sho 1 q 2 "a")) (.times twoT) none none (some .parallel) false = .ok gp :=
    fun q => ⟨_, rfl⟩
  choose gp hgp using hnew
  have hexp : ∀ q : ℝ, ¬ Uses IsExp (.prod (.expSineSquared 3 1 1 4 "b") (.sho 1 q 2 "a")) := fun q => ((transitionError_iff true _).1 rfl).2 rfl
  obtain ⟨l, h1, h2⟩ := C76_log_probability_differentiable (θ₀ := 1 / 4) (t := twoT) (solver := some .parallel) (y := y) (gp := gp)
    (diag := fun _ => none)
    (.prod (.periodic (p := fun _ => 3) (g := fun _ => 1) (σ := fun _ => 1) (order := 4) (name := "b") (by fun_prop) (by fun_prop) (by fun_prop)
        (by norm_num) one_pos one_ne_zero (by norm_num))
      (.overdamped (w := fun _ => 1) (q := fun q => q) (σ := fun _ => 2) (name := "a") (by fun_prop) (by fun_prop) (by fun_prop) one_pos
        (by norm_num) (by norm_num) (by unfold SHO.isCritical; norm_num [abs_of_neg]) two_ne_zero))
    (Eventually.of_forall fun q => .inr (.inr ⟨rfl, hexp q⟩)) (Eventually.of_forall hgp) twoT_sorted (by show 0 < 2; decide)
    (fun i _ => Real.sqrt_pos.2 (by positivity)) (fun i _ => differentiableAt_const _) hy
  exact ⟨gp, l, hgp, h1, h2⟩

/-- exposures: the derivative with respect to the amplitude -/
example (y : Arr ℝ) (hy : y.len = 2) : ∃ (gp : ℝ → GP) (l : ℝ → ℝ),
    (∀ σ, GP.new (.integratedExp 1 σ 2 "a") (.triple ⟨2, fun i => i⟩ ⟨2, fun _ => 2⟩ ⟨2, fun i => i⟩) (some (.inl 1)) none none false = .ok (gp σ)) ∧
    (∀ᶠ σ in 𝓝 3, (gp σ).logProbability y = .ok (l σ : EReal)) ∧
    HasDerivAt l (logDensityDeriv (exposureMatrix (covExp 1 3) ⟨2, fun i => i⟩ ⟨2, fun _ => 2⟩ (some (.inl 1)))
      (exposureMatrixDeriv (fun r => 6 * Real.exp (-r)) ⟨2, fun i => i⟩ ⟨2, fun _ => 2⟩ fun _ => 0) fun i => y.get i) 3 := by
  have hnew : ∀ σ, ∃ gp, GP.new (.integratedExp 1 σ 2 "a") (.triple ⟨2, fun i => i⟩ ⟨2, fun _ => 2⟩ ⟨2, fun i => i⟩) (some (.inl 1)) none none
      false = .ok gp := fun σ => ⟨_, rfl⟩
  choose gp hgp using hnew
  have hX : Exposures 1 ⟨2, fun i => i⟩ ⟨2, fun _ => 2⟩ ⟨2, fun i => i⟩ := by
    refine ⟨fun _ _ => two_pos, fun n hn => ⟨by positivity, ?_⟩, fun a ha b hb hab h => (hab (Int.ofNat.inj h)).elim, fun a _ b _ hab h => hab ?_⟩
    · have : n ≤ 1 := by simpa using Nat.le_of_lt_succ hn
      show (n : ℤ) ≤ ((1 : ℕ) : ℤ)
      exact_mod_cast this
    · have : (a : ℝ) = b := by simpa using h
      exact_mod_cast this
  obtain ⟨l, h1, h2⟩ := C76_exposures_log_probability (y := y)
    (show ExposureFamily (fun σ => .integratedExp 1 σ 2 "a") (fun σ => covExp 1 σ) (fun σ r => 2 * σ * Real.exp (-r)) 1 ⟨2, fun i => i⟩
      ⟨2, fun _ => 2⟩ ⟨2, fun i => i⟩ none (fun _ => some (.inl 1)) none false gp {0}ᶜ 3 (fun _ => 0) from
    { exposures := hX
      nonempty := two_pos
      is_open := isOpen_compl_singleton
      mem := by norm_num
      integrates := fun σ hσ => .exp one_pos hσ (by norm_num)
      solves := fun σ hσ => .inl rfl
      new := fun σ _ => hgp σ
      deriv := fun σ _ r _ => by
        unfold covExp
        have h := ((hasDerivAt_id σ).pow 2).mul_const (Real.exp (-(r / 1)))
        simpa using h
      deriv_continuous := Continuous.continuousOn (by fun_prop)
      noise_pos := fun i _ => one_pos
      noise_deriv := fun i => hasDerivAt_const _ _ }) hy
  refine ⟨gp, l, hgp, h1, ?_⟩
  have e : (fun r => 2 * (3 : ℝ) * Real.exp (-r)) = fun r => 6 * Real.exp (-r) := by norm_num
  rw [e] at h2
  exact h2

end examples

end Verif
