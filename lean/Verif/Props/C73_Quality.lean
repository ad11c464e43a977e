import Verif.Props.C72_Nearby
import Verif.Props.C71_Textbook

/-!
# C73: oscillators near critical damping

`SHO` switches between three formulas according to its quality, and takes every quality within `jnp.allclose` of 1/2 for 1/2. The
covariance function depends on the quality continuously across the switch, uniformly in time, so that the results of the package are
those of the given quality up to a small error.
-/

namespace Verif
open Matrix Kern Spec

/-- **C73, kernel.** For every quality the kernel is within `6e-6 σ²` of the oscillator covariance of that quality. -/
theorem C73_evaluate (w q sigma : ℝ) (name : String) (hw : 0 < w) (hq : 0 < q) (X1 X2 : Coord) :
    |(sho w q sigma name).evaluate X1 X2 - covSHO w q sigma (|X1.sortable - X2.sortable|)| ≤ 6e-6 * sigma ^ 2 := by
  by_cases hc : SHO.isCritical q
  · rw [C24_sho_window w q sigma name hw hq hc X1 X2, abs_sub_comm]
    exact covSHO_near_critical hw.le hc (abs_nonneg _)
  · rw [C24_sho w q sigma name hw hq (.inr hc) X1 X2, sub_self, abs_zero]
    positivity

/-- **C73, continuity.** Two qualities: the kernels differ by at most `σ² |q - q'| / (2 √(q q'))`, and the rounding of the quality to 1/2. -/
theorem C73_continuous (w q q' sigma : ℝ) (name : String) (hw : 0 < w) (hq : 0 < q) (hq' : 0 < q') (X1 X2 : Coord) :
    |(sho w q sigma name).evaluate X1 X2 - (sho w q' sigma name).evaluate X1 X2| ≤
      sigma ^ 2 * (|q - q'| / (2 * Real.sqrt (q * q'))) + 1.2e-5 * sigma ^ 2 := by
  have h1 := abs_le.1 (C73_evaluate w q sigma name hw hq X1 X2)
  have h2 := abs_le.1 (C73_evaluate w q' sigma name hw hq' X1 X2)
  have h3 := abs_le.1 (covSHO_quality (sigma := sigma) hw.le hq hq' (abs_nonneg (X1.sortable - X2.sortable)))
  rw [abs_le]
  norm_num at h1 h2 ⊢
  constructor <;> linarith [h1.1, h1.2, h2.1, h2.2, h3.1, h3.2]

section
variable {w q sigma r : ℝ} {name : String} {t : Arr ℝ} {solver : Option SolverKind} {diag : Option (ℝ ⊕ Arr ℝ)} {mean : Option (Coord → ℝ)}
  {u : Bool} {gp gp' : GP} {y : Arr ℝ} {lp : EReal}

theorem sho_regression (hw : 0 < w) (hc : SHO.isCritical q) (hσ : sigma ≠ 0) (hsol : solver = none ∨ solver = some .stateSpace ∨ solver = some .parallel)
    (ht : Sorted t) (hN : 0 < t.len) : Regression (.sho w q sigma name) (.times t) solver (covSHO w (1 / 2) sigma) := by
  have hv : (Kern.sho w q sigma name).Valid := .sho hw (SHO.critical_pos hc) (.inl hc) hσ
  have hκ : (Kern.sho w q sigma name).model.HasCov (covSHO w (1 / 2) sigma) := C24_sho_window w q sigma name hw (SHO.critical_pos hc) hc
  rcases hsol with rfl | rfl | rfl
  · exact .sequential hv hκ (.inl rfl) ht hN
  · exact .sequential hv hκ (.inr rfl) ht hN
  · exact .parallel hv hκ (((transitionError_iff true _).1 rfl).2 rfl) ht hN

/-- **C73, likelihood.** An oscillator whose quality is taken for 1/2: the log likelihood is within `ε (yᵀ K⁻¹ y + N)` of that of its own quality,
`ε = 6e-6 σ² N / r` with `r` the least noise variance and `K` the covariance matrix at quality 1/2. -/
theorem C73_log_probability (hw : 0 < w) (hc : SHO.isCritical q) (hσ : sigma ≠ 0)
    (hsol : solver = none ∨ solver = some .stateSpace ∨ solver = some .parallel)
    (hnew : GP.new (.sho w q sigma name) (.times t) diag mean solver u = .ok gp) (ht : Sorted t) (hN : 0 < t.len) (hy : y.len = t.len) (hr : 0 < r)
    (hR : ∀ i < t.len, r ≤ noiseVar diag i) (hsmall : t.len * (6e-6 * sigma ^ 2) ≤ r / 2) :
    ∃ ℓ : ℝ, gp.logProbability y = .ok (ℓ : EReal) ∧
      |ℓ - gaussLogDensity (dataMatrix (covSHO w q sigma) t diag) (fun i => y.get i)| ≤ t.len * (6e-6 * sigma ^ 2) / r *
        ((fun i : Fin t.len => y.get i) ⬝ᵥ (dataMatrix (covSHO w (1 / 2) sigma) t diag)⁻¹ *ᵥ (fun i => y.get i) + t.len) := by
  obtain ⟨ℓ, h1, h2⟩ := C72_log_probability (sho_regression hw hc hσ hsol ht hN)
    ((covSHO_continuous (SHO.critical_pos hc)).comp continuous_abs) (fun s hs => covSHO_near_critical hw.le hc hs) hnew hy hr
    (fun i hi => by rw [noiseOf_get]; exact hR i hi) hsmall
  unfold misfit at h2
  rw [obsGram_textbook, obsGram_textbook] at h2
  exact ⟨ℓ, h1, h2⟩

/-- **C73, predictions.** -/
theorem C73_predict (hw : 0 < w) (hc : SHO.isCritical q) (hσ : sigma ≠ 0)
    (hsol : solver = none ∨ solver = some .stateSpace ∨ solver = some .parallel)
    (hnew : GP.new (.sho w q sigma name) (.times t) diag mean solver u = .ok gp) (ht : Sorted t) (hN : 0 < t.len) (hr : 0 < r)
    (hR : ∀ i < t.len, r ≤ noiseVar diag i) (hsmall : t.len * (6e-6 * sigma ^ 2) ≤ r / 2) (hcond : gp.condition y = .ok (lp, gp')) (ts : Arr ℝ) :
    ∃ mu var, gp'.predict (some (.times ts)) = .ok (mu, var) ∧ mu.len = ts.len ∧ var.len = ts.len ∧ ∀ i < ts.len,
      |mu.get i - postMean (dataMatrix (covSHO w q sigma) t diag) (fun j => y.get j) (fun j => covSHO w q sigma |ts.get i - t.get j|)| ≤
        2 * (t.len * (6e-6 * sigma ^ 2) / r * |sigma| + 6e-6 * sigma ^ 2 * Real.sqrt (t.len / r)) *
          Real.sqrt ((fun i : Fin t.len => y.get i) ⬝ᵥ (dataMatrix (covSHO w (1 / 2) sigma) t diag)⁻¹ *ᵥ (fun i => y.get i)) ∧
      |var.get i - postVar (dataMatrix (covSHO w q sigma) t diag) (sigma ^ 2) (fun j => covSHO w q sigma |ts.get i - t.get j|)| ≤
        6e-6 * sigma ^ 2 + 2 * (t.len * (6e-6 * sigma ^ 2) / r) * sigma ^ 2 + 4 * (6e-6 * sigma ^ 2 * Real.sqrt (t.len / r)) * |sigma| +
          2 * (6e-6 * sigma ^ 2 * Real.sqrt (t.len / r)) ^ 2 := by
  obtain ⟨mu, var, h1, h2, h3, h4⟩ := C72_predict (sho_regression hw hc hσ hsol ht hN)
    ((covSHO_continuous (SHO.critical_pos hc)).comp continuous_abs) (fun s hs => covSHO_near_critical hw.le hc hs) hnew hr
    (fun i hi => by rw [noiseOf_get]; exact hR i hi) hsmall hcond ts
  refine ⟨mu, var, h1, h2, h3, fun i hi => ?_⟩
  have e0 : ∀ q, covSHO w q sigma 0 = sigma ^ 2 := fun q => by unfold covSHO; simp
  have := h4 i hi
  unfold misfit at this
  rw [obsGram_textbook, obsGram_textbook, obsCross_textbook, e0, e0, Real.sqrt_sq_eq_abs] at this
  exact this

end

section examples

/-- the hypotheses can be met: a quality that is not 1/2 but taken for it, two data, unit noise, both solvers -/
example (y : Arr ℝ) (s : Option SolverKind) (hs : s = none ∨ s = some .parallel) (hy : y.len = 2) :
    SHO.isCritical 0.500004 ∧ ∃ gp ℓ, GP.new (.sho 1 0.500004 1 "SHO") (.times twoT) (some (.inl 1)) none s false = .ok gp ∧
      gp.logProbability y = .ok ((ℓ : ℝ) : EReal) ∧
      |ℓ - gaussLogDensity (dataMatrix (covSHO 1 0.500004 1) twoT (some (.inl 1))) (fun i => y.get i)| ≤
        1.2e-5 * ((fun i : Fin twoT.len => y.get i) ⬝ᵥ (dataMatrix (covSHO 1 (1 / 2) 1) twoT (some (.inl 1)))⁻¹ *ᵥ (fun i => y.get i) + 2) := by
  have hc : SHO.isCritical 0.500004 := by unfold SHO.isCritical; norm_num [abs_of_pos]
  refine ⟨hc, ?_⟩
  have hl : (twoT.len : ℝ) = 2 := by norm_num [twoT]
  obtain ⟨gp, h⟩ : ∃ gp, GP.new (.sho 1 0.500004 1 "SHO") (.times twoT) (some (.inl 1)) none s false = .ok gp := by
    rcases hs with rfl | rfl <;> exact ⟨_, rfl⟩
  obtain ⟨ℓ, h1, h2⟩ := C73_log_probability (r := 1) one_pos hc one_ne_zero (by tauto) h twoT_sorted (by decide) hy one_pos (fun _ _ => le_rfl)
    (by rw [hl]; norm_num) (y := y)
  refine ⟨gp, ℓ, h, h1, h2.trans (le_of_eq ?_)⟩
  rw [hl]
  norm_num

end examples

end Verif
