import Verif.Lemmas.NoisyBound
import Verif.Props.C01_EndToEnd

/-!
# C70: how far the truncated process noise of the underdamped oscillator can move the results

For `quality > 1/2` the code sets entries of the process noise of `SHO` below `1e-14` in absolute value to zero, so that the likelihood and
the conditioned means and variances are no longer exactly those of the kernel (C16, C22). Here the distance is bounded, for one oscillator
and for sums and products that contain oscillators.
-/

set_option linter.unusedSectionVars false

namespace Verif
open Matrix Spec

/-! ## The class of kernels -/

/-- `Truncated k ε p c`: `k` is made of valid kernels and underdamped oscillators by sums and products; entries of its process noise are
off by at most `ε`, the diagonal of its stationary covariance is at most `p`, and `c` bounds the stationary covariance from below. -/
inductive Kern.Truncated : Kern → ℝ → ℝ → ℝ → Prop
  | exact {k : Kern} (hv : k.Valid) {p c : ℝ} (hp0 : 0 ≤ p) (hp : ∀ a, k.model.Pinf a a ≤ p) (hc : 0 < c)
      (hlow : ∀ v : k.model.n → ℝ, c * (v ⬝ᵥ v) ≤ v ⬝ᵥ k.model.Pinf *ᵥ v) : Truncated k 0 p c
  | sho {omega quality sigma : ℝ} {name : String} (hw : 0 < omega) (hq : 1 / 2 < quality) (hd : ¬ SHO.isCritical quality) (hσ : sigma ≠ 0) :
      Truncated (.sho omega quality sigma name) 1e-14 (sigma ^ 2 * max 1 (omega ^ 2)) (sigma ^ 2 * min 1 (omega ^ 2))
  | sum {k1 k2 : Kern} {ε1 p1 c1 ε2 p2 c2 : ℝ} (h1 : Truncated k1 ε1 p1 c1) (h2 : Truncated k2 ε2 p2 c2) :
      Truncated (.sum k1 k2) (max ε1 ε2) (max p1 p2) (min c1 c2)
  | prod {k1 k2 : Kern} {ε1 p1 c1 ε2 p2 c2 : ℝ} (h1 : Truncated k1 ε1 p1 c1) (h2 : Truncated k2 ε2 p2 c2) :
      Truncated (.prod k1 k2) (p1 * ε2 + ε1 * p2 + ε1 * ε2) (p1 * p2) (c1 * c2)

theorem sho_lower {w sigma : ℝ} : LowerBound (sigma ^ 2 * min 1 (w ^ 2)) (SHO.Pinf w sigma) := by
  intro v
  have h1 : min 1 (w ^ 2) ≤ 1 := min_le_left _ _
  have h2 : min 1 (w ^ 2) ≤ w ^ 2 := min_le_right _ _
  simp only [SHO.Pinf, dotProduct, mulVec, Fin.sum_univ_two, Matrix.smul_apply, smul_eq_mul, of_apply, cons_val', cons_val_zero, cons_val_one]
  have e : v 0 * (sigma ^ 2 * 1 * v 0 + sigma ^ 2 * 0 * v 1) + v 1 * (sigma ^ 2 * 0 * v 0 + sigma ^ 2 * w ^ 2 * v 1) -
      sigma ^ 2 * min 1 (w ^ 2) * (v 0 * v 0 + v 1 * v 1) = sigma ^ 2 * ((1 - min 1 (w ^ 2)) * v 0 ^ 2 + (w ^ 2 - min 1 (w ^ 2)) * v 1 ^ 2) := by ring
  have : 0 ≤ sigma ^ 2 * ((1 - min 1 (w ^ 2)) * v 0 ^ 2 + (w ^ 2 - min 1 (w ^ 2)) * v 1 ^ 2) :=
    mul_nonneg (sq_nonneg _) (add_nonneg (mul_nonneg (by linarith) (sq_nonneg _)) (mul_nonneg (by linarith) (sq_nonneg _)))
  linarith

theorem sho_diag {w sigma : ℝ} (a : Fin 2) : SHO.Pinf w sigma a a ≤ sigma ^ 2 * max 1 (w ^ 2) := by
  fin_cases a
  · simp only [SHO.Pinf, Matrix.smul_apply, smul_eq_mul]
    exact mul_le_mul_of_nonneg_left (le_max_left _ _) (sq_nonneg _)
  · simp only [SHO.Pinf, Matrix.smul_apply, smul_eq_mul]
    exact mul_le_mul_of_nonneg_left (le_max_right _ _) (sq_nonneg _)

theorem sho_within {w q sigma : ℝ} (name : String) (hw : 0 < w) (hq : 1 / 2 < q) (hd : ¬ SHO.isCritical q) :
    (sho w q sigma name).NoiseWithin 1e-14 where
  zero := C22_noise_zero _ (.leaf (.sho hw (by linarith) trivial)) _ _ rfl
  symm s _ := by
    have h5 : q > 0.5 := by norm_num; linarith
    obtain ⟨G, hG⟩ := Combos.covModel (.leaf (Leaf.sho (sigma := sigma) (name := name) hw (by linarith : 0 < q) (trivial : SHO.Any q)))
    show (SHO.Q w q sigma (s - 0))ᵀ = SHO.Q w q sigma (s - 0)
    unfold SHO.Q
    rw [if_neg hd, if_pos h5]
    ext i j
    have hs : SHO.QunderExact w q sigma (s - 0) j i = SHO.QunderExact w q sigma (s - 0) i j := by
      rw [SHO.Qunder_eq sigma hw.ne' hq]
      have := psd_symm hG.P_psd
      have hP : (SHO.Pinf w sigma)ᵀ = SHO.Pinf w sigma := this
      have e : (SHO.Pinf w sigma - SHO.Aunder w q (s - 0) * SHO.Pinf w sigma * (SHO.Aunder w q (s - 0))ᵀ)ᵀ =
          SHO.Pinf w sigma - SHO.Aunder w q (s - 0) * SHO.Pinf w sigma * (SHO.Aunder w q (s - 0))ᵀ := by
        simp only [transpose_sub, transpose_mul, transpose_transpose, hP, Matrix.mul_assoc]
      exact congrFun (congrFun e i) j
    simp only [transpose_apply, SHO.truncate, of_apply, hs]
  near s _ a b := (C22_sho_underdamped_partial w q sigma name hw hq hd (.time 0) (.time s) a b).le

namespace Kern.Truncated
variable {k : Kern} {ε p c : ℝ}

theorem eps_nonneg (h : k.Truncated ε p c) : 0 ≤ ε ∧ 0 ≤ p ∧ 0 < c := by
  induction h with
  | exact _ hp0 _ hc _ => exact ⟨le_rfl, hp0, hc⟩
  | sho hw _ _ hσ =>
    exact ⟨by norm_num, by positivity, mul_pos (by positivity) (lt_min one_pos (by positivity))⟩
  | sum _ _ h1 h2 => exact ⟨h1.1.trans (le_max_left _ _), h1.2.1.trans (le_max_left _ _), lt_min h1.2.2 h2.2.2⟩
  | prod _ _ h1 h2 =>
    obtain ⟨a1, b1, d1⟩ := h1
    obtain ⟨a2, b2, d2⟩ := h2
    exact ⟨by positivity, by positivity, by positivity⟩

theorem facts (h : k.Truncated ε p c) : (∃ G, k.model.CovModel G) ∧ k.model.NoiseWithin ε ∧ (∀ a, k.model.Pinf a a ≤ p) ∧
    LowerBound c k.model.Pinf := by
  induction h with
  | exact hv _ hp _ hlow =>
    obtain ⟨G, hG⟩ := hv.builtIn.combos.covModel
    exact ⟨⟨G, hG⟩, hv.builtIn.regular.toProper.within, hp, hlow⟩
  | sho hw hq hd _ =>
    exact ⟨Combos.covModel (.leaf (.sho hw (by linarith) trivial)), sho_within _ hw hq hd, sho_diag, sho_lower⟩
  | sum h1 h2 f1 f2 =>
    obtain ⟨⟨G1, g1⟩, n1, d1, l1⟩ := f1
    obtain ⟨⟨G2, g2⟩, n2, d2, l2⟩ := f2
    refine ⟨⟨_, g1.sum g2⟩, n1.sum n2 h1.eps_nonneg.1, ?_, l1.blockDiag l2⟩
    rintro (a | a)
    · exact (d1 a).trans (le_max_left _ _)
    · exact (d2 a).trans (le_max_right _ _)
  | prod h1 h2 f1 f2 =>
    obtain ⟨⟨G1, g1⟩, n1, d1, l1⟩ := f1
    obtain ⟨⟨G2, g2⟩, n2, d2, l2⟩ := f2
    obtain ⟨e1, p1, c1⟩ := h1.eps_nonneg
    obtain ⟨e2, p2, c2⟩ := h2.eps_nonneg
    refine ⟨⟨_, g1.prod g2⟩, n1.prod g1 g2 n2 e1 d1 d2 p1, ?_, l1.kron (psd_symm g1.P_psd) g2.P_psd c1.le l2⟩
    rintro ⟨a, b⟩
    have hb := ((psd_iff _).1 g2.P_psd).2 (Pi.single b 1)
    simp only [mulVec_single_one, single_one_dotProduct] at hb
    exact mul_le_mul (d1 a) (d2 b) hb p1

theorem component {a : Kern} (h : k.Truncated ε p c) (ha : a ∈ k.extractLeafKernels) : a.isIntegrated = false := by
  induction h with
  | exact hv => cases hv.component ha <;> rfl
  | sho => cases List.mem_singleton.1 ha; rfl
  | sum _ _ h1 h2 => rcases List.mem_append.1 ha with ha | ha; exacts [h1 ha, h2 ha]
  | prod => cases List.mem_singleton.1 ha; rfl

theorem instantaneous (h : k.Truncated ε p c) : GP.needsIntegrated k = false := by
  unfold GP.needsIntegrated
  rw [List.any_eq_false]
  intro a ha
  rw [h.component ha]; simp

theorem transitionError (h : k.Truncated ε p c) : k.transitionError false = none := by
  induction h with
  | exact hv => exact hv.transitionError
  | sho => rfl
  | sum _ _ h1 h2 => simp only [Kern.transitionError, h1, h2]; rfl
  | prod _ _ h1 h2 => simp only [Kern.transitionError, h1, h2]; rfl

theorem obsError (h : k.Truncated ε p c) (X : XArg) : k.obsError X = none := by
  have : k.unpacksCoordinate = false := by
    induction h with
    | exact hv => exact hv.unpacks
    | sho => rfl
    | sum _ _ h1 h2 => simp only [Kern.unpacksCoordinate, h1, h2, Bool.or_self]
    | prod _ _ h1 h2 => simp only [Kern.unpacksCoordinate, h1, h2, Bool.or_self]
  cases X <;> simp [Kern.obsError, this]

end Kern.Truncated

section
variable {kernel : Kern} {t : Arr ℝ} {diag : Option (ℝ ⊕ Arr ℝ)} {mean : Option (Coord → ℝ)} {u : Bool}
  {solver : Option SolverKind} {gp gp' : GP} {y : Arr ℝ} {lp : EReal} {ε p c r : ℝ}

/-- covariance of the data according to the kernel -/
noncomputable def dataCov (kernel : Kern) (t : Arr ℝ) (diag : Option (ℝ ⊕ Arr ℝ)) : Matrix (Fin t.len) (Fin t.len) ℝ :=
  noisyGram (fun i j : Fin t.len => kernel.model.evaluate (.time (t.get i)) (.time (t.get j))) fun i => (GP.noiseOf t.len diag).get i

/-- the relative error of the data covariance: `N² ε n κ / (c r)` with `N` data, `n` states, kernel variance `κ`, smallest noise `r` -/
noncomputable def relErr (kernel : Kern) (N : ℕ) (ε c r : ℝ) : ℝ :=
  N ^ 2 * ε * Fintype.card kernel.model.n * kernel.model.evaluate (.time 0) (.time 0) / (c * r)

theorem truncated_kind (hk : kernel.Truncated ε p c) (hsol : Sequential solver) : solver.getD (GP.chooseSolver kernel) = .stateSpace := by
  rcases hsol with rfl | rfl
  · show GP.chooseSolver kernel = _
    unfold GP.chooseSolver
    rw [hk.instantaneous]; rfl
  · rfl

theorem truncated_near (hk : kernel.Truncated ε p c) (ht : Sorted t) (hN : 0 < t.len) (hr : 0 < r)
    (hR : ∀ i < t.len, r ≤ (GP.noiseOf t.len diag).get i) (hsmall : relErr kernel t.len ε c r ≤ 1 / 2) :
    Near (relErr kernel t.len ε c r) (dataCov kernel t diag) (noisyData kernel.model t (GP.noiseOf t.len diag)) := by
  obtain ⟨⟨G, hG⟩, hn, -, hl⟩ := hk.facts
  obtain ⟨he, -, hc⟩ := hk.eps_nonneg
  have hv := CovModel_evaluate_self hG 0
  unfold relErr at hsmall ⊢
  rw [hv] at hsmall ⊢
  refine noisy_near he hn hG ht hN hc hl hr hR ?_
  rw [div_le_iff₀ (by positivity)] at hsmall
  linarith

theorem truncated_logProb (hk : kernel.Truncated ε p c) (ht : Sorted t) (hN : 0 < t.len) (hr : 0 < r)
    (hR : ∀ i < t.len, r ≤ (GP.noiseOf t.len diag).get i) (hsmall : relErr kernel t.len ε c r ≤ 1 / 2) (y : Arr ℝ) :
    ∃ ℓ : ℝ, kernel.model.logProbability t y (GP.noiseOf t.len diag) = (ℓ : EReal) ∧
      |ℓ - gaussLogDensity (dataCov kernel t diag) (fun i => y.get i)| ≤
        relErr kernel t.len ε c r * ((fun i : Fin t.len => y.get i) ⬝ᵥ (dataCov kernel t diag)⁻¹ *ᵥ (fun i => y.get i) + t.len) := by
  obtain ⟨⟨G, hG⟩, hn, -, -⟩ := hk.facts
  have h := truncated_near hk ht hN hr hR hsmall
  refine ⟨_, noisy_likelihood hn hG ht hN h.pd', ?_⟩
  simpa using h.logDensity fun i => y.get i

/-- **C70, likelihood.** `log_probability(y)` with truncated process noise: a real number within the stated distance of the Gaussian log
density of the data under the kernel. -/
theorem C70_log_probability (hk : kernel.Truncated ε p c) (hsol : Sequential solver)
    (hnew : GP.new kernel (.times t) diag mean solver u = .ok gp) (ht : Sorted t) (hN : 0 < t.len) (hr : 0 < r)
    (hR : ∀ i < t.len, r ≤ (GP.noiseOf t.len diag).get i) (hsmall : relErr kernel t.len ε c r ≤ 1 / 2) (y : Arr ℝ) :
    ∃ ℓ : ℝ, gp.logProbability y = .ok (ℓ : EReal) ∧
      |ℓ - gaussLogDensity (dataCov kernel t diag) (fun i => y.get i)| ≤
        relErr kernel t.len ε c r * ((fun i : Fin t.len => y.get i) ⬝ᵥ (dataCov kernel t diag)⁻¹ *ᵥ (fun i => y.get i) + t.len) := by
  obtain ⟨ℓ, h1, h2⟩ := truncated_logProb hk ht hN hr hR hsmall y
  refine ⟨ℓ, ?_, h2⟩
  obtain ⟨-, hs, -, -, -, -, -, hs', -⟩ := GP.new_ok hnew
  have hrun : gp.runError = none := by
    unfold GP.runError
    rw [hs', truncated_kind hk hsol, hs.transitionError]
    exact hk.transitionError
  unfold GP.logProbability
  rw [hrun]
  simp only
  rw [logProb_of_same hs, hs', truncated_kind hk hsol]
  exact congrArg _ h1

/-- Constructing the GP and conditioning it succeed for these kernels, for other than one datum and distinct names. -/
theorem C70_succeeds (hk : kernel.Truncated ε p c) (hsol : Sequential solver) (hn : kernel.assignUniqueNames = .ok kernel) (t : Arr ℝ)
    (diag : Option (ℝ ⊕ Arr ℝ)) (mean : Option (Coord → ℝ)) :
    ∃ gp, GP.new kernel (.times t) diag mean solver true = .ok gp ∧ (t.len ≠ 1 → ∀ y, ∃ r, gp.condition y = .ok r) := by
  obtain ⟨gp, h⟩ := GP.new_eq (u := true) diag mean (k := kernel) hn (by rw [hk.instantaneous]; intro h; cases h)
    (by rw [truncated_kind hk hsol]; rfl)
  refine ⟨gp, h, fun hl y => ?_⟩
  obtain ⟨hk', hs, hX, -, -, -, -, hs', -⟩ := GP.new_ok h
  have hrun : gp.runError = none := by
    unfold GP.runError
    rw [hs', truncated_kind hk hsol, hs.transitionError]
    exact hk.transitionError
  have e : gp.kernel = kernel := by
    rw [if_pos rfl, hn] at hk'
    exact (Except.ok.inj hk').symm
  refine GP.condition_eq hrun (k := kernel) (by rw [e]; exact hn) (fun h => ?_) (by rw [hX]; exact hl) (by rw [hs.obsError]; exact hk.obsError _)
  rw [hs.needsIntegrated, hk.instantaneous] at h
  cases h

/-- **C70, conditioning.** The result of `condition(y)` with truncated process noise: distance of the log likelihood, and of the mean and the
variance at every data point, from those of the kernel. -/
theorem C70_condition (hk : kernel.Truncated ε p c) (hsol : Sequential solver)
    (hnew : GP.new kernel (.times t) diag mean solver u = .ok gp) (ht : Sorted t) (hN : 0 < t.len) (hr : 0 < r)
    (hR : ∀ i < t.len, r ≤ (GP.noiseOf t.len diag).get i)
    (hsmall : 4 * t.len * ε * Fintype.card kernel.model.n * (2 * t.len * kernel.model.evaluate (.time 0) (.time 0) + r) < c * r)
    (hcond : gp.condition y = .ok (lp, gp')) :
    (∃ ℓ : ℝ, lp = (ℓ : EReal) ∧ |ℓ - gaussLogDensity (dataCov kernel t diag) (fun i => y.get i)| ≤
        relErr kernel t.len ε c r * ((fun i : Fin t.len => y.get i) ⬝ᵥ (dataCov kernel t diag)⁻¹ *ᵥ (fun i => y.get i) + t.len)) ∧
    ∃ var, gp'.var = some var ∧ ∀ i : Fin t.len,
      (gp'.mean.get i - postMean (dataCov kernel t diag) (fun j => y.get j)
          (fun j => kernel.model.evaluate (.time (t.get i)) (.time (t.get j)))) ^ 2 ≤
        4 * relErr kernel t.len ε c r ^ 2 * (GP.noiseOf t.len diag).get i *
          ((fun j : Fin t.len => y.get j) ⬝ᵥ (dataCov kernel t diag)⁻¹ *ᵥ (fun j => y.get j)) ∧
      |var.get i - postVar (dataCov kernel t diag) (kernel.model.evaluate (.time (t.get i)) (.time (t.get i)))
          (fun j => kernel.model.evaluate (.time (t.get i)) (.time (t.get j)))| ≤
        2 * relErr kernel t.len ε c r * (GP.noiseOf t.len diag).get i := by
  obtain ⟨-, hs, hX, -, -, -, -, hs', -⟩ := GP.new_ok hnew
  obtain ⟨-, hlp, -, -, -, -, hm, hvar, -⟩ := GP.condition_ok hcond
  obtain ⟨⟨G, hG⟩, hn, -, hl⟩ := hk.facts
  obtain ⟨he, -, hc⟩ := hk.eps_nonneg
  have hkind := truncated_kind hk hsol
  have hv := CovModel_evaluate_self hG 0
  have hκ0 : 0 ≤ kernel.model.evaluate (.time 0) (.time 0) := by
    rw [hv]; exact (abs_nonneg _).trans (CovModel_evaluate_abs hG 0 0)
  have hrel : relErr kernel t.len ε c r ≤ 1 / 2 := by
    unfold relErr
    rw [div_le_iff₀ (by positivity)]
    have h1 : (0 : ℝ) ≤ 4 * t.len * ε * Fintype.card kernel.model.n * r := by positivity
    have h2 : (0 : ℝ) ≤ t.len ^ 2 * ε * Fintype.card kernel.model.n * kernel.model.evaluate (.time 0) (.time 0) := by positivity
    nlinarith
  have hnear := truncated_near hk ht hN hr hR hrel
  refine ⟨?_, _, hvar, fun i => ?_⟩
  · obtain ⟨ℓ, h1, h2⟩ := truncated_logProb hk ht hN hr hR hrel y
    refine ⟨ℓ, ?_, h2⟩
    rw [hlp, logProb_of_same hs, hs', hkind]
    exact h1
  · have e : gp.atData y = kernel.model.conditionedAtData (t.map .time) y (GP.noiseOf t.len diag) := by
      unfold GP.atData GP.projectAtData
      rw [← SSM.strip_projectData, hs.strip, SSM.strip_projectData, hX, hs', hkind]
      rfl
    rw [hm, e]
    have h := noisy_conditioned (y := y) hn hG ht hN he hc hl hr hR (by rw [← hv]; exact hsmall) hnear.pd' i
    have ec := conditionedAtData_get kernel.model (t.map .time) y (GP.noiseOf t.len diag) (i := i) i.2
    have hb := hG.gram_psd (fun i : Fin t.len => Coord.time (t.get i))
    have := Near.at_data (b := fun i j : Fin t.len => kernel.model.evaluate (.time (t.get i)) (.time (t.get j)))
      (R := fun i : Fin t.len => (GP.noiseOf t.len diag).get i) hb (fun i => lt_of_lt_of_le hr (hR i i.2)) hnear (fun j => y.get j) i
    have e1 : ((kernel.model.conditionedAtData (t.map .time) y (GP.noiseOf t.len diag)).get i).1 = _ := (congrArg Prod.fst ec).trans h.1
    have e2 : ((kernel.model.conditionedAtData (t.map .time) y (GP.noiseOf t.len diag)).get i).2 = _ := (congrArg Prod.snd ec).trans h.2
    constructor
    · have := this.1
      rw [← e1] at this
      exact this
    · have := this.2
      rw [← e2] at this
      exact this

/-! ## One underdamped oscillator -/

theorem sho_variance {w q s : ℝ} (name : String) (hw : 0 < w) (hq : 0 < q) : (Kern.sho w q s name).model.evaluate (.time 0) (.time 0) = s ^ 2 := by
  obtain ⟨G, hG⟩ := Combos.covModel (.leaf (Leaf.sho (sigma := s) (name := name) hw hq (trivial : SHO.Any q)))
  refine (CovModel_evaluate_self (k := (Kern.sho w q s name).model) hG 0).trans ?_
  show (((1 : ℝ) • (!![1, 0] : Matrix (Fin 1) (Fin 2) ℝ)) * SHO.Pinf w s * ((1 : ℝ) • (!![1, 0] : Matrix (Fin 1) (Fin 2) ℝ))ᵀ) 0 0 = _
  simp [SHO.Pinf, Matrix.mul_apply, Fin.sum_univ_two]

theorem sho_relErr {w q s : ℝ} (name : String) (hw : 0 < w) (hq : 0 < q) (hs : s ≠ 0) (N : ℕ) {r : ℝ} (hr : 0 < r) :
    relErr (.sho w q s name) N 1e-14 (s ^ 2 * min 1 (w ^ 2)) r = 2e-14 * N ^ 2 / (min 1 (w ^ 2) * r) := by
  unfold relErr
  rw [sho_variance name hw hq]
  have hc : (Fintype.card (Kern.sho w q s name).model.n : ℝ) = 2 := by
    show (Fintype.card (Fin 2) : ℝ) = 2
    simp
  have hm : 0 < min 1 (w ^ 2) := lt_min one_pos (by positivity)
  rw [hc, div_eq_div_iff (by positivity) (by positivity)]
  ring

/-- **C70 for one oscillator.** `N` data with noise variance at least `r`, angular frequency `w`, quality above one half: with
`θ = 2·10⁻¹⁴ N² / (min(1, w²) r)` the log likelihood is off by at most `θ (yᵀ G⁻¹ y + N)`, the mean at a data point by at most
`2 θ √(R_i yᵀ G⁻¹ y)`, and the variance by at most `2 θ R_i`. -/
theorem C70_sho {w q s : ℝ} {name : String} (hw : 0 < w) (hq : 1 / 2 < q) (hd : ¬ SHO.isCritical q) (hs : s ≠ 0) (hsol : Sequential solver)
    (hnew : GP.new (.sho w q s name) (.times t) diag mean solver u = .ok gp) (ht : Sorted t) (hN : 0 < t.len) (hr : 0 < r)
    (hR : ∀ i < t.len, r ≤ (GP.noiseOf t.len diag).get i)
    (hsmall : 8e-14 * t.len * (2 * t.len * s ^ 2 + r) < s ^ 2 * min 1 (w ^ 2) * r)
    (hcond : gp.condition y = .ok (lp, gp')) :
    (∃ ℓ : ℝ, lp = (ℓ : EReal) ∧ |ℓ - gaussLogDensity (dataCov (.sho w q s name) t diag) (fun i => y.get i)| ≤
        2e-14 * t.len ^ 2 / (min 1 (w ^ 2) * r) *
          ((fun i : Fin t.len => y.get i) ⬝ᵥ (dataCov (.sho w q s name) t diag)⁻¹ *ᵥ (fun i => y.get i) + t.len)) ∧
    ∃ var, gp'.var = some var ∧ ∀ i : Fin t.len,
      (gp'.mean.get i - postMean (dataCov (.sho w q s name) t diag) (fun j => y.get j)
          (fun j => (sho w q s name).evaluate (.time (t.get i)) (.time (t.get j)))) ^ 2 ≤
        4 * (2e-14 * t.len ^ 2 / (min 1 (w ^ 2) * r)) ^ 2 * (GP.noiseOf t.len diag).get i *
          ((fun j : Fin t.len => y.get j) ⬝ᵥ (dataCov (.sho w q s name) t diag)⁻¹ *ᵥ (fun j => y.get j)) ∧
      |var.get i - postVar (dataCov (.sho w q s name) t diag) ((sho w q s name).evaluate (.time (t.get i)) (.time (t.get i)))
          (fun j => (sho w q s name).evaluate (.time (t.get i)) (.time (t.get j)))| ≤
        2 * (2e-14 * t.len ^ 2 / (min 1 (w ^ 2) * r)) * (GP.noiseOf t.len diag).get i := by
  have hq0 : 0 < q := by linarith
  have hk : (Kern.sho w q s name).Truncated _ _ _ := .sho hw hq hd hs
  have h := C70_condition hk hsol hnew ht hN hr hR (by
    have hc : (Fintype.card (Kern.sho w q s name).model.n : ℝ) = 2 := by
      show (Fintype.card (Fin 2) : ℝ) = 2
      simp
    rw [sho_variance name hw hq0, hc]
    linarith) hcond
  rw [sho_relErr name hw hq0 hs t.len hr] at h
  exact h

/-! ## The hypotheses can be met -/

/-- three distinct times -/
def threeT : Arr ℝ := ⟨3, fun i => i⟩

theorem threeT_sorted : Sorted threeT := fun i j hij _ => by
  show (i : ℝ) ≤ j
  exact_mod_cast hij

theorem notCritical_three : ¬ SHO.isCritical 3 := by unfold SHO.isCritical; norm_num [abs_of_pos]

/-- three data with unit noise: the log likelihood of the oscillator with quality 3 is within `2·10⁻¹³` of the exact one, relative to
`yᵀ G⁻¹ y + 3` -/
example (y : Arr ℝ) : ∃ gp lp gp', GP.new (.sho 1 3 1 "SHO") (.times threeT) (some (.inl 1)) none none = .ok gp ∧
    gp.condition y = .ok (lp, gp') ∧ ∃ ℓ : ℝ, lp = (ℓ : EReal) ∧
      |ℓ - gaussLogDensity (dataCov (.sho 1 3 1 "SHO") threeT (some (.inl 1))) (fun i => y.get i)| ≤ 2e-13 *
        ((fun i : Fin threeT.len => y.get i) ⬝ᵥ (dataCov (.sho 1 3 1 "SHO") threeT (some (.inl 1)))⁻¹ *ᵥ (fun i => y.get i) + 3) := by
  have hk : (Kern.sho 1 3 1 "SHO").Truncated _ _ _ := .sho one_pos (by norm_num) notCritical_three one_ne_zero
  obtain ⟨gp, h, hc⟩ := C70_succeeds hk (.inl rfl) (by rfl) threeT (some (.inl 1)) none
  obtain ⟨⟨lp, gp'⟩, hc⟩ := hc (by decide) y
  refine ⟨gp, lp, gp', h, hc, ?_⟩
  have h3 : (threeT.len : ℝ) = 3 := by show ((3 : ℕ) : ℝ) = 3; norm_num
  obtain ⟨⟨ℓ, e, hb⟩, -⟩ := C70_sho one_pos (by norm_num) notCritical_three one_ne_zero (.inl rfl) h threeT_sorted (by decide) one_pos
    (fun i _ => le_rfl) (by rw [h3]; norm_num) hc
  refine ⟨ℓ, e, hb.trans ?_⟩
  rw [h3]
  refine mul_le_mul_of_nonneg_right (by norm_num) ?_
  have hr : relErr (.sho 1 3 1 "SHO") threeT.len 1e-14 (1 ^ 2 * min 1 (1 ^ 2)) 1 ≤ 1 / 2 := by
    rw [sho_relErr "SHO" one_pos (by norm_num) one_ne_zero _ one_pos, h3]
    norm_num
  have hpd := (truncated_near (diag := some (.inl 1)) hk threeT_sorted (by decide) one_pos (fun i _ => le_rfl) hr).pd
  have := ((psd_iff _).1 hpd.inv.posSemidef).2 (fun i : Fin threeT.len => y.get i)
  exact add_nonneg this (by norm_num)

/-- a sum of an oscillator and a product of an oscillator with an exponential kernel -/
noncomputable def oscTree : Kern := .sum (.sho 1 3 1 "A") (.prod (.sho 2 3 1 "B") (.exp 1 1 "C"))

theorem oscTree_truncated : ∃ ε p c, oscTree.Truncated ε p c ∧ ε ≤ 2e-14 ∧ 1 ≤ c := by
  have hA : (Kern.sho 1 3 1 "A").Truncated _ _ _ := .sho one_pos (by norm_num) notCritical_three one_ne_zero
  have hB : (Kern.sho 2 3 1 "B").Truncated _ _ _ := .sho two_pos (by norm_num) notCritical_three one_ne_zero
  have hC : (Kern.exp 1 1 "C").Truncated 0 1 1 := by
    refine .exact (.exp one_pos one_ne_zero) zero_le_one (fun a => ?_) one_pos (fun v => ?_)
    · show ((1 : ℝ) ^ 2 • !![(1 : ℝ)]) a a ≤ 1
      fin_cases a
      simp
    · show 1 * (v ⬝ᵥ v) ≤ v ⬝ᵥ ((1 : ℝ) ^ 2 • !![(1 : ℝ)]) *ᵥ v
      have e : ((1 : ℝ) ^ 2 • !![(1 : ℝ)] : Matrix (Fin 1) (Fin 1) ℝ) = 1 := by ext i j; fin_cases i; fin_cases j; simp
      rw [e]
      exact le_of_eq (by rw [one_mul]; exact congrArg _ (Matrix.one_mulVec (v : Fin 1 → ℝ)).symm)
  refine ⟨_, _, _, .sum hA (.prod hB hC), ?_, ?_⟩
  · norm_num
  · norm_num

/-- with unit noise the data of `oscTree` meet the hypotheses of `C70_condition` -/
example (y : Arr ℝ) : ∃ ε p c gp lp gp', oscTree.Truncated ε p c ∧
    GP.new oscTree (.times threeT) (some (.inl 1)) none none = .ok gp ∧ gp.condition y = .ok (lp, gp') ∧
    4 * threeT.len * ε * Fintype.card oscTree.model.n * (2 * threeT.len * oscTree.model.evaluate (.time 0) (.time 0) + 1) < c * 1 := by
  obtain ⟨ε, p, c, hk, he, hc⟩ := oscTree_truncated
  obtain ⟨gp, h, hcon⟩ := C70_succeeds hk (.inl rfl) (by rfl) threeT (some (.inl 1)) none
  obtain ⟨⟨lp, gp'⟩, hcon⟩ := hcon (by decide) y
  refine ⟨ε, p, c, gp, lp, gp', hk, h, hcon, ?_⟩
  have h3 : (threeT.len : ℝ) = 3 := by show ((3 : ℕ) : ℝ) = 3; norm_num
  have hcard : (Fintype.card oscTree.model.n : ℝ) = 4 := by
    show (Fintype.card (Fin 2 ⊕ (Fin 2 × Fin 1)) : ℝ) = 4
    simp
  have hv : oscTree.model.evaluate (.time 0) (.time 0) = 2 := by
    show ((sho 1 3 1 "A").sum ((sho 2 3 1 "B").prod (expKernel 1 1 "C"))).evaluate _ _ = 2
    have hA : (sho 1 3 1 "A").evaluate (.time 0) (.time 0) = 1 ^ 2 := sho_variance "A" one_pos (by norm_num)
    have hB : (sho 2 3 1 "B").evaluate (.time 0) (.time 0) = 1 ^ 2 := sho_variance "B" two_pos (by norm_num)
    rw [C27_sum_evaluate, C27_prod_evaluate, hA, hB, C24_exp 1 1 "C" one_pos]
    norm_num [covExp]
  rw [h3, hcard, hv]
  nlinarith

end

end Verif
