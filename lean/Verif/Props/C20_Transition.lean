import Verif.Lemmas.CovModel

/-!
# C20 - C23: transition matrices, process noise, stationarity

The statements `SSM.TransitionIsExp`, `SSM.TransitionComposes`, `SSM.NoiseIsStationary`, `SSM.Lyapunov` and the sets
of kernels `Leaf`, `SumProd`, `Combos` are in `Spec/Shipped.lean`.
-/

namespace Verif
open Matrix

/-! ## C20 -/

theorem Leaf.transitionIsExp {k : SSM} (h : Leaf SHO.Genuine k) : k.TransitionIsExp := by
  cases h with
  | exp hs => exact fun X1 X2 => Exp.A_expm _ _
  | matern32 hs => exact fun X1 X2 => Matern32.A_expm _ _
  | matern52 hs => exact fun X1 X2 => Matern52.A_expm _ _
  | matern hd hs => exact fun X1 X2 => rfl
  | cosine hs => exact fun X1 X2 => rotation_expm _ _
  | expSineSquared hp hg => exact ExpSineSquared.sumTerms_transition _ _ _
  | sho hw hq ok => exact fun X1 X2 => SHO.A_expm hw.ne' hq ok _

/-- **C20.** For every kernel expression built from the exported classes (`SHO`: `quality` exactly `1/2` or outside the
tolerance window) the transition matrix is the matrix exponential of the design matrix times the elapsed time. -/
theorem C20_transition_is_exp_partial (k : SSM) (hk : Combos (Leaf SHO.Genuine) k) : k.TransitionIsExp := by
  induction hk with
  | leaf h => exact h.transitionIsExp
  | sum _ _ h1 h2 => exact h1.sum h2
  | prod _ _ h1 h2 => exact h1.prod h2
  | scale _ _ h => exact h

/-- **C20, disagreement.** The statement for every `quality` fails: whenever `quality` lies in the window of
`jnp.allclose(quality, 0.5)` without being `1/2`, the transition matrix is *not* the exponential of the design
matrix. -/
theorem C20_sho_window_not_exp (w q sigma : ℝ) (name : String) (hw : 0 < w) (hc : SHO.isCritical q) (hq : q ≠ 1 / 2) :
    ¬ (sho w q sigma name).TransitionIsExp := by
  intro h
  have hq0 : 0 < q := by
    unfold SHO.isCritical at hc
    rw [abs_le] at hc
    have := hc.1
    norm_num at this ⊢
    linarith
  have key : ∀ t : ℝ, NormedSpace.exp (t • SHO.F w 0.5) = NormedSpace.exp (t • SHO.F w q) := by
    intro t
    have := h (.time 0) (.time t)
    rw [← SHO.Acrit_expm]
    have e : (sho w q sigma name).A (.time 0) (.time t) = SHO.Acrit w t := by
      show SHO.A w q (t - 0) = _
      unfold SHO.A
      rw [if_pos hc, sub_zero]
    rw [← e, this]
    show NormedSpace.exp ((t - 0) • SHO.F w q) = _
    rw [sub_zero]
  have d1 := expm_deriv' (SHO.F w 0.5) 0 1 1
  have d2 := expm_deriv' (SHO.F w q) 0 1 1
  simp only [key] at d1
  have := d1.unique d2
  rw [expm_zero, Matrix.mul_one, Matrix.mul_one] at this
  simp only [SHO.F] at this
  norm_num at this
  rw [div_eq_div_iff (by norm_num) hq0.ne'] at this
  exact hq (mul_left_cancel₀ (neg_ne_zero.2 hw.ne') this)

example : ¬ (sho 1 0.500001 1).TransitionIsExp :=
  C20_sho_window_not_exp 1 0.500001 1 _ one_pos (by unfold SHO.isCritical; norm_num [abs_of_pos]) (by norm_num)

/-! ## C21 -/

/-- **C21.** Transitions compose over any three coordinates, for every kernel expression (all damping regimes). -/
theorem C21_transition_composes (k : SSM) (hk : Combos (Leaf SHO.Any) k) : k.TransitionComposes := by
  obtain ⟨G, hG⟩ := hk.covModel
  exact SSM.TransitionIsExp.composes_of hG.A_exp

/-! ## C22 -/

theorem Leaf.noiseIsStationary {k : SSM} (h : Leaf SHO.NotUnderdamped k) : k.NoiseIsStationary := by
  cases h with
  | exp hs => exact fun X1 X2 => Exp.Q_eq _ _ _
  | matern32 hs => exact fun X1 X2 => Matern32.Q_eq _ _ _
  | matern52 hs => exact fun X1 X2 => Matern52.Q_eq _ _ _
  | matern hd hs => exact fun X1 X2 => rfl
  | cosine hs => exact cosine_stationary _ _ _
  | expSineSquared hp hg => exact ExpSineSquared.stationary _ _ _ _ _
  | @sho w q sigma name hw hq ok =>
    intro X1 X2
    show SHO.Q w q sigma _ = SHO.Pinf w sigma - SHO.A w q _ * SHO.Pinf w sigma * (SHO.A w q _)ᵀ
    unfold SHO.Q SHO.A
    by_cases hc : SHO.isCritical q
    · rw [if_pos hc, if_pos hc, SHO.Qcrit_eq]
    · have hle : q ≤ 1 / 2 := ok.resolve_left hc
      have h5 : ¬ q > 0.5 := by norm_num; linarith
      have hne : q ≠ 1 / 2 := fun h => hc (by rw [h]; unfold SHO.isCritical; norm_num)
      rw [if_neg hc, if_neg hc, if_neg h5, if_neg h5, SHO.Qover_eq sigma hw.ne' hq (lt_of_le_of_ne hle hne)]

/-- **C22.** For every sum and product of the exported classes, except for the underdamped `SHO`, the process noise is
`Pinf - A Pinf Aᵀ`. -/
theorem C22_noise_is_stationary_partial (k : SSM) (hk : SumProd (Leaf SHO.NotUnderdamped) k) : k.NoiseIsStationary := by
  induction hk with
  | leaf h => exact h.noiseIsStationary
  | sum _ _ h1 h2 => exact h1.sum h2
  | prod _ _ h1 h2 => exact h1.prod h2

theorem SHO.truncate_close (M : Matrix (Fin 2) (Fin 2) ℝ) (i j : Fin 2) : |truncate M i j - M i j| < 1e-14 := by
  unfold truncate
  rw [Matrix.of_apply]
  split_ifs with h
  · rw [zero_sub, abs_neg]; exact h
  · rw [sub_self, abs_zero]; norm_num

/-- **C22, underdamped `SHO`.** Every entry is within the cut `1e-14` of the stationary process noise. -/
theorem C22_sho_underdamped_partial (w q sigma : ℝ) (name : String) (hw : 0 < w) (hq : 1 / 2 < q)
    (hc : ¬ SHO.isCritical q) (X1 X2 : Coord) (i j : Fin 2) :
    |(sho w q sigma name).Q X1 X2 i j - ((sho w q sigma name).Pinf - (sho w q sigma name).A X1 X2 *
      (sho w q sigma name).Pinf * ((sho w q sigma name).A X1 X2)ᵀ : Matrix (Fin 2) (Fin 2) ℝ) i j| < 1e-14 := by
  show |SHO.Q w q sigma _ i j - (SHO.Pinf w sigma - SHO.A w q _ * SHO.Pinf w sigma * (SHO.A w q _)ᵀ) i j| < 1e-14
  have h5 : q > 0.5 := by norm_num; linarith
  unfold SHO.Q SHO.A
  rw [if_neg hc, if_neg hc, if_pos h5, if_pos h5, ← SHO.Qunder_eq sigma hw.ne' hq]
  exact SHO.truncate_close _ _ _

/-- the process noise over no time vanishes, for every kernel expression -/
def SSM.NoiseZero (k : SSM) : Prop := ∀ X1 X2 : Coord, X1.sortable = X2.sortable → k.Q X1 X2 = 0

/-- **C22, zero lag.** The process noise over no time vanishes, for every sum, product and scalar multiple of the
exported classes, in every damping regime. -/
theorem C22_noise_zero (k : SSM) (hk : Combos (Leaf SHO.Any) k) : k.NoiseZero := by
  induction hk with
  | @leaf k h =>
    intro X1 X2 e
    have hs : ∀ {k : SSM} (_ : k.NoiseIsStationary) (_ : k.TransitionComposes), k.Q X1 X2 = 0 := by
      intro k h1 h2
      rw [h1 X1 X2, h2.refl X1 X2 e, transpose_one, Matrix.one_mul, Matrix.mul_one, sub_self]
    cases h with
    | exp h' => exact hs (Leaf.exp (shoOk := SHO.NotUnderdamped) h').noiseIsStationary (C21_transition_composes _ (.leaf (.exp h')))
    | matern32 h' =>
      exact hs (Leaf.matern32 (shoOk := SHO.NotUnderdamped) h').noiseIsStationary (C21_transition_composes _ (.leaf (.matern32 h')))
    | matern52 h' =>
      exact hs (Leaf.matern52 (shoOk := SHO.NotUnderdamped) h').noiseIsStationary (C21_transition_composes _ (.leaf (.matern52 h')))
    | matern h' h'' =>
      exact hs (Leaf.matern (shoOk := SHO.NotUnderdamped) h' h'').noiseIsStationary (C21_transition_composes _ (.leaf (.matern h' h'')))
    | cosine h' => rfl
    | expSineSquared h' h'' => exact ExpSineSquared.sumTerms_Q _ _ _ _ _
    | @sho w q sigma name hw hq _ =>
      by_cases hn : SHO.NotUnderdamped q
      · exact hs (Leaf.sho hw hq hn).noiseIsStationary (C21_transition_composes _ (.leaf (.sho hw hq trivial)))
      · have hc : ¬ SHO.isCritical q := fun h => hn (Or.inl h)
        have h5 : q > 0.5 := by
          have : ¬ q ≤ 1 / 2 := fun h => hn (Or.inr h)
          norm_num; linarith
        show SHO.Q w q sigma (dtOf X1 X2) = 0
        have e0 : dtOf X1 X2 = 0 := by unfold dtOf; rw [e, sub_self]
        unfold SHO.Q
        rw [if_neg hc, if_pos h5, e0]
        unfold SHO.truncate SHO.QunderExact
        simp only [smul2]
        ext i j
        fin_cases i <;> fin_cases j <;> norm_num
  | @sum k1 k2 _ _ h1 h2 =>
    intro X1 X2 e
    show blockDiag (k1.Q X1 X2) (k2.Q X1 X2) = 0
    rw [h1 X1 X2 e, h2 X1 X2 e, blockDiag_zero]
  | @prod k1 k2 _ _ h1 h2 =>
    intro X1 X2 e
    have : kroneckerMap (· * ·) k1.Pinf (k2.Q X1 X2) + kroneckerMap (· * ·) (k1.Q X1 X2) k2.Pinf -
        kroneckerMap (· * ·) (k1.Q X1 X2) (k2.Q X1 X2) = 0 := by
      rw [h1 X1 X2 e, h2 X1 X2 e]
      ext i j
      simp
    exact this
  | @scale k name c _ _ h => exact h

/-- if the propagated covariance does not change, there is no driving noise -/
theorem lyapunov_of_const {n : Type} [Fintype n] [DecidableEq n] {F P : Matrix n n ℝ}
    (h : ∀ t : ℝ, 0 ≤ t → NormedSpace.exp (t • F) * P * (NormedSpace.exp (t • F))ᵀ = P) : F * P + P * Fᵀ = 0 := by
  have key : NormedSpace.exp ((1 : ℝ) • F) * (F * P + P * Fᵀ) * (NormedSpace.exp ((1 : ℝ) • F))ᵀ = 0 := by
    ext i j
    have hd := expm_cov_deriv F P 1 i j
    have hc : HasDerivAt (fun _ : ℝ => P i j) 0 1 := hasDerivAt_const _ _
    refine hd.unique (hc.congr_of_eventuallyEq ?_)
    filter_upwards [lt_mem_nhds (zero_lt_one (α := ℝ))] with t ht
    exact congrFun (congrFun (h t ht.le) i) j
  have e : F * P + P * Fᵀ = NormedSpace.exp ((-1 : ℝ) • F) * (NormedSpace.exp ((1 : ℝ) • F) * (F * P + P * Fᵀ) *
      (NormedSpace.exp ((1 : ℝ) • F))ᵀ) * (NormedSpace.exp ((-1 : ℝ) • F))ᵀ := by
    have h1 := expm_neg_mul F 1
    have h2 : (NormedSpace.exp ((1 : ℝ) • F))ᵀ * (NormedSpace.exp ((-1 : ℝ) • F))ᵀ = 1 := by
      rw [← transpose_mul, h1, transpose_one]
    generalize F * P + P * Fᵀ = M
    calc M = (NormedSpace.exp ((-1 : ℝ) • F) * NormedSpace.exp ((1 : ℝ) • F)) * M *
        ((NormedSpace.exp ((1 : ℝ) • F))ᵀ * (NormedSpace.exp ((-1 : ℝ) • F))ᵀ) := by
          rw [h1, h2, Matrix.one_mul, Matrix.mul_one]
      _ = _ := by simp only [Matrix.mul_assoc]
  rw [e, key, Matrix.mul_zero, Matrix.zero_mul]

/-- **C22, disagreement.** For an underdamped `SHO` of small amplitude the process noise is identically zero (every
entry of the exact one is below the cut), so it is not the stationary one. -/
theorem C22_sho_truncated (w q sigma : ℝ) (name : String) (hw : 0 < w) (hq : 1 / 2 < q) (hc : ¬ SHO.isCritical q)
    (hσ : sigma ≠ 0) (h1 : sigma ^ 2 < 1e-14) (h2 : sigma ^ 2 * w ^ 2 < 1e-14) :
    (∀ X1 X2, X1.sortable ≤ X2.sortable → (sho w q sigma name).Q X1 X2 = 0) ∧ ¬ (sho w q sigma name).NoiseIsStationary := by
  have hq0 : 0 < q := by linarith
  have h5 : q > 0.5 := by norm_num; linarith
  have hbound : ∀ t : ℝ, 0 ≤ t → SHO.truncate (SHO.QunderExact w q sigma t) = 0 := by
    intro t ht
    have hP : (SHO.Pinf w sigma).PosSemidef := psd_sq_smul (diag2_psd zero_le_one (sq_nonneg _)) sigma
    have hQ : (SHO.QunderExact w q sigma t).PosSemidef := by
      rw [SHO.Qunder_eq sigma hw.ne' hq, SHO.Aunder_expm hw.ne' hq]
      exact lyapunov_psd (psd_symm hP) (psd_conj (scalar_psd (by positivity)) _) (SHO.lyapunov sigma w q) ht
    have hPQ : (SHO.Pinf w sigma - SHO.QunderExact w q sigma t).PosSemidef := by
      rw [SHO.Qunder_eq sigma hw.ne' hq, sub_sub_cancel]
      exact psd_conj hP _
    set M := SHO.QunderExact w q sigma t
    have q00 := hQ.diag_nonneg (i := (0 : Fin 2))
    have q11 := hQ.diag_nonneg (i := (1 : Fin 2))
    have p00 := hPQ.diag_nonneg (i := (0 : Fin 2))
    have p11 := hPQ.diag_nonneg (i := (1 : Fin 2))
    simp only [Matrix.sub_apply] at p00 p11
    have e00 : SHO.Pinf w sigma 0 0 = sigma ^ 2 := by simp [SHO.Pinf]
    have e11 : SHO.Pinf w sigma 1 1 = sigma ^ 2 * w ^ 2 := by simp [SHO.Pinf]
    rw [e00] at p00
    rw [e11] at p11
    have hsym : M 1 0 = M 0 1 := by
      have := congrFun (congrFun (psd_symm hQ) 0) 1
      exact this
    have hdet : M 0 1 ^ 2 ≤ M 0 0 * M 1 1 := by
      have := hQ.det_nonneg
      rw [Matrix.det_fin_two, hsym] at this
      nlinarith
    have hoff : |M 0 1| < 1e-14 := by
      apply abs_lt_of_sq_lt_sq _ (by norm_num)
      calc M 0 1 ^ 2 ≤ M 0 0 * M 1 1 := hdet
        _ ≤ sigma ^ 2 * (sigma ^ 2 * w ^ 2) := by gcongr <;> linarith
        _ < 1e-14 * 1e-14 := by gcongr
        _ = _ := by norm_num
    have hall : ∀ i j, |M i j| < 1e-14 := by
      intro i j
      fin_cases i <;> fin_cases j
      · show |M 0 0| < _
        rw [abs_of_nonneg q00]; linarith
      · exact hoff
      · show |M 1 0| < _
        rw [hsym]; exact hoff
      · show |M 1 1| < _
        rw [abs_of_nonneg q11]; linarith
    ext i j
    unfold SHO.truncate
    rw [Matrix.of_apply, if_pos (hall i j)]
    rfl
  have hzero : ∀ X1 X2, X1.sortable ≤ X2.sortable → (sho w q sigma name).Q X1 X2 = 0 := by
    intro X1 X2 hle
    show SHO.Q w q sigma (dtOf X1 X2) = 0
    unfold SHO.Q
    rw [if_neg hc, if_pos h5]
    exact hbound _ (by unfold dtOf; linarith)
  refine ⟨hzero, fun hst => ?_⟩
  -- then `A Pinf Aᵀ = Pinf` for all positive times, so the driving noise would vanish
  have hconst : ∀ t : ℝ, 0 ≤ t → NormedSpace.exp (t • SHO.F w q) * SHO.Pinf w sigma * (NormedSpace.exp (t • SHO.F w q))ᵀ =
      SHO.Pinf w sigma := by
    intro t ht
    have e := hst (.time 0) (.time t)
    rw [hzero _ _ (by simpa [Coord.sortable] using ht)] at e
    have eA : (sho w q sigma name).A (.time 0) (.time t) = NormedSpace.exp (t • SHO.F w q) := by
      show SHO.A w q (t - 0) = _
      rw [SHO.A_expm hw.ne' hq0 (Or.inr hc), sub_zero]
    rw [eA] at e
    exact (sub_eq_zero.1 e.symm).symm
  have hz := lyapunov_of_const hconst
  have hl := SHO.lyapunov sigma w q
  rw [hz, zero_add, noise2, zero2] at hl
  have h11 := congrFun (congrFun hl 1) 1
  have : 2 * w ^ 3 * sigma ^ 2 / q = 0 := h11
  have : 0 < 2 * w ^ 3 * sigma ^ 2 / q := by positivity
  linarith

example : ¬ (sho 1 1 1e-8).NoiseIsStationary :=
  (C22_sho_truncated 1 1 1e-8 _ one_pos (by norm_num) (by unfold SHO.isCritical; norm_num [abs_of_pos]) (by norm_num)
    (by norm_num) (by norm_num)).2

/-! ## C23 -/

theorem Leaf.lyapunov {k : SSM} (h : Leaf SHO.Any k) : k.Lyapunov := by
  cases h with
  | exp hs => exact Exp.lyapunov _ _
  | matern32 hs => exact Matern32.lyapunov _ _
  | matern52 hs => exact Matern52.lyapunov _ _
  | matern hd hs => exact Matern.P_lyapunov (Matern.lam_pos hd hs)
  | cosine hs => exact cosine_lyapunov _ _ _
  | expSineSquared hp hg => exact ExpSineSquared.lyapunov _ _ _ _ _
  | sho hw hq _ => exact SHO.lyapunov _ _ _

/-- **C23.** The stationary covariance of every kernel expression (sums, products, scalar multiples, every damping
regime) solves the Lyapunov equation `F P + P Fᵀ + L Qc Lᵀ = 0`. -/
theorem C23_lyapunov (k : SSM) (hk : Combos (Leaf SHO.Any) k) : k.Lyapunov := by
  induction hk with
  | leaf h => exact h.lyapunov
  | sum _ _ h1 h2 => exact h1.sum h2
  | prod _ _ h1 h2 => exact h1.prod h2
  | scale _ _ h => exact h.scale _ _

/-! ## Instances -/

section examples
/-- `2.0 * (SHO(omega=1, quality=3) * Exp(scale=1) + Matern(nu=7/2, scale=2))` -/
theorem ex_combo : Combos (Leaf SHO.Genuine)
    (SSM.scale "Scale" (((sho 1 3 1).prod (expKernel 1 1)).sum (maternGeneric 4 2 1)) 2) :=
  .scale (by norm_num) (.sum (.prod (.leaf (.sho (by norm_num) (by norm_num)
    (Or.inr (by unfold SHO.isCritical; norm_num [abs_of_pos])))) (.leaf (.exp one_pos)))
    (.leaf (.matern (by norm_num) (by norm_num))))
/-- the same expression, with an oscillator inside the tolerance window -/
theorem ex_combo_any : Combos (Leaf SHO.Any)
    (SSM.scale "Scale" (((sho 1 0.500001 1).prod (expKernel 1 1)).sum (expSineSquared 3 1 1 4)) 2) :=
  .scale (by norm_num) (.sum (.prod (.leaf (.sho (by norm_num) (by norm_num) trivial)) (.leaf (.exp one_pos)))
    (.leaf (.expSineSquared (by norm_num) (by norm_num))))
/-- `SHO(omega=1, quality=1/4) * Cosine(scale=1) + Matern52(scale=1)` -/
theorem ex_sumprod : SumProd (Leaf SHO.NotUnderdamped) (((sho 1 (1 / 4) 1).prod (cosine 1 1)).sum (matern52 1 1)) :=
  .sum (.prod (.leaf (.sho (by norm_num) (by norm_num) (Or.inr (by norm_num)))) (.leaf (.cosine one_pos)))
    (.leaf (.matern52 one_pos))
example := C20_transition_is_exp_partial _ ex_combo
example := C21_transition_composes _ ex_combo_any
example := C22_noise_is_stationary_partial _ ex_sumprod
example := C22_noise_zero _ ex_combo_any
example := C22_sho_underdamped_partial 1 3 1 "SHO" one_pos (by norm_num) (by unfold SHO.isCritical; norm_num [abs_of_pos])
example := C23_lyapunov _ ex_combo_any
end examples

end Verif
