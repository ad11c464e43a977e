import Verif.Lemmas.IntPerturb
import Verif.Lemmas.IntPerturbRun
import Verif.Props.C70_Truncation
import Verif.Props.C71_Textbook
import Verif.Props.C72_Nearby

/-!
# C74: the cut-off in the noise of underdamped `IntegratedSHO`

The closed forms for the process noise of `IntegratedSHO` replace entries below `1e-14` by zero if `quality > 1/2`. The noise is then no longer
a covariance matrix. Still, the log likelihood and the conditioned means and variances of exposure averages are within explicit bounds of the
exact ones, in terms of the number of exposures, the shortest exposure, the frequencies and the smallest noise variance.
-/

set_option linter.unusedSectionVars false

namespace Verif
open Matrix Kern Spec

/-! ### One oscillator -/

/-- the first row of the transition matrix of an oscillator -/
theorem sho_row_sq {w q : ℝ} (hw : 0 < w) (hq : 0 < q) {t : ℝ} (ht : 0 ≤ t) :
    NormedSpace.exp (t • SHO.F w q) 0 0 ^ 2 + w ^ 2 * NormedSpace.exp (t • SHO.F w q) 0 1 ^ 2 ≤ 1 := by
  have hl := Leaf.sho (shoOk := SHO.Any) (sigma := 1) (name := "") hw hq trivial
  have hP : (SHO.Pinf w 1).PosSemidef := hl.P_psd
  have hL : SHO.F w q * SHO.Pinf w 1 + SHO.Pinf w 1 * (SHO.F w q)ᵀ +
      (!![0; 1] : Matrix (Fin 2) (Fin 1) ℝ) * !![2 * w ^ 3 * 1 ^ 2 / q] * (!![0; 1] : Matrix (Fin 2) (Fin 1) ℝ)ᵀ = 0 := hl.lyapunov
  have h := (lyapunov_psd (psd_symm hP) (noiseSource_psd_rank_one _ (by positivity)) hL ht).diag_nonneg (i := (0 : Fin 2))
  set E := NormedSpace.exp (t • SHO.F w q)
  clear_value E
  simp [Matrix.sub_apply, Matrix.mul_apply, Fin.sum_univ_two, SHO.Pinf] at h
  nlinarith

/-- bounds for the entries of the first row -/
noncomputable def shoRow (w : ℝ) : Fin 2 → ℝ := ![1, 1 / w]

theorem sho_row_le {w q : ℝ} (hw : 0 < w) (hq : 0 < q) {t : ℝ} (ht : 0 ≤ t) (a : Fin 2) :
    |NormedSpace.exp (t • SHO.F w q) 0 a| ≤ shoRow w a := by
  have h := sho_row_sq hw hq ht
  set E := NormedSpace.exp (t • SHO.F w q)
  have h0 := sq_nonneg (E 0 0)
  have h1 := mul_nonneg (sq_nonneg w) (sq_nonneg (E 0 1))
  have e0 : |E 0 0| ≤ 1 := abs_le_of_sq_le_sq (by linarith) zero_le_one
  have e1 : |E 0 1| ≤ 1 / w := by
    refine abs_le_of_sq_le_sq ?_ (by positivity)
    rw [div_pow, le_div_iff₀ (by positivity)]
    linarith
  fin_cases a
  · exact e0
  · exact e1

section
variable {name : String} {m : ℕ} {base : SSM} {first : base.n} {phibar : ℝ → ℝ → Matrix base.n base.n ℝ} {q12 : ℝ → ℝ → base.n → ℝ}
  {q22 : ℝ → ℝ → ℝ}

theorem augNoise_eq_augQ (hL : base.Lyapunov) (hP : base.Pinfᵀ = base.Pinf) (s : ℝ) :
    augNoise base m first s = augQ base.F base.Pinf first m s := by
  unfold augNoise augQ defaultQ12
  rw [QFromVanLoan_stationary hL]
  have e2 := vanLoan_M hL s
  have e3 := vanLoan_W hL hP s
  congr 1
  · ext a b
    show ((vanLoan base.F base.L base.Qc (s - 0)).F3ᵀ * (vanLoan base.F base.L base.Qc (s - 0)).H2) a first = _
    rw [sub_zero, e2]; rfl
  · ext a b
    show ((vanLoan base.F base.L base.Qc (s - 0)).F3ᵀ * (vanLoan base.F base.L base.Qc (s - 0)).H2) b first = _
    rw [sub_zero, e2]; rfl
  · ext a b
    show defaultQ22 base first 0 s = _
    rw [IntegratedSHO.defaultQ22_eq, sub_zero, e3]; rfl

theorem integrated_Qt_near (hL : base.Lyapunov) (hP : base.Pinfᵀ = base.Pinf) (hqc : base.Qcᵀ = base.Qc) {ε : ℝ}
    (h : (integratedSSM name m base first phibar q12 q22).NoiseIsIntegralUpTo ε) {s : ℝ} (hs : 0 ≤ s) (a b : base.n ⊕ Fin (m + 1)) :
    |(integratedSSM name m base first phibar q12 q22).Qt 0 s a b - augQ base.F base.Pinf first m s a b| ≤ ε := by
  rw [← augNoise_eq_augQ hL hP, augNoise_integral first name m hqc]
  have := h (.time 0) (.time s) hs a b
  rw [show (Coord.time s).sortable - (Coord.time 0).sortable = s from sub_zero s] at this
  exact this

/-- symmetry of the augmented process noise -/
theorem integrated_Qt_symm {s : ℝ} (h : (base.Q (.time 0) (.time (s - 0)))ᵀ = base.Q (.time 0) (.time (s - 0))) :
    ((integratedSSM name m base first phibar q12 q22).Qt 0 s)ᵀ = (integratedSSM name m base first phibar q12 q22).Qt 0 s := by
  have : (fromBlocks (base.Q (.time 0) (.time (s - 0))) (Matrix.of fun a (_ : Fin (m + 1)) => q12 0 s a)
      (Matrix.of fun (_ : Fin (m + 1)) a => q12 0 s a) (Matrix.of fun _ _ => q22 0 s))ᵀ = fromBlocks (base.Q (.time 0) (.time (s - 0)))
      (Matrix.of fun a (_ : Fin (m + 1)) => q12 0 s a) (Matrix.of fun (_ : Fin (m + 1)) a => q12 0 s a) (Matrix.of fun _ _ => q22 0 s) := by
    rw [fromBlocks_transpose, h]
    rfl
  exact this

end

/-- **C74, one kernel.** Covariances of exposure averages in the augmented model of an `IntegratedSHO`. -/
theorem integratedSHO_measures {w q sigma : ℝ} {m m' : ℕ} {name : String} (hw : 0 < w) (hq : 0 < q) (ok : SHO.Genuine q) (hm : m ≤ m')
    {X : Arr Coord} (hX : Schedule m X) (hN : 0 < X.len) {D : ℝ} (hD : 0 < D)
    (hδ : ∀ i < X.len, (X.get i).delta = 0 ∨ D ≤ (X.get i).delta) :
    (integratedSHO w q sigma m' name).MeasuresUpTo X (exposureCov (covSHO w q sigma)) (2 * X.len * (1e-14 * (1 + 1 / w + 1 / D) ^ 2)) := by
  have hl := Leaf.sho (shoOk := SHO.Any) (sigma := sigma) (name := "SHO") hw hq trivial
  have h := integrated_measures_upTo (base := sho w q sigma) (first := (0 : Fin 2)) (C32_shipped_transition _ (.sho hw hq ok))
    (psd_symm hl.P_psd) (hX.mono hm) hN (ε := 1e-14) (by norm_num)
    (fun s hs a b => integrated_Qt_near hl.lyapunov (psd_symm hl.P_psd) (transpose_one_by_one _) (C32_sho_noise w q sigma m' name hw hq ok) hs a b)
    (integratedSHO_zero w q sigma m' name hw hq) (c := shoRow w) (fun t ht a => sho_row_le hw hq ht a) hD hδ
  have e : ((2 * X.len : ℕ) : ℝ) * (1e-14 * ((∑ a, shoRow w a) + 1 / D) * ((∑ a, shoRow w a) + 1 / D)) =
      2 * X.len * (1e-14 * (1 + 1 / w + 1 / D) ^ 2) := by
    have : ∑ a, shoRow w a = 1 + 1 / w := by simp [shoRow, Fin.sum_univ_two]
    rw [this]
    push_cast
    ring
  rw [← e]
  exact SSM.MeasuresUpTo.congr h fun c d => exposureCov_congr (latK_of_hasCov (Leaf.sho hw hq ok).transitionIsExp (C24_sho _ _ _ _ hw hq ok)
    (0 : Fin 2) (firstRow2 _)) c d

/-! ### Sums -/

/-- Sums of exported integrated kernels, with the covariance function of the latent process and a bound for the effect of the cut-off on the
covariance of two exposure averages, per event (two events per exposure), as function of the shortest exposure. Only underdamped `IntegratedSHO`
contribute to the bound. -/
inductive Kern.IntegratesUpTo (m : ℕ) : Kern → (ℝ → ℝ) → (ℝ → ℝ) → Prop
  | exact {k : Kern} {κ : ℝ → ℝ} (h : k.Integrates True m κ) : IntegratesUpTo m k κ fun _ => 0
  | sho {omega quality sigma : ℝ} {m' : ℕ} {name : String} (hw : 0 < omega) (hq : 1 / 2 < quality) (hd : ¬ SHO.isCritical quality)
      (hm : m ≤ m') : IntegratesUpTo m (.integratedSHO omega quality sigma m' name) (covSHO omega quality sigma)
        fun D => 1e-14 * (1 + 1 / omega + 1 / D) ^ 2
  | sum {k1 k2 : Kern} {κ1 κ2 B1 B2 : ℝ → ℝ} (h1 : IntegratesUpTo m k1 κ1 B1) (h2 : IntegratesUpTo m k2 κ2 B2) :
      IntegratesUpTo m (.sum k1 k2) (fun r => κ1 r + κ2 r) fun D => B1 D + B2 D

theorem Kern.Integrates.cov' {p : Prop} {m : ℕ} {k : Kern} {κ : ℝ → ℝ} (h : k.Integrates p m κ) :
    (Continuous fun u => κ |u|) ∧ PosSemidefFn κ := by
  induction h with
  | exp hs _ _ => exact ⟨(C24_exp _ _ "" hs).continuous (.leaf (.exp hs)), (C24_exp _ _ "" hs).psd (.leaf (.exp hs))⟩
  | matern32 hs _ _ => exact ⟨(C24_matern32 _ _ "" hs).continuous (.leaf (.matern32 hs)), (C24_matern32 _ _ "" hs).psd (.leaf (.matern32 hs))⟩
  | matern52 hs _ _ => exact ⟨(C24_matern52 _ _ "" hs).continuous (.leaf (.matern52 hs)), (C24_matern52 _ _ "" hs).psd (.leaf (.matern52 hs))⟩
  | sho hw hq hd _ _ => exact ⟨(C24_sho _ _ _ "" hw hq hd.1).continuous (.leaf (.sho hw hq trivial)),
      (C24_sho _ _ _ "" hw hq hd.1).psd (.leaf (.sho hw hq trivial))⟩
  | cosine _ hs _ => exact ⟨(C24_cosine _ _ "" hs).continuous (.leaf (.cosine hs)), (C24_cosine _ _ "" hs).psd (.leaf (.cosine hs))⟩
  | sum _ _ h1 h2 => exact ⟨h1.1.add h2.1, h1.2.add h2.2⟩

namespace Kern.IntegratesUpTo
variable {m : ℕ} {k : Kern} {κ B : ℝ → ℝ}

theorem hasIntegrated (h : k.IntegratesUpTo m κ B) : HasIntegrated k := by
  induction h with
  | exact h => exact h.hasIntegrated
  | sho _ _ _ _ => exact ⟨_, List.mem_singleton.2 rfl, rfl⟩
  | sum _ _ h1 _ =>
    obtain ⟨c, hc, hi⟩ := h1
    exact ⟨c, List.mem_append_left _ hc, hi⟩

theorem noConstant (h : k.IntegratesUpTo m κ B) : ¬ Uses IsConstant k := by
  induction h with
  | exact h => exact h.noConstant
  | sho _ _ _ _ => rintro (⟨⟨_, _, h⟩⟩ | _); cases h
  | sum _ _ h1 h2 =>
    rintro (⟨⟨_, _, h⟩⟩ | _ | h | h)
    · cases h
    · exact h1 h
    · exact h2 h

theorem nonneg (h : k.IntegratesUpTo m κ B) {D : ℝ} (hD : 0 < D) : 0 ≤ B D := by
  induction h with
  | exact h => exact le_rfl
  | sho _ _ _ _ => positivity
  | sum _ _ h1 h2 => exact add_nonneg h1 h2

theorem cov (h : k.IntegratesUpTo m κ B) : (Continuous fun u => κ |u|) ∧ PosSemidefFn κ := by
  induction h with
  | exact h => exact h.cov'
  | sho hw hq hd _ => exact ⟨(C24_sho _ _ _ "" hw (by linarith) (.inr hd)).continuous (.leaf (.sho hw (by linarith) trivial)),
      (C24_sho _ _ _ "" hw (by linarith) (.inr hd)).psd (.leaf (.sho hw (by linarith) trivial))⟩
  | sum _ _ h1 h2 => exact ⟨h1.1.add h2.1, h1.2.add h2.2⟩

theorem symm (h : k.IntegratesUpTo m κ B) : k.model.Pinfᵀ = k.model.Pinf ∧ ∀ s : ℝ, 0 ≤ s → (k.model.Qt 0 s)ᵀ = k.model.Qt 0 s := by
  induction h with
  | exact h =>
    have ok := (h.toSum.mono fun _ h => h.1).ok
    exact ⟨psd_symm ok.P_psd, fun s hs => psd_symm ((h.toSum.noise s).psd hs ok.src_psd)⟩
  | @sho w q sigma m' name hw hq hd _ =>
    refine ⟨psd_symm (blockDiag_psd (Leaf.sho (shoOk := SHO.Any) (sigma := sigma) (name := "SHO") hw (by linarith) trivial).P_psd PosSemidef.one), fun s hs => ?_⟩
    exact integrated_Qt_symm (base := Verif.sho w q sigma) (first := (0 : Fin 2)) (by
      rw [sub_zero]; exact (sho_within (sigma := sigma) "SHO" hw hq hd).symm s hs)
  | @sum k1 k2 _ _ _ _ _ _ h1 h2 =>
    refine ⟨?_, fun s hs => ?_⟩
    · show (blockDiag k1.model.Pinf k2.model.Pinf)ᵀ = blockDiag k1.model.Pinf k2.model.Pinf
      rw [blockDiag_transpose, h1.1, h2.1]
    · show (blockDiag (k1.model.Qt 0 s) (k2.model.Qt 0 s))ᵀ = blockDiag (k1.model.Qt 0 s) (k2.model.Qt 0 s)
      rw [blockDiag_transpose, h1.2 s hs, h2.2 s hs]

theorem symmModel (h : k.IntegratesUpTo m κ B) (X : Arr Coord) : k.model.SymmModel X :=
  ⟨h.symm.1, h.symm.2 0 le_rfl, fun j hj =>
    h.symm.2 _ (sub_nonneg.2 (sc_sorted _ _ (Nat.le_succ j) (by rw [sc_len]; exact hj)))⟩

theorem measures (h : k.IntegratesUpTo m κ B) {X : Arr Coord} (hX : Schedule m X) (hN : 0 < X.len) {D : ℝ} (hD : 0 < D)
    (hδ : ∀ i < X.len, (X.get i).delta = 0 ∨ D ≤ (X.get i).delta) : k.model.MeasuresUpTo X (exposureCov κ) (2 * X.len * B D) := by
  induction h with
  | exact h =>
    rw [mul_zero]
    exact SSM.Measures.upTo ((h.toSum.mono fun _ h => h.1).ok.meas X hX hN fun j _ => h.toSum.noise _)
  | sho hw hq hd hm => exact integratedSHO_measures hw (by linarith) (.inr hd) hm hX hN hD hδ
  | @sum k1 k2 κ1 κ2 B1 B2 g1 g2 h1 h2 =>
    rw [mul_add]
    exact SSM.MeasuresUpTo.congr (h1.sum h2) fun c d => (exposureCov_add g1.cov.1 g2.cov.1 c d).symm

end Kern.IntegratesUpTo

section
variable {kernel : Kern} {m : ℕ} {κ B : ℝ → ℝ} {X : Arr Coord} {R : Arr ℝ} {D r : ℝ}

theorem stateCov_symm {n : Type} [Fintype n] [DecidableEq n] {T Q : ℕ → Matrix n n ℝ} {P0 : Matrix n n ℝ} (hQ : ∀ k, (Q k)ᵀ = Q k) (h0 : P0ᵀ = P0)
    (i j : ℕ) : (stateCov T Q P0 i j)ᵀ = stateCov T Q P0 j i := by
  unfold stateCov
  rcases lt_trichotomy i j with h | rfl | h
  · rw [if_pos h.le, if_neg (by omega), transpose_mul, transpose_transpose, marginalCov_symm hQ h0]
  · rw [if_pos le_rfl, propagator_self, transpose_one, Matrix.mul_one, marginalCov_symm hQ h0]
  · rw [if_neg (by omega), if_pos h.le, transpose_mul, marginalCov_symm hQ h0]

theorem augmentedGram_symm {k : SSM} {X : Arr Coord} (hk : k.SymmModel X) (hN : 0 < X.len) (R : Arr ℝ) (e : ℕ → ℕ) :
    (augmentedGram k X R e)ᵀ = augmentedGram k X R e := by
  ext i j
  show augmentedCov k X e j i + (if j = i then R.get j else 0) = augmentedCov k X e i j + if i = j then R.get i else 0
  have h1 : augmentedCov k X e j i = augmentedCov k X e i j := by
    unfold augmentedCov
    have : k.eventCov X (e j) (e i) = (k.eventCov X (e i) (e j))ᵀ := (stateCov_symm (hk.noise hN) hk.init _ _).symm
    rw [this, ← transpose_apply (k.obsModel (X.get j) none * _ * _), transpose_mul, transpose_mul, transpose_transpose, transpose_transpose,
      Matrix.mul_assoc]
  rw [h1]
  congr 1
  by_cases h : i = j
  · subst h; rfl
  · rw [if_neg h, if_neg fun h' => h h'.symm]

theorem augmentedGram_near (h : kernel.IntegratesUpTo m κ B) (hX : Schedule m X) (hN : 0 < X.len) (hD : 0 < D)
    (hδ : ∀ i < X.len, (X.get i).delta = 0 ∨ D ≤ (X.get i).delta) (hr : 0 < r) (hR : ∀ i < X.len, r ≤ R.get i)
    (hsmall : 2 * X.len ^ 2 * B D ≤ r / 2) {e : ℕ → ℕ} (he : ∀ n < X.len, IsEnd X n (e n)) :
    Near (2 * X.len ^ 2 * B D / r) (obsGram κ X R) (augmentedGram kernel.model X R e) := by
  have hsym : (obsGram κ X R)ᵀ = obsGram κ X R := by
    rw [obsGram_eq_add, transpose_add, diagonal_transpose]
    congr 1
    ext i j
    exact exposureCov_comm h.cov.1 _ _
  have e1 : (Fintype.card (Fin X.len) : ℝ) * (2 * X.len * B D) = 2 * X.len ^ 2 * B D := by rw [Fintype.card_fin]; ring
  have := Near.of_entries hsym (augmentedGram_symm (h.symmModel X) hN R e) hr (d := 2 * X.len * B D)
    (mul_nonneg (by positivity) (h.nonneg hD)) (obsGram_low h.cov.1 h.cov.2 X hR) (fun i j => by
      show |augmentedCov kernel.model X e i j + _ - (exposureCov κ (X.get i) (X.get j) + _)| ≤ _
      rw [add_sub_add_right_eq_sub]
      exact h.measures hX hN hD hδ _ _ _ _ (.measurement i.2 (he i i.2)) (.measurement j.2 (he j j.2))) (by rw [e1]; exact hsmall)
  rwa [e1] at this

theorem integrated_logProb_near (h : kernel.IntegratesUpTo m κ B) (hX : Schedule m X) (hN : 0 < X.len) (hD : 0 < D)
    (hδ : ∀ i < X.len, (X.get i).delta = 0 ∨ D ≤ (X.get i).delta) (hr : 0 < r) (hR : ∀ i < X.len, r ≤ R.get i)
    (hsmall : 2 * X.len ^ 2 * B D ≤ r / 2) (y : Arr ℝ) (hy : y.len = X.len) :
    ∃ ℓ : ℝ, kernel.model.integratedLogProbability X y R = (ℓ : EReal) ∧
      |ℓ - gaussLogDensity (obsGram κ X R) (fun i => y.get i)| ≤ 2 * X.len ^ 2 * B D / r * (misfit κ X R y + X.len) := by
  have he : ∀ n < X.len, IsEnd X n (endStep X n) := fun n hn => (isEnd_iff hn).2 rfl
  have hn := augmentedGram_near h hX hN hD hδ hr hR hsmall he
  refine ⟨_, C09_integrated_likelihood_exact _ X (h.symmModel X) y R hy _ he fun n hn' => integrated_S_pos (h.symmModel X) he hn.pd' hn', ?_⟩
  simpa [misfit] using hn.logDensity fun i => y.get i

theorem integrated_conditioned_near (h : kernel.IntegratesUpTo m κ B) (hX : Schedule m X) (hD : 0 < D)
    (hδ : ∀ i < X.len, D ≤ (X.get i).delta) (hr : 0 < r) (hR : ∀ i < X.len, r ≤ R.get i)
    (hsmall : 2 * X.len ^ 2 * B D ≤ r / 2) (y : Arr ℝ)
    (hP : ∀ j, j + 1 < 2 * X.len → IsUnit ((kernel.model.integratedKalman X y R).get (j + 1)).PPred.det) (n : ℕ) (hn : n < X.len) :
    (((kernel.model.integratedConditionedAtData X y R).get n).1 - postMean (obsGram κ X R) (fun j => y.get j) (obsCross κ (X.get n) X)) ^ 2 ≤
      4 * (2 * X.len ^ 2 * B D / r) ^ 2 * R.get n * misfit κ X R y ∧
    |((kernel.model.integratedConditionedAtData X y R).get n).2 - postVar (obsGram κ X R) (exposureCov κ (X.get n) (X.get n))
      (obsCross κ (X.get n) X)| ≤ 2 * (2 * X.len ^ 2 * B D / r) * R.get n := by
  have he : ∀ n < X.len, IsEnd X n (endStep X n) := fun n hn => (isEnd_iff hn).2 rfl
  have hnear := augmentedGram_near h hX (by omega) hD (fun i hi => .inr (hδ i hi)) hr hR hsmall he
  rw [C10_conditioned_exact _ X (h.symmModel X) y R _ he (fun i hi => hD.trans_le (hδ i hi))
    (fun n hn' => (integrated_S_pos (h.symmModel X) he hnear.pd' hn').ne') hP n hn]
  have := Near.at_data (b := fun i j : Fin X.len => exposureCov κ (X.get i) (X.get j))
    (exposureGram_psd h.cov.1 h.cov.2 _) (fun i => hr.trans_le (hR i i.2)) hnear (fun j => y.get j) ⟨n, hn⟩
  have e1 : (fun j : Fin X.len => augmentedGram kernel.model X R (endStep X) ⟨n, hn⟩ j -
      if (⟨n, hn⟩ : Fin X.len) = j then R.get n else 0) = fun j : Fin X.len => augmentedCov kernel.model X (endStep X) n j := by
    funext j
    simp only [augmentedGram, noisyGram, Matrix.of_apply]
    ring
  have e2 : augmentedGram kernel.model X R (endStep X) ⟨n, hn⟩ ⟨n, hn⟩ - R.get n = augmentedCov kernel.model X (endStep X) n n := by
    simp [augmentedGram, noisyGram]
  dsimp only at this
  rw [e1, e2] at this
  exact this

end

/-! ### The interface -/

section
variable {kernel : Kern} {m : ℕ} {κ B : ℝ → ℝ} {t d : Arr ℝ} {inst : Arr ℤ} {diag : Option (ℝ ⊕ Arr ℝ)} {mean : Option (Coord → ℝ)}
  {u : Bool} {solver : Option SolverKind} {gp gp' : GP} {y : Arr ℝ} {lp : EReal} {D r : ℝ}

theorem sequentialIntegrated_kind (h : kernel.IntegratesUpTo m κ B) (hsol : solver = none ∨ solver = some .integrated) :
    solver.getD (GP.chooseSolver kernel) = .integrated := by
  rcases hsol with rfl | rfl
  · show GP.chooseSolver kernel = _
    unfold GP.chooseSolver
    rw [(needsIntegrated_iff kernel).2 h.hasIntegrated]; rfl
  · rfl

/-- `GaussianProcess(kernel, (t, texp, instid), ...)` succeeds; `condition` does unless there is only one exposure or names cannot be made unique. -/
theorem C74_succeeds (h : kernel.IntegratesUpTo m κ B) (hsol : solver = none ∨ solver = some .integrated)
    (t d : Arr ℝ) (inst : Arr ℤ) (diag : Option (ℝ ⊕ Arr ℝ)) (mean : Option (Coord → ℝ)) :
    ∃ gp, GP.new kernel (.triple t d inst) diag mean solver false = .ok gp ∧ ∀ y,
      ((∃ res, gp.condition y = .ok res) ↔ t.len ≠ 1 ∧ ∃ k, kernel.assignUniqueNames = .ok k) := by
  obtain ⟨gp, hnew⟩ := GP.new_eq (kernel := kernel) (X := .triple t d inst) (solver := solver) (u := false) diag mean (k := kernel) rfl (fun _ => rfl)
    (by rw [sequentialIntegrated_kind h hsol]; rfl)
  refine ⟨gp, hnew, fun y => ?_⟩
  obtain ⟨h1, hs, hX, -, -, -, -, hs', -⟩ := GP.new_ok hnew
  have hgk : gp.kernel = kernel := (Except.ok.inj h1).symm
  have hrun : gp.runError = none := by
    unfold GP.runError
    rw [hs.transitionError, transitionError_iff]
    refine ⟨h.noConstant, fun h' => ?_⟩
    rw [hs', sequentialIntegrated_kind h hsol] at h'
    cases h'
  constructor
  · rintro ⟨⟨lp, gp'⟩, h⟩
    obtain ⟨-, -, hk, -, -, -, -, -, -, -, -, hl, -⟩ := GP.condition_ok h
    rw [hX] at hl
    rw [hgk] at hk
    exact ⟨hl, _, hk⟩
  · rintro ⟨hl, k, hk⟩
    rw [← hgk] at hk
    exact GP.condition_eq hrun hk (fun _ => by rw [hX]; rfl) (by rw [hX]; exact hl) (by rw [hX]; rfl)

/-- **C74, likelihood.** With the default or the sequential integrated solver, the log likelihood is a number within
`θ (yᵀ G⁻¹ y + N)` of the exact one, where `θ = 2 N² B(D) / r`, `D` is the shortest exposure and `r` the smallest noise variance. -/
theorem C74_log_probability (h : kernel.IntegratesUpTo m κ B) (hsol : solver = none ∨ solver = some .integrated)
    (hnew : GP.new kernel (.triple t d inst) diag mean solver u = .ok gp) (hX : Schedule m (XArg.triple t d inst).coords) (hN : 0 < t.len)
    (hy : y.len = t.len) (hD : 0 < D) (hδ : ∀ i < t.len, d.get i = 0 ∨ D ≤ d.get i) (hr : 0 < r)
    (hR : ∀ i < t.len, r ≤ noiseVar diag i) (hsmall : 2 * t.len ^ 2 * B D ≤ r / 2) :
    ∃ ℓ : ℝ, gp.logProbability y = .ok (ℓ : EReal) ∧
      |ℓ - gaussLogDensity (obsGram κ (XArg.triple t d inst).coords (GP.noiseOf t.len diag)) (fun i => y.get i)| ≤
        2 * t.len ^ 2 * B D / r * (misfit κ (XArg.triple t d inst).coords (GP.noiseOf t.len diag) y + t.len) := by
  obtain ⟨h1, hs, -, -, -, -, -, hs', -⟩ := GP.new_ok hnew
  have hrun : gp.runError = none := by
    unfold GP.runError
    rw [hs.transitionError, transitionError_iff]
    refine ⟨h.noConstant, fun h' => ?_⟩
    rw [hs', sequentialIntegrated_kind h hsol] at h'
    cases h'
  obtain ⟨ℓ, e, hb⟩ := integrated_logProb_near h hX hN hD hδ hr (R := GP.noiseOf t.len diag) (fun i hi => by rw [noiseOf_get]; exact hR i hi)
    hsmall y hy
  refine ⟨ℓ, ?_, hb⟩
  unfold GP.logProbability
  rw [hrun]
  simp only
  rw [logProb_of_same hs, hs', sequentialIntegrated_kind h hsol]
  exact congrArg _ e

/-- **C74, `condition`.** Mean and variance of every exposure average, provided that the matrices that the smoother inverts are invertible.
What is missing: with entries cut off over very short steps they can be singular, and no bound is proved then. -/
theorem C74_condition_partial (h : kernel.IntegratesUpTo m κ B) (hsol : solver = none ∨ solver = some .integrated)
    (hnew : GP.new kernel (.triple t d inst) diag mean solver u = .ok gp) (hX : Schedule m (XArg.triple t d inst).coords)
    (hD : 0 < D) (hδ : ∀ i < t.len, D ≤ d.get i) (hr : 0 < r)
    (hR : ∀ i < t.len, r ≤ noiseVar diag i) (hsmall : 2 * t.len ^ 2 * B D ≤ r / 2) (hcond : gp.condition y = .ok (lp, gp'))
    (hP : ∀ j, j + 1 < 2 * t.len → IsUnit ((kernel.model.integratedKalman (XArg.triple t d inst).coords y
      (GP.noiseOf t.len diag)).get (j + 1)).PPred.det) :
    gp.logProbability y = .ok lp ∧ gp'.mean.len = t.len ∧ ∃ var, gp'.var = some var ∧ var.len = t.len ∧ ∀ n < t.len,
      (gp'.mean.get n - postMean (obsGram κ (XArg.triple t d inst).coords (GP.noiseOf t.len diag)) (fun i => y.get i)
          (obsCross κ (.exposure (t.get n) (d.get n) (inst.get n)) (XArg.triple t d inst).coords)) ^ 2 ≤
        4 * (2 * t.len ^ 2 * B D / r) ^ 2 * noiseVar diag n * misfit κ (XArg.triple t d inst).coords (GP.noiseOf t.len diag) y ∧
      |var.get n - postVar (obsGram κ (XArg.triple t d inst).coords (GP.noiseOf t.len diag))
          (exposureCov κ (.exposure (t.get n) (d.get n) (inst.get n)) (.exposure (t.get n) (d.get n) (inst.get n)))
          (obsCross κ (.exposure (t.get n) (d.get n) (inst.get n)) (XArg.triple t d inst).coords)| ≤
        2 * (2 * t.len ^ 2 * B D / r) * noiseVar diag n := by
  obtain ⟨-, hs, hX', -, -, -, -, hs', -⟩ := GP.new_ok hnew
  obtain ⟨hrun, hlp, -, -, -, -, hm, hvar, -⟩ := GP.condition_ok hcond
  refine ⟨?_, ?_, _, hvar, ?_, fun n hn => ?_⟩
  · unfold GP.logProbability
    rw [hrun, hlp]
  · rw [hm]; show gp.X.coords.len = _; rw [hX']; rfl
  · show gp.X.coords.len = _; rw [hX']; rfl
  · rw [hm]
    have e : gp.atData y = kernel.model.integratedConditionedAtData (XArg.triple t d inst).coords y (GP.noiseOf t.len diag) := by
      unfold GP.atData GP.projectAtData
      rw [← SSM.strip_projectData, hs.strip, SSM.strip_projectData, hX', hs', sequentialIntegrated_kind h hsol]
      rfl
    rw [e, ← noiseOf_get t.len]
    exact integrated_conditioned_near h hX hD hδ hr (R := GP.noiseOf t.len diag) (fun i hi => by rw [noiseOf_get]; exact hR i hi)
      hsmall y hP n hn

end

/-! ### Small amplitudes -/

theorem trunc_small (x : ℝ) : ∀ᶠ σ : ℝ in nhds 0, IntegratedSHO.trunc (σ ^ 2 * x) = 0 := by
  have hc : Continuous fun σ : ℝ => |σ ^ 2 * x| := by fun_prop
  have : ∀ᶠ σ : ℝ in nhds 0, |σ ^ 2 * x| < 1e-14 := hc.continuousAt.eventually_lt continuousAt_const (by norm_num)
  filter_upwards [this] with σ hσ
  exact if_pos hσ

theorem integratedSHO_noise_vanishes {w q : ℝ} (m : ℕ) (name : String) (hq : 1 / 2 < q) (hc : ¬ SHO.isCritical q) (s : ℝ) :
    ∀ᶠ σ : ℝ in nhds 0, (integratedSHO w q σ m name).Qt 0 s = 0 := by
  have hu : ¬ SHO.isCritical q ∧ q > 0.5 := ⟨hc, by norm_num; linarith⟩
  have h11 : ∀ᶠ σ : ℝ in nhds 0, ∀ i j : Fin 2, SHO.truncate (SHO.QunderExact w q σ (s - 0 - 0)) i j = 0 := by
    rw [Filter.eventually_all]; intro i; rw [Filter.eventually_all]; intro j
    filter_upwards [trunc_small (SHO.QunderExact w q 1 (s - 0 - 0) i j)] with σ hσ
    rw [← QunderExact_scale] at hσ
    exact hσ
  have h12 : ∀ᶠ σ : ℝ in nhds 0, ∀ i : Fin 2, IntegratedSHO.trunc (σ ^ 2 * IntegratedSHO.iQ12 w q (s - 0) i) = 0 := by
    rw [Filter.eventually_all]; intro i
    exact trunc_small _
  filter_upwards [h11, h12, trunc_small (max (IntegratedSHO.iQ22 w q (s - 0)) 0)] with σ g11 g12 g22
  have e12 : ∀ a : Fin 2, IntegratedSHO.q12 w q σ 0 s a = 0 := by
    intro a
    unfold IntegratedSHO.q12
    rw [if_pos hu, g12]
  ext i j
  rcases i with i | i <;> rcases j with j | j
  · show SHO.Q w q σ (s - 0 - 0) i j = 0
    unfold SHO.Q
    rw [if_neg hc, if_pos hu.2]
    exact g11 i j
  · exact e12 i
  · exact e12 j
  · show IntegratedSHO.q22 w q σ 0 s = 0
    unfold IntegratedSHO.q22
    rw [if_pos hu, g22]

/-- **C74, what fails.** If the amplitude of an underdamped `IntegratedSHO` is small (in the units used), all its process noise is cut off, and
every exposure start leaves the smoother with a singular system, whatever the data and their noise. -/
theorem C74_small_amplitude_singular {w q : ℝ} (m : ℕ) (name : String) (hw : 0 < w) (hq : 1 / 2 < q) (hc : ¬ SHO.isCritical q) (X : Arr Coord)
    (a : ℕ) (ha : a < X.len) (hd : 0 < (X.get a).delta) : ∃ σ0 : ℝ, 0 < σ0 ∧ ∀ σ, |σ| < σ0 → ∃ j, j + 1 < 2 * X.len ∧ ∀ y R : Arr ℝ,
      (((integratedSHO w q σ m name).integratedKalman X y R).get (j + 1)).PPred.det = 0 := by
  obtain ⟨σ0, hσ0, h⟩ := Metric.eventually_nhds_iff.1 (integratedSHO_noise_vanishes (w := w) m name hq hc
    ((stateCoords X).t.get (startStep X a + 1) - (stateCoords X).t.get (startStep X a)))
  refine ⟨σ0, hσ0, fun σ hσ => ⟨startStep X a, ?_, fun y R => ?_⟩⟩
  · have h1 := start_before_end ha hd
    have h2 := endStep_lt ha
    omega
  · have h0 : (stateCoords X).stateid.get (startStep X a) = 0 := ((isStart_iff ha).2 rfl).2.2
    have hk : IntegratedSum SHO.Genuine m (integratedSHO w q σ m name) (covSHO w q σ) := .sho hw (by linarith) (.inr hc) le_rfl
    unfold SSM.integratedKalman
    rw [ikf_succ_P, ikf_start _ _ _ _ _ _ _ _ _ h0]
    exact singular_after_reset (hk.reset_singular _) (h (by simpa using hσ))

example : ∃ σ0 : ℝ, 0 < σ0 ∧ ∀ σ, |σ| < σ0 → ∃ j, j + 1 < 6 ∧ ∀ y R : Arr ℝ,
    (((integratedSHO 1 3 σ 1 "osc").integratedKalman threeExposures y R).get (j + 1)).PPred.det = 0 :=
  C74_small_amplitude_singular 1 "osc" one_pos (by norm_num) notCritical_three threeExposures 0 (by decide) two_pos

/-! ### Cases -/

/-- an oscillator of quality 3 and a Matérn kernel, three exposures of length 2, unit noise: relative error at most `1.2·10⁻¹²` -/
example (y : Arr ℝ) (hy : y.len = 3) : ∃ gp, GP.new (.sum (.integratedSHO 1 3 2 1 "osc") (.integratedMatern32 5 3 4 "slow"))
      (.triple exT exD exI) (some (.inl 1)) none none false = .ok gp ∧ ∃ ℓ : ℝ, gp.logProbability y = .ok (ℓ : EReal) ∧
    |ℓ - gaussLogDensity (obsGram (fun r => covSHO 1 3 2 r + covMatern32 5 3 r) (XArg.triple exT exD exI).coords (GP.noiseOf 3 (some (.inl 1))))
      (fun i : Fin 3 => y.get i)| ≤ 1.2e-12 * (misfit (fun r => covSHO 1 3 2 r + covMatern32 5 3 r) (XArg.triple exT exD exI).coords
        (GP.noiseOf 3 (some (.inl 1))) y + 3) := by
  have hk : (Kern.sum (.integratedSHO 1 3 2 1 "osc") (.integratedMatern32 5 3 4 "slow")).IntegratesUpTo 1 _ _ :=
    .sum (.sho one_pos (by norm_num) notCritical_three le_rfl) (.exact (.matern32 (by norm_num) (by norm_num) (by norm_num)))
  obtain ⟨gp, hnew, -⟩ := C74_succeeds hk (.inl rfl) exT exD exI (some (.inl 1)) none
  refine ⟨gp, hnew, ?_⟩
  obtain ⟨ℓ, h1, h2⟩ := C74_log_probability hk (.inl rfl) hnew ex_schedule (by decide) hy (D := 2) two_pos
    (fun i _ => .inr le_rfl) one_pos (fun i _ => le_rfl) (by show 2 * ((3 : ℕ) : ℝ) ^ 2 * _ ≤ _; norm_num)
  refine ⟨ℓ, h1, h2.trans (mul_le_mul_of_nonneg_right ?_ ?_)⟩
  · show 2 * ((3 : ℕ) : ℝ) ^ 2 * _ / 1 ≤ _; norm_num
  · refine add_nonneg (((psd_iff _).1 ?_).2 _) (by norm_num)
    have := Matrix.PosDef.posSemidef_add (exposureGram_psd hk.cov.1 hk.cov.2 fun i : Fin 3 => (XArg.triple exT exD exI).coords.get i)
      (Matrix.PosDef.diagonal fun _ : Fin 3 => one_pos (α := ℝ))
    have e := obsGram_eq_add (fun r => covSHO 1 3 2 r + covMatern32 5 3 r) (XArg.triple exT exD exI).coords (GP.noiseOf 3 (some (.inl 1)))
    exact (e ▸ this : (obsGram _ _ _).PosDef).inv.posSemidef

/-- an oscillator of quality 3 with large amplitude: all the hypotheses are met -/
example : ∃ σ : ℝ, 0 < σ ∧ (Kern.integratedSHO 1 3 σ 1 "osc").IntegratesUpTo 1 (covSHO 1 3 σ) (fun D => 1e-14 * (1 + 1 / 1 + 1 / D) ^ 2) ∧
    ∀ y : Arr ℝ, ∃ gp lp gp', GP.new (.integratedSHO 1 3 σ 1 "osc") (.triple exT exD exI) (some (.inl 1)) none none false = .ok gp ∧
      gp.condition y = .ok (lp, gp') ∧ ∀ n < 3, ∃ var, gp'.var = some var ∧
        |var.get n - postVar (obsGram (covSHO 1 3 σ) (XArg.triple exT exD exI).coords (GP.noiseOf 3 (some (.inl 1))))
          (exposureCov (covSHO 1 3 σ) (.exposure (exT.get n) 2 (exI.get n)) (.exposure (exT.get n) 2 (exI.get n)))
          (obsCross (covSHO 1 3 σ) (.exposure (exT.get n) 2 (exI.get n)) (XArg.triple exT exD exI).coords)| ≤ 2.4e-12 := by
  obtain ⟨σ, hQ, hσ⟩ := ((integratedSHO_noiseOnEvents (w := 1) (q := 3) 1 "osc" one_pos (by norm_num) notCritical_three
    (XArg.triple exT exD exI).coords).and (Filter.eventually_gt_atTop 0)).exists
  have hk : (Kern.integratedSHO 1 3 σ 1 "osc").IntegratesUpTo 1 (covSHO 1 3 σ) (fun D => 1e-14 * (1 + 1 / 1 + 1 / D) ^ 2) :=
    .sho one_pos (by norm_num) notCritical_three le_rfl
  refine ⟨σ, hσ, hk, fun y => ?_⟩
  obtain ⟨gp, hnew, hc⟩ := C74_succeeds hk (.inl rfl) exT exD exI (some (.inl 1)) none
  obtain ⟨⟨lp, gp'⟩, hcond⟩ := (hc y).2 ⟨by decide, _, rfl⟩
  refine ⟨gp, lp, gp', hnew, hcond, fun n hn => ?_⟩
  obtain ⟨-, -, var, hvar, -, hm⟩ := C74_condition_partial hk (.inl rfl) hnew ex_schedule (D := 2) two_pos (fun i _ => le_rfl) one_pos
    (fun i _ => le_rfl) (by show 2 * ((3 : ℕ) : ℝ) ^ 2 * _ ≤ _; norm_num) hcond (fun j hj => pd_det (C56_systems_posdef _ (covSHO 1 3 σ) 1
      (.sho one_pos (by norm_num) (.inr notCritical_three) hσ.ne' le_rfl) _ ex_schedule ex_distinct hQ y _ (fun i _ => one_pos) (j + 1) hj))
  refine ⟨var, hvar, (hm n hn).2.trans ?_⟩
  show 2 * (2 * ((3 : ℕ) : ℝ) ^ 2 * _ / 1) * 1 ≤ _
  norm_num

end Verif
