import Verif.Lemmas.IntLine
import Verif.Props.C24_Values

/-!
# C11: exposure-averaged data are modelled by the doubly averaged kernel

`exposureCov κ X Y` (`Spec/Exposure.lean`) is the average of `κ |u - v|` over `u` in the exposure of `X` and `v` in that of `Y`
(the value at the time itself for an exposure of zero length).
-/

set_option linter.unusedSectionVars false

namespace Verif
open Matrix Spec

/-- Sums of exported integrated kernels, each with at least `m + 1` instruments, and the covariance function of the latent process
(the sum of the textbook covariance functions). The quality factor of an `SHO` satisfies `shoOk`. -/
inductive IntegratedSum (shoOk : ℝ → Prop) (m : ℕ) : SSM → (ℝ → ℝ) → Prop
  | exp {scale sigma : ℝ} {m' : ℕ} {name : String} (hs : 0 < scale) (hm : m ≤ m') :
      IntegratedSum shoOk m (integratedExp scale sigma m' name) (covExp scale sigma)
  | matern32 {scale sigma : ℝ} {m' : ℕ} {name : String} (hs : 0 < scale) (hm : m ≤ m') :
      IntegratedSum shoOk m (integratedMatern32 scale sigma m' name) (covMatern32 scale sigma)
  | matern52 {scale sigma : ℝ} {m' : ℕ} {name : String} (hs : 0 < scale) (hm : m ≤ m') :
      IntegratedSum shoOk m (integratedMatern52 scale sigma m' name) (covMatern52 scale sigma)
  | cosine {scale sigma : ℝ} {m' : ℕ} {name : String} (hs : 0 < scale) (hm : m ≤ m') :
      IntegratedSum shoOk m (integratedCosine scale sigma m' name) (covCosine scale sigma)
  | sho {omega quality sigma : ℝ} {m' : ℕ} {name : String} (hw : 0 < omega) (hq : 0 < quality) (ok : shoOk quality) (hm : m ≤ m') :
      IntegratedSum shoOk m (integratedSHO omega quality sigma m' name) (covSHO omega quality sigma)
  | sum {k1 k2 : SSM} {κ1 κ2 : ℝ → ℝ} (h1 : IntegratedSum shoOk m k1 κ1) (h2 : IntegratedSum shoOk m k2 κ2) :
      IntegratedSum shoOk m (k1.sum k2) fun r => κ1 r + κ2 r

theorem Schedule.mono {m m' : ℕ} (h : m ≤ m') {X : Arr Coord} (hX : Schedule m X) : Schedule m' X :=
  ⟨hX.delta_nonneg, fun n hn => ⟨(hX.inst n hn).1, (hX.inst n hn).2.trans (by exact_mod_cast h)⟩, hX.disjoint⟩

/-- the process noise of the kernel is the accumulated one over every time step between events of `X` -/
def SSM.NoiseOnEvents (k : SSM) (X : Arr Coord) : Prop :=
  ∀ j, j + 1 < 2 * X.len → k.NoiseIntegralOver ((stateCoords X).t.get (j + 1) - (stateCoords X).t.get j)

/-! ### averages of sums -/

theorem average_continuous (Y : Coord) {κ : ℝ → ℝ} (h : Continuous fun u => κ |u|) : Continuous fun u => Y.average fun v => κ |u - v| := by
  unfold Coord.average
  split_ifs
  · refine continuous_const.mul ?_
    refine intervalIntegral.continuous_parametric_intervalIntegral_of_continuous' (f := fun u v => κ |u - v|) ?_ _ _
    exact h.comp (continuous_fst.sub continuous_snd)
  · exact h.comp (continuous_id.sub continuous_const)

theorem exposureCov_add {κ1 κ2 : ℝ → ℝ} (h1 : Continuous fun u => κ1 |u|) (h2 : Continuous fun u => κ2 |u|) (X Y : Coord) :
    exposureCov (fun r => κ1 r + κ2 r) X Y = exposureCov κ1 X Y + exposureCov κ2 X Y := by
  unfold exposureCov
  rw [← Coord.average_add X (average_continuous Y h1) (average_continuous Y h2)]
  congr 1
  funext u
  exact Coord.average_add Y (h1.comp (continuous_const.sub continuous_id)) (h2.comp (continuous_const.sub continuous_id))

/-! ### sums of noises -/

theorem blockDiag_conj {n₁ n₂ p₁ p₂ : Type} [Fintype n₁] [DecidableEq n₁] [Fintype n₂] [DecidableEq n₂] [Fintype p₁] [Fintype p₂]
    (F1 : Matrix n₁ n₁ ℝ) (L1 : Matrix n₁ p₁ ℝ) (Q1 : Matrix p₁ p₁ ℝ) (F2 : Matrix n₂ n₂ ℝ) (L2 : Matrix n₂ p₂ ℝ) (Q2 : Matrix p₂ p₂ ℝ) (u : ℝ) :
    NormedSpace.exp (u • blockDiag F1 F2) * (blockDiag L1 L2 * blockDiag Q1 Q2 * (blockDiag L1 L2)ᵀ) *
      (NormedSpace.exp (u • blockDiag F1 F2))ᵀ =
    blockDiag (NormedSpace.exp (u • F1) * (L1 * Q1 * L1ᵀ) * (NormedSpace.exp (u • F1))ᵀ)
        (NormedSpace.exp (u • F2) * (L2 * Q2 * L2ᵀ) * (NormedSpace.exp (u • F2))ᵀ) := by
  rw [← expm_blockDiag]
  simp only [blockDiag_transpose, blockDiag_mul]

theorem SSM.NoiseIntegralOver.sum_iff {k1 k2 : SSM} {s : ℝ} :
    (k1.sum k2).NoiseIntegralOver s ↔ k1.NoiseIntegralOver s ∧ k2.NoiseIntegralOver s := by
  have e : ∀ u : ℝ, NormedSpace.exp (u • (k1.sum k2).F) * ((k1.sum k2).L * (k1.sum k2).Qc * (k1.sum k2).Lᵀ) *
      (NormedSpace.exp (u • (k1.sum k2).F))ᵀ =
      blockDiag (NormedSpace.exp (u • k1.F) * (k1.L * k1.Qc * k1.Lᵀ) * (NormedSpace.exp (u • k1.F))ᵀ)
        (NormedSpace.exp (u • k2.F) * (k2.L * k2.Qc * k2.Lᵀ) * (NormedSpace.exp (u • k2.F))ᵀ) := by
    intro u
    exact blockDiag_conj k1.F k1.L k1.Qc k2.F k2.L k2.Qc u
  unfold SSM.NoiseIntegralOver
  simp only [e]
  constructor
  · intro h
    exact ⟨fun i j => h (.inl i) (.inl j), fun i j => h (.inr i) (.inr j)⟩
  · rintro ⟨h1, h2⟩ (i | i) (j | j)
    · exact h1 i j
    · show (0 : ℝ) = ∫ u in (0 : ℝ)..s, (0 : ℝ)
      rw [intervalIntegral.integral_zero]
    · show (0 : ℝ) = ∫ u in (0 : ℝ)..s, (0 : ℝ)
      rw [intervalIntegral.integral_zero]
    · exact h2 i j

/-! ### facts about the leaves -/

theorem noiseOver_zero {k : SSM} (h : k.Qt 0 0 = 0) : k.NoiseIntegralOver 0 := fun i j => by
  rw [h, intervalIntegral.integral_same]; rfl

theorem noise_zero_of_over {k : SSM} (h : k.NoiseIntegralOver 0) : k.Qt 0 0 = 0 := by
  ext i j; rw [h i j, intervalIntegral.integral_same]; rfl

theorem latK_of_hasCov {base : SSM} {κ : ℝ → ℝ} (hexp : base.TransitionIsExp) (h : base.HasCov κ) (first : base.n)
    (hH : ∀ X, base.obsModel X none = Matrix.of fun _ a => if a = first then 1 else 0) (r : ℝ) (hr : 0 ≤ r) :
    latK base.F base.Pinf first r = κ r := by
  have h1 := h (.time r) (.time 0)
  rw [show (Coord.time r).sortable - (Coord.time 0).sortable = r from sub_zero r, abs_of_nonneg hr] at h1
  rw [← h1]
  unfold SSM.evaluate
  have hnl : ¬ (Coord.time r).sortable < (Coord.time 0).sortable := not_lt.2 hr
  have h2 := hexp (.time 0) (.time r)
  rw [show (Coord.time r).sortable - (Coord.time 0).sortable = r from sub_zero r] at h2
  simp only [if_neg hnl, hH]
  rw [h2]
  unfold latK
  simp [Matrix.mul_apply]

theorem noiseSource_psd_rank_one {n : Type} [Fintype n] (L : Matrix n (Fin 1) ℝ) {q : ℝ} (hq : 0 ≤ q) :
    (L * (!![q] : Matrix (Fin 1) (Fin 1) ℝ) * Lᵀ).PosSemidef := by
  refine psd_conj ?_ L
  rw [psd_iff]
  refine ⟨transpose_one_by_one _, fun x => ?_⟩
  simp only [dotProduct, mulVec, Finset.univ_unique, Finset.sum_singleton]
  show 0 ≤ x _ * (q * x _)
  nlinarith [mul_nonneg hq (mul_self_nonneg (x default))]

/-- what the theorems need to know about a sum of integrated kernels -/
structure SSM.IntegratedOk (k : SSM) (m : ℕ) (κ : ℝ → ℝ) : Prop where
  meas : ∀ X, Schedule m X → 0 < X.len → k.NoiseOnEvents X → k.Measures X (exposureCov κ)
  line : ∀ τ J, LineOk m τ J → (∀ j, k.NoiseIntegralOver (τ (j + 1) - τ j)) → k.LineMeasures τ J (exposureCov κ)
  fresh : ∀ τ J, LineOk m τ J → (∀ j, k.NoiseIntegralOver (τ (j + 1) - τ j)) → k.LineFresh τ J
  fresh_var : ∀ c : Coord, 0 < c.delta → 1 / c.delta ^ 2 ≤ (k.obsModel c none * k.Pinf * (k.obsModel c none)ᵀ) 0 0
  zero : k.NoiseIntegralOver 0
  P_psd : k.Pinf.PosSemidef
  src_psd : (k.L * k.Qc * k.Lᵀ).PosSemidef
  cont : Continuous fun u => κ |u|

theorem integratedOk_of_base {name : String} {m m' : ℕ} (hm : m ≤ m') {base : SSM} {first : base.n} {phibar : ℝ → ℝ → Matrix base.n base.n ℝ}
    {q12 : ℝ → ℝ → base.n → ℝ} {q22 : ℝ → ℝ → ℝ} {κ : ℝ → ℝ}
    (hA : (integratedSSM name m' base first phibar q12 q22).TransitionIsExp) (hexp : base.TransitionIsExp)
    (hL : base.Lyapunov) (hP : base.Pinf.PosSemidef) (hqc : base.Qcᵀ = base.Qc) (hsrc : (base.L * base.Qc * base.Lᵀ).PosSemidef)
    (hcov : base.HasCov κ) (hH : ∀ X, base.obsModel X none = Matrix.of fun _ a => if a = first then 1 else 0)
    (h0 : (integratedSSM name m' base first phibar q12 q22).NoiseIntegralOver 0) :
    (integratedSSM name m' base first phibar q12 q22).IntegratedOk m κ where
  meas X hX hN hQ := (integrated_measures hA hL (psd_symm hP) hqc (hX.mono hm) hN hQ h0).congr fun c d =>
    exposureCov_congr (latK_of_hasCov hexp hcov first hH) c d
  line τ J hl hQ := (integrated_line_measures hm hA hL (psd_symm hP) hqc hl hQ).congr fun c d =>
    exposureCov_congr (latK_of_hasCov hexp hcov first hH) c d
  fresh τ J hl hQ := integrated_line_fresh hm hA hL (psd_symm hP) hqc hl hQ
  fresh_var c hc := (integrated_fresh_var hc).ge
  zero := h0
  P_psd := blockDiag_psd hP PosSemidef.one
  src_psd := by
    have e : (integratedSSM name m' base first phibar q12 q22).L * (integratedSSM name m' base first phibar q12 q22).Qc *
        (integratedSSM name m' base first phibar q12 q22).Lᵀ = blockDiag (base.L * base.Qc * base.Lᵀ) 0 := by
      have : fromRows base.L (0 : Matrix (Fin (m' + 1)) base.p ℝ) * base.Qc * (fromRows base.L (0 : Matrix (Fin (m' + 1)) base.p ℝ))ᵀ =
          blockDiag (base.L * base.Qc * base.Lᵀ) 0 := by
        rw [Matrix.fromRows_mul, Matrix.transpose_fromRows, Matrix.fromRows_mul_fromCols]
        simp [blockDiag]
      exact this
    rw [e]
    exact blockDiag_psd hsrc PosSemidef.zero
  cont := by
    have : (fun u => κ |u|) = fun u => latK base.F base.Pinf first |u| :=
      funext fun u => (latK_of_hasCov hexp hcov first hH _ (abs_nonneg u)).symm
    rw [this]
    exact latK_abs_continuous _ _ _

theorem Leaf.P_psd {k : SSM} (h : Leaf SHO.Any k) : k.Pinf.PosSemidef := by
  obtain ⟨G, hG⟩ := h.covModel
  exact hG.P_psd

theorem defaultQ12_zero (base : SSM) (first a : base.n) : defaultQ12 base first 0 0 a = 0 := by
  have v := vanLoan_zero base.F base.L base.Qc
  unfold defaultQ12
  rw [sub_zero]
  have : (vanLoan base.F base.L base.Qc 0).F3ᵀ * (vanLoan base.F base.L base.Qc 0).H2 = 0 := by rw [v.1, Matrix.mul_zero]
  exact congrFun₂ this a first

theorem defaultQ22_zero (base : SSM) (first : base.n) : defaultQ22 base first 0 0 = 0 := by
  have v := vanLoan_zero base.F base.L base.Qc
  rw [IntegratedSHO.defaultQ22_eq, sub_zero, v.2, Matrix.mul_zero, transpose_zero, add_zero]; rfl

theorem integratedSHO_zero (w q sigma : ℝ) (m : ℕ) (name : String) (hw : 0 < w) (hq : 0 < q) :
    (integratedSHO w q sigma m name).NoiseIntegralOver 0 := by
  refine noiseOver_zero ?_
  have h1 : (sho w q sigma).Q (.time 0) (.time (0 - 0)) = 0 :=
    C22_noise_zero _ (.leaf (.sho hw hq trivial)) _ _ (by simp [Coord.sortable])
  have d12 : ∀ a : Fin 2, defaultQ12 (sho w q sigma) (0 : Fin 2) 0 0 a = 0 := fun a => defaultQ12_zero (sho w q sigma) (0 : Fin 2) a
  have d22 : defaultQ22 (sho w q sigma) (0 : Fin 2) 0 0 = 0 := defaultQ22_zero (sho w q sigma) (0 : Fin 2)
  have h2 : ∀ a, IntegratedSHO.q12 w q sigma 0 0 a = 0 := by
    intro a
    unfold IntegratedSHO.q12
    rw [sub_zero]
    split_ifs with h
    · have e : sigma ^ 2 * IntegratedSHO.iQ12 w q 0 a = defaultQ12 (sho w q sigma) (0 : Fin 2) 0 0 a := by
        unfold defaultQ12
        rw [sub_zero]
        exact IntegratedSHO.iQ12_eq sigma _ hw (SHO.half_lt_of h.2) 0 a
      exact (congrArg IntegratedSHO.trunc (e.trans (d12 a))).trans (by simp [IntegratedSHO.trunc])
    · exact d12 a
  have h3 : IntegratedSHO.q22 w q sigma 0 0 = 0 := by
    unfold IntegratedSHO.q22
    rw [sub_zero]
    split_ifs with h
    · rw [IntegratedSHO.iQ22_zero (SHO.half_lt_of h.2), max_self, mul_zero]
      simp [IntegratedSHO.trunc]
    · exact d22
  show Matrix.fromBlocks ((sho w q sigma).Q (.time 0) (.time (0 - 0))) (Matrix.of fun a _ => IntegratedSHO.q12 w q sigma 0 0 a)
    (Matrix.of fun _ a => IntegratedSHO.q12 w q sigma 0 0 a) (Matrix.of fun _ _ => IntegratedSHO.q22 w q sigma 0 0) = 0
  rw [h1]
  ext (i | i) (j | j)
  · rfl
  · exact h2 i
  · exact h2 j
  · exact h3

theorem firstRow1 (name : String) (X : Coord) :
    defaultObsModel name (fun _ => (!![1] : Matrix (Fin 1) (Fin 1) ℝ)) X none = Matrix.of fun _ a => if a = 0 then 1 else 0 :=
  (defaultObs_none _ _ _).trans (by ext i j; fin_cases i; fin_cases j; rfl)

theorem firstRow2 (name : String) (X : Coord) :
    defaultObsModel name (fun _ => (!![1, 0] : Matrix (Fin 1) (Fin 2) ℝ)) X none = Matrix.of fun _ a => if a = 0 then 1 else 0 :=
  (defaultObs_none _ _ _).trans (by ext i j; fin_cases i; fin_cases j <;> simp)

theorem firstRow3 (name : String) (X : Coord) :
    defaultObsModel name (fun _ => (!![1, 0, 0] : Matrix (Fin 1) (Fin 3) ℝ)) X none = Matrix.of fun _ a => if a = 0 then 1 else 0 :=
  (defaultObs_none _ _ _).trans (by ext i j; fin_cases i; fin_cases j <;> simp)

theorem IntegratedSum.ok {m : ℕ} {k : SSM} {κ : ℝ → ℝ} (h : IntegratedSum SHO.Genuine m k κ) : k.IntegratedOk m κ := by
  induction h with
  | @exp scale sigma m' name hs hm =>
    exact integratedOk_of_base hm (C32_shipped_transition _ (.exp hs)) (expKernel_baseOk hs).exp (expKernel_baseOk hs).lyap
      (Leaf.exp hs).P_psd (expKernel_baseOk hs).qc_symm (noiseSource_psd_rank_one _ (by positivity)) (C24_exp _ _ _ hs)
      (firstRow1 _)
      ((C32_shipped_noise _ (.exp hs)).over 0)
  | @matern32 scale sigma m' name hs hm =>
    have hl : 0 < Matern32.lam scale := by unfold Matern32.lam; positivity
    exact integratedOk_of_base hm (C32_shipped_transition _ (.matern32 hs)) (matern32_baseOk hs).exp (matern32_baseOk hs).lyap
      (Leaf.matern32 hs).P_psd (matern32_baseOk hs).qc_symm (noiseSource_psd_rank_one _ (by positivity)) (C24_matern32 _ _ _ hs)
      (firstRow2 _)
      ((C32_shipped_noise _ (.matern32 hs)).over 0)
  | @matern52 scale sigma m' name hs hm =>
    have hl : 0 < Matern52.lam scale := by unfold Matern52.lam; positivity
    exact integratedOk_of_base hm (C32_shipped_transition _ (.matern52 hs)) (matern52_baseOk hs).exp (matern52_baseOk hs).lyap
      (Leaf.matern52 hs).P_psd (matern52_baseOk hs).qc_symm (noiseSource_psd_rank_one _ (by positivity)) (C24_matern52 _ _ _ hs)
      (firstRow3 _)
      ((C32_shipped_noise _ (.matern52 hs)).over 0)
  | @cosine scale sigma m' name hs hm =>
    exact integratedOk_of_base hm (C32_shipped_transition _ (.cosine hs)) (cosine_baseOk hs).exp (cosine_baseOk hs).lyap
      (Leaf.cosine hs).P_psd (cosine_baseOk hs).qc_symm (noiseSource_psd_rank_one _ le_rfl) (C24_cosine _ _ _ hs)
      (firstRow2 _)
      ((C32_shipped_noise _ (.cosine hs)).over 0)
  | @sho w q sigma m' name hw hq ok hm =>
    exact integratedOk_of_base hm (C32_shipped_transition _ (.sho hw hq ok)) (Leaf.sho hw hq ok).transitionIsExp
      (Leaf.sho (shoOk := SHO.Any) hw hq trivial).lyapunov (Leaf.sho hw hq trivial).P_psd (transpose_one_by_one _)
      (noiseSource_psd_rank_one _ (by positivity)) (C24_sho _ _ _ _ hw hq ok)
      (firstRow2 _)
      (integratedSHO_zero w q sigma m' name hw hq)
  | @sum k1 k2 κ1 κ2 _ _ h1 h2 =>
    refine ⟨fun X hX hN hQ => ?_, fun τ J hl hQ => ?_, fun τ J hl hQ => ?_, fun c hc => ?_, SSM.NoiseIntegralOver.sum_iff.2 ⟨h1.zero, h2.zero⟩, blockDiag_psd h1.P_psd h2.P_psd, ?_, h1.cont.add h2.cont⟩
    · refine ((h1.meas X hX hN fun j hj => (SSM.NoiseIntegralOver.sum_iff.1 (hQ j hj)).1).sum
        (h2.meas X hX hN fun j hj => (SSM.NoiseIntegralOver.sum_iff.1 (hQ j hj)).2)).congr fun c d => ?_
      exact (exposureCov_add h1.cont h2.cont c d).symm
    · refine ((h1.line τ J hl fun j => (SSM.NoiseIntegralOver.sum_iff.1 (hQ j)).1).sum
        (h2.line τ J hl fun j => (SSM.NoiseIntegralOver.sum_iff.1 (hQ j)).2)).congr fun c d => ?_
      exact (exposureCov_add h1.cont h2.cont c d).symm
    · exact (h1.fresh τ J hl fun j => (SSM.NoiseIntegralOver.sum_iff.1 (hQ j)).1).sum
        (h2.fresh τ J hl fun j => (SSM.NoiseIntegralOver.sum_iff.1 (hQ j)).2)
    · have e : ((k1.sum k2).obsModel c none * (k1.sum k2).Pinf * ((k1.sum k2).obsModel c none)ᵀ) 0 0 =
          (k1.obsModel c none * k1.Pinf * (k1.obsModel c none)ᵀ) 0 0 + (k2.obsModel c none * k2.Pinf * (k2.obsModel c none)ᵀ) 0 0 :=
        hstack_blockDiag _ _ _ _ _ _
      rw [e]
      have : 0 ≤ 1 / c.delta ^ 2 := by positivity
      linarith [h1.fresh_var c hc, h2.fresh_var c hc]
    · have e : (k1.sum k2).L * (k1.sum k2).Qc * (k1.sum k2).Lᵀ = blockDiag (k1.L * k1.Qc * k1.Lᵀ) (k2.L * k2.Qc * k2.Lᵀ) := by
        rw [← blockDiag_mul, ← blockDiag_mul, ← blockDiag_transpose]
        rfl
      rw [e]
      exact blockDiag_psd h1.src_psd h2.src_psd

theorem SSM.NoiseOnEvents.psd {k : SSM} {m : ℕ} {κ : ℝ → ℝ} (hk : k.IntegratedOk m κ) {X : Arr Coord} (hQ : k.NoiseOnEvents X) :
    k.PsdModel X :=
  ⟨hk.P_psd, hk.zero.psd le_rfl hk.src_psd, fun j hj =>
    (hQ j hj).psd (sub_nonneg.2 (sc_sorted _ _ (Nat.le_succ j) (by rw [sc_len]; exact hj))) hk.src_psd⟩

/-- for every sum of integrated kernels other than underdamped `SHO`s, the noise is exact over every step -/
theorem IntegratedSum.noise {m : ℕ} {k : SSM} {κ : ℝ → ℝ}
    (h : IntegratedSum (fun q => SHO.Genuine q ∧ SHO.NotUnderdamped q) m k κ) (s : ℝ) : k.NoiseIntegralOver s := by
  induction h with
  | exp hs hm => exact (C32_shipped_noise _ (.exp hs)).over s
  | matern32 hs hm => exact (C32_shipped_noise _ (.matern32 hs)).over s
  | matern52 hs hm => exact (C32_shipped_noise _ (.matern52 hs)).over s
  | cosine hs hm => exact (C32_shipped_noise _ (.cosine hs)).over s
  | sho hw hq ok hm => exact (C32_shipped_noise _ (.sho hw hq ok)).over s
  | sum _ _ h1 h2 => exact SSM.NoiseIntegralOver.sum_iff.2 ⟨h1, h2⟩

theorem IntegratedSum.mono {p q : ℝ → Prop} (hpq : ∀ x, p x → q x) {m : ℕ} {k : SSM} {κ : ℝ → ℝ} (h : IntegratedSum p m k κ) :
    IntegratedSum q m k κ := by
  induction h with
  | exp hs hm => exact .exp hs hm
  | matern32 hs hm => exact .matern32 hs hm
  | matern52 hs hm => exact .matern52 hs hm
  | cosine hs hm => exact .cosine hs hm
  | sho hw hq ok hm => exact .sho hw hq (hpq _ ok) hm
  | sum _ _ h1 h2 => exact .sum h1 h2

theorem augmentedCov_eq {m : ℕ} {k : SSM} {κ : ℝ → ℝ} (h : k.IntegratedOk m κ) {X : Arr Coord} (hX : Schedule m X)
    (hQ : k.NoiseOnEvents X) {e : ℕ → ℕ} (he : ∀ n < X.len, IsEnd X n (e n)) {i j : ℕ} (hi : i < X.len) (hj : j < X.len) :
    augmentedCov k X e i j = exposureCov κ (X.get i) (X.get j) :=
  h.meas X hX (by omega) hQ _ _ _ _ (.measurement hi (he i hi)) (.measurement hj (he j hj))

theorem augmentedGram_eq {m : ℕ} {k : SSM} {κ : ℝ → ℝ} (h : k.IntegratedOk m κ) {X : Arr Coord} (hX : Schedule m X)
    (hQ : k.NoiseOnEvents X) {e : ℕ → ℕ} (he : ∀ n < X.len, IsEnd X n (e n)) (R : Arr ℝ) :
    augmentedGram k X R e = noisyGram (fun i j : Fin X.len => exposureCov κ (X.get i) (X.get j)) fun i => R.get i := by
  ext i j
  show augmentedCov k X e i j + _ = _
  rw [augmentedCov_eq h hX hQ he i.2 j.2]
  rfl

/-! ### The property -/

/-- **C11 (likelihood), general form.** For a sum of exported integrated kernels whose process noise is exact over the steps between
the exposure edges (this only excludes underdamped `SHO`s with truncated entries), the log likelihood of exposure-averaged data is
that of the Gaussian with the doubly averaged kernel. Exposures of different instruments may overlap in any way; exposures of the
same instrument must not overlap. -/
theorem C11_likelihood_on_events (k : SSM) (κ : ℝ → ℝ) (m : ℕ) (hk : IntegratedSum SHO.Genuine m k κ) (X : Arr Coord)
    (hX : Schedule m X) (hQ : k.NoiseOnEvents X) (y R : Arr ℝ) (hy : y.len = X.len) (hR : ∀ i < X.len, 0 < R.get i) :
    k.integratedLogProbability X y R =
      ((gaussLogDensity (noisyGram (fun i j : Fin X.len => exposureCov κ (X.get i) (X.get j)) fun i => R.get i)
        (fun i => y.get i) : ℝ) : EReal) := by
  have he : ∀ n < X.len, IsEnd X n (endStep X n) := fun n hn => (isEnd_iff hn).2 rfl
  rw [C09_integrated_likelihood_exact_psd k X (SSM.NoiseOnEvents.psd hk.ok hQ) y R hy hR _ he,
    augmentedGram_eq hk.ok hX hQ he R]

/-- **C11 (likelihood).** For every sum of exported integrated kernels (no underdamped `SHO`) -/
theorem C11_likelihood (k : SSM) (κ : ℝ → ℝ) (m : ℕ)
    (hk : IntegratedSum (fun q => SHO.Genuine q ∧ SHO.NotUnderdamped q) m k κ) (X : Arr Coord)
    (hX : Schedule m X) (y R : Arr ℝ) (hy : y.len = X.len) (hR : ∀ i < X.len, 0 < R.get i) :
    k.integratedLogProbability X y R =
      ((gaussLogDensity (noisyGram (fun i j : Fin X.len => exposureCov κ (X.get i) (X.get j)) fun i => R.get i)
        (fun i => y.get i) : ℝ) : EReal) :=
  C11_likelihood_on_events k κ m (hk.mono fun _ h => h.1) X hX (fun _ _ => hk.noise _) y R hy hR

/-- **C11 (posterior at the data).** The mean and variance reported for measurement `n` by `condition(y)` are the exact posterior ones
of the exposure average, under the doubly averaged kernel. -/
theorem C11_conditioned (k : SSM) (κ : ℝ → ℝ) (m : ℕ) (hk : IntegratedSum SHO.Genuine m k κ) (X : Arr Coord)
    (hX : Schedule m X) (hQ : k.NoiseOnEvents X) (y R : Arr ℝ) (hR : ∀ i < X.len, 0 < R.get i)
    (hd : ∀ n < X.len, 0 < (X.get n).delta)
    (hP : ∀ j, j + 1 < 2 * X.len → IsUnit ((k.integratedKalman X y R).get (j + 1)).PPred.det) (n : ℕ) (hn : n < X.len) :
    (k.integratedConditionedAtData X y R).get n =
      (postMean (noisyGram (fun i j : Fin X.len => exposureCov κ (X.get i) (X.get j)) fun i => R.get i) (fun i => y.get i)
        (fun i => exposureCov κ (X.get n) (X.get i)),
       postVar (noisyGram (fun i j : Fin X.len => exposureCov κ (X.get i) (X.get j)) fun i => R.get i)
        (exposureCov κ (X.get n) (X.get n)) (fun i => exposureCov κ (X.get n) (X.get i))) := by
  have he : ∀ n < X.len, IsEnd X n (endStep X n) := fun n hn => (isEnd_iff hn).2 rfl
  have hpsd := SSM.NoiseOnEvents.psd hk.ok hQ
  rw [C10_conditioned_exact k X hpsd.symm y R _ he hd (fun n hn => (hpsd.S_pos hR hn (he n hn)).ne') hP n hn,
    augmentedGram_eq hk.ok hX hQ he R, augmentedCov_eq hk.ok hX hQ he hn hn]
  simp only [fun i : Fin X.len => augmentedCov_eq hk.ok hX hQ he hn i.2]

/-- **C11 (posterior of the latent process).** At every edge of an exposure, the smoothed state observed by an instantaneous
coordinate (exposure zero) is the exact posterior of the latent process at that time, whatever instruments are exposing then. -/
theorem C11_latent (k : SSM) (κ : ℝ → ℝ) (m : ℕ) (hk : IntegratedSum SHO.Genuine m k κ) (X : Arr Coord)
    (hX : Schedule m X) (hQ : k.NoiseOnEvents X) (y R : Arr ℝ) (hR : ∀ i < X.len, 0 < R.get i)
    (hd : ∀ n < X.len, 0 < (X.get n).delta)
    (hP : ∀ j, j + 1 < 2 * X.len → IsUnit ((k.integratedKalman X y R).get (j + 1)).PPred.det) (j : ℕ) (hj : j < 2 * X.len) :
    (k.obsModel (.time ((stateCoords X).t.get j)) none *ᵥ ((k.integratedCondition X y R).2.get j).m) 0 =
      postMean (noisyGram (fun i j : Fin X.len => exposureCov κ (X.get i) (X.get j)) fun i => R.get i) (fun i => y.get i)
        (fun i => exposureCov κ (.time ((stateCoords X).t.get j)) (X.get i)) ∧
    (k.obsModel (.time ((stateCoords X).t.get j)) none * ((k.integratedCondition X y R).2.get j).P *
        (k.obsModel (.time ((stateCoords X).t.get j)) none)ᵀ) 0 0 =
      postVar (noisyGram (fun i j : Fin X.len => exposureCov κ (X.get i) (X.get j)) fun i => R.get i) (κ 0)
        (fun i => exposureCov κ (.time ((stateCoords X).t.get j)) (X.get i)) := by
  have he : ∀ n < X.len, IsEnd X n (endStep X n) := fun n hn => (isEnd_iff hn).2 rfl
  have hpsd := SSM.NoiseOnEvents.psd hk.ok hQ
  have hN : 0 < X.len := by omega
  have h := C10_integrated_smoothing_exact k X hpsd.symm y R _ he (fun n hn => (hpsd.S_pos hR hn (he n hn)).ne') hP
    (last_event_is_end X hN hd) j hj (k.obsModel (.time ((stateCoords X).t.get j)) none)
  have hm := hk.ok.meas X hX hN hQ
  rw [augmentedGram_eq hk.ok hX hQ he R] at h
  simp only [fun i : Fin X.len => hm _ _ _ _ (.latent hj) (.measurement i.2 (he i i.2)), hm _ _ _ _ (.latent hj) (.latent hj)] at h
  have e0 : exposureCov κ (.time ((stateCoords X).t.get j)) (.time ((stateCoords X).t.get j)) = κ 0 := by
    simp [exposureCov, Coord.average, Coord.delta, Coord.sortable]
  rw [e0] at h
  exact h

/-- three exposures: two overlapping ones on different instruments, and one on the first instrument that touches the first one -/
noncomputable def threeExposures : Arr Coord := Arr.ofList (.time 0) [.exposure 0 2 0, .exposure (1/2) 2 1, .exposure 2 2 0]

theorem threeExposures_schedule : Schedule 1 threeExposures := by
  have hl : threeExposures.len = 3 := rfl
  have e0 : threeExposures.get 0 = .exposure 0 2 0 := rfl
  have e1 : threeExposures.get 1 = .exposure (1/2) 2 1 := rfl
  have e2 : threeExposures.get 2 = .exposure 2 2 0 := rfl
  refine ⟨fun n hn => ?_, fun n hn => ?_, fun a ha b hb hab hi => ?_⟩
  · rw [hl] at hn
    interval_cases n <;> simp [e0, e1, e2, Coord.delta]
  · rw [hl] at hn
    interval_cases n <;> simp [e0, e1, e2, Coord.inst]
  · rw [hl] at ha hb
    interval_cases a <;> interval_cases b <;> simp [e0, e1, e2, Coord.inst, Coord.delta, Coord.sortable] at hab hi ⊢ <;> norm_num

/-- for these the likelihood of the sum of two integrated kernels is that of the doubly averaged covariance -/
example (y : Arr ℝ) (hy : y.len = 3) :
    ((integratedExp 2 1 1 "a").sum (integratedMatern32 5 3 4 "b")).integratedLogProbability threeExposures y ⟨3, fun _ => 1/10⟩ =
      ((gaussLogDensity (noisyGram (fun i j : Fin 3 => exposureCov (fun r => covExp 2 1 r + covMatern32 5 3 r)
        (threeExposures.get i) (threeExposures.get j)) fun _ => 1/10) (fun i => y.get i) : ℝ) : EReal) :=
  C11_likelihood _ _ 1 (.sum (.exp two_pos le_rfl) (.matern32 (by norm_num) (by norm_num))) threeExposures threeExposures_schedule y _ hy
    fun _ _ => by norm_num

/-- the doubly averaged covariance is a genuine average: for a constant covariance it is that constant, for any two exposures -/
theorem exposureCov_const (c : ℝ) (X Y : Coord) : exposureCov (fun _ => c) X Y = c := by
  unfold exposureCov Coord.average
  have h : ∀ (t d : ℝ), 0 < d → (1 / d) * ∫ _ in (t - d / 2)..(t + d / 2), c = c := by
    intro t d hd
    rw [intervalIntegral.integral_const, smul_eq_mul]
    field_simp
    ring
  beta_reduce
  split_ifs with h1 h2 h2
  · simp only [h _ _ h2, h _ _ h1]
  · exact h _ _ h1
  · exact h _ _ h2
  · rfl

end Verif
