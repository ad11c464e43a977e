import Verif.Lemmas.Psd
import Verif.Props.C24_Values

/-!
# C36: the power spectral density

`Damped k`: every component of `k` loses memory. Products need only one damped factor, so that the quasi-periodic
`ExpSineSquared(..) * Matern32(..)` is damped. For these kernels `psd` is the Fourier transform of the covariance function
(Wiener-Khinchin), which pins it down completely. For the undamped kernels `psd` is zero: it misses the spectral lines.
-/

namespace Verif
open Matrix MeasureTheory

inductive Damped : SSM → Prop
  | exp {scale sigma : ℝ} {name : String} (hs : 0 < scale) : Damped (expKernel scale sigma name)
  | matern32 {scale sigma : ℝ} {name : String} (hs : 0 < scale) : Damped (matern32 scale sigma name)
  | matern52 {scale sigma : ℝ} {name : String} (hs : 0 < scale) : Damped (matern52 scale sigma name)
  | matern {d : ℕ} {scale sigma : ℝ} (hd : 0 < d) (hs : 0 < scale) : Damped (maternGeneric d scale sigma)
  | sho {omega quality sigma : ℝ} {name : String} (hw : 0 < omega) (hq : 0 < quality) (ok : SHO.Genuine quality) :
      Damped (sho omega quality sigma name)
  | sum {k1 k2 : SSM} (h1 : Damped k1) (h2 : Damped k2) : Damped (k1.sum k2)
  | prodLeft {k1 k2 : SSM} (h1 : Damped k1) (h2 : Combos (Leaf SHO.Genuine) k2) : Damped (k1.prod k2)
  | prodRight {k1 k2 : SSM} (h1 : Combos (Leaf SHO.Genuine) k1) (h2 : Damped k2) : Damped (k1.prod k2)
  | scale {k : SSM} {name : String} {c : ℝ} (hc : 0 ≤ c) (h : Damped k) : Damped (k.scale name c)

theorem Damped.combos {k : SSM} (h : Damped k) : Combos (Leaf SHO.Genuine) k := by
  induction h with
  | exp hs => exact .leaf (.exp hs)
  | matern32 hs => exact .leaf (.matern32 hs)
  | matern52 hs => exact .leaf (.matern52 hs)
  | matern hd hs => exact .leaf (.matern hd hs)
  | sho hw hq ok => exact .leaf (.sho hw hq ok)
  | sum _ _ h1 h2 => exact .sum h1 h2
  | prodLeft _ h2 h1 => exact .prod h1 h2
  | prodRight h1 _ h2 => exact .prod h1 h2
  | scale hc _ h => exact .scale hc h

theorem Damped.bound {k : SSM} (h : Damped k) : ∃ a, 0 < a ∧ ExpBound k.F a := by
  induction h with
  | @exp scale _ _ hs => exact ⟨1 / scale / 2, by positivity, Exp.expBound hs⟩
  | @matern32 scale _ _ hs =>
    have hl : 0 < Matern32.lam scale := by unfold Matern32.lam; positivity
    exact ⟨_, by positivity, Matern32.expBound hl⟩
  | @matern52 scale _ _ hs =>
    have hl : 0 < Matern52.lam scale := by unfold Matern52.lam; positivity
    exact ⟨_, by positivity, Matern52.expBound hl⟩
  | matern hd hs => exact ⟨_, half_pos (Matern.lam_pos hd hs), ExpBound.of_nilpotent (Matern.lam_pos hd hs) (Matern.nilpotent _ _)⟩
  | sho hw hq _ => exact SHO.expBound hw hq
  | sum _ _ h1 h2 =>
    obtain ⟨a, ha, h1⟩ := h1
    obtain ⟨b, hb, h2⟩ := h2
    exact ⟨min a b, lt_min ha hb, (h1.mono (min_le_left _ _)).blockDiag (h2.mono (min_le_right _ _))⟩
  | prodLeft _ h2 h1 =>
    obtain ⟨a, ha, h1⟩ := h1
    exact ⟨a + 0, by linarith, h1.kron h2.expBound⟩
  | prodRight h1 _ h2 =>
    obtain ⟨a, ha, h2⟩ := h2
    exact ⟨0 + a, by linarith, h1.expBound.kron h2⟩
  | scale _ _ h => exact h

theorem Leaf.any {ok : ℝ → Prop} {k : SSM} (h : Leaf ok k) : Leaf SHO.Any k := by
  cases h with
  | exp hs => exact .exp hs
  | matern32 hs => exact .matern32 hs
  | matern52 hs => exact .matern52 hs
  | matern hd hs => exact .matern hd hs
  | cosine hs => exact .cosine hs
  | expSineSquared hp hg => exact .expSineSquared hp hg
  | sho hw hq _ => exact .sho hw hq trivial

theorem Combos.any {ok : ℝ → Prop} {k : SSM} (h : Combos (Leaf ok) k) : Combos (Leaf SHO.Any) k := by
  induction h with
  | leaf h => exact .leaf h.any
  | sum _ _ h1 h2 => exact .sum h1 h2
  | prod _ _ h1 h2 => exact .prod h1 h2
  | scale hc _ h => exact .scale hc h

theorem source_psd_one {n : Type} [Fintype n] (L : Matrix n (Fin 1) ℝ) {q : ℝ} (hq : 0 ≤ q) :
    (L * (!![q] : Matrix (Fin 1) (Fin 1) ℝ) * Lᵀ).PosSemidef := by
  refine psd_conj ?_ L
  rw [psd_iff]
  refine ⟨tr1 q, fun x => ?_⟩
  simp only [dotProduct, mulVec, Finset.univ_unique, Finset.sum_singleton]
  show 0 ≤ x _ * (q * x _)
  nlinarith [mul_nonneg hq (mul_self_nonneg (x default))]

theorem Leaf.source_psd {k : SSM} (h : Leaf SHO.Any k) : (k.L * k.Qc * k.Lᵀ).PosSemidef := by
  cases h with
  | exp hs => exact source_psd_one _ (by positivity)
  | @matern32 scale _ _ hs =>
    have hl : 0 < Matern32.lam scale := by unfold Matern32.lam; positivity
    exact source_psd_one _ (by positivity)
  | @matern52 scale _ _ hs =>
    have hl : 0 < Matern52.lam scale := by unfold Matern52.lam; positivity
    exact source_psd_one _ (by positivity)
  | matern hd hs => exact Matern.noise_psd (Matern.lam_pos hd hs)
  | cosine hs => exact source_psd_one _ le_rfl
  | @expSineSquared period gamma _ order _ hp hg =>
    have key : ∀ k : SSM, k.Qc = 0 → (k.L * k.Qc * k.Lᵀ).PosSemidef := fun k h => by
      rw [h, Matrix.mul_zero, Matrix.zero_mul]
      exact Matrix.PosSemidef.zero
    exact key _ (ExpSineSquared.sumTerms_Qc _ _ _)
  | sho hw hq _ => exact source_psd_one _ (by positivity)

/-- the driving noise of every kernel expression has a positive semidefinite covariance -/
theorem Combos.source_psd {k : SSM} (h : Combos (Leaf SHO.Any) k) : (k.L * k.Qc * k.Lᵀ).PosSemidef := by
  induction h with
  | leaf h => exact h.source_psd
  | @sum k1 k2 _ _ h1 h2 =>
    have e : (k1.sum k2).L * (k1.sum k2).Qc * (k1.sum k2).Lᵀ = blockDiag (k1.L * k1.Qc * k1.Lᵀ) (k2.L * k2.Qc * k2.Lᵀ) := by
      show blockDiag k1.L k2.L * blockDiag k1.Qc k2.Qc * (blockDiag k1.L k2.L)ᵀ = _
      rw [blockDiag_transpose, blockDiag_mul, blockDiag_mul]
    exact Eq.mpr (congrArg Matrix.PosSemidef e) (blockDiag_psd h1 h2)
  | @prod k1 k2 c1 c2 h1 h2 =>
    obtain ⟨_, m1⟩ := c1.covModel
    obtain ⟨_, m2⟩ := c2.covModel
    have e : (k1.prod k2).L * (k1.prod k2).Qc * (k1.prod k2).Lᵀ =
        Matrix.kroneckerMap (· * ·) (k1.L * k1.Qc * k1.Lᵀ) k2.Pinf + Matrix.kroneckerMap (· * ·) k1.Pinf (k2.L * k2.Qc * k2.Lᵀ) := by
      have key : ∀ M : Matrix (k1.n × k2.n) (k1.n × k2.n) ℝ, 1 * M * (1 : Matrix (k1.n × k2.n) (k1.n × k2.n) ℝ)ᵀ = M := fun M => by
        rw [Matrix.one_mul, transpose_one, Matrix.mul_one]
      exact key _
    exact Eq.mpr (congrArg Matrix.PosSemidef e) ((h1.kronecker m2.P_psd).add (m1.P_psd.kronecker h2))
  | @scale k name c hc _ h =>
    have e : (k.scale name c).L * (k.scale name c).Qc * (k.scale name c).Lᵀ = c • (k.L * k.Qc * k.Lᵀ) := by
      show k.L * (c • k.Qc) * k.Lᵀ = _
      rw [Matrix.mul_smul, Matrix.smul_mul]
    exact Eq.mpr (congrArg Matrix.PosSemidef e) (SSM.psd_smul h hc)

/-! ## real, non-negative, even -/

/-- **C36, real.** The complex number whose real part `psd` returns is real: nothing is discarded. -/
theorem C36_real (k : SSM) (hk : Combos (Leaf SHO.Any) k) (w : ℝ) (_hw : k.PsdDefined w) : (k.psdValue w).im = 0 := by
  have hs := psd_symm hk.source_psd
  have e : k.psdValue w = ((k.psdRow w).map (starRingEnd ℂ) * toC (k.L * k.Qc * k.Lᵀ) * (k.psdRow w)ᵀ) 0 0 := by
    unfold SSM.psdValue SSM.psdRow
    simp only [map_conj_mul, toC_conj, toC_mul, toC_transpose, transpose_mul, Matrix.mul_assoc]
  set S := (k.psdRow w).map (starRingEnd ℂ) * toC (k.L * k.Qc * k.Lᵀ) * (k.psdRow w)ᵀ with hS
  have hh : (S.map (starRingEnd ℂ))ᵀ = S := by
    have hcc : ((k.psdRow w).map (starRingEnd ℂ)).map (starRingEnd ℂ) = k.psdRow w := by ext i j; simp
    rw [hS, map_conj_mul, map_conj_mul, toC_conj, hcc, transpose_mul, transpose_mul, ← toC_transpose, hs, Matrix.transpose_map,
      transpose_transpose]
    exact (Matrix.mul_assoc _ _ _).symm
  have h0 : starRingEnd ℂ (S 0 0) = S 0 0 := congrFun (congrFun hh 0) 0
  rw [e]
  exact Complex.conj_eq_iff_im.1 h0

/-- **C36, non-negative.** -/
theorem C36_nonneg (k : SSM) (hk : Combos (Leaf SHO.Any) k) (w : ℝ) (_hw : k.PsdDefined w) : 0 ≤ k.psd w :=
  k.psd_nonneg hk.source_psd w

/-- **C36, even.** Where `psd` is defined at `w` it is defined at `-w`, with the same value. -/
theorem C36_even (k : SSM) (hk : Combos (Leaf SHO.Any) k) (w : ℝ) (hw : k.PsdDefined w) :
    k.PsdDefined (-w) ∧ k.psd (-w) = k.psd w :=
  ⟨k.psdDefined_neg hw, k.psd_neg hw (psd_symm hk.source_psd)⟩

/-! ## sums and multiples -/

theorem toC_blockDiag {m n m' n' : Type} (A : Matrix m n ℝ) (B : Matrix m' n' ℝ) : toC (blockDiag A B) = fromBlocks (toC A) 0 0 (toC B) := by
  ext i j
  rcases i with i | i <;> rcases j with j | j <;> simp [toC, blockDiag]

theorem SSM.psdShift_sum (k1 k2 : SSM) (w : ℝ) : (k1.sum k2).psdShift w = fromBlocks (k1.psdShift w) 0 0 (k2.psdShift w) := by
  show toC (blockDiag k1.F k2.F) + (Complex.I * (w : ℂ)) • (1 : Matrix (k1.n ⊕ k2.n) (k1.n ⊕ k2.n) ℂ) = _
  rw [toC_blockDiag, ← fromBlocks_one, fromBlocks_smul, fromBlocks_add, smul_zero, add_zero, smul_zero, add_zero]
  rfl

theorem quad_sum {n1 n2 : Type} [Fintype n1] [Fintype n2] {z : Matrix (Fin 1) (n1 ⊕ n2) ℂ} {z1 : Matrix (Fin 1) n1 ℂ}
    {z2 : Matrix (Fin 1) n2 ℂ} {M : Matrix (n1 ⊕ n2) (n1 ⊕ n2) ℝ} {M1 : Matrix n1 n1 ℝ} {M2 : Matrix n2 n2 ℝ}
    (hz : z = fromCols z1 z2) (hM : M = blockDiag M1 M2) :
    ((z.map (starRingEnd ℂ) * toC M * zᵀ) 0 0).re =
      ((z1.map (starRingEnd ℂ) * toC M1 * z1ᵀ) 0 0).re + ((z2.map (starRingEnd ℂ) * toC M2 * z2ᵀ) 0 0).re := by
  rw [SSM.quad_re, SSM.quad_re, SSM.quad_re, hz, hM]
  simp only [dotProduct, mulVec, blockDiag, Fintype.sum_sum_type, fromBlocks_apply₁₁, fromBlocks_apply₁₂, fromBlocks_apply₂₁, fromBlocks_apply₂₂,
    fromCols_apply_inl, fromCols_apply_inr, Matrix.zero_apply, zero_mul, Finset.sum_const_zero, add_zero, zero_add]
  ring

/-- **C36, sums.** The spectrum of a sum is defined exactly where the spectra of both terms are, and is their sum. -/
theorem C36_sum (k1 k2 : SSM) (w : ℝ) :
    ((k1.sum k2).PsdDefined w ↔ k1.PsdDefined w ∧ k2.PsdDefined w) ∧
    ((k1.sum k2).PsdDefined w → (k1.sum k2).psd w = k1.psd w + k2.psd w) := by
  have hd : (k1.sum k2).PsdDefined w ↔ k1.PsdDefined w ∧ k2.PsdDefined w := by
    have e : (k1.sum k2).PsdDefined w ↔ IsUnit (fromBlocks (k1.psdShift w) 0 0 (k2.psdShift w)).det := by
      rw [← SSM.psdShift_sum]
      exact Iff.rfl
    rw [e, det_fromBlocks_zero₁₂, IsUnit.mul_iff]
    exact Iff.rfl
  refine ⟨hd, fun h => ?_⟩
  obtain ⟨h1, h2⟩ := hd.1 h
  have hinv : ((k1.sum k2).psdShift w)⁻¹ = fromBlocks (k1.psdShift w)⁻¹ 0 0 (k2.psdShift w)⁻¹ := by
    refine Matrix.inv_eq_right_inv ?_
    rw [SSM.psdShift_sum]
    refine Eq.trans (fromBlocks_multiply _ _ _ _ _ _ _ _) ?_
    rw [Matrix.mul_nonsing_inv _ h1, Matrix.mul_nonsing_inv _ h2]
    simp only [Matrix.mul_zero, Matrix.zero_mul, add_zero, zero_add]
    exact fromBlocks_one
  have hrow : (k1.sum k2).psdRow w = fromCols (k1.psdRow w) (k2.psdRow w) := by
    unfold SSM.psdRow
    rw [hinv]
    have hH : toC ((k1.sum k2).obsMatrix (.time 0)) = fromCols (toC (k1.obsMatrix (.time 0))) (toC (k2.obsMatrix (.time 0))) := by
      ext i j
      rcases j with j | j <;> rfl
    rw [hH]
    refine Eq.trans (fromCols_mul_fromBlocks _ _ _ _ _ _) ?_
    simp only [Matrix.mul_zero, add_zero, zero_add]
    rfl
  have hsrc : (k1.sum k2).L * (k1.sum k2).Qc * (k1.sum k2).Lᵀ = blockDiag (k1.L * k1.Qc * k1.Lᵀ) (k2.L * k2.Qc * k2.Lᵀ) := by
    show blockDiag k1.L k2.L * blockDiag k1.Qc k2.Qc * (blockDiag k1.L k2.L)ᵀ = _
    rw [blockDiag_transpose, blockDiag_mul, blockDiag_mul]
  rw [SSM.psd_eq_row, SSM.psd_eq_row, SSM.psd_eq_row, ← add_div]
  exact congrArg (· / (2 * Real.pi)) (quad_sum hrow hsrc)

/-- **C36, multiples.** -/
theorem C36_scale (k : SSM) (name : String) (c w : ℝ) :
    ((k.scale name c).PsdDefined w ↔ k.PsdDefined w) ∧ (k.scale name c).psd w = c * k.psd w := by
  refine ⟨Iff.rfl, ?_⟩
  have hsrc : (k.scale name c).L * (k.scale name c).Qc * (k.scale name c).Lᵀ = c • (k.L * k.Qc * k.Lᵀ) := by
    show k.L * (c • k.Qc) * k.Lᵀ = _
    rw [Matrix.mul_smul, Matrix.smul_mul]
  have hrow : (k.scale name c).psdRow w = k.psdRow w := rfl
  rw [SSM.psd_eq_row, SSM.psd_eq_row, SSM.quad_re, SSM.quad_re, hsrc, hrow]
  rw [← mul_div_assoc]
  congr 1
  have e : ∀ x : k.n → ℝ, x ⬝ᵥ ((c • (k.L * k.Qc * k.Lᵀ)) *ᵥ x) = c * (x ⬝ᵥ ((k.L * k.Qc * k.Lᵀ) *ᵥ x)) := fun x => by
    rw [smul_mulVec, dotProduct_smul, smul_eq_mul]
  rw [mul_add]
  exact congrArg₂ (· + ·) (e _) (e _)

/-! ## the Fourier transform of the kernel -/

/-- **C36, defined.** The spectrum of a damped kernel is defined at every frequency. -/
theorem C36_defined (k : SSM) (hk : Damped k) (w : ℝ) : k.PsdDefined w := by
  obtain ⟨a, ha, h⟩ := hk.bound
  exact SSM.psdDefined_of_bound h ha w

/-- **C36, the spectrum.** For every damped kernel and every frequency, the covariance is integrable over all lags, and
`psd` is its Fourier transform, `S(w) = 1/(2π) ∫ k(0, τ) cos(w τ) dτ` (the convention of the code's factor `1/(2π)`). -/
theorem C36_psd_is_spectrum (k : SSM) (hk : Damped k) (w : ℝ) :
    (Integrable fun τ : ℝ => k.evaluate (.time 0) (.time τ) * Real.cos (w * τ)) ∧
    k.psd w = 1 / (2 * Real.pi) * ∫ τ : ℝ, k.evaluate (.time 0) (.time τ) * Real.cos (w * τ) := by
  obtain ⟨a, ha, hb⟩ := hk.bound
  obtain ⟨G, hG⟩ := hk.combos.any.covModel
  have hT := C20_transition_is_exp_partial k hk.combos
  have hE : ∀ s : ℝ, NormedSpace.exp (s • G) = NormedSpace.exp (s • k.F) := by
    intro s
    have h1 := hG.A_exp (.time 0) (.time s)
    have h2 := hT (.time 0) (.time s)
    rw [h1] at h2
    simpa [Coord.sortable] using h2
  have hev : ∀ τ : ℝ, k.evaluate (.time 0) (.time τ) * Real.cos (w * τ) = (fun t => Real.cos (w * t) * k.covAt k.F t) |τ| := by
    intro τ
    rw [hG.evaluate_eq]
    have e1 : |(Coord.time 0).sortable - (Coord.time τ).sortable| = |τ| := by
      show |(0 : ℝ) - τ| = |τ|
      rw [zero_sub, abs_neg]
    have e2 : Real.cos (w * |τ|) = Real.cos (w * τ) := by
      rcases abs_cases τ with ⟨h, _⟩ | ⟨h, _⟩ <;> rw [h]
      rw [mul_neg, Real.cos_neg]
    have e3 : k.covAt G |τ| = k.covAt k.F |τ| := by
      unfold SSM.covAt
      rw [hE]
    show _ = Real.cos (w * |τ|) * k.covAt k.F |τ|
    rw [e1, e2, e3, mul_comm]
  simp only [hev]
  obtain ⟨hi, he⟩ := SSM.covInt_eq_integral (k := k) hb ha w
  have hint : Integrable fun τ : ℝ => (fun t => Real.cos (w * t) * k.covAt k.F t) |τ| := by
    rw [← integrableOn_univ, ← Set.Iic_union_Ioi (a := (0 : ℝ)), integrableOn_union]
    constructor
    · have h1 : IntegrableOn (fun τ : ℝ => (fun t => Real.cos (w * t) * k.covAt k.F t) (-τ)) (Set.Iic 0) := by
        have := hi.comp_neg
        rw [Set.neg_Ioi, neg_zero] at this
        exact (integrableOn_Iic_iff_integrableOn_Iio (by finiteness)).2 this
      refine h1.congr_fun (fun τ hτ => ?_) measurableSet_Iic
      have : |τ| = -τ := abs_of_nonpos hτ
      simp only [this]
    · refine hi.congr_fun (fun τ hτ => ?_) measurableSet_Ioi
      have : |τ| = τ := abs_of_pos hτ
      simp only [this]
  refine ⟨hint, ?_⟩
  rw [integral_comp_abs (f := fun t => Real.cos (w * t) * k.covAt k.F t), ← he,
    SSM.psd_eq_covInt (psd_symm hG.P_psd) (C23_lyapunov k hk.combos.any) hb ha]
  have := Real.pi_pos
  field_simp

/-! ## closed forms -/

theorem psd_column {n : Type} [Fintype n] [DecidableEq n] {A : Matrix n n ℂ} (hA : IsUnit A.det) (H : Matrix (Fin 1) n ℝ)
    (L : Matrix n (Fin 1) ℝ) (q : ℝ) (v : Matrix n (Fin 1) ℂ) (h : A * v = toC L) :
    ((toC H * A⁻¹.map (starRingEnd ℂ) * toC L * toC (!![q] : Matrix (Fin 1) (Fin 1) ℝ) * (toC L)ᵀ * (A⁻¹)ᵀ * (toC H)ᵀ) 0 0).re =
      q * Complex.normSq ((toC H * v) 0 0) := by
  have hv : A⁻¹ * toC L = v := by rw [← h, ← Matrix.mul_assoc, Matrix.nonsing_inv_mul _ hA, Matrix.one_mul]
  have e : toC H * A⁻¹.map (starRingEnd ℂ) * toC L * toC (!![q] : Matrix (Fin 1) (Fin 1) ℝ) * (toC L)ᵀ * (A⁻¹)ᵀ * (toC H)ᵀ =
      (toC H * v).map (starRingEnd ℂ) * toC (!![q] : Matrix (Fin 1) (Fin 1) ℝ) * (toC H * v)ᵀ := by
    rw [← hv]
    simp only [map_conj_mul, toC_conj, transpose_mul, Matrix.mul_assoc]
  rw [e, Matrix.mul_apply, Finset.univ_unique, Finset.sum_singleton, Matrix.mul_apply, Finset.univ_unique, Finset.sum_singleton]
  show (starRingEnd ℂ _ * (q : ℂ) * _).re = _
  rw [Complex.normSq_apply]
  simp [transpose_apply]
  ring

theorem normSq_root (lam w : ℝ) (d : ℕ) : Complex.normSq (-(1 / ((lam : ℂ) - Complex.I * w) ^ d)) = 1 / (lam ^ 2 + w ^ 2) ^ d := by
  rw [Complex.normSq_neg, map_div₀, map_one, map_pow]
  congr 2
  rw [Complex.normSq_apply]
  simp
  ring

theorem root_ne {lam : ℝ} (hl : 0 < lam) (w : ℝ) : (lam : ℂ) - Complex.I * w ≠ 0 := by
  intro h
  have := congrArg Complex.re h
  simp at this
  exact hl.ne' this

/-- **C36, closed form of every Matérn kernel of half-integer smoothness** `nu = d - 1/2`, with `lam = sqrt(2 nu)/scale`:
`S(w) = q / (lam² + w²)^d / 2π`, the textbook spectrum, where `q` is the spectral density of the driving noise. -/
theorem C36_matern (d : ℕ) (hd : 0 < d) (scale sigma w : ℝ) (hs : 0 < scale) :
    (maternGeneric d scale sigma).psd w =
      sigma ^ 2 * ((d - 1).factorial : ℝ) ^ 2 / ((2 * d - 2).factorial : ℝ) * (2 * (Real.sqrt (2 * ((d : ℝ) - 1 / 2)) / scale)) ^ (2 * d - 1) /
      ((Real.sqrt (2 * ((d : ℝ) - 1 / 2)) / scale) ^ 2 + w ^ 2) ^ d / (2 * Real.pi) := by
  have hu0 := C36_defined _ (.matern (sigma := sigma) hd hs) w
  have hl := Matern.lam_pos hd hs
  set lam := Real.sqrt (2 * ((d : ℝ) - 1 / 2)) / scale with hlam
  have hz := root_ne hl w
  set z : ℂ := (lam : ℂ) - Complex.I * w with hzd
  let v : Matrix (Fin d) (Fin 1) ℂ := Matrix.of fun i _ => -(1 / z ^ d) * (-(Complex.I * w)) ^ (i : ℕ)
  have hu : IsUnit (toC (Matern.F d lam) + (Complex.I * (w : ℂ)) • (1 : Matrix (Fin d) (Fin d) ℂ)).det := hu0
  have hcol : (toC (Matern.F d lam) + (Complex.I * (w : ℂ)) • (1 : Matrix (Fin d) (Fin d) ℂ)) * v = toC (Matern.L d) := by
    ext i j
    rw [Matrix.add_mul, Matrix.smul_mul, Matrix.one_mul, Matrix.add_apply, Matrix.smul_apply, smul_eq_mul]
    show _ = ((Matern.L d i j : ℝ) : ℂ)
    by_cases hi : (i : ℕ) = d - 1
    · have e1 : (toC (Matern.F d lam) * v) i j = (1 / z ^ d) * ∑ l ∈ Finset.range d, (-(Complex.I * w)) ^ l * (lam : ℂ) ^ (d - l) * (d.choose l : ℂ) := by
        rw [Matrix.mul_apply, Finset.mul_sum, ← Fin.sum_univ_eq_sum_range (fun l => 1 / z ^ d * ((-(Complex.I * w)) ^ l * (lam : ℂ) ^ (d - l) * (d.choose l : ℂ)))]
        refine Finset.sum_congr rfl fun l _ => ?_
        show ((Matern.F d lam i l : ℝ) : ℂ) * (-(1 / z ^ d) * (-(Complex.I * w)) ^ (l : ℕ)) = _
        rw [Matern.F_last i l hi]
        push_cast
        ring
      have e2 : ∑ l ∈ Finset.range d, (-(Complex.I * w)) ^ l * (lam : ℂ) ^ (d - l) * (d.choose l : ℂ) = z ^ d - (-(Complex.I * w)) ^ d := by
        have := add_pow (-(Complex.I * (w : ℂ))) (lam : ℂ) d
        rw [Finset.sum_range_succ, Nat.sub_self, pow_zero, mul_one, Nat.choose_self, Nat.cast_one, mul_one] at this
        rw [show z = -(Complex.I * (w : ℂ)) + lam by rw [hzd]; ring, this]
        ring
      have e3 : v i j = -(1 / z ^ d) * (-(Complex.I * w)) ^ (d - 1) := by
        show -(1 / z ^ d) * (-(Complex.I * w)) ^ (i : ℕ) = _
        rw [hi]
      have e4 : (Matern.L d i j : ℝ) = 1 := if_pos hi
      have e5 : (-(Complex.I * (w : ℂ))) ^ d = (-(Complex.I * (w : ℂ))) ^ (d - 1) * (-(Complex.I * w)) := by
        rw [← pow_succ, Nat.sub_add_cancel hd]
      rw [e1, e2, e3, e4, e5, Complex.ofReal_one]
      have : z ^ d ≠ 0 := pow_ne_zero _ hz
      field_simp
      ring
    · have hlt : (i : ℕ) + 1 < d := by have := i.isLt; omega
      have e1 : (toC (Matern.F d lam) * v) i j = -(1 / z ^ d) * (-(Complex.I * w)) ^ ((i : ℕ) + 1) := by
        rw [Matrix.mul_apply, Finset.sum_eq_single (⟨(i : ℕ) + 1, hlt⟩ : Fin d)]
        · show ((Matern.F d lam i ⟨(i : ℕ) + 1, hlt⟩ : ℝ) : ℂ) * (-(1 / z ^ d) * (-(Complex.I * w)) ^ ((i : ℕ) + 1)) = _
          have : Matern.F d lam i ⟨(i : ℕ) + 1, hlt⟩ = 1 := by
            unfold Matern.F
            rw [Matrix.of_apply, if_neg hi, if_pos rfl]
          rw [this, Complex.ofReal_one, one_mul]
        · intro l _ hl'
          have : Matern.F d lam i l = 0 := by
            unfold Matern.F
            rw [Matrix.of_apply, if_neg hi, if_neg fun h => hl' (Fin.ext h)]
          show ((Matern.F d lam i l : ℝ) : ℂ) * _ = 0
          rw [this, Complex.ofReal_zero, zero_mul]
        · intro h
          exact absurd (Finset.mem_univ _) h
      have e3 : v i j = -(1 / z ^ d) * (-(Complex.I * w)) ^ (i : ℕ) := rfl
      have e4 : (Matern.L d i j : ℝ) = 0 := if_neg hi
      rw [e1, e3, e4, Complex.ofReal_zero]
      ring
  have hHv : (toC (Matern.H d) * v) 0 0 = -(1 / z ^ d) := by
    rw [Matrix.mul_apply, Finset.sum_eq_single (⟨0, hd⟩ : Fin d)]
    · show ((Matern.H d 0 ⟨0, hd⟩ : ℝ) : ℂ) * (-(1 / z ^ d) * (-(Complex.I * w)) ^ 0) = _
      have : Matern.H d 0 ⟨0, hd⟩ = 1 := by
        unfold Matern.H
        rw [Matrix.of_apply, if_pos rfl]
      rw [this, pow_zero, mul_one, Complex.ofReal_one, one_mul]
    · intro l _ hl'
      have : Matern.H d 0 l = 0 := if_neg fun h => hl' (Fin.ext h)
      show ((Matern.H d 0 l : ℝ) : ℂ) * _ = 0
      rw [this, Complex.ofReal_zero, zero_mul]
    · intro h
      exact absurd (Finset.mem_univ _) h
  have := psd_column hu (Matern.H d) (Matern.L d) (Matern.Qc d lam sigma 0 0) v hcol
  rw [hHv, normSq_root] at this
  have hq : (Matern.Qc d lam sigma) = !![Matern.Qc d lam sigma 0 0] := by
    ext i j; fin_cases i; fin_cases j; rfl
  have hfin : (maternGeneric d scale sigma).psd w = Matern.Qc d lam sigma 0 0 * (1 / (lam ^ 2 + w ^ 2) ^ d) / (2 * Real.pi) := by
    rw [← this, ← hq]
    rfl
  rw [hfin]
  show sigma ^ 2 * ((d - 1).factorial : ℝ) ^ 2 / ((2 * d - 2).factorial : ℝ) * (2 * lam) ^ (2 * d - 1) * _ / _ = _
  ring

/-- **C36, `Exp`**: `S(w) = sigma² lam / (π (lam² + w²))` with `lam = 1/scale`. -/
theorem C36_exp (scale sigma w : ℝ) (name : String) (hs : 0 < scale) :
    (expKernel scale sigma name).psd w = sigma ^ 2 * (1 / scale) / (Real.pi * ((1 / scale) ^ 2 + w ^ 2)) := by
  have hu : IsUnit (toC (!![-(1 / scale)] : Matrix (Fin 1) (Fin 1) ℝ) + (Complex.I * (w : ℂ)) • (1 : Matrix (Fin 1) (Fin 1) ℂ)).det :=
    C36_defined _ (.exp (sigma := sigma) (name := name) hs) w
  have hl : 0 < 1 / scale := by positivity
  set lam := 1 / scale with hlam
  have hz := root_ne hl w
  have hcol : (toC (!![-lam] : Matrix (Fin 1) (Fin 1) ℝ) + (Complex.I * (w : ℂ)) • (1 : Matrix (Fin 1) (Fin 1) ℂ)) *
      !![-(1 / ((lam : ℂ) - Complex.I * w) ^ 1)] = toC !![1] := by
    ext i j
    fin_cases i; fin_cases j
    simp [toC, Matrix.mul_apply]
    field_simp
    ring
  have h := psd_column hu !![1] !![1] (2 * lam * sigma ^ 2) _ hcol
  have hv : (toC (!![1] : Matrix (Fin 1) (Fin 1) ℝ) * (!![-(1 / ((lam : ℂ) - Complex.I * w) ^ 1)] : Matrix (Fin 1) (Fin 1) ℂ)) 0 0 = -(1 / ((lam : ℂ) - Complex.I * w) ^ 1) := by
    simp [toC, Matrix.mul_apply]
  rw [hv, normSq_root] at h
  have hfin : (expKernel scale sigma name).psd w = 2 * lam * sigma ^ 2 * (1 / (lam ^ 2 + w ^ 2) ^ 1) / (2 * Real.pi) := by
    rw [← h]
    rfl
  rw [hfin]
  have := Real.pi_pos
  field_simp

/-- **C36, `Matern32`**: `S(w) = 2 sigma² lam³ / (π (lam² + w²)²)` with `lam = sqrt 3 / scale`. -/
theorem C36_matern32 (scale sigma w : ℝ) (name : String) (hs : 0 < scale) :
    (matern32 scale sigma name).psd w = 2 * sigma ^ 2 * (Real.sqrt 3 / scale) ^ 3 / (Real.pi * ((Real.sqrt 3 / scale) ^ 2 + w ^ 2) ^ 2) := by
  have hl : 0 < Real.sqrt 3 / scale := by positivity
  have hu : IsUnit (toC (Matern32.F (Matern32.lam scale)) + (Complex.I * (w : ℂ)) • (1 : Matrix (Fin 2) (Fin 2) ℂ)).det :=
    C36_defined _ (.matern32 (sigma := sigma) (name := name) hs) w
  have hlam : Matern32.lam scale = Real.sqrt 3 / scale := rfl
  set lam := Real.sqrt 3 / scale
  rw [hlam] at hu
  have hz := root_ne hl w
  have hcol : (toC (Matern32.F lam) + (Complex.I * (w : ℂ)) • (1 : Matrix (Fin 2) (Fin 2) ℂ)) *
      !![-(1 / ((lam : ℂ) - Complex.I * w) ^ 2); Complex.I * w * (1 / ((lam : ℂ) - Complex.I * w) ^ 2)] = toC !![0; 1] := by
    ext i j
    fin_cases i <;> fin_cases j <;> simp [toC, Matern32.F, Matrix.mul_apply, Fin.sum_univ_two]
    field_simp
    ring
  have h := psd_column hu !![1, 0] !![0; 1] (4 * lam ^ 3 * sigma ^ 2) _ hcol
  have hv : (toC (!![1, 0] : Matrix (Fin 1) (Fin 2) ℝ) * (!![-(1 / ((lam : ℂ) - Complex.I * w) ^ 2);
      Complex.I * w * (1 / ((lam : ℂ) - Complex.I * w) ^ 2)] : Matrix (Fin 2) (Fin 1) ℂ)) 0 0 = -(1 / ((lam : ℂ) - Complex.I * w) ^ 2) := by
    simp [toC, Matrix.mul_apply, Fin.sum_univ_two]
  rw [hv, normSq_root] at h
  have hfin : (matern32 scale sigma name).psd w = 4 * lam ^ 3 * sigma ^ 2 * (1 / (lam ^ 2 + w ^ 2) ^ 2) / (2 * Real.pi) := by
    rw [← h]
    rfl
  rw [hfin]
  have := Real.pi_pos
  field_simp
  ring

/-- **C36, `Matern52`**: `S(w) = 8 sigma² lam⁵ / (3 π (lam² + w²)³)` with `lam = sqrt 5 / scale`. -/
theorem C36_matern52 (scale sigma w : ℝ) (name : String) (hs : 0 < scale) :
    (matern52 scale sigma name).psd w = 8 * sigma ^ 2 * (Real.sqrt 5 / scale) ^ 5 / (3 * Real.pi * ((Real.sqrt 5 / scale) ^ 2 + w ^ 2) ^ 3) := by
  have hl : 0 < Real.sqrt 5 / scale := by positivity
  have hu : IsUnit (toC (Matern52.F (Matern52.lam scale)) + (Complex.I * (w : ℂ)) • (1 : Matrix (Fin 3) (Fin 3) ℂ)).det :=
    C36_defined _ (.matern52 (sigma := sigma) (name := name) hs) w
  have hlam : Matern52.lam scale = Real.sqrt 5 / scale := rfl
  set lam := Real.sqrt 5 / scale
  rw [hlam] at hu
  have hz := root_ne hl w
  set z : ℂ := (lam : ℂ) - Complex.I * w with hzd
  have hcol : (toC (Matern52.F lam) + (Complex.I * (w : ℂ)) • (1 : Matrix (Fin 3) (Fin 3) ℂ)) *
      !![-(1 / z ^ 3); Complex.I * w * (1 / z ^ 3); -(Complex.I * w) ^ 2 * (1 / z ^ 3)] = toC !![0; 0; 1] := by
    ext i j
    fin_cases i <;> fin_cases j <;> simp [toC, Matern52.F, Matrix.mul_apply, Fin.sum_univ_three]
    · ring
    · field_simp
      rw [hzd]
      ring
  have h := psd_column hu !![1, 0, 0] !![0; 0; 1] (16 * lam ^ 5 * sigma ^ 2 / 3) _ hcol
  have hv : (toC (!![1, 0, 0] : Matrix (Fin 1) (Fin 3) ℝ) * (!![-(1 / z ^ 3); Complex.I * w * (1 / z ^ 3);
      -(Complex.I * w) ^ 2 * (1 / z ^ 3)] : Matrix (Fin 3) (Fin 1) ℂ)) 0 0 = -(1 / z ^ 3) := by
    simp [toC, Matrix.mul_apply, Fin.sum_univ_three]
  rw [hv, hzd, normSq_root] at h
  have hfin : (matern52 scale sigma name).psd w = 16 * lam ^ 5 * sigma ^ 2 / 3 * (1 / (lam ^ 2 + w ^ 2) ^ 3) / (2 * Real.pi) := by
    rw [← h]
    rfl
  rw [hfin]
  have := Real.pi_pos
  field_simp
  ring

/-- **C36, `SHO`**, in every damping regime (also inside the tolerance window of the critical branch, which `psd` does not
use): `S(w) = sigma² omega³ / quality / (π ((w² - omega²)² + w² omega² / quality²))`. -/
theorem C36_sho (omega quality sigma w : ℝ) (name : String) (hw : 0 < omega) (hq : 0 < quality) :
    (sho omega quality sigma name).PsdDefined w ∧ (sho omega quality sigma name).psd w =
      sigma ^ 2 * omega ^ 3 / quality / (Real.pi * ((w ^ 2 - omega ^ 2) ^ 2 + w ^ 2 * omega ^ 2 / quality ^ 2)) := by
  have hu : IsUnit (toC (SHO.F omega quality) + (Complex.I * (w : ℂ)) • (1 : Matrix (Fin 2) (Fin 2) ℂ)).det := by
    obtain ⟨a, ha, h⟩ := SHO.expBound hw hq
    exact SSM.psdDefined_of_bound (k := sho omega quality sigma name) h ha w
  refine ⟨hu, ?_⟩
  have hn : 0 < (w ^ 2 - omega ^ 2) ^ 2 + w ^ 2 * omega ^ 2 / quality ^ 2 := by
    rcases eq_or_ne w 0 with h | h
    · rw [h]
      have : 0 < omega ^ 4 := by positivity
      norm_num
      nlinarith
    · have : 0 < w ^ 2 * omega ^ 2 / quality ^ 2 := by positivity
      have := sq_nonneg (w ^ 2 - omega ^ 2)
      linarith
  set z : ℂ := ((w ^ 2 - omega ^ 2 : ℝ) : ℂ) + Complex.I * (w * omega / quality : ℝ) with hzd
  have hns : Complex.normSq z = (w ^ 2 - omega ^ 2) ^ 2 + w ^ 2 * omega ^ 2 / quality ^ 2 := by
    rw [Complex.normSq_apply, hzd]
    simp only [Complex.add_re, Complex.add_im, Complex.ofReal_re, Complex.ofReal_im, Complex.mul_re, Complex.mul_im, Complex.I_re, Complex.I_im]
    ring
  have hz : z ≠ 0 := by
    intro h
    rw [h, map_zero] at hns
    exact hn.ne hns
  have hcol : (toC (SHO.F omega quality) + (Complex.I * (w : ℂ)) • (1 : Matrix (Fin 2) (Fin 2) ℂ)) *
      !![1 / z; -(Complex.I * w) * (1 / z)] = toC !![0; 1] := by
    have hqc : (quality : ℂ) ≠ 0 := by exact_mod_cast hq.ne'
    ext i j
    fin_cases i <;> fin_cases j <;> simp [toC, SHO.F, Matrix.mul_apply, Fin.sum_univ_two]
    field_simp
    rw [hzd]
    push_cast
    field_simp
    linear_combination (-(w : ℂ) ^ 2 * quality) * Complex.I_sq
  have h := psd_column hu !![1, 0] !![0; 1] (2 * omega ^ 3 * sigma ^ 2 / quality) _ hcol
  have hv : (toC (!![1, 0] : Matrix (Fin 1) (Fin 2) ℝ) * (!![1 / z; -(Complex.I * w) * (1 / z)] : Matrix (Fin 2) (Fin 1) ℂ)) 0 0 = 1 / z := by
    simp [toC, Matrix.mul_apply, Fin.sum_univ_two]
  rw [hv, map_div₀, map_one, hns] at h
  have hfin : (sho omega quality sigma name).psd w = 2 * omega ^ 3 * sigma ^ 2 / quality *
      (1 / ((w ^ 2 - omega ^ 2) ^ 2 + w ^ 2 * omega ^ 2 / quality ^ 2)) / (2 * Real.pi) := by
    rw [← h]
    rfl
  rw [hfin]
  have := Real.pi_pos
  set D := (w ^ 2 - omega ^ 2) ^ 2 + w ^ 2 * omega ^ 2 / quality ^ 2
  field_simp

/-! ## undamped kernels: the spectral lines are missing -/

theorem psd_undriven (k : SSM) (h : k.Qc = 0) (w : ℝ) : k.psd w = 0 := by
  have e : toC (k.L * k.Qc * k.Lᵀ) = 0 := by
    rw [h, Matrix.mul_zero, Matrix.zero_mul]
    ext i j
    simp [toC]
  rw [SSM.psd_eq_row, e, Matrix.mul_zero, Matrix.zero_mul]
  simp

theorem rotation_shift_det (c w : ℝ) :
    (toC (!![0, -c; c, 0] : Matrix (Fin 2) (Fin 2) ℝ) + (Complex.I * (w : ℂ)) • (1 : Matrix (Fin 2) (Fin 2) ℂ)).det = ((c ^ 2 - w ^ 2 : ℝ) : ℂ) := by
  rw [Matrix.det_fin_two]
  simp [toC]
  linear_combination ((w : ℂ) ^ 2) * Complex.I_sq

/-- **C36 refuted for `Cosine`.** The kernel has variance `sigma²` and oscillates for ever, yet its `psd` is zero at every
frequency at which it is defined, which is every frequency but `±2π/scale`: no part of the variance is in the spectrum. -/
theorem C36_cosine_zero (scale sigma w : ℝ) (name : String) (hs : 0 < scale) :
    ((cosine scale sigma name).PsdDefined w ↔ w ≠ 2 * Real.pi / scale ∧ w ≠ -(2 * Real.pi / scale)) ∧
    ((cosine scale sigma name).PsdDefined w → (cosine scale sigma name).psd w = 0) ∧
    (cosine scale sigma name).evaluate (.time 0) (.time 0) = sigma ^ 2 := by
  refine ⟨?_, fun _ => psd_undriven _ (by ext i j; fin_cases i; fin_cases j; rfl) w, ?_⟩
  · have e : (cosine scale sigma name).PsdDefined w ↔ IsUnit (toC (!![0, -(2 * Real.pi / scale); 2 * Real.pi / scale, 0] : Matrix (Fin 2) (Fin 2) ℝ) +
        (Complex.I * (w : ℂ)) • (1 : Matrix (Fin 2) (Fin 2) ℂ)).det := Iff.rfl
    rw [e, rotation_shift_det, isUnit_iff_ne_zero, Complex.ofReal_ne_zero, sub_ne_zero, Ne, Ne, Ne, eq_comm, sq_eq_sq_iff_eq_or_eq_neg, not_or]
  · rw [C24_cosine _ _ _ hs]
    simp [Spec.covCosine]

/-- the same for `ExpSineSquared`: defined away from the harmonics, and zero there -/
theorem C36_expSineSquared_zero (period gamma sigma w : ℝ) (order : ℕ) (name : String) :
    ((expSineSquared period gamma sigma order name).PsdDefined w ↔ ∀ j : ℕ, j ≤ order - 1 → w ^ 2 ≠ (2 * Real.pi / period * j) ^ 2) ∧
    (expSineSquared period gamma sigma order name).psd w = 0 := by
  refine ⟨?_, psd_undriven _ (ExpSineSquared.sumTerms_Qc _ _ _) w⟩
  have key : ∀ (om sc : ℝ) (J : ℕ), (ExpSineSquared.sumTerms om sc J).PsdDefined w ↔ ∀ j : ℕ, j ≤ J → w ^ 2 ≠ (om * j) ^ 2 := by
    have ht : ∀ (om sc : ℝ) (j : ℕ), (periodicTerm j om sc).PsdDefined w ↔ w ^ 2 ≠ (om * j) ^ 2 := by
      intro om sc j
      have e : (periodicTerm j om sc).PsdDefined w ↔ IsUnit (toC (!![0, -(om * j); om * j, 0] : Matrix (Fin 2) (Fin 2) ℝ) +
        (Complex.I * (w : ℂ)) • (1 : Matrix (Fin 2) (Fin 2) ℂ)).det := Iff.rfl
      rw [e, rotation_shift_det, isUnit_iff_ne_zero, Complex.ofReal_ne_zero, sub_ne_zero, ne_comm]
    intro om sc J
    induction J with
    | zero =>
      rw [show ExpSineSquared.sumTerms om sc 0 = periodicTerm 0 om sc from rfl, ht]
      constructor
      · intro h j hj
        rwa [Nat.le_zero.1 hj]
      · intro h
        exact h 0 le_rfl
    | succ J ih =>
      rw [show ExpSineSquared.sumTerms om sc (J + 1) = (ExpSineSquared.sumTerms om sc J).sum (periodicTerm (J + 1) om sc) from rfl,
        (C36_sum _ _ w).1, ih, ht]
      constructor
      · rintro ⟨h1, h2⟩ j hj
        rcases Nat.lt_or_ge j (J + 1) with h | h
        · exact h1 j (by omega)
        · rw [show j = J + 1 by omega]
          exact h2
      · intro h
        exact ⟨fun j hj => h j (by omega), h (J + 1) le_rfl⟩
  exact key _ _ _

/-! ## Instances -/

section examples
/-- `2.0 * (ExpSineSquared(period=3, gamma=1, order=4) * Matern32(scale=5) + SHO(omega=1, quality=3))`, a quasi-periodic kernel plus
an oscillator -/
theorem ex_damped : Damped (SSM.scale "Scale" (((expSineSquared 3 1 1 4).prod (matern32 5 1)).sum (sho 1 3 1)) 2) :=
  .scale (by norm_num) (.sum (.prodRight (.leaf (.expSineSquared (by norm_num) (by norm_num))) (.matern32 (by norm_num)))
    (.sho (by norm_num) (by norm_num) (Or.inr (by unfold SHO.isCritical; norm_num [abs_of_pos]))))
example (w : ℝ) := C36_psd_is_spectrum _ ex_damped w
example (w : ℝ) := C36_nonneg _ ex_damped.combos.any w (C36_defined _ ex_damped w)
example (w : ℝ) := C36_even _ ex_damped.combos.any w (C36_defined _ ex_damped w)
example (w : ℝ) := C36_real _ ex_damped.combos.any w (C36_defined _ ex_damped w)
example : (expKernel 1 1).psd 0 = 1 / Real.pi := by
  rw [C36_exp 1 1 0 _ one_pos]; norm_num
/-- `Cosine(scale=2π)` at the frequency `2` -/
example : (cosine (2 * Real.pi) 3).PsdDefined 2 := by
  rw [(C36_cosine_zero (2 * Real.pi) 3 2 _ (by positivity)).1, div_self (by positivity)]
  norm_num
end examples

end Verif
