import Verif.Props.C20_Transition
import Verif.Spec.Cov

/-!
# C24 - C28: kernel values

`SSM.evaluate` is `kernel.evaluate(X1, X2)`, including its branch on the order of the two coordinates. The covariance
functions `Spec.cov*` are written down in `Spec/Cov.lean` without reference to state-space models.
-/

namespace Verif
open Matrix
open scoped Kronecker

/-! ## C27 -/

theorem hstack_quad {n₁ n₂ : Type} [Fintype n₁] [Fintype n₂] (h1 g1 : Matrix (Fin 1) n₁ ℝ) (h2 g2 : Matrix (Fin 1) n₂ ℝ)
    (M1 : Matrix n₁ n₁ ℝ) (M2 : Matrix n₂ n₂ ℝ) :
    hstack h1 h2 * blockDiag M1 M2 * (hstack g1 g2)ᵀ = h1 * M1 * g1ᵀ + h2 * M2 * g2ᵀ := by
  unfold hstack blockDiag
  rw [Matrix.fromCols_mul_fromBlocks, Matrix.transpose_fromCols, Matrix.fromCols_mul_fromRows]
  simp

theorem kronRow_quad {n₁ n₂ : Type} [Fintype n₁] [Fintype n₂] (h1 g1 : Matrix (Fin 1) n₁ ℝ) (h2 g2 : Matrix (Fin 1) n₂ ℝ)
    (M1 : Matrix n₁ n₁ ℝ) (M2 : Matrix n₂ n₂ ℝ) :
    (kronRow h1 h2 * (M1 ⊗ₖ M2) * (kronRow g1 g2)ᵀ) 0 0 = (h1 * M1 * g1ᵀ) 0 0 * (h2 * M2 * g2ᵀ) 0 0 := by
  have e : (kronRow h1 h2 * (M1 ⊗ₖ M2) * (kronRow g1 g2)ᵀ) 0 0 =
      ((h1 ⊗ₖ h2) * (M1 ⊗ₖ M2) * (g1 ⊗ₖ g2)ᵀ) (0, 0) (0, 0) := by
    simp only [kronRow, Matrix.mul_apply, submatrix_apply, transpose_apply, id]
  rw [e, kron_tr, ← Matrix.mul_kronecker_mul, ← Matrix.mul_kronecker_mul]
  rfl

/-- **C27, sums.** `(k1 + k2)(X1, X2) = k1(X1, X2) + k2(X1, X2)`, for any two kernels. -/
theorem C27_sum_evaluate (k1 k2 : SSM) (X1 X2 : Coord) :
    (k1.sum k2).evaluate X1 X2 = k1.evaluate X1 X2 + k2.evaluate X1 X2 := by
  unfold SSM.evaluate
  dsimp only
  split_ifs with h
  · have e := hstack_quad (k1.obsModel X2 none) (k1.obsModel X1 none) (k2.obsModel X2 none) (k2.obsModel X1 none)
      (k1.Pinf * (k1.A X1 X2)ᵀ) (k2.Pinf * (k2.A X1 X2)ᵀ)
    rw [← blockDiag_mul, ← blockDiag_transpose] at e
    simp only [← Matrix.mul_assoc] at e
    exact congrFun (congrFun e 0) 0
  · have e := hstack_quad (k1.obsModel X1 none) (k1.obsModel X2 none) (k2.obsModel X1 none) (k2.obsModel X2 none)
      (k1.A X2 X1 * k1.Pinf) (k2.A X2 X1 * k2.Pinf)
    rw [← blockDiag_mul] at e
    simp only [← Matrix.mul_assoc] at e
    exact congrFun (congrFun e 0) 0

/-- **C27, products.** `(k1 * k2)(X1, X2) = k1(X1, X2) k2(X1, X2)`, for any two kernels. -/
theorem C27_prod_evaluate (k1 k2 : SSM) (X1 X2 : Coord) :
    (k1.prod k2).evaluate X1 X2 = k1.evaluate X1 X2 * k2.evaluate X1 X2 := by
  unfold SSM.evaluate
  dsimp only
  split_ifs with h
  · have e := kronRow_quad (k1.obsModel X2 none) (k1.obsModel X1 none) (k2.obsModel X2 none) (k2.obsModel X1 none)
      (k1.Pinf * (k1.A X1 X2)ᵀ) (k2.Pinf * (k2.A X1 X2)ᵀ)
    rw [Matrix.mul_kronecker_mul, ← kron_tr] at e
    simp only [← Matrix.mul_assoc] at e
    exact e
  · have e := kronRow_quad (k1.obsModel X1 none) (k1.obsModel X2 none) (k2.obsModel X1 none) (k2.obsModel X2 none)
      (k1.A X2 X1 * k1.Pinf) (k2.A X2 X1 * k2.Pinf)
    rw [Matrix.mul_kronecker_mul] at e
    simp only [← Matrix.mul_assoc] at e
    exact e

/-- an expression of kernels, sums and products -/
inductive KExpr where
  | leaf (k : SSM)
  | sum (a b : KExpr)
  | prod (a b : KExpr)

/-- the kernel object python builds for the expression -/
def KExpr.toSSM : KExpr → SSM
  | .leaf k => k
  | .sum a b => a.toSSM.sum b.toSSM
  | .prod a b => a.toSSM.prod b.toSSM

/-- the expression read as a formula, given the value of every leaf -/
def KExpr.value (v : SSM → ℝ) : KExpr → ℝ
  | .leaf k => v k
  | .sum a b => a.value v + b.value v
  | .prod a b => a.value v * b.value v

/-- the dimension the documentation promises: additive over sums, multiplicative over products -/
def KExpr.dim : KExpr → ℕ
  | .leaf k => Fintype.card k.n
  | .sum a b => a.dim + b.dim
  | .prod a b => a.dim * b.dim

/-- **C27.** Arbitrarily nested expressions evaluate to the formula they denote; state dimensions add and multiply. -/
theorem C27_expression (e : KExpr) (X1 X2 : Coord) :
    e.toSSM.evaluate X1 X2 = e.value (fun k => k.evaluate X1 X2) ∧ Fintype.card e.toSSM.n = e.dim := by
  induction e with
  | leaf k => exact ⟨rfl, rfl⟩
  | sum a b ha hb =>
    refine ⟨?_, ?_⟩
    · show (a.toSSM.sum b.toSSM).evaluate X1 X2 = _
      rw [C27_sum_evaluate, ha.1, hb.1]; rfl
    · show Fintype.card (a.toSSM.n ⊕ b.toSSM.n) = _
      rw [Fintype.card_sum, ha.2, hb.2]; rfl
  | prod a b ha hb =>
    refine ⟨?_, ?_⟩
    · show (a.toSSM.prod b.toSSM).evaluate X1 X2 = _
      rw [C27_prod_evaluate, ha.1, hb.1]; rfl
    · show Fintype.card (a.toSSM.n × b.toSSM.n) = _
      rw [Fintype.card_prod, ha.2, hb.2]; rfl

/-! ## C24 -/

theorem SSM.CovModel.covAt_eq {k : SSM} {G : Matrix k.n k.n ℝ} (h : k.CovModel G) (r : ℝ) :
    k.covAt G r = (k.obsMatrix (.time 0) * k.A (.time 0) (.time r) * k.Pinf * (k.obsMatrix (.time 0))ᵀ) 0 0 := by
  unfold SSM.covAt
  rw [h.A_exp]
  simp only [Coord.sortable, sub_zero]

theorem row2 (a b c d p q : ℝ) : ((!![1, 0] : Matrix (Fin 1) (Fin 2) ℝ) * !![a, b; c, d] * !![p, 0; 0, q] *
    (!![1, 0] : Matrix (Fin 1) (Fin 2) ℝ)ᵀ) 0 0 = a * p := by
  rw [Matrix.mul_assoc _ _ !![p, 0; 0, q], mul2]
  simp [Matrix.mul_apply, Fin.sum_univ_two]

/-- what it means that a kernel has covariance function `c` of the lag -/
def SSM.HasCov (k : SSM) (c : ℝ → ℝ) : Prop := ∀ X1 X2 : Coord, k.evaluate X1 X2 = c |X1.sortable - X2.sortable|

theorem hasCov_of {k : SSM} (hk : Leaf SHO.Any k) (c : ℝ → ℝ) (h : ∀ r, 0 ≤ r →
    (k.obsMatrix (.time 0) * k.A (.time 0) (.time r) * k.Pinf * (k.obsMatrix (.time 0))ᵀ) 0 0 = c r) : k.HasCov c := by
  intro X1 X2
  obtain ⟨G, hG⟩ := hk.covModel
  rw [hG.evaluate_eq, hG.covAt_eq, h _ (abs_nonneg _)]

/-- **C24, `Exp`.** -/
theorem C24_exp (scale sigma : ℝ) (name : String) (hs : 0 < scale) :
    (expKernel scale sigma name).HasCov (Spec.covExp scale sigma) := by
  refine hasCov_of (.exp hs) _ fun r hr => ?_
  show ((!![1] : Matrix (Fin 1) (Fin 1) ℝ) * Exp.A scale (r - 0) * (sigma ^ 2 • (!![1] : Matrix (Fin 1) (Fin 1) ℝ)) * (!![1] : Matrix (Fin 1) (Fin 1) ℝ)ᵀ) 0 0 = _
  unfold Exp.A Spec.covExp
  rw [smul1, tr1, mul1, mul1, mul1, sub_zero]
  show 1 * Real.exp (-r / scale) * (sigma ^ 2 * 1) * 1 = _
  ring

/-- **C24, `Matern32`.** -/
theorem C24_matern32 (scale sigma : ℝ) (name : String) (hs : 0 < scale) :
    (matern32 scale sigma name).HasCov (Spec.covMatern32 scale sigma) := by
  refine hasCov_of (.matern32 hs) _ fun r hr => ?_
  show ((!![1, 0] : Matrix (Fin 1) (Fin 2) ℝ) * Matern32.A (Matern32.lam scale) (r - 0) *
    Matern32.Pinf (Matern32.lam scale) sigma * (!![1, 0] : Matrix (Fin 1) (Fin 2) ℝ)ᵀ) 0 0 = _
  unfold Matern32.A Matern32.Pinf Spec.covMatern32
  simp only [smul2, mul_zero]
  rw [row2, sub_zero]
  unfold Matern32.lam
  rw [neg_mul]
  ring

/-- **C24, `Matern52`.** -/
theorem C24_matern52 (scale sigma : ℝ) (name : String) (hs : 0 < scale) :
    (matern52 scale sigma name).HasCov (Spec.covMatern52 scale sigma) := by
  refine hasCov_of (.matern52 hs) _ fun r hr => ?_
  show ((!![1, 0, 0] : Matrix (Fin 1) (Fin 3) ℝ) * Matern52.A (Matern52.lam scale) (r - 0) *
    Matern52.Pinf (Matern52.lam scale) sigma * (!![1, 0, 0] : Matrix (Fin 1) (Fin 3) ℝ)ᵀ) 0 0 = _
  unfold Matern52.A Matern52.Pinf Spec.covMatern52
  simp only [smul3, mul_zero]
  rw [Matrix.mul_assoc (!![1, 0, 0] : Matrix (Fin 1) (Fin 3) ℝ), mul3, sub_zero]
  simp only [Matrix.mul_apply, Fin.sum_univ_three, transpose_apply]
  unfold Matern52.lam
  simp
  ring

/-- **C24, `Cosine`.** -/
theorem C24_cosine (scale sigma : ℝ) (name : String) (hs : 0 < scale) :
    (cosine scale sigma name).HasCov (Spec.covCosine scale sigma) := by
  refine hasCov_of (.cosine hs) _ fun r hr => ?_
  show ((!![1, 0] : Matrix (Fin 1) (Fin 2) ℝ) * rotation (2 * Real.pi / scale * (r - 0)) *
    (sigma ^ 2 • (1 : Matrix (Fin 2) (Fin 2) ℝ)) * (!![1, 0] : Matrix (Fin 1) (Fin 2) ℝ)ᵀ) 0 0 = _
  unfold rotation Spec.covCosine
  simp only [one2, smul2, mul_zero, mul_one]
  rw [row2, sub_zero]
  rw [mul_comm]
  congr 2
  ring

/-- **C24, generic `Matern`,** for every half-integer smoothness `p + 1/2`. -/
theorem C24_matern (p : ℕ) (scale sigma : ℝ) (hs : 0 < scale) :
    (maternGeneric (p + 1) scale sigma).HasCov (Spec.covMatern p scale sigma) := by
  refine hasCov_of (.matern (by omega) hs) _ fun r hr => ?_
  have hl := Matern.lam_pos (d := p + 1) (scale := scale) (by omega) hs
  have hlam : Real.sqrt (2 * (((p + 1 : ℕ) : ℝ) - 1 / 2)) / scale = Real.sqrt (2 * p + 1) / scale := by
    congr 2; push_cast; ring
  have h := Matern.cov_closed (sigma := sigma) p hl r
  rw [hlam] at h
  unfold Spec.covMatern
  dsimp only
  rw [← h, ← hlam]
  show (Matern.H (p + 1) * NormedSpace.exp ((r - 0) • Matern.F (p + 1) _) * Matern.P (p + 1) _ sigma *
    (Matern.H (p + 1))ᵀ) 0 0 = _
  rw [sub_zero, Matrix.mul_assoc (Matern.H (p + 1))]
  generalize NormedSpace.exp (r • Matern.F (p + 1) _) * Matern.P (p + 1) _ sigma = M
  have hH : ∀ j : Fin (p + 1), Matern.H (p + 1) 0 j = if j = 0 then 1 else 0 := by
    intro j
    unfold Matern.H
    rw [Matrix.of_apply]
    exact if_congr (by rw [Fin.ext_iff]; rfl) rfl rfl
  simp only [Matrix.mul_apply, transpose_apply, hH]
  simp

/-- **C24, `SHO`,** in every damping regime (outside the tolerance window, or at exactly `1/2`). -/
theorem C24_sho (w q sigma : ℝ) (name : String) (hw : 0 < w) (hq : 0 < q) (hg : SHO.Genuine q) :
    (sho w q sigma name).HasCov (Spec.covSHO w q sigma) := by
  refine hasCov_of (.sho hw hq trivial) _ fun r hr => ?_
  show ((!![1, 0] : Matrix (Fin 1) (Fin 2) ℝ) * SHO.A w q (r - 0) *
    SHO.Pinf w sigma * (!![1, 0] : Matrix (Fin 1) (Fin 2) ℝ)ᵀ) 0 0 = _
  rw [sub_zero]
  unfold SHO.A SHO.Pinf Spec.covSHO
  simp only [smul2, mul_zero]
  rcases hg with h | h
  · have hc : SHO.isCritical q := by rw [h]; unfold SHO.isCritical; norm_num
    rw [if_pos hc, if_pos h]
    unfold SHO.Acrit
    rw [smul2, row2, h, neg_mul]
    ring_nf
  · have hne : q ≠ 1 / 2 := fun h' => h (by rw [h']; unfold SHO.isCritical; norm_num)
    rw [if_neg h, if_neg hne]
    by_cases h5 : q > 0.5
    · have h6 : ¬ q < 1 / 2 := by norm_num at h5 ⊢; linarith
      rw [if_pos h5, if_neg h6]
      unfold SHO.Aunder
      simp only [smul2]
      rw [row2]
      unfold SHO.eta
      rw [show -0.5 * w * r / q = -(w * r / (2 * q)) by ring]
      ring
    · have h6 : q < 1 / 2 := lt_of_le_of_ne (by norm_num at h5 ⊢; linarith) hne
      rw [if_neg h5, if_pos h6]
      unfold SHO.Aover
      simp only [smul2]
      rw [row2]
      unfold SHO.eta
      rw [show -0.5 * w * r / q = -(w * r / (2 * q)) by ring]
      ring

/-- **C24, `SHO` in the tolerance window.** There the covariance is the one for `quality = 1/2`. -/
theorem C24_sho_window (w q sigma : ℝ) (name : String) (hw : 0 < w) (hq : 0 < q) (hc : SHO.isCritical q) :
    (sho w q sigma name).HasCov (Spec.covSHO w (1 / 2) sigma) := by
  refine hasCov_of (.sho hw hq trivial) _ fun r hr => ?_
  show ((!![1, 0] : Matrix (Fin 1) (Fin 2) ℝ) * SHO.A w q (r - 0) *
    SHO.Pinf w sigma * (!![1, 0] : Matrix (Fin 1) (Fin 2) ℝ)ᵀ) 0 0 = _
  rw [sub_zero]
  unfold SHO.A SHO.Pinf Spec.covSHO
  simp only [smul2, mul_zero]
  rw [if_pos hc, if_pos trivial]
  unfold SHO.Acrit
  rw [smul2, row2, neg_mul]
  ring_nf

/-- **C24, disagreement with the documentation.** For `quality = 1` the covariance printed in the class documentation
(cosine and sine exchanged) is not the one computed; it does not even have variance `sigma^2`. -/
theorem C24_sho_doc_formula_wrong (w sigma : ℝ) (name : String) (hw : 0 < w) (hσ : sigma ≠ 0) (t : ℝ) :
    (sho w 1 sigma name).evaluate (.time t) (.time t) ≠ Spec.covSHOdocUnder w 1 sigma 0 := by
  rw [C24_sho w 1 sigma name hw one_pos (Or.inr (by unfold SHO.isCritical; norm_num [abs_of_pos]))]
  unfold Spec.covSHO Spec.covSHOdocUnder
  norm_num
  intro h
  have h3 : Real.sqrt 3 ^ 2 = 3 := Real.sq_sqrt (by norm_num)
  have h30 : 0 < Real.sqrt 3 := Real.sqrt_pos.2 (by norm_num)
  have h4 : Real.sqrt 4 = 2 := by
    rw [show (4 : ℝ) = 2 ^ 2 by norm_num]; exact Real.sqrt_sq (by norm_num)
  rw [h4] at h
  field_simp at h
  rw [h] at h3
  norm_num at h3

/-- a covariance function of the lag is symmetric and unchanged by time shifts -/
theorem SSM.HasCov.symm {k : SSM} {c : ℝ → ℝ} (h : k.HasCov c) (X1 X2 : Coord) : k.evaluate X1 X2 = k.evaluate X2 X1 := by
  rw [h, h, abs_sub_comm]

/-- **C24, variance.** `k(t, t) = sigma^2` for every class whose covariance is documented in closed form. -/
theorem C24_variance (ell sigma w q : ℝ) (p : ℕ) :
    Spec.covExp ell sigma 0 = sigma ^ 2 ∧ Spec.covMatern32 ell sigma 0 = sigma ^ 2 ∧
    Spec.covMatern52 ell sigma 0 = sigma ^ 2 ∧ Spec.covCosine ell sigma 0 = sigma ^ 2 ∧
    Spec.covSHO w q sigma 0 = sigma ^ 2 ∧ Spec.covMatern p ell sigma 0 = sigma ^ 2 := by
  refine ⟨by simp [Spec.covExp], by simp [Spec.covMatern32], by simp [Spec.covMatern52], by simp [Spec.covCosine], ?_, ?_⟩
  · unfold Spec.covSHO; simp
  · unfold Spec.covMatern
    simp only [mul_zero]
    rw [Finset.sum_range_succ, Finset.sum_eq_zero]
    · have h1 : ((2 * p).factorial : ℝ) ≠ 0 := by positivity
      have h2 : (p.factorial : ℝ) ≠ 0 := by positivity
      simp [← two_mul]
      field_simp
    · intro i hi
      rw [Finset.mem_range] at hi
      rw [zero_pow (by omega), mul_zero]

/-! ## C25 -/

/-- **C25.** Kernel evaluation is symmetric, for every kernel expression built from the exported instantaneous
classes. (For kernels whose observation row depends on the coordinate see `C25_integrated_asymmetric`.) -/
theorem C25_symmetric_partial (k : SSM) (hk : Combos (Leaf SHO.Any) k) (X1 X2 : Coord) :
    k.evaluate X1 X2 = k.evaluate X2 X1 := by
  obtain ⟨G, hG⟩ := hk.covModel
  rw [hG.evaluate_eq, hG.evaluate_eq, abs_sub_comm]

/-- and it only depends on the lag -/
theorem C25_stationary (k : SSM) (hk : Combos (Leaf SHO.Any) k) : ∃ c, k.HasCov c := by
  obtain ⟨G, hG⟩ := hk.covModel
  exact ⟨_, fun X1 X2 => hG.evaluate_eq X1 X2⟩

/-! ## C26 -/

/-- **C26.** For every kernel expression and every finite list of coordinates, in any order and with repeats, the
covariance matrix is symmetric positive semidefinite. -/
theorem C26_gram_psd (k : SSM) (hk : Combos (Leaf SHO.Any) k) {N : ℕ} (X : Fin N → Coord) :
    (Matrix.of fun i j => k.evaluate (X i) (X j)).PosSemidef := by
  obtain ⟨G, hG⟩ := hk.covModel
  exact hG.gram_psd X

/-! ## C28 -/

/-- **C28, values.** The scaled kernel has the scaled covariance function. -/
theorem C28_scale_evaluate_partial (k : SSM) (hk : Combos (Leaf SHO.Any) k) (name : String) (c : ℝ) (X1 X2 : Coord) :
    (k.scale name c).evaluate X1 X2 = c * k.evaluate X1 X2 := by
  obtain ⟨G, hG⟩ := hk.covModel
  have e : ∀ X, defaultObsModel name k.obsMatrix X none = k.obsModel X none := fun X => by
    rw [defaultObs_none, hG.H_none]
  unfold SSM.evaluate
  show (if X1.sortable < X2.sortable then (defaultObsModel name k.obsMatrix X2 none * (c • k.Pinf) * (k.A X1 X2)ᵀ *
      (defaultObsModel name k.obsMatrix X1 none)ᵀ) 0 0
    else (defaultObsModel name k.obsMatrix X1 none * k.A X2 X1 * (c • k.Pinf) * (defaultObsModel name k.obsMatrix X2 none)ᵀ) 0 0)
    = c * _
  rw [e, e]
  dsimp only
  split_ifs
  · simp only [Matrix.mul_smul, Matrix.smul_mul]; rfl
  · simp only [Matrix.mul_smul, Matrix.smul_mul]; rfl

/-- **C28, disagreement.** `Scale` keeps the process noise of the unscaled kernel: if the kernel has stationary process
noise, a scalar multiple by `c ≠ 1` has it only in the degenerate case of no process noise at all. -/
theorem C28_scale_inconsistent (k : SSM) (hk : k.NoiseIsStationary) (name : String) (c : ℝ) (hc : c ≠ 1)
    (h : (k.scale name c).NoiseIsStationary) (X1 X2 : Coord) : k.Q X1 X2 = 0 := by
  have h1 := hk X1 X2
  have h2 : k.Q X1 X2 = c • k.Pinf - k.A X1 X2 * (c • k.Pinf) * (k.A X1 X2)ᵀ := h X1 X2
  rw [smul_conj, ← smul_sub, ← h1] at h2
  have h3 : (c - 1) • k.Q X1 X2 = 0 := by rw [sub_smul, one_smul, ← h2, sub_self]
  exact (smul_eq_zero.1 h3).resolve_left (sub_ne_zero.2 hc)

end Verif
