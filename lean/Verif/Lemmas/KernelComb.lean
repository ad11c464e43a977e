import Verif.Lemmas.KernelSHO
import Mathlib.LinearAlgebra.Matrix.SchurComplement

/-! # Sums, products, wrappers and the periodic kernel keep regularity -/

set_option linter.unusedSectionVars false

namespace Verif
open Matrix
open scoped Kronecker

section block
variable {m₁ m₂ n₁ n₂ l₁ l₂ : Type} [Fintype n₁] [Fintype n₂]

theorem blockDiag_mul (a : Matrix m₁ n₁ ℝ) (b : Matrix m₂ n₂ ℝ) (a' : Matrix n₁ l₁ ℝ) (b' : Matrix n₂ l₂ ℝ) :
    blockDiag a b * blockDiag a' b' = blockDiag (a * a') (b * b') := by
  unfold blockDiag
  rw [fromBlocks_multiply]
  simp

theorem blockDiag_transpose (a : Matrix m₁ n₁ ℝ) (b : Matrix m₂ n₂ ℝ) : (blockDiag a b)ᵀ = blockDiag aᵀ bᵀ := by
  unfold blockDiag
  rw [fromBlocks_transpose]
  simp

theorem blockDiag_sub (a a' : Matrix m₁ n₁ ℝ) (b b' : Matrix m₂ n₂ ℝ) :
    blockDiag a b - blockDiag a' b' = blockDiag (a - a') (b - b') := by
  unfold blockDiag
  ext (i | i) (j | j) <;> simp

theorem blockDiag_add (a a' : Matrix m₁ n₁ ℝ) (b b' : Matrix m₂ n₂ ℝ) :
    blockDiag a b + blockDiag a' b' = blockDiag (a + a') (b + b') := by
  unfold blockDiag
  ext (i | i) (j | j) <;> simp

theorem blockDiag_zero : blockDiag (0 : Matrix m₁ n₁ ℝ) (0 : Matrix m₂ n₂ ℝ) = 0 := by
  unfold blockDiag
  ext (i | i) (j | j) <;> simp

theorem blockDiag_one [DecidableEq n₁] [DecidableEq n₂] : blockDiag (1 : Matrix n₁ n₁ ℝ) (1 : Matrix n₂ n₂ ℝ) = 1 := by
  unfold blockDiag
  exact fromBlocks_one

theorem blockDiag_det [DecidableEq n₁] [DecidableEq n₂] (a : Matrix n₁ n₁ ℝ) (b : Matrix n₂ n₂ ℝ) :
    (blockDiag a b).det = a.det * b.det := det_fromBlocks_zero₂₁ a 0 b

theorem blockDiag_quad (a : Matrix n₁ n₁ ℝ) (b : Matrix n₂ n₂ ℝ) (x : n₁ ⊕ n₂ → ℝ) :
    x ⬝ᵥ blockDiag a b *ᵥ x = (x ∘ Sum.inl) ⬝ᵥ a *ᵥ (x ∘ Sum.inl) + (x ∘ Sum.inr) ⬝ᵥ b *ᵥ (x ∘ Sum.inr) := by
  simp [dotProduct, mulVec, blockDiag, Fintype.sum_sum_type]

theorem blockDiag_psd {a : Matrix n₁ n₁ ℝ} {b : Matrix n₂ n₂ ℝ} (ha : a.PosSemidef) (hb : b.PosSemidef) :
    (blockDiag a b).PosSemidef := by
  rw [psd_iff] at *
  refine ⟨by rw [blockDiag_transpose, ha.1, hb.1], fun x => ?_⟩
  rw [blockDiag_quad]
  exact add_nonneg (ha.2 _) (hb.2 _)

theorem blockDiag_pd {a : Matrix n₁ n₁ ℝ} {b : Matrix n₂ n₂ ℝ} (ha : a.PosDef) (hb : b.PosDef) :
    (blockDiag a b).PosDef := by
  have ha' := ha.posSemidef
  have hb' := hb.posSemidef
  rw [psd_iff] at ha' hb'
  rw [pd_iff] at *
  refine ⟨by rw [blockDiag_transpose, ha.1, hb.1], fun x hx => ?_⟩
  rw [blockDiag_quad]
  by_cases h1 : x ∘ Sum.inl = 0
  · have h2 : x ∘ Sum.inr ≠ 0 := fun h2 => hx (by
      funext i; rcases i with i | i
      · exact congrFun h1 i
      · exact congrFun h2 i)
    exact add_pos_of_nonneg_of_pos (ha'.2 _) (hb.2 _ h2)
  · exact add_pos_of_pos_of_nonneg (ha.2 _ h1) (hb'.2 _)

end block

section kron
variable {m₁ m₂ n₁ n₂ : Type}

theorem kron_tr (a : Matrix m₁ n₁ ℝ) (b : Matrix m₂ n₂ ℝ) : (a ⊗ₖ b)ᵀ = aᵀ ⊗ₖ bᵀ := by
  ext ⟨i, j⟩ ⟨k, l⟩; rfl

theorem kron_sub_left (a a' : Matrix m₁ n₁ ℝ) (b : Matrix m₂ n₂ ℝ) : (a - a') ⊗ₖ b = a ⊗ₖ b - a' ⊗ₖ b := by
  ext ⟨i, j⟩ ⟨k, l⟩; simp [kroneckerMap_apply, sub_mul]

theorem kron_sub_right (a : Matrix m₁ n₁ ℝ) (b b' : Matrix m₂ n₂ ℝ) : a ⊗ₖ (b - b') = a ⊗ₖ b - a ⊗ₖ b' := by
  ext ⟨i, j⟩ ⟨k, l⟩; simp [kroneckerMap_apply, mul_sub]

variable [Fintype n₁] [Fintype n₂]
theorem kron_conj (A : Matrix n₁ n₁ ℝ) (B : Matrix n₂ n₂ ℝ) (P : Matrix n₁ n₁ ℝ) (R : Matrix n₂ n₂ ℝ) :
    (A ⊗ₖ B) * (P ⊗ₖ R) * (A ⊗ₖ B)ᵀ = (A * P * Aᵀ) ⊗ₖ (B * R * Bᵀ) := by
  rw [kron_tr, ← mul_kronecker_mul, ← mul_kronecker_mul]

end kron

namespace SSM
variable {k1 k2 : SSM}

theorem Proper.sum (h1 : k1.Proper) (h2 : k2.Proper) : (k1.sum k2).Proper where
  shift_A X1 X2 := by
    show blockDiag _ _ = blockDiag (k1.At 0 _) (k2.At 0 _)
    rw [h1.shift_A, h2.shift_A]
  A_zero := by
    show blockDiag (k1.At 0 0) (k2.At 0 0) = 1
    rw [h1.A_zero, h2.A_zero, blockDiag_one]
  A_add s t hs ht := by
    show blockDiag (k1.At 0 (s + t)) (k2.At 0 (s + t)) =
      blockDiag (k1.At 0 t) (k2.At 0 t) * blockDiag (k1.At 0 s) (k2.At 0 s)
    rw [h1.A_add s t hs ht, h2.A_add s t hs ht, blockDiag_mul]
  Q_eq s hs := by
    show blockDiag (k1.Qt 0 s) (k2.Qt 0 s) = blockDiag k1.Pinf k2.Pinf -
      blockDiag (k1.At 0 s) (k2.At 0 s) * blockDiag k1.Pinf k2.Pinf * (blockDiag (k1.At 0 s) (k2.At 0 s))ᵀ
    rw [blockDiag_transpose, blockDiag_mul, blockDiag_mul, blockDiag_sub, h1.Q_eq s hs, h2.Q_eq s hs]
  Q_psd s hs := blockDiag_psd (h1.Q_psd s hs) (h2.Q_psd s hs)
  P_psd := blockDiag_psd h1.P_psd h2.P_psd
  H_const X := by
    show hstack _ _ = hstack _ _
    rw [h1.H_const X, h2.H_const X]

theorem Regular.sum (h1 : k1.Regular) (h2 : k2.Regular) : (k1.sum k2).Regular where
  toProper := h1.toProper.sum h2.toProper
  P_pd := blockDiag_pd h1.P_pd h2.P_pd
  A_unit s hs := by
    show IsUnit (blockDiag (k1.At 0 s) (k2.At 0 s)).det
    rw [blockDiag_det]
    exact (h1.A_unit s hs).mul (h2.A_unit s hs)

theorem Proper.prod_Q (h1 : k1.Proper) (h2 : k2.Proper) {s : ℝ} (hs : 0 ≤ s) : (k1.prod k2).Qt 0 s =
    k1.Pinf ⊗ₖ k2.Pinf - (k1.At 0 s * k1.Pinf * (k1.At 0 s)ᵀ) ⊗ₖ (k2.At 0 s * k2.Pinf * (k2.At 0 s)ᵀ) := by
  show k1.Pinf ⊗ₖ k2.Qt 0 s + k1.Qt 0 s ⊗ₖ k2.Pinf - k1.Qt 0 s ⊗ₖ k2.Qt 0 s = _
  rw [h1.Q_eq s hs, h2.Q_eq s hs]
  simp only [kron_sub_left, kron_sub_right]
  abel

theorem Proper.prod (h1 : k1.Proper) (h2 : k2.Proper) : (k1.prod k2).Proper where
  shift_A X1 X2 := by
    show _ ⊗ₖ _ = k1.At 0 _ ⊗ₖ k2.At 0 _
    rw [h1.shift_A, h2.shift_A]
  A_zero := by
    show k1.At 0 0 ⊗ₖ k2.At 0 0 = 1
    rw [h1.A_zero, h2.A_zero, one_kronecker_one]
  A_add s t hs ht := by
    show k1.At 0 (s + t) ⊗ₖ k2.At 0 (s + t) = (k1.At 0 t ⊗ₖ k2.At 0 t) * (k1.At 0 s ⊗ₖ k2.At 0 s)
    rw [h1.A_add s t hs ht, h2.A_add s t hs ht, mul_kronecker_mul]
  Q_eq s hs := by
    rw [h1.prod_Q h2 hs]
    exact congrArg _ (kron_conj (k1.At 0 s) (k2.At 0 s) k1.Pinf k2.Pinf).symm
  Q_psd s hs := by
    rw [h1.prod_Q h2 hs]
    have e : k1.Pinf ⊗ₖ k2.Pinf - (k1.At 0 s * k1.Pinf * (k1.At 0 s)ᵀ) ⊗ₖ (k2.At 0 s * k2.Pinf * (k2.At 0 s)ᵀ)
        = k1.Qt 0 s ⊗ₖ k2.Pinf + (k1.At 0 s * k1.Pinf * (k1.At 0 s)ᵀ) ⊗ₖ k2.Qt 0 s := by
      rw [h1.Q_eq s hs, h2.Q_eq s hs]
      simp only [kron_sub_left, kron_sub_right]
      abel
    rw [e]
    exact ((h1.Q_psd s hs).kronecker h2.P_psd).add ((psd_conj h1.P_psd _).kronecker (h2.Q_psd s hs))
  P_psd := h1.P_psd.kronecker h2.P_psd
  H_const X := by
    show kronRow _ _ = kronRow _ _
    rw [h1.H_const X, h2.H_const X]

theorem Regular.prod (h1 : k1.Regular) (h2 : k2.Regular) : (k1.prod k2).Regular where
  toProper := h1.toProper.prod h2.toProper
  P_pd := h1.P_pd.kronecker h2.P_pd
  A_unit s hs := by
    show IsUnit (k1.At 0 s ⊗ₖ k2.At 0 s).det
    rw [det_kronecker]
    exact ((h1.A_unit s hs).pow _).mul ((h2.A_unit s hs).pow _)

end SSM

namespace ExpSineSquared
variable {omega scale : ℝ}

theorem Ij_pos (j : ℕ) (x : ℝ) (terms : ℕ) (h : 0 < terms) : 0 < Ij j x terms :=
  Finset.sum_pos (fun _ _ => Real.exp_pos _) ⟨0, Finset.mem_range.2 h⟩

theorem qj2_pos (j : ℕ) (scale : ℝ) : 0 < qj2 j scale := by
  unfold qj2
  have := Ij_pos j (1 / scale) 50 (by norm_num)
  split_ifs <;> positivity

theorem periodicTerm_regular (j : ℕ) (omega scale : ℝ) : (periodicTerm j omega scale).Regular := by
  refine SSM.Regular.of_lyapunov _ 0 (fun X1 X2 => ?_) (fun s _ => ?_)
    (pos_smul_pd Matrix.PosDef.one (qj2_pos j scale)) Matrix.PosSemidef.zero
    (by rw [add_zero]; exact rotation_lyapunov _ _) (defaultObs_const _ _ fun _ => rfl)
  · show rotation (j * omega * dtOf X1 X2) = _
    rw [rotation_expm, mul_comm]
    rfl
  · show (0 : Matrix (Fin 2) (Fin 2) ℝ) = qj2 j scale • 1 - rotation _ * (qj2 j scale • 1) * (rotation _)ᵀ
    rw [rotation_conj, sub_self]

theorem sumTerms_regular (omega scale : ℝ) (J : ℕ) : (sumTerms omega scale J).Regular := by
  induction J with
  | zero => exact periodicTerm_regular 0 omega scale
  | succ j ih => exact ih.sum (periodicTerm_regular _ _ _)

theorem sumTerms_Q (omega scale : ℝ) (J : ℕ) (X1 X2 : Coord) : (sumTerms omega scale J).Q X1 X2 = 0 := by
  induction J with
  | zero => rfl
  | succ j ih =>
    show blockDiag ((sumTerms omega scale j).Q X1 X2) _ = 0
    rw [ih]
    exact blockDiag_zero

theorem sumTerms_obs (omega scale : ℝ) (J : ℕ) (X : Coord) :
    (sumTerms omega scale J).obsMatrix X = (sumTerms omega scale J).obsMatrix (.time 0) := by
  induction J with
  | zero => rfl
  | succ j ih =>
    show hstack _ _ = hstack _ _
    rw [ih]
    rfl

end ExpSineSquared

theorem smul_conj {n : Type*} [Fintype n] (A P : Matrix n n ℝ) (c : ℝ) : A * (c • P) * Aᵀ = c • (A * P * Aᵀ) := by
  rw [Matrix.mul_smul, Matrix.smul_mul]

theorem expSineSquared_regular (period gamma sigma : ℝ) (order : ℕ) (name : String) (hσ : sigma ≠ 0) :
    (expSineSquared period gamma sigma order name).Regular := by
  have h := ExpSineSquared.sumTerms_regular (2 * Real.pi / period) (2 / gamma) (order - 1)
  have hQ := ExpSineSquared.sumTerms_Q (2 * Real.pi / period) (2 / gamma) (order - 1)
  refine { shift_A := h.shift_A, A_zero := h.A_zero, A_add := h.A_add, Q_eq := fun s hs => ?_, Q_psd := h.Q_psd,
           P_psd := ?_, H_const := ?_, P_pd := ?_, A_unit := h.A_unit }
  · have e := h.Q_eq s hs
    unfold SSM.Qt at e
    rw [hQ] at e
    show (ExpSineSquared.sumTerms (2 * Real.pi / period) (2 / gamma) (order - 1)).Q _ _ =
      sigma ^ 2 • (ExpSineSquared.sumTerms (2 * Real.pi / period) (2 / gamma) (order - 1)).Pinf -
      (ExpSineSquared.sumTerms (2 * Real.pi / period) (2 / gamma) (order - 1)).At 0 s *
      (sigma ^ 2 • (ExpSineSquared.sumTerms (2 * Real.pi / period) (2 / gamma) (order - 1)).Pinf) *
      ((ExpSineSquared.sumTerms (2 * Real.pi / period) (2 / gamma) (order - 1)).At 0 s)ᵀ
    rw [hQ, smul_conj, ← smul_sub, ← e, smul_zero]
  · exact (pos_smul_pd h.P_pd (by positivity : (0 : ℝ) < sigma ^ 2)).posSemidef
  · exact defaultObs_const _ _ (ExpSineSquared.sumTerms_obs _ _ _)
  · exact pos_smul_pd h.P_pd (by positivity : (0 : ℝ) < sigma ^ 2)

namespace SHO

/-- `SHO` is regular at critical damping and in the overdamped regime -/
theorem regular_genuine {w q sigma : ℝ} (name : String) (hw : 0 < w) (hq0 : 0 < q) (hq : q = 1 / 2 ∨ (q < 1 / 2 ∧ ¬ isCritical q))
    (hσ : sigma ≠ 0) : (sho w q sigma name).Regular := by
  have hg : Genuine q := hq.imp id (·.2)
  refine SSM.Regular.of_lyapunov _ _ (fun X1 X2 => A_expm hw.ne' hq0 hg _) (fun s _ => ?_)
    (Pinf_pd hw.ne' hσ) (psd_conj (scalar_psd (by positivity)) _) (lyapunov sigma w q)
    (defaultObs_const _ _ fun _ => rfl)
  show Q w q sigma _ = Pinf w sigma - A w q _ * Pinf w sigma * (A w q _)ᵀ
  unfold Q A
  rcases hq with hq | hq
  · have : isCritical q := by rw [hq]; unfold isCritical; norm_num
    rw [if_pos this, if_pos this, Qcrit_eq]
  · have h5 : ¬ q > 0.5 := by have := hq.1; norm_num; linarith
    rw [if_neg hq.2, if_neg hq.2, if_neg h5, if_neg h5, Qover_eq sigma hw.ne' hq0 hq.1]

theorem critical_half : isCritical (1 / 2) := by unfold isCritical; norm_num

/-- within `allclose` of 1/2 the quality is not used at all -/
theorem A_window {q : ℝ} (hc : isCritical q) (w dt : ℝ) : A w q dt = A w (1 / 2) dt := by
  unfold A; rw [if_pos hc, if_pos critical_half]

theorem Q_window {q : ℝ} (hc : isCritical q) (w sigma dt : ℝ) : Q w q sigma dt = Q w (1 / 2) sigma dt := by
  unfold Q; rw [if_pos hc, if_pos critical_half]

/-- `SHO` is regular unless it is treated as underdamped -/
theorem regular {w q sigma : ℝ} (name : String) (hw : 0 < w) (hq0 : 0 < q) (hq : NotUnderdamped q) (hσ : sigma ≠ 0) :
    (sho w q sigma name).Regular := by
  by_cases hc : isCritical q
  · have h := regular_genuine (q := 1 / 2) name hw (by norm_num) (.inl rfl) hσ
    have eA : (sho w q sigma name).A = (sho w (1 / 2) sigma name).A := by
      funext X1 X2; exact A_window hc w _
    have eQ : (sho w q sigma name).Q = (sho w (1 / 2) sigma name).Q := by
      funext X1 X2; exact Q_window hc w sigma _
    have eAt : (sho w q sigma name).At = (sho w (1 / 2) sigma name).At := by
      funext s t; exact congrFun (congrFun eA _) _
    have eQt : (sho w q sigma name).Qt = (sho w (1 / 2) sigma name).Qt := by
      funext s t; exact congrFun (congrFun eQ _) _
    refine { shift_A := ?_, A_zero := ?_, A_add := ?_, Q_eq := ?_, Q_psd := ?_, P_psd := h.P_psd, H_const := h.H_const, P_pd := h.P_pd,
             A_unit := ?_ }
    · rw [eA, eAt]; exact h.shift_A
    · rw [eAt]; exact h.A_zero
    · rw [eAt]; exact h.A_add
    · rw [eAt, eQt]; exact h.Q_eq
    · rw [eQt]; exact h.Q_psd
    · rw [eAt]; exact h.A_unit
  · refine regular_genuine name hw hq0 ?_ hσ
    have hle := hq.resolve_left hc
    exact .inr ⟨lt_of_le_of_ne hle fun e => hc (e ▸ critical_half), hc⟩

/-- the SHO kernel without the `1e-14` truncation of `process_noise` -/
noncomputable def shoExact (w q sigma : ℝ) (name : String) : SSM :=
  { sho w q sigma name with Q := defaultProcessNoise (Pinf w sigma) (fun X1 X2 => A w q (dtOf X1 X2)) }

theorem shoExact_regular {w q sigma : ℝ} (name : String) (hw : 0 < w) (hq0 : 0 < q) (hq : Genuine q)
    (hσ : sigma ≠ 0) : (shoExact w q sigma name).Regular :=
  SSM.Regular.of_lyapunov _ _ (fun X1 X2 => A_expm hw.ne' hq0 hq _) (fun s _ => rfl)
    (Pinf_pd hw.ne' hσ) (psd_conj (scalar_psd (by positivity)) _) (lyapunov sigma w q)
    (defaultObs_const _ _ fun _ => rfl)

end SHO

end Verif
