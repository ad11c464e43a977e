import Verif.Lemmas.KernelComb

/-! # Transition, noise and Lyapunov facts for every shipped kernel and every combination -/

set_option linter.unusedSectionVars false

namespace Verif
open Matrix
open scoped Kronecker

theorem MDeriv.blockDiag {m₁ n₁ m₂ n₂ : Type} {A : ℝ → Matrix m₁ n₁ ℝ} {A' : Matrix m₁ n₁ ℝ}
    {B : ℝ → Matrix m₂ n₂ ℝ} {B' : Matrix m₂ n₂ ℝ} {t : ℝ} (hA : MDeriv A A' t) (hB : MDeriv B B' t) :
    MDeriv (fun s => Verif.blockDiag (A s) (B s)) (Verif.blockDiag A' B') t := by
  rintro (i | i) (j | j)
  · exact hA i j
  · exact hasDerivAt_const t 0
  · exact hasDerivAt_const t 0
  · exact hB i j

theorem MDeriv.kron {m₁ n₁ m₂ n₂ : Type} {A : ℝ → Matrix m₁ n₁ ℝ} {A' : Matrix m₁ n₁ ℝ}
    {B : ℝ → Matrix m₂ n₂ ℝ} {B' : Matrix m₂ n₂ ℝ} {t : ℝ} (hA : MDeriv A A' t) (hB : MDeriv B B' t) :
    MDeriv (fun s => A s ⊗ₖ B s) (A' ⊗ₖ B t + A t ⊗ₖ B') t := by
  rintro ⟨i, k⟩ ⟨j, l⟩
  exact (hA i j).mul (hB k l)

theorem expm_blockDiag {n₁ n₂ : Type} [Fintype n₁] [DecidableEq n₁] [Fintype n₂] [DecidableEq n₂]
    (F : Matrix n₁ n₁ ℝ) (G : Matrix n₂ n₂ ℝ) (t : ℝ) :
    blockDiag (NormedSpace.exp (t • F)) (NormedSpace.exp (t • G)) = NormedSpace.exp (t • blockDiag F G) := by
  refine expm_unique (blockDiag F G)
    (fun t => blockDiag (NormedSpace.exp (t • F)) (NormedSpace.exp (t • G))) ?_ (fun t => ?_) t
  · show blockDiag _ _ = 1
    rw [expm_zero, expm_zero, blockDiag_one]
  · refine (MDeriv.blockDiag (expm_deriv' F t) (expm_deriv' G t)).congr ?_
    rw [blockDiag_mul]

theorem expm_kron {n₁ n₂ : Type} [Fintype n₁] [DecidableEq n₁] [Fintype n₂] [DecidableEq n₂]
    (F : Matrix n₁ n₁ ℝ) (G : Matrix n₂ n₂ ℝ) (t : ℝ) :
    NormedSpace.exp (t • F) ⊗ₖ NormedSpace.exp (t • G) =
      NormedSpace.exp (t • (F ⊗ₖ (1 : Matrix n₂ n₂ ℝ) + (1 : Matrix n₁ n₁ ℝ) ⊗ₖ G)) := by
  refine expm_unique (F ⊗ₖ (1 : Matrix n₂ n₂ ℝ) + (1 : Matrix n₁ n₁ ℝ) ⊗ₖ G)
    (fun t => NormedSpace.exp (t • F) ⊗ₖ NormedSpace.exp (t • G)) ?_ (fun t => ?_) t
  · show _ ⊗ₖ _ = 1
    rw [expm_zero, expm_zero, one_kronecker_one]
  · refine (MDeriv.kron (expm_deriv' F t) (expm_deriv' G t)).congr ?_
    rw [Matrix.add_mul, ← mul_kronecker_mul, ← mul_kronecker_mul, Matrix.one_mul, Matrix.one_mul]

namespace SSM
variable {k1 k2 k : SSM}

theorem TransitionIsExp.sum (h1 : k1.TransitionIsExp) (h2 : k2.TransitionIsExp) : (k1.sum k2).TransitionIsExp := by
  intro X1 X2
  show blockDiag (k1.A X1 X2) (k2.A X1 X2) = _
  rw [h1 X1 X2, h2 X1 X2]
  exact expm_blockDiag k1.F k2.F _

theorem TransitionIsExp.prod (h1 : k1.TransitionIsExp) (h2 : k2.TransitionIsExp) : (k1.prod k2).TransitionIsExp := by
  intro X1 X2
  show k1.A X1 X2 ⊗ₖ k2.A X1 X2 = _
  rw [h1 X1 X2, h2 X1 X2]
  exact expm_kron k1.F k2.F _

theorem TransitionIsExp.composes_of {G : Matrix k.n k.n ℝ}
    (h : ∀ X1 X2 : Coord, k.A X1 X2 = NormedSpace.exp ((X2.sortable - X1.sortable) • G)) : k.TransitionComposes where
  refl X1 X2 e := by rw [h, e, sub_self, expm_zero]
  comp X1 X2 X3 := by rw [h, h, h, ← expm_add]; congr 2; ring

theorem TransitionIsExp.composes (h : k.TransitionIsExp) : k.TransitionComposes := composes_of h

theorem TransitionComposes.sum (h1 : k1.TransitionComposes) (h2 : k2.TransitionComposes) :
    (k1.sum k2).TransitionComposes where
  refl X1 X2 e := by
    show blockDiag (k1.A X1 X2) (k2.A X1 X2) = 1
    rw [h1.refl _ _ e, h2.refl _ _ e, blockDiag_one]
  comp X1 X2 X3 := by
    have e : blockDiag (k1.A X1 X3) (k2.A X1 X3) =
        blockDiag (k1.A X2 X3) (k2.A X2 X3) * blockDiag (k1.A X1 X2) (k2.A X1 X2) := by
      rw [blockDiag_mul, h1.comp X1 X2 X3, h2.comp X1 X2 X3]
    exact e

theorem TransitionComposes.prod (h1 : k1.TransitionComposes) (h2 : k2.TransitionComposes) :
    (k1.prod k2).TransitionComposes where
  refl X1 X2 e := by
    show k1.A X1 X2 ⊗ₖ k2.A X1 X2 = 1
    rw [h1.refl _ _ e, h2.refl _ _ e, one_kronecker_one]
  comp X1 X2 X3 := by
    have e : k1.A X1 X3 ⊗ₖ k2.A X1 X3 = (k1.A X2 X3 ⊗ₖ k2.A X2 X3) * (k1.A X1 X2 ⊗ₖ k2.A X1 X2) := by
      rw [← mul_kronecker_mul, ← h1.comp X1 X2 X3, ← h2.comp X1 X2 X3]
    exact e

theorem NoiseIsStationary.sum (h1 : k1.NoiseIsStationary) (h2 : k2.NoiseIsStationary) :
    (k1.sum k2).NoiseIsStationary := by
  intro X1 X2
  show blockDiag (k1.Q X1 X2) (k2.Q X1 X2) = blockDiag k1.Pinf k2.Pinf -
    blockDiag (k1.A X1 X2) (k2.A X1 X2) * blockDiag k1.Pinf k2.Pinf * (blockDiag (k1.A X1 X2) (k2.A X1 X2))ᵀ
  rw [blockDiag_transpose, blockDiag_mul, blockDiag_mul, blockDiag_sub, h1, h2]

theorem NoiseIsStationary.prod (h1 : k1.NoiseIsStationary) (h2 : k2.NoiseIsStationary) :
    (k1.prod k2).NoiseIsStationary := by
  intro X1 X2
  have e := kron_conj (k1.A X1 X2) (k2.A X1 X2) k1.Pinf k2.Pinf
  show k1.Pinf ⊗ₖ k2.Q X1 X2 + k1.Q X1 X2 ⊗ₖ k2.Pinf - k1.Q X1 X2 ⊗ₖ k2.Q X1 X2 = k1.Pinf ⊗ₖ k2.Pinf -
    (k1.A X1 X2 ⊗ₖ k2.A X1 X2) * (k1.Pinf ⊗ₖ k2.Pinf) * (k1.A X1 X2 ⊗ₖ k2.A X1 X2)ᵀ
  rw [e, h1, h2]
  simp only [kron_sub_left, kron_sub_right]
  abel

theorem Lyapunov.sum (h1 : k1.Lyapunov) (h2 : k2.Lyapunov) : (k1.sum k2).Lyapunov := by
  show blockDiag k1.F k2.F * blockDiag k1.Pinf k2.Pinf + blockDiag k1.Pinf k2.Pinf * (blockDiag k1.F k2.F)ᵀ +
    blockDiag k1.L k2.L * blockDiag k1.Qc k2.Qc * (blockDiag k1.L k2.L)ᵀ = 0
  simp only [blockDiag_transpose, blockDiag_mul, blockDiag_add]
  unfold Lyapunov at h1 h2
  rw [h1, h2, blockDiag_zero]

theorem Lyapunov.prod (h1 : k1.Lyapunov) (h2 : k2.Lyapunov) : (k1.prod k2).Lyapunov := by
  unfold Lyapunov at *
  have e1 : k1.L * k1.Qc * k1.Lᵀ = 0 - k1.F * k1.Pinf - k1.Pinf * k1.Fᵀ := by rw [← h1]; abel
  have e2 : k2.L * k2.Qc * k2.Lᵀ = 0 - k2.F * k2.Pinf - k2.Pinf * k2.Fᵀ := by rw [← h2]; abel
  have e : (k1.F ⊗ₖ (1 : Matrix k2.n k2.n ℝ) + (1 : Matrix k1.n k1.n ℝ) ⊗ₖ k2.F) * (k1.Pinf ⊗ₖ k2.Pinf) +
    (k1.Pinf ⊗ₖ k2.Pinf) * (k1.F ⊗ₖ (1 : Matrix k2.n k2.n ℝ) + (1 : Matrix k1.n k1.n ℝ) ⊗ₖ k2.F)ᵀ +
    (1 : Matrix (k1.n × k2.n) (k1.n × k2.n) ℝ) *
      ((k1.L * k1.Qc * k1.Lᵀ) ⊗ₖ k2.Pinf + k1.Pinf ⊗ₖ (k2.L * k2.Qc * k2.Lᵀ)) *
      (1 : Matrix (k1.n × k2.n) (k1.n × k2.n) ℝ)ᵀ = 0 := by
    rw [e1, e2, transpose_one, Matrix.one_mul, Matrix.mul_one, transpose_add, kron_tr, kron_tr, transpose_one,
      transpose_one, Matrix.add_mul, Matrix.mul_add, ← mul_kronecker_mul, ← mul_kronecker_mul, ← mul_kronecker_mul,
      ← mul_kronecker_mul]
    simp only [kron_sub_left, kron_sub_right, Matrix.one_mul, Matrix.mul_one, zero_kronecker, kronecker_zero]
    abel
  exact e

theorem Lyapunov.scale (h : k.Lyapunov) (name : String) (c : ℝ) : (k.scale name c).Lyapunov := by
  unfold Lyapunov at *
  show k.F * (c • k.Pinf) + (c • k.Pinf) * k.Fᵀ + k.L * (c • k.Qc) * k.Lᵀ = 0
  rw [Matrix.mul_smul, Matrix.smul_mul, Matrix.mul_smul, Matrix.smul_mul, ← smul_add, ← smul_add, h, smul_zero]

end SSM

namespace ExpSineSquared

theorem periodicTerm_transition (j : ℕ) (omega scale : ℝ) : (periodicTerm j omega scale).TransitionIsExp := by
  intro X1 X2
  show rotation (j * omega * dtOf X1 X2) = _
  rw [rotation_expm, mul_comm (j : ℝ) omega]
  rfl

theorem sumTerms_transition (omega scale : ℝ) (J : ℕ) : (sumTerms omega scale J).TransitionIsExp := by
  induction J with
  | zero => exact periodicTerm_transition 0 omega scale
  | succ j ih => exact ih.sum (periodicTerm_transition _ _ _)

theorem periodicTerm_stationary (j : ℕ) (omega scale : ℝ) : (periodicTerm j omega scale).NoiseIsStationary := by
  intro X1 X2
  show (0 : Matrix (Fin 2) (Fin 2) ℝ) = qj2 j scale • 1 - rotation _ * (qj2 j scale • 1) * (rotation _)ᵀ
  rw [rotation_conj, sub_self]

theorem sumTerms_stationary (omega scale : ℝ) (J : ℕ) : (sumTerms omega scale J).NoiseIsStationary := by
  induction J with
  | zero => exact periodicTerm_stationary 0 omega scale
  | succ j ih => exact ih.sum (periodicTerm_stationary _ _ _)

theorem periodicTerm_lyapunov (j : ℕ) (omega scale : ℝ) : (periodicTerm j omega scale).Lyapunov := by
  have e : (!![0, -(omega * j); omega * j, 0] : Matrix (Fin 2) (Fin 2) ℝ) * (qj2 j scale • 1) +
      (qj2 j scale • 1) * !![0, -(omega * j); omega * j, 0]ᵀ +
      (1 : Matrix (Fin 2) (Fin 2) ℝ) * (0 : Matrix (Fin 2) (Fin 2) ℝ) * (1 : Matrix (Fin 2) (Fin 2) ℝ)ᵀ = 0 := by
    rw [rotation_lyapunov]
    simp
  exact e

theorem sumTerms_lyapunov (omega scale : ℝ) (J : ℕ) : (sumTerms omega scale J).Lyapunov := by
  induction J with
  | zero => exact periodicTerm_lyapunov 0 omega scale
  | succ j ih => exact ih.sum (periodicTerm_lyapunov _ _ _)

theorem sumTerms_Qc (omega scale : ℝ) (J : ℕ) : (sumTerms omega scale J).Qc = 0 := by
  induction J with
  | zero => rfl
  | succ j ih =>
    show blockDiag (sumTerms omega scale j).Qc _ = 0
    rw [ih]
    exact blockDiag_zero

theorem stationary (period gamma sigma : ℝ) (order : ℕ) (name : String) :
    (expSineSquared period gamma sigma order name).NoiseIsStationary := by
  intro X1 X2
  have e := sumTerms_stationary (2 * Real.pi / period) (2 / gamma) (order - 1) X1 X2
  rw [sumTerms_Q] at e
  show (sumTerms (2 * Real.pi / period) (2 / gamma) (order - 1)).Q X1 X2 =
    sigma ^ 2 • (sumTerms (2 * Real.pi / period) (2 / gamma) (order - 1)).Pinf -
      (sumTerms (2 * Real.pi / period) (2 / gamma) (order - 1)).A X1 X2 *
      (sigma ^ 2 • (sumTerms (2 * Real.pi / period) (2 / gamma) (order - 1)).Pinf) *
      ((sumTerms (2 * Real.pi / period) (2 / gamma) (order - 1)).A X1 X2)ᵀ
  rw [sumTerms_Q, smul_conj, ← smul_sub, ← e, smul_zero]

theorem lyapunov (period gamma sigma : ℝ) (order : ℕ) (name : String) :
    (expSineSquared period gamma sigma order name).Lyapunov := by
  have e := sumTerms_lyapunov (2 * Real.pi / period) (2 / gamma) (order - 1)
  unfold SSM.Lyapunov at e
  rw [sumTerms_Qc, Matrix.mul_zero, Matrix.zero_mul, add_zero] at e
  show (sumTerms (2 * Real.pi / period) (2 / gamma) (order - 1)).F *
      (sigma ^ 2 • (sumTerms (2 * Real.pi / period) (2 / gamma) (order - 1)).Pinf) +
    (sigma ^ 2 • (sumTerms (2 * Real.pi / period) (2 / gamma) (order - 1)).Pinf) *
      (sumTerms (2 * Real.pi / period) (2 / gamma) (order - 1)).Fᵀ +
    (sumTerms (2 * Real.pi / period) (2 / gamma) (order - 1)).L *
      (sumTerms (2 * Real.pi / period) (2 / gamma) (order - 1)).Qc *
      (sumTerms (2 * Real.pi / period) (2 / gamma) (order - 1)).Lᵀ = 0
  rw [sumTerms_Qc, Matrix.mul_zero, Matrix.zero_mul, add_zero, Matrix.mul_smul, Matrix.smul_mul, ← smul_add, e, smul_zero]

end ExpSineSquared

theorem cosine_lyapunov (scale sigma : ℝ) (name : String) : (cosine scale sigma name).Lyapunov := by
  have e : (!![0, -(2 * Real.pi / scale); 2 * Real.pi / scale, 0] : Matrix (Fin 2) (Fin 2) ℝ) * (sigma ^ 2 • 1) +
      (sigma ^ 2 • 1) * !![0, -(2 * Real.pi / scale); 2 * Real.pi / scale, 0]ᵀ +
      (!![0; 1] : Matrix (Fin 2) (Fin 1) ℝ) * (!![0] : Matrix (Fin 1) (Fin 1) ℝ) * (!![0; 1] : Matrix (Fin 2) (Fin 1) ℝ)ᵀ = 0 := by
    rw [rotation_lyapunov, ← zero1, Matrix.mul_zero, Matrix.zero_mul, add_zero]
  exact e

theorem cosine_stationary (scale sigma : ℝ) (name : String) : (cosine scale sigma name).NoiseIsStationary := by
  intro X1 X2
  show (0 : Matrix (Fin 2) (Fin 2) ℝ) = sigma ^ 2 • 1 - rotation _ * (sigma ^ 2 • 1) * (rotation _)ᵀ
  rw [rotation_conj, sub_self]

end Verif
