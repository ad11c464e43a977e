import Verif.Props.C11_ExposureAverage
import Verif.Props.C01_AtGaps

/-!
# The covariances of the integrated filter are positive definite

A reset makes the filtered covariance singular. The noise accumulated until the next event repairs it, if that event is strictly later.
-/

set_option linter.unusedSectionVars false

namespace Verif
open Matrix Filter Topology

/-- if an input is invisible to `x` over a short time, so are all its iterates -/
theorem invisible_iterates_short {n : Type} [Fintype n] [DecidableEq n] {F : Matrix n n ℝ} {x v : n → ℝ} {T : ℝ} (hT : 0 < T)
    (h : ∀ s : ℝ, 0 < s → s < T → x ⬝ᵥ NormedSpace.exp (s • F) *ᵥ v = 0) (k : ℕ) : x ⬝ᵥ F ^ k *ᵥ v = 0 := by
  have hd : ∀ (k : ℕ) (t : ℝ), HasDerivAt (fun s => x ⬝ᵥ (F ^ k * NormedSpace.exp (s • F)) *ᵥ v)
      (x ⬝ᵥ (F ^ (k + 1) * NormedSpace.exp (t • F)) *ᵥ v) t := fun k t => by
    have := ((MDeriv.const (F ^ k)).mul (expm_deriv' F t)).bilin (t := t) x v
    rw [Matrix.zero_mul, zero_add, ← Matrix.mul_assoc, ← pow_succ] at this
    exact this
  have hk : ∀ (k : ℕ) (s : ℝ), 0 < s → s < T → x ⬝ᵥ (F ^ k * NormedSpace.exp (s • F)) *ᵥ v = 0 := by
    intro k
    induction k with
    | zero => intro s hs hs'; rw [pow_zero, Matrix.one_mul]; exact h s hs hs'
    | succ k ih =>
      intro s hs hs'
      refine (hd k s).unique ((hasDerivAt_const s (0 : ℝ)).congr_of_eventuallyEq ?_)
      filter_upwards [lt_mem_nhds hs, gt_mem_nhds hs'] with u hu hu'
      exact ih u hu hu'
  have hc := (hd k 0).continuousAt.continuousWithinAt (s := Set.Ioi 0)
  have h1 : Tendsto (fun s => x ⬝ᵥ (F ^ k * NormedSpace.exp (s • F)) *ᵥ v) (𝓝[>] (0 : ℝ)) (𝓝 0) := by
    refine tendsto_const_nhds.congr' ?_
    filter_upwards [self_mem_nhdsWithin, nhdsWithin_le_nhds (gt_mem_nhds hT)] with s hs hs'
    exact (hk k s hs hs').symm
  have : x ⬝ᵥ (F ^ k * NormedSpace.exp ((0 : ℝ) • F)) *ᵥ v = 0 := tendsto_nhds_unique hc h1
  rwa [expm_zero, Matrix.mul_one] at this

/-- a direction without accumulated noise sees no noise at any instant -/
theorem quad_integral_zero {n : Type} [Fintype n] {Q : Matrix n n ℝ} {D : ℝ → Matrix n n ℝ} {t : ℝ} (ht : 0 < t)
    (hc : ∀ i j, Continuous fun u => D u i j) (hD : ∀ u, (D u).PosSemidef)
    (hQ : ∀ i j, Q i j = ∫ u in (0 : ℝ)..t, D u i j) {x : n → ℝ} (hx : x ⬝ᵥ Q *ᵥ x = 0) :
    ∀ u, 0 < u → u < t → x ⬝ᵥ D u *ᵥ x = 0 := by
  have key : x ⬝ᵥ Q *ᵥ x = ∫ u in (0 : ℝ)..t, x ⬝ᵥ D u *ᵥ x := by
    simp only [dotProduct, mulVec, Finset.mul_sum]
    rw [intervalIntegral.integral_finsetSum]
    · refine Finset.sum_congr rfl fun i _ => ?_
      rw [intervalIntegral.integral_finsetSum]
      · refine Finset.sum_congr rfl fun j _ => ?_
        rw [hQ, intervalIntegral.integral_const_mul, intervalIntegral.integral_mul_const]
      · intro j _
        exact (continuous_const.mul ((hc i j).mul continuous_const)).intervalIntegrable _ _
    · intro i _
      exact (continuous_finsetSum _ fun j _ => continuous_const.mul ((hc i j).mul continuous_const)).intervalIntegrable _ _
  have hcont : Continuous fun u => x ⬝ᵥ D u *ᵥ x := by
    simp only [dotProduct, mulVec, Finset.mul_sum]
    exact continuous_finsetSum _ fun i _ => continuous_finsetSum _ fun j _ => continuous_const.mul ((hc i j).mul continuous_const)
  have hnn : ∀ u, 0 ≤ x ⬝ᵥ D u *ᵥ x := fun u => ((psd_iff _).1 (hD u)).2 x
  intro u hu hut
  by_contra hne
  have := intervalIntegral.integral_pos ht hcont.continuousOn (fun v _ => hnn v) ⟨u, ⟨hu.le, hut.le⟩, lt_of_le_of_ne (hnn u) (Ne.symm hne)⟩
  rw [key] at hx
  exact absurd hx this.ne'

/-- the noise accumulated over a positive time reaches every direction wiped by a reset -/
def SSM.Refills (k : SSM) (m : ℕ) : Prop := ∀ i : ℤ, 0 ≤ i → i ≤ m → ∀ s, 0 < s → k.NoiseIntegralOver s → ∀ v : k.n → ℝ,
  (k.reset i)ᵀ *ᵥ ((k.At 0 s)ᵀ *ᵥ v) = 0 → v ⬝ᵥ k.Qt 0 s *ᵥ v = 0 → v = 0

/-- the base model and one integral of its first component are reached by the noise entering through `l` -/
def Reach {n : Type} [Fintype n] [DecidableEq n] (F : Matrix n n ℝ) (first : n) (l : n → ℝ) : Prop := ∀ (w : n → ℝ) (c : ℝ), w ⬝ᵥ l = 0 →
  (∀ k, w ⬝ᵥ F ^ (k + 1) *ᵥ l + c * (F ^ k *ᵥ l) first = 0) → w = 0 ∧ c = 0

section
variable {n : Type} [Fintype n] [DecidableEq n]

/-- design matrix of the augmented model -/
def augF (m : ℕ) (F : Matrix n n ℝ) (first : n) : Matrix (n ⊕ Fin (m + 1)) (n ⊕ Fin (m + 1)) ℝ :=
  fromBlocks F 0 (Matrix.of fun _ j => if j = first then (1 : ℝ) else 0) 0

theorem augF_mulVec (m : ℕ) (F : Matrix n n ℝ) (first : n) (x : n → ℝ) (z : Fin (m + 1) → ℝ) :
    augF m F first *ᵥ Sum.elim x z = Sum.elim (F *ᵥ x) fun _ => x first := by
  unfold augF
  rw [Matrix.fromBlocks_mulVec]
  funext i
  rcases i with i | i
  · simp
  · simp [mulVec, dotProduct]

theorem augF_pow (m : ℕ) (F : Matrix n n ℝ) (first : n) (l : n → ℝ) (k : ℕ) :
    augF m F first ^ (k + 1) *ᵥ Sum.elim l 0 = Sum.elim (F ^ (k + 1) *ᵥ l) fun _ => (F ^ k *ᵥ l) first := by
  induction k with
  | zero => rw [zero_add, pow_one, pow_one, pow_zero, Matrix.one_mulVec, augF_mulVec]
  | succ k ih => rw [pow_succ', ← Matrix.mulVec_mulVec, ih, augF_mulVec, Matrix.mulVec_mulVec, ← pow_succ']

theorem outer_psd (l : n → ℝ) {q : ℝ} (hq : 0 ≤ q) : (q • Matrix.of fun i j => l i * l j).PosSemidef := by
  rw [psd_iff]
  have e : ∀ x : n → ℝ, x ⬝ᵥ (q • Matrix.of fun i j => l i * l j) *ᵥ x = q * (x ⬝ᵥ l) ^ 2 := by
    intro x
    have : (Matrix.of fun i j => l i * l j) *ᵥ x = (x ⬝ᵥ l) • l := by
      funext i
      simp only [mulVec, dotProduct, Matrix.of_apply, Pi.smul_apply, smul_eq_mul, Finset.sum_mul]
      exact Finset.sum_congr rfl fun j _ => by ring
    rw [smul_mulVec, this, dotProduct_smul, dotProduct_smul, smul_eq_mul, smul_eq_mul]
    ring
  refine ⟨by ext i j; simp [mul_comm], fun x => ?_⟩
  rw [e]; positivity

theorem outer_quad (l x : n → ℝ) (q : ℝ) : x ⬝ᵥ (q • Matrix.of fun i j => l i * l j) *ᵥ x = q * (x ⬝ᵥ l) ^ 2 := by
  have : (Matrix.of fun i j => l i * l j) *ᵥ x = (x ⬝ᵥ l) • l := by
    funext i
    simp only [mulVec, dotProduct, Matrix.of_apply, Pi.smul_apply, smul_eq_mul, Finset.sum_mul]
    exact Finset.sum_congr rfl fun j _ => by ring
  rw [smul_mulVec, this, dotProduct_smul, dotProduct_smul, smul_eq_mul, smul_eq_mul]
  ring

theorem refill_core {m : ℕ} {F : Matrix n n ℝ} {first : n} {l : n → ℝ} {q : ℝ} (hq : 0 < q) (hr : Reach F first l)
    {Q M : Matrix (n ⊕ Fin (m + 1)) (n ⊕ Fin (m + 1)) ℝ} {s : ℝ} (hs : 0 < s)
    (hM : M = q • Matrix.of fun i j => (Sum.elim l 0 : n ⊕ Fin (m + 1) → ℝ) i * (Sum.elim l 0 : n ⊕ Fin (m + 1) → ℝ) j)
    (hQ : ∀ i j, Q i j = ∫ u in (0 : ℝ)..s, (NormedSpace.exp (u • augF m F first) * M * (NormedSpace.exp (u • augF m F first))ᵀ) i j)
    {v : n ⊕ Fin (m + 1) → ℝ} {i : Fin (m + 1)} (hslot : ∀ j, j ≠ i → v (.inr j) = 0) (hz : v ⬝ᵥ Q *ᵥ v = 0) : v = 0 := by
  have h1 := quad_integral_zero hs (noise_integrand_continuous (augF m F first) M) (fun u => psd_conj (by rw [hM]; exact outer_psd _ hq.le) _) hQ hz
  have h2 : ∀ u : ℝ, 0 < u → u < s → v ⬝ᵥ NormedSpace.exp (u • augF m F first) *ᵥ (Sum.elim l 0) = 0 := by
    intro u hu hu'
    have := h1 u hu hu'
    rw [← Matrix.mulVec_mulVec, ← Matrix.mulVec_mulVec, Matrix.dotProduct_mulVec, ← Matrix.mulVec_transpose, hM, outer_quad] at this
    have h0 : ((NormedSpace.exp (u • augF m F first))ᵀ *ᵥ v) ⬝ᵥ Sum.elim l 0 = 0 := by
      rcases mul_eq_zero.1 this with h | h
      · exact absurd h hq.ne'
      · exact pow_eq_zero_iff two_ne_zero |>.1 h
    rw [Matrix.dotProduct_mulVec, ← Matrix.mulVec_transpose]
    exact h0
  have h3 := invisible_iterates_short hs h2
  have hl : (fun a => v (.inl a)) ⬝ᵥ l = 0 := by
    have := h3 0
    rw [pow_zero, Matrix.one_mulVec] at this
    simpa [dotProduct] using this
  have hk : ∀ k, (fun a => v (.inl a)) ⬝ᵥ F ^ (k + 1) *ᵥ l + v (.inr i) * (F ^ k *ᵥ l) first = 0 := by
    intro k
    have := h3 (k + 1)
    rw [augF_pow] at this
    simp only [dotProduct, Fintype.sum_sum_type, Sum.elim_inl, Sum.elim_inr] at this
    rw [Finset.sum_eq_single (a := i) (fun j _ hj => by rw [hslot j hj, zero_mul]) (fun h => absurd (Finset.mem_univ i) h)] at this
    exact this
  obtain ⟨hw, hc⟩ := hr _ _ hl hk
  funext a
  rcases a with a | j
  · exact congrFun hw a
  · by_cases h : j = i
    · rw [h]; exact hc
    · exact hslot j h

end

theorem integrated_slots {m : ℕ} {n : Type} [Fintype n] [DecidableEq n] {A : Matrix n n ℝ} {B : Matrix (Fin (m + 1)) n ℝ} {i : Fin (m + 1)}
    {v : n ⊕ Fin (m + 1) → ℝ}
    (hv : (Matrix.diagonal (Sum.elim (fun _ : n => (1 : ℝ)) fun j => if j = i then 0 else 1))ᵀ *ᵥ ((fromBlocks A 0 B 1)ᵀ *ᵥ v) = 0) :
    ∀ j, j ≠ i → v (.inr j) = 0 := by
  intro j hj
  have := congrFun hv (.inr j)
  rw [Matrix.diagonal_transpose, Matrix.mulVec_diagonal, Matrix.fromBlocks_transpose, Matrix.fromBlocks_mulVec] at this
  simpa [hj] using this

theorem source_outer {n p : Type} [Fintype n] [Fintype p] {m : ℕ} {L : Matrix n p ℝ} {Qc : Matrix p p ℝ} {q : ℝ} {l : n → ℝ}
    (h : L * Qc * Lᵀ = q • Matrix.of fun i j => l i * l j) :
    fromRows L (0 : Matrix (Fin (m + 1)) p ℝ) * Qc * (fromRows L (0 : Matrix (Fin (m + 1)) p ℝ))ᵀ =
      q • Matrix.of fun i j => (Sum.elim l 0 : n ⊕ Fin (m + 1) → ℝ) i * (Sum.elim l 0 : n ⊕ Fin (m + 1) → ℝ) j := by
  rw [Matrix.fromRows_mul, Matrix.transpose_fromRows, Matrix.fromRows_mul_fromCols, h]
  ext (i | i) (j | j) <;> simp

theorem integrated_refills {name : String} {m m' : ℕ} {base : SSM} {first : base.n} {phibar : ℝ → ℝ → Matrix base.n base.n ℝ}
    {q12 : ℝ → ℝ → base.n → ℝ} {q22 : ℝ → ℝ → ℝ} {l : base.n → ℝ} {q : ℝ} (hq : 0 < q)
    (hsrc : base.L * base.Qc * base.Lᵀ = q • Matrix.of fun i j => l i * l j) (hr : Reach base.F first l) :
    (integratedSSM name m' base first phibar q12 q22).Refills m := by
  intro i _ _ s hs hQ v hv hz
  exact refill_core hq hr hs (source_outer hsrc) hQ (integrated_slots hv) hz

theorem refill_sum {n₁ n₂ : Type} [Fintype n₁] [DecidableEq n₁] [Fintype n₂] [DecidableEq n₂] {R1 A1 Q1 : Matrix n₁ n₁ ℝ}
    {R2 A2 Q2 : Matrix n₂ n₂ ℝ} (p1 : Q1.PosSemidef) (p2 : Q2.PosSemidef)
    (h1 : ∀ v, R1ᵀ *ᵥ (A1ᵀ *ᵥ v) = 0 → v ⬝ᵥ Q1 *ᵥ v = 0 → v = 0) (h2 : ∀ v, R2ᵀ *ᵥ (A2ᵀ *ᵥ v) = 0 → v ⬝ᵥ Q2 *ᵥ v = 0 → v = 0)
    {v : n₁ ⊕ n₂ → ℝ} (hv : (blockDiag R1 R2)ᵀ *ᵥ ((blockDiag A1 A2)ᵀ *ᵥ v) = 0) (hz : v ⬝ᵥ blockDiag Q1 Q2 *ᵥ v = 0) : v = 0 := by
  have e : ∀ (M1 : Matrix n₁ n₁ ℝ) (M2 : Matrix n₂ n₂ ℝ) (v : n₁ ⊕ n₂ → ℝ),
      blockDiag M1 M2 *ᵥ v = Sum.elim (M1 *ᵥ fun a => v (.inl a)) (M2 *ᵥ fun a => v (.inr a)) := by
    intro M1 M2 v
    unfold blockDiag
    rw [Matrix.fromBlocks_mulVec]
    simp [Function.comp_def]
  rw [blockDiag_transpose, blockDiag_transpose, e, e] at hv
  rw [e] at hz
  have hz2 : (fun a => v (.inl a)) ⬝ᵥ Q1 *ᵥ (fun a => v (.inl a)) + (fun a => v (.inr a)) ⬝ᵥ Q2 *ᵥ (fun a => v (.inr a)) = 0 := by
    refine Eq.trans ?_ hz
    simp only [dotProduct, Fintype.sum_sum_type, Sum.elim_inl, Sum.elim_inr]
  have n1 := ((psd_iff _).1 p1).2 fun a => v (.inl a)
  have n2 := ((psd_iff _).1 p2).2 fun a => v (.inr a)
  have z1 := h1 (fun a => v (.inl a)) (funext fun a => congrFun hv (.inl a)) (by linarith)
  have z2 := h2 (fun a => v (.inr a)) (funext fun a => congrFun hv (.inr a)) (by linarith)
  funext a
  rcases a with a | a
  · exact congrFun z1 a
  · exact congrFun z2 a

theorem SSM.Refills.sum {k1 k2 : SSM} {m : ℕ} (h1 : k1.Refills m) (h2 : k2.Refills m) (s1 : (k1.L * k1.Qc * k1.Lᵀ).PosSemidef)
    (s2 : (k2.L * k2.Qc * k2.Lᵀ).PosSemidef) : (k1.sum k2).Refills m := by
  intro i hi hi' s hs hQ v hv hz
  obtain ⟨q1, q2⟩ := SSM.NoiseIntegralOver.sum_iff.1 hQ
  exact refill_sum (q1.psd hs.le s1) (q2.psd hs.le s2) (h1 i hi hi' s hs q1) (h2 i hi hi' s hs q2) hv hz

/-- An instantaneous kernel has nothing to reset. -/
theorem SSM.Refills.of_no_reset {k : SSM} (m : ℕ) (hr : ∀ i, k.reset i = 1) (hA : ∀ s, IsUnit (k.At 0 s).det) : k.Refills m := by
  intro i _ _ s _ _ v hv _
  rw [hr, transpose_one, Matrix.one_mulVec] at hv
  have hu : IsUnit (k.At 0 s)ᵀ.det := by rw [det_transpose]; exact hA s
  have := congrArg (fun w => ((k.At 0 s)ᵀ)⁻¹ *ᵥ w) hv
  simpa [Matrix.mulVec_mulVec, Matrix.nonsing_inv_mul _ hu] using this

/-! ### the kernels -/

theorem reach_exp (a : ℝ) : Reach (!![a] : Matrix (Fin 1) (Fin 1) ℝ) 0 ![1] := by
  intro w c h hk
  have h0 := hk 0
  simp [dotProduct, mulVec] at h h0
  exact ⟨by funext i; fin_cases i; exact h, by rw [h] at h0; simpa using h0⟩

theorem reach_two (a b : ℝ) : Reach (!![0, 1; a, b] : Matrix (Fin 2) (Fin 2) ℝ) 0 ![0, 1] := by
  intro w c h hk
  have h0 := hk 0
  have h1 := hk 1
  simp [dotProduct, mulVec, Fin.sum_univ_two, pow_two, Matrix.mul_apply] at h h0 h1
  rw [h] at h0 h1
  simp at h0
  rw [h0] at h1
  simp at h1
  exact ⟨by funext i; fin_cases i; exacts [h0, h], h1⟩

theorem reach_three (a b c : ℝ) : Reach (!![0, 1, 0; 0, 0, 1; a, b, c] : Matrix (Fin 3) (Fin 3) ℝ) 0 ![0, 0, 1] := by
  intro w d h hk
  have h0 := hk 0
  have h1 := hk 1
  have h2 := hk 2
  simp [dotProduct, mulVec, Fin.sum_univ_three, pow_succ, Matrix.mul_apply] at h h0 h1 h2
  rw [h] at h0 h1 h2
  simp at h0
  rw [h0] at h1 h2
  simp at h1
  rw [h1] at h2
  simp at h2
  exact ⟨by funext i; fin_cases i; exacts [h1, h0, h], h2⟩

end Verif
