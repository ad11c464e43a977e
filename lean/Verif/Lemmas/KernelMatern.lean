import Verif.Lemmas.KernelAnalytic
import Verif.Spec.Cov
import Mathlib.Analysis.SpecialFunctions.Gaussian.GaussianIntegral
import Mathlib.Analysis.SpecialFunctions.Exp
import Mathlib.Analysis.SpecialFunctions.Gamma.Basic
import Mathlib.MeasureTheory.Integral.IntegralEqImproper
import Mathlib.LinearAlgebra.FiniteDimensional.Basic

/-! # The generic Matérn kernel: nilpotency, decay, the Lyapunov equation and the covariance function -/

set_option linter.unusedSectionVars false

namespace Verif
open Matrix Filter Topology

/-! ## Matrices `F` with `F + λ` nilpotent -/

section decay
variable {n : Type} [Fintype n] [DecidableEq n] {F : Matrix n n ℝ} {lam : ℝ} {d : ℕ}

theorem expm_of_nilpotent (h : (F + lam • 1) ^ d = 0) (t : ℝ) :
    NormedSpace.exp (t • F) =
      Real.exp (-lam * t) • ∑ k ∈ Finset.range d, (t ^ k / k.factorial) • (F + lam • 1) ^ k := by
  have e : t • F = t • (F + lam • 1) + (-lam * t) • (1 : Matrix n n ℝ) := by
    rw [smul_add, smul_smul, add_assoc, ← add_smul]; ring_nf; simp
  have hc : Commute (t • (F + lam • 1)) ((-lam * t) • (1 : Matrix n n ℝ)) :=
    ((Commute.one_right _).smul_right _)
  have h1 : NormedSpace.exp ((-lam * t) • (1 : Matrix n n ℝ)) = Real.exp (-lam * t) • 1 := by
    rw [Matrix.smul_one_eq_diagonal, Matrix.exp_diagonal, Matrix.smul_one_eq_diagonal]
    congr 1
    funext i
    rw [Pi.coe_exp, Real.exp_eq_exp_ℝ]
  have h2 : NormedSpace.exp (t • (F + lam • 1)) =
      ∑ k ∈ Finset.range d, (t ^ k / k.factorial) • (F + lam • 1) ^ k := by
    rw [NormedSpace.exp_eq_tsum ℝ]
    show ∑' k, ((k.factorial : ℝ)⁻¹) • (t • (F + lam • 1)) ^ k = _
    rw [tsum_eq_sum (s := Finset.range d)]
    · refine Finset.sum_congr rfl fun k _ => ?_
      rw [smul_pow, smul_smul]; congr 1; ring
    · intro k hk
      rw [Finset.mem_range, not_lt] at hk
      rw [smul_pow, pow_eq_zero_of_le hk h, smul_zero, smul_zero]
  rw [e, Matrix.exp_add_of_commute _ _ hc, h1, h2, Matrix.mul_smul, Matrix.mul_one]

theorem tendsto_pow_mul_exp_zero (hl : 0 < lam) (k : ℕ) :
    Tendsto (fun s : ℝ => Real.exp (-lam * s) * s ^ k) atTop (𝓝 0) := by
  have h := (Real.tendsto_pow_mul_exp_neg_atTop_nhds_zero k).comp (tendsto_id.const_mul_atTop hl)
  have h' := h.const_mul ((1 / lam) ^ k)
  rw [mul_zero] at h'
  refine h'.congr fun s => ?_
  simp only [Function.comp_apply, id]
  rw [neg_mul, mul_pow, one_div, inv_pow]
  field_simp

theorem expm_decay (hl : 0 < lam) (h : (F + lam • 1) ^ d = 0) (i j : n) :
    Tendsto (fun s : ℝ => NormedSpace.exp (s • F) i j) atTop (𝓝 0) := by
  have e : ∀ s : ℝ, NormedSpace.exp (s • F) i j =
      ∑ k ∈ Finset.range d, (Real.exp (-lam * s) * s ^ k) * (((F + lam • 1) ^ k) i j / k.factorial) := by
    intro s
    rw [expm_of_nilpotent h, Matrix.smul_apply, Matrix.sum_apply, smul_eq_mul, Finset.mul_sum]
    refine Finset.sum_congr rfl fun k _ => ?_
    rw [Matrix.smul_apply, smul_eq_mul]; ring
  simp only [e]
  have : Tendsto (fun s : ℝ => ∑ k ∈ Finset.range d, (Real.exp (-lam * s) * s ^ k) *
      (((F + lam • 1) ^ k) i j / k.factorial)) atTop (𝓝 (∑ k ∈ Finset.range d, 0 * (((F + lam • 1) ^ k) i j / k.factorial))) :=
    tendsto_finsetSum _ fun k _ => (tendsto_pow_mul_exp_zero hl k).mul_const _
  simpa using this

theorem expm_cov_decay (hl : 0 < lam) (h : (F + lam • 1) ^ d = 0) (P : Matrix n n ℝ) (i j : n) :
    Tendsto (fun s : ℝ => (NormedSpace.exp (s • F) * P * (NormedSpace.exp (s • F))ᵀ) i j) atTop (𝓝 0) := by
  simp only [Matrix.mul_apply, transpose_apply]
  have : Tendsto (fun s : ℝ => ∑ x, (∑ y, NormedSpace.exp (s • F) i y * P y x) * NormedSpace.exp (s • F) j x) atTop
      (𝓝 (∑ x : n, (∑ y : n, 0 * P y x) * 0)) :=
    tendsto_finsetSum _ fun x _ => (tendsto_finsetSum _ fun y _ => (expm_decay hl h i y).mul_const _).mul
      (expm_decay hl h j x)
  simpa using this

/-- the Lyapunov operator is injective -/
theorem lyapunov_injective (hl : 0 < lam) (h : (F + lam • 1) ^ d = 0) {X : Matrix n n ℝ}
    (hX : F * X + X * Fᵀ = 0) : X = 0 := by
  have hd : ∀ t, MDeriv (fun s => NormedSpace.exp (s • F) * X * (NormedSpace.exp (s • F))ᵀ) 0 t := fun t => by
    refine (expm_cov_deriv F X t).congr ?_
    rw [hX]; simp
  have hc := eq_of_MDeriv hd (fun t => MDeriv.const X) (by rw [expm_zero]; simp)
  ext i j
  have h1 := expm_cov_decay hl h X i j
  have h2 : Tendsto (fun _ : ℝ => X i j) atTop (𝓝 (X i j)) := tendsto_const_nhds
  refine tendsto_nhds_unique h2 (h1.congr fun s => ?_)
  rw [hc s]

/-- the Lyapunov equation has exactly one solution -/
theorem lyapunov_solvable (hl : 0 < lam) (h : (F + lam • 1) ^ d = 0) (M : Matrix n n ℝ) :
    ∃ X : Matrix n n ℝ, F * X + X * Fᵀ = M := by
  let T : Matrix n n ℝ →ₗ[ℝ] Matrix n n ℝ :=
    { toFun := fun X => F * X + X * Fᵀ
      map_add' := fun X Y => by rw [Matrix.mul_add, Matrix.add_mul]; abel
      map_smul' := fun c X => by simp }
  have hi : Function.Injective T := (injective_iff_map_eq_zero T).2 fun X hX => lyapunov_injective hl h hX
  exact LinearMap.surjective_of_injective hi M

theorem lyapunov_symm (hl : 0 < lam) (h : (F + lam • 1) ^ d = 0) {P M : Matrix n n ℝ} (hM : Mᵀ = M)
    (hP : F * P + P * Fᵀ + M = 0) : Pᵀ = P := by
  have h2 : F * Pᵀ + Pᵀ * Fᵀ + M = 0 := by
    have := congrArg transpose hP
    simp only [transpose_add, transpose_mul, transpose_transpose, transpose_zero, hM] at this
    rw [add_comm (F * Pᵀ)]; exact this
  refine sub_eq_zero.1 (lyapunov_injective hl h ?_)
  rw [Matrix.mul_sub, Matrix.sub_mul]
  have : F * Pᵀ - F * P + (Pᵀ * Fᵀ - P * Fᵀ) = (F * Pᵀ + Pᵀ * Fᵀ + M) - (F * P + P * Fᵀ + M) := by abel
  rw [this, hP, h2, sub_zero]

theorem quad_decay (hl : 0 < lam) (h : (F + lam • 1) ^ d = 0) (P : Matrix n n ℝ) (x : n → ℝ) :
    Tendsto (fun s : ℝ => x ⬝ᵥ (NormedSpace.exp (s • F) * P * (NormedSpace.exp (s • F))ᵀ) *ᵥ x) atTop (𝓝 0) := by
  simp only [dotProduct, mulVec]
  have : Tendsto (fun s : ℝ => ∑ i, x i * ∑ j, (NormedSpace.exp (s • F) * P * (NormedSpace.exp (s • F))ᵀ) i j * x j) atTop
      (𝓝 (∑ i, x i * ∑ j, 0 * x j)) :=
    tendsto_finsetSum _ fun i _ => (tendsto_finsetSum _ fun j _ => (expm_cov_decay hl h P i j).mul_const _).const_mul _
  simpa using this

/-- a stable Lyapunov solution is positive semidefinite -/
theorem lyapunov_solution_psd (hl : 0 < lam) (h : (F + lam • 1) ^ d = 0) {P M : Matrix n n ℝ} (hM : M.PosSemidef)
    (hP : F * P + P * Fᵀ + M = 0) : P.PosSemidef := by
  have hs := lyapunov_symm hl h (psd_symm hM) hP
  rw [psd_iff]
  refine ⟨hs, fun x => ?_⟩
  refine ge_of_tendsto (x := atTop)
    (f := fun s : ℝ => x ⬝ᵥ P *ᵥ x - x ⬝ᵥ (NormedSpace.exp (s • F) * P * (NormedSpace.exp (s • F))ᵀ) *ᵥ x) ?_ ?_
  · simpa using (tendsto_const_nhds (x := x ⬝ᵥ P *ᵥ x)).sub (quad_decay hl h P x)
  · filter_upwards [eventually_ge_atTop (0 : ℝ)] with s h0
    have := ((psd_iff _).1 (lyapunov_psd hs hM hP h0)).2 x
    rwa [sub_mulVec, dotProduct_sub] at this

/-- a null vector of a stable Lyapunov solution sees no noise, ever -/
theorem lyapunov_null (hl : 0 < lam) (h : (F + lam • 1) ^ d = 0) {P M : Matrix n n ℝ} (hM : M.PosSemidef)
    (hP : F * P + P * Fᵀ + M = 0) {x : n → ℝ} (hx : x ⬝ᵥ P *ᵥ x = 0) {s : ℝ} (h0 : 0 < s) :
    x ⬝ᵥ (NormedSpace.exp (s • F) * M * (NormedSpace.exp (s • F))ᵀ) *ᵥ x = 0 := by
  have hFP : F * P + P * Fᵀ = -M := eq_neg_of_add_eq_zero_left hP
  have hd := (expm_cov_deriv F P s).quad x
  rw [hFP, Matrix.mul_neg, Matrix.neg_mul, neg_mulVec, dotProduct_neg] at hd
  have hpsd := lyapunov_solution_psd hl h hM hP
  have hz : ∀ u : ℝ, 0 ≤ u → x ⬝ᵥ (NormedSpace.exp (u • F) * P * (NormedSpace.exp (u • F))ᵀ) *ᵥ x = 0 := by
    intro u hu
    have h1 := ((psd_iff _).1 (psd_conj hpsd (NormedSpace.exp (u • F)))).2 x
    have h2 := ((psd_iff _).1 (lyapunov_psd (psd_symm hpsd) hM hP hu)).2 x
    rw [sub_mulVec, dotProduct_sub, hx] at h2
    linarith
  have hd2 : HasDerivAt (fun u => x ⬝ᵥ (NormedSpace.exp (u • F) * P * (NormedSpace.exp (u • F))ᵀ) *ᵥ x) 0 s := by
    refine (hasDerivAt_const s (0 : ℝ)).congr_of_eventuallyEq ?_
    filter_upwards [lt_mem_nhds h0] with u hu
    exact hz u hu.le
  have := hd.unique hd2
  linarith

end decay

theorem MDeriv.bilin {n : Type} [Fintype n] {A : ℝ → Matrix n n ℝ} {A' : Matrix n n ℝ} {t : ℝ} (h : MDeriv A A' t)
    (x y : n → ℝ) : HasDerivAt (fun s => x ⬝ᵥ A s *ᵥ y) (x ⬝ᵥ A' *ᵥ y) t := by
  simp only [dotProduct, mulVec]
  exact HasDerivAt.fun_sum fun i _ => HasDerivAt.const_mul _ (HasDerivAt.fun_sum fun j _ => (h i j).mul_const _)

/-- if an input is invisible to `x` at all positive times, so are all its iterates -/
theorem invisible_iterates {n : Type} [Fintype n] [DecidableEq n] {F : Matrix n n ℝ} {x v : n → ℝ}
    (h : ∀ s : ℝ, 0 < s → x ⬝ᵥ NormedSpace.exp (s • F) *ᵥ v = 0) (k : ℕ) : x ⬝ᵥ F ^ k *ᵥ v = 0 := by
  have hd : ∀ (k : ℕ) (t : ℝ), HasDerivAt (fun s => x ⬝ᵥ (F ^ k * NormedSpace.exp (s • F)) *ᵥ v)
      (x ⬝ᵥ (F ^ (k + 1) * NormedSpace.exp (t • F)) *ᵥ v) t := fun k t => by
    have := ((MDeriv.const (F ^ k)).mul (expm_deriv' F t)).bilin (t := t) x v
    rw [Matrix.zero_mul, zero_add, ← Matrix.mul_assoc, ← pow_succ] at this
    exact this
  have hk : ∀ (k : ℕ) (s : ℝ), 0 < s → x ⬝ᵥ (F ^ k * NormedSpace.exp (s • F)) *ᵥ v = 0 := by
    intro k
    induction k with
    | zero => intro s hs; rw [pow_zero, Matrix.one_mul]; exact h s hs
    | succ k ih =>
      intro s hs
      refine (hd k s).unique ((hasDerivAt_const s (0 : ℝ)).congr_of_eventuallyEq ?_)
      filter_upwards [lt_mem_nhds hs] with u hu
      exact ih u hu
  have hc := (hd k 0).continuousAt.continuousWithinAt (s := Set.Ioi 0)
  have h1 : Tendsto (fun s => x ⬝ᵥ (F ^ k * NormedSpace.exp (s • F)) *ᵥ v) (𝓝[>] (0 : ℝ)) (𝓝 0) := by
    refine tendsto_const_nhds.congr' ?_
    filter_upwards [self_mem_nhdsWithin] with s hs
    exact (hk k s hs).symm
  have : x ⬝ᵥ (F ^ k * NormedSpace.exp ((0 : ℝ) • F)) *ᵥ v = 0 := tendsto_nhds_unique hc h1
  rwa [expm_zero, Matrix.mul_one] at this

/-! ## The companion matrix of `(x + λ)^d` -/

namespace Matern
variable {d : ℕ} {lam sigma : ℝ}

theorem coeff_eq_choose (d j : ℕ) (h : j ≤ d) :
    (d.factorial : ℝ) / ((j.factorial : ℝ) * ((d - j).factorial : ℝ)) = (d.choose j : ℝ) := by
  rw [Nat.cast_choose ℝ h]

theorem row_F (i : Fin d) (hi : (i : ℕ) + 1 < d) :
    Pi.single i 1 ᵥ* F d lam = Pi.single ⟨i + 1, hi⟩ 1 := by
  funext j
  rw [single_one_vecMul]
  show F d lam i j = _
  simp only [F, Matrix.of_apply]
  rw [if_neg (by omega)]
  by_cases h : (j : ℕ) = i + 1
  · rw [if_pos h]
    have : j = ⟨i + 1, hi⟩ := Fin.ext h
    rw [this, Pi.single_eq_same]
  · rw [if_neg h, Pi.single_eq_of_ne]
    exact fun e => h (by rw [e])

theorem row_F_pow (hd : 0 < d) (k : ℕ) (hk : k < d) :
    Pi.single (⟨0, hd⟩ : Fin d) 1 ᵥ* F d lam ^ k = Pi.single ⟨k, hk⟩ 1 := by
  induction k with
  | zero => simp
  | succ k ih => rw [pow_succ, ← vecMul_vecMul, ih (by omega), row_F _ hk]

theorem F_last (i j : Fin d) (hi : (i : ℕ) = d - 1) : F d lam i j = -((d.choose j : ℝ) * lam ^ (d - (j : ℕ))) := by
  simp only [F, Matrix.of_apply]
  rw [if_pos hi, coeff_eq_choose d j j.2.le, neg_mul]

theorem row_F_last (hd : 0 < d) :
    Pi.single (⟨0, hd⟩ : Fin d) 1 ᵥ* F d lam ^ d =
      -∑ j : Fin d, ((d.choose j : ℝ) * lam ^ (d - (j : ℕ))) • (Pi.single (⟨0, hd⟩ : Fin d) 1 ᵥ* F d lam ^ (j : ℕ)) := by
  have e : F d lam ^ d = F d lam ^ (d - 1) * F d lam := by rw [← pow_succ]; congr 1; omega
  rw [e, ← vecMul_vecMul, row_F_pow hd (d - 1) (by omega)]
  funext i
  rw [single_one_vecMul]
  show F d lam _ i = _
  rw [F_last _ _ rfl, Pi.neg_apply, Finset.sum_apply]
  congr 1
  rw [Finset.sum_eq_single i]
  · rw [row_F_pow hd i i.2, Pi.smul_apply, Pi.single_eq_same, smul_eq_mul, mul_one]
  · intro j _ hj
    rw [row_F_pow hd j j.2, Pi.smul_apply, Pi.single_eq_of_ne (Ne.symm hj), smul_zero]
  · intro h; exact absurd (Finset.mem_univ _) h

theorem add_pow_eq (k : ℕ) : (F d lam + lam • 1) ^ k =
    ∑ j ∈ Finset.range (k + 1), ((k.choose j : ℝ) * lam ^ (k - j)) • F d lam ^ j := by
  have hc : Commute (F d lam) (lam • (1 : Matrix (Fin d) (Fin d) ℝ)) := (Commute.one_right _).smul_right _
  rw [hc.add_pow]
  refine Finset.sum_congr rfl fun j _ => ?_
  rw [smul_pow, one_pow, Matrix.mul_smul, Matrix.mul_one, smul_mul_assoc, ← smul_smul, smul_comm]
  congr 1
  rw [← Nat.cast_comm, ← nsmul_eq_mul, Nat.cast_smul_eq_nsmul]

theorem vecMul_sum' {ι n : Type*} [Fintype n] (s : Finset ι) (v : n → ℝ) (f : ι → Matrix n n ℝ) :
    v ᵥ* (∑ i ∈ s, f i) = ∑ i ∈ s, v ᵥ* f i := by
  classical
  induction s using Finset.induction_on with
  | empty => simp
  | insert a s ha ih => rw [Finset.sum_insert ha, Finset.sum_insert ha, vecMul_add, ih]

theorem row_zero (hd : 0 < d) : Pi.single (⟨0, hd⟩ : Fin d) 1 ᵥ* (F d lam + lam • 1) ^ d = 0 := by
  rw [add_pow_eq, vecMul_sum', Finset.sum_range_succ, Nat.choose_self, Nat.sub_self, pow_zero, Nat.cast_one, one_mul,
    one_smul, row_F_last hd, Finset.sum_range]
  simp only [vecMul_smul]
  exact add_neg_cancel _

/-- the design matrix of the Matérn kernel satisfies `(F + λ)^d = 0` -/
theorem nilpotent (d : ℕ) (lam : ℝ) : (F d lam + lam • 1) ^ d = 0 := by
  rcases Nat.eq_zero_or_pos d with h | hd
  · subst h; ext i; exact i.elim0
  ext i j
  have hc : Commute (F d lam) ((F d lam + lam • 1) ^ d) :=
    ((Commute.refl (F d lam)).add_right ((Commute.one_right _).smul_right _)).pow_right d
  have h : Pi.single i 1 ᵥ* (F d lam + lam • 1) ^ d = 0 := by
    have e := row_F_pow (lam := lam) hd i i.2
    have e' : (⟨(i : ℕ), i.2⟩ : Fin d) = i := rfl
    rw [e'] at e
    rw [← e, vecMul_vecMul, (hc.pow_left i).eq, ← vecMul_vecMul, row_zero hd, zero_vecMul]
  have := congrFun h j
  rw [single_one_vecMul] at this
  exact this

/-- impulse response of the first state component -/
theorem impulse (hd : 0 < d) (s : ℝ) :
    NormedSpace.exp (s • F d lam) ⟨0, hd⟩ ⟨d - 1, by omega⟩ =
      Real.exp (-lam * s) * (s ^ (d - 1) / ((d - 1).factorial : ℝ)) := by
  have key : ∀ k, k < d → ((F d lam + lam • 1) ^ k) ⟨0, hd⟩ ⟨d - 1, by omega⟩ = if k = d - 1 then 1 else 0 := by
    intro k hk
    have h1 : (Pi.single (⟨0, hd⟩ : Fin d) (1 : ℝ) ᵥ* (F d lam + lam • 1) ^ k) ⟨d - 1, by omega⟩ =
        ((F d lam + lam • 1) ^ k) ⟨0, hd⟩ ⟨d - 1, by omega⟩ := by rw [single_one_vecMul]; rfl
    rw [← h1, add_pow_eq, vecMul_sum', Finset.sum_apply]
    have h2 : ∀ j ∈ Finset.range (k + 1), (Pi.single (⟨0, hd⟩ : Fin d) (1 : ℝ) ᵥ*
        (((k.choose j : ℝ) * lam ^ (k - j)) • F d lam ^ j)) ⟨d - 1, by omega⟩ =
        if j = d - 1 then ((k.choose j : ℝ) * lam ^ (k - j)) else 0 := by
      intro j hj
      rw [Finset.mem_range] at hj
      rw [vecMul_smul, Pi.smul_apply, row_F_pow hd j (by omega)]
      by_cases h : j = d - 1
      · subst h; rw [Pi.single_eq_same, if_pos rfl, smul_eq_mul, mul_one]
      · rw [if_neg h, Pi.single_eq_of_ne, smul_zero]
        intro e; exact h (by simpa using (congrArg Fin.val e).symm)
    rw [Finset.sum_congr rfl h2, Finset.sum_ite_eq' (Finset.range (k + 1)) (d - 1)]
    by_cases h : k = d - 1
    · subst h; rw [if_pos (by simp), if_pos rfl]; simp
    · rw [if_neg (by rw [Finset.mem_range]; omega), if_neg h]
  rw [expm_of_nilpotent (nilpotent d lam), Matrix.smul_apply, Matrix.sum_apply, smul_eq_mul]
  congr 1
  rw [Finset.sum_eq_single (d - 1)]
  · rw [Matrix.smul_apply, key _ (by omega), if_pos rfl, smul_eq_mul, mul_one]
  · intro k hk hne
    rw [Finset.mem_range] at hk
    rw [Matrix.smul_apply, key k hk, if_neg hne, smul_zero]
  · intro h; exact absurd (Finset.mem_range.2 (by omega)) h

/-- the column of the noise input -/
theorem col_F (j : Fin d) (hj : 0 < (j : ℕ)) : (Pi.single (⟨(j : ℕ) - 1, by omega⟩ : Fin d) (1 : ℝ)) =
    F d lam *ᵥ Pi.single j 1 - (F d lam ⟨d - 1, by omega⟩ j) •
      (Pi.single (⟨d - 1, by omega⟩ : Fin d) (1 : ℝ)) := by
  funext i
  rw [Pi.sub_apply, Pi.smul_apply, mulVec_single_one]
  show _ = F d lam i j - _
  by_cases h : (i : ℕ) = d - 1
  · have hi : i = ⟨d - 1, by omega⟩ := Fin.ext h
    rw [hi, Pi.single_eq_same, smul_eq_mul, mul_one, sub_self, Pi.single_eq_of_ne]
    intro e; have := congrArg Fin.val e; simp at this; omega
  · have h1 : (Pi.single (⟨d - 1, by omega⟩ : Fin d) (1 : ℝ) : Fin d → ℝ) i = 0 := by
      rw [Pi.single_eq_of_ne]; intro e; exact h (by rw [e])
    rw [h1, smul_zero, sub_zero]
    simp only [F, Matrix.of_apply]
    rw [if_neg h]
    by_cases h2 : (j : ℕ) = i + 1
    · rw [if_pos h2]
      have : i = ⟨(j : ℕ) - 1, by omega⟩ := Fin.ext (by simp; omega)
      rw [this, Pi.single_eq_same]
    · rw [if_neg h2, Pi.single_eq_of_ne]
      intro e; apply h2; rw [e]; simp; omega

theorem cyclic {x : Fin d → ℝ} (hd : 0 < d)
    (h : ∀ k, x ⬝ᵥ F d lam ^ k *ᵥ Pi.single (⟨d - 1, by omega⟩ : Fin d) 1 = 0) : x = 0 := by
  have key : ∀ m, ∀ hm : m < d, ∀ k, x ⬝ᵥ F d lam ^ k *ᵥ Pi.single (⟨d - 1 - m, by omega⟩ : Fin d) 1 = 0 := by
    intro m
    induction m with
    | zero => intro _ k; exact h k
    | succ m ih =>
      intro hm k
      have e := col_F (lam := lam) (⟨d - 1 - m, by omega⟩ : Fin d) (by simp; omega)
      have e' : (⟨d - 1 - m - 1, by omega⟩ : Fin d) = ⟨d - 1 - (m + 1), by omega⟩ := Fin.ext (by simp; omega)
      rw [e'] at e
      rw [e, mulVec_sub, dotProduct_sub, mulVec_smul, dotProduct_smul, h k, smul_zero, sub_zero, mulVec_mulVec, ← pow_succ]
      exact ih (by omega) (k + 1)
  funext i
  have := key (d - 1 - i) (by omega) 0
  have e : (⟨d - 1 - (d - 1 - i), by omega⟩ : Fin d) = i := Fin.ext (by simp; omega)
  rw [e, pow_zero, one_mulVec, dotProduct_single, mul_one] at this
  exact this

theorem noise_quad (hd : 0 < d) (A : Matrix (Fin d) (Fin d) ℝ) (x y : Fin d → ℝ) (Qc : Matrix (Fin 1) (Fin 1) ℝ) :
    x ⬝ᵥ (A * (L d * Qc * (L d)ᵀ) * Aᵀ) *ᵥ y =
      Qc 0 0 * (x ⬝ᵥ A *ᵥ Pi.single ⟨d - 1, by omega⟩ 1) * (y ⬝ᵥ A *ᵥ Pi.single ⟨d - 1, by omega⟩ 1) := by
  have hL : L d * Qc * (L d)ᵀ = Qc 0 0 • vecMulVec (Pi.single ⟨d - 1, by omega⟩ 1) (Pi.single ⟨d - 1, by omega⟩ 1) := by
    ext i j
    have hl : ∀ i : Fin d, L d i 0 = (Pi.single (⟨d - 1, by omega⟩ : Fin d) (1 : ℝ) : Fin d → ℝ) i := by
      intro i
      simp only [L, Matrix.of_apply]
      by_cases h : (i : ℕ) = d - 1
      · rw [if_pos h, show i = ⟨d - 1, by omega⟩ from Fin.ext h, Pi.single_eq_same]
      · rw [if_neg h, Pi.single_eq_of_ne]; intro e; exact h (by rw [e])
    rw [Matrix.mul_apply]
    simp only [Matrix.mul_apply, transpose_apply, Fin.sum_univ_one, hl, Matrix.smul_apply, vecMulVec_apply, smul_eq_mul]
    ring
  rw [hL, Matrix.mul_smul, Matrix.smul_mul, smul_mulVec, dotProduct_smul, smul_eq_mul, mul_assoc (Qc 0 0)]
  congr 1
  rw [mul_vecMulVec, vecMulVec_mul, vecMulVec_mulVec, vecMul_transpose, dotProduct_smul, MulOpposite.smul_eq_mul_unop,
    MulOpposite.unop_op, dotProduct_comm y]

theorem Qc_pos (hl : 0 < lam) (hσ : sigma ≠ 0) : 0 < Qc d lam sigma 0 0 := by
  show 0 < sigma ^ 2 * ((d - 1).factorial : ℝ) ^ 2 / ((2 * d - 2).factorial : ℝ) * (2 * lam) ^ (2 * d - 1)
  positivity

theorem Qc_nonneg (hl : 0 < lam) : 0 ≤ Qc d lam sigma 0 0 := by
  show 0 ≤ sigma ^ 2 * ((d - 1).factorial : ℝ) ^ 2 / ((2 * d - 2).factorial : ℝ) * (2 * lam) ^ (2 * d - 1)
  positivity

theorem noise_psd (hl : 0 < lam) : (L d * Qc d lam sigma * (L d)ᵀ).PosSemidef :=
  psd_conj (scalar_psd (Qc_nonneg (d := d) (sigma := sigma) hl)) _

/-- the stationary covariance of the Matérn kernel as a solution of its Lyapunov equation -/
noncomputable def P (d : ℕ) (lam sigma : ℝ) : Matrix (Fin d) (Fin d) ℝ :=
  solveLyapunov (F d lam) (-(L d * Qc d lam sigma * (L d)ᵀ))

theorem P_lyapunov (hl : 0 < lam) :
    F d lam * P d lam sigma + P d lam sigma * (F d lam)ᵀ + L d * Qc d lam sigma * (L d)ᵀ = 0 := by
  have h := lyapunov_solvable hl (nilpotent d lam) (-(L d * Qc d lam sigma * (L d)ᵀ))
  have e : P d lam sigma = h.choose := by
    unfold P solveLyapunov
    rw [dif_pos h]
  rw [e, h.choose_spec, neg_add_cancel]

theorem P_psd (hl : 0 < lam) : (P d lam sigma).PosSemidef :=
  lyapunov_solution_psd hl (nilpotent d lam) (noise_psd hl) (P_lyapunov hl)

theorem P_pd (hd : 0 < d) (hl : 0 < lam) (hσ : sigma ≠ 0) : (P d lam sigma).PosDef := by
  have hpsd := (psd_iff _).1 (P_psd (d := d) (sigma := sigma) hl)
  rw [pd_iff]
  refine ⟨hpsd.1, fun x hx => lt_of_le_of_ne (hpsd.2 x) fun h0 => hx (cyclic hd (lam := lam) ?_)⟩
  refine invisible_iterates fun s hs => ?_
  have h := lyapunov_null hl (nilpotent d lam) (noise_psd hl) (P_lyapunov hl) h0.symm hs
  rw [noise_quad hd] at h
  have hq := Qc_pos (d := d) hl hσ
  rcases mul_eq_zero.1 h with h | h
  · rcases mul_eq_zero.1 h with h | h
    · exact absurd h hq.ne'
    · exact h
  · exact h

/-- the covariance of the first component at lag `r`, as an integral of the impulse response -/
theorem cov_integral (hd : 0 < d) (hl : 0 < lam) (r : ℝ)
    (hint : MeasureTheory.IntegrableOn (fun s : ℝ => -(Qc d lam sigma 0 0 *
      (NormedSpace.exp ((r + s) • F d lam) ⟨0, hd⟩ ⟨d - 1, by omega⟩) *
      (NormedSpace.exp (s • F d lam) ⟨0, hd⟩ ⟨d - 1, by omega⟩))) (Set.Ioi 0)) :
    (NormedSpace.exp (r • F d lam) * P d lam sigma) ⟨0, hd⟩ ⟨0, hd⟩ =
      ∫ s in Set.Ioi (0 : ℝ), Qc d lam sigma 0 0 *
        (NormedSpace.exp ((r + s) • F d lam) ⟨0, hd⟩ ⟨d - 1, by omega⟩) *
        (NormedSpace.exp (s • F d lam) ⟨0, hd⟩ ⟨d - 1, by omega⟩) := by
  set e0 : Fin d → ℝ := Pi.single ⟨0, hd⟩ 1 with he0
  set E := NormedSpace.exp (r • F d lam) with hE
  have hsel : ∀ (A : Matrix (Fin d) (Fin d) ℝ) (j : Fin d), e0 ⬝ᵥ A *ᵥ Pi.single j 1 = A ⟨0, hd⟩ j := by
    intro A j; rw [he0, single_one_dotProduct, mulVec_single_one]; rfl
  have hd1 : ∀ s : ℝ, HasDerivAt
      (fun s => e0 ⬝ᵥ (E * (NormedSpace.exp (s • F d lam) * P d lam sigma * (NormedSpace.exp (s • F d lam))ᵀ)) *ᵥ e0)
      (-(Qc d lam sigma 0 0 * (NormedSpace.exp ((r + s) • F d lam) ⟨0, hd⟩ ⟨d - 1, by omega⟩) *
        (NormedSpace.exp (s • F d lam) ⟨0, hd⟩ ⟨d - 1, by omega⟩))) s := by
    intro s
    have h1 := ((MDeriv.const E).mul (expm_cov_deriv (F d lam) (P d lam sigma) s)).bilin (t := s) e0 e0
    refine HasDerivAt.cast h1 ?_
    rw [Matrix.zero_mul, zero_add, eq_neg_of_add_eq_zero_left (P_lyapunov (d := d) (sigma := sigma) hl), Matrix.mul_neg,
      Matrix.neg_mul, Matrix.mul_neg, neg_mulVec, dotProduct_neg]
    congr 1
    have h2 : e0 ⬝ᵥ (E * (NormedSpace.exp (s • F d lam) * (L d * Qc d lam sigma * (L d)ᵀ) *
        (NormedSpace.exp (s • F d lam))ᵀ)) *ᵥ e0 =
        (e0 ᵥ* E) ⬝ᵥ (NormedSpace.exp (s • F d lam) * (L d * Qc d lam sigma * (L d)ᵀ) *
        (NormedSpace.exp (s • F d lam))ᵀ) *ᵥ e0 := by
      rw [← mulVec_mulVec, dotProduct_mulVec]
    rw [h2, noise_quad hd, hsel, ← dotProduct_mulVec, mulVec_mulVec, hE, ← expm_add, hsel]
  have hlim : Tendsto (fun s : ℝ => e0 ⬝ᵥ (E * (NormedSpace.exp (s • F d lam) * P d lam sigma *
      (NormedSpace.exp (s • F d lam))ᵀ)) *ᵥ e0) atTop (𝓝 0) := by
    have e : ∀ s : ℝ, e0 ⬝ᵥ (E * (NormedSpace.exp (s • F d lam) * P d lam sigma *
      (NormedSpace.exp (s • F d lam))ᵀ)) *ᵥ e0 = ∑ i, E ⟨0, hd⟩ i * (NormedSpace.exp (s • F d lam) * P d lam sigma *
      (NormedSpace.exp (s • F d lam))ᵀ) i ⟨0, hd⟩ := fun s => by
      rw [show e0 = Pi.single ⟨0, hd⟩ 1 from rfl, ← he0, hsel, Matrix.mul_apply]
    simp only [e]
    have : Tendsto (fun s : ℝ => ∑ i, E ⟨0, hd⟩ i * (NormedSpace.exp (s • F d lam) * P d lam sigma *
      (NormedSpace.exp (s • F d lam))ᵀ) i ⟨0, hd⟩) atTop (𝓝 (∑ i, E ⟨0, hd⟩ i * 0)) :=
      tendsto_finsetSum _ fun i _ => (expm_cov_decay hl (nilpotent d lam) _ i _).const_mul _
    simpa using this
  have hI := MeasureTheory.integral_Ioi_of_hasDerivAt_of_tendsto' (a := 0) (fun s _ => hd1 s) hint hlim
  rw [MeasureTheory.integral_neg, expm_zero, transpose_one, Matrix.mul_one, Matrix.one_mul, zero_sub, neg_inj,
    show e0 = Pi.single ⟨0, hd⟩ 1 from rfl, ← he0, hsel] at hI
  exact hI.symm

theorem gamma_integrable {c : ℝ} (hc : 0 < c) (m : ℕ) :
    MeasureTheory.IntegrableOn (fun s : ℝ => Real.exp (-(c * s)) * s ^ m) (Set.Ioi 0) := by
  have h := integrableOn_rpow_mul_exp_neg_mul_rpow (p := 1) (s := m) (b := c)
    (lt_of_lt_of_le (by norm_num) (Nat.cast_nonneg m)) one_pos hc
  refine h.congr_fun (fun s _ => ?_) measurableSet_Ioi
  simp only [Real.rpow_natCast, Real.rpow_one, neg_mul]
  ring

theorem gamma_integral {c : ℝ} (hc : 0 < c) (m : ℕ) :
    ∫ s in Set.Ioi (0 : ℝ), Real.exp (-(c * s)) * s ^ m = m.factorial / c ^ (m + 1) := by
  have h := Real.integral_rpow_mul_exp_neg_mul_Ioi (a := m + 1) (r := c) (by positivity) hc
  rw [Real.Gamma_nat_eq_factorial] at h
  have e : (1 / c) ^ ((m : ℝ) + 1) * (m.factorial : ℝ) = m.factorial / c ^ (m + 1) := by
    have : ((m : ℝ) + 1) = ((m + 1 : ℕ) : ℝ) := by push_cast; ring
    rw [this, Real.rpow_natCast, one_div, inv_pow]; field_simp
  rw [← e, ← h]
  refine MeasureTheory.setIntegral_congr_fun measurableSet_Ioi fun s _ => ?_
  simp only [add_sub_cancel_right, Real.rpow_natCast]
  ring

/-- the Matérn covariance function, for every half-integer smoothness -/
theorem cov_closed (p : ℕ) (hl : 0 < lam) (r : ℝ) :
    (NormedSpace.exp (r • F (p + 1) lam) * P (p + 1) lam sigma) ⟨0, by omega⟩ ⟨0, by omega⟩ =
      sigma ^ 2 * Real.exp (-(lam * r)) * ((p.factorial : ℝ) / ((2 * p).factorial : ℝ)) *
        ∑ i ∈ Finset.range (p + 1), ((p + i).factorial : ℝ) / ((i.factorial : ℝ) * ((p - i).factorial : ℝ)) *
          (2 * lam * r) ^ (p - i) := by
  have hexp : ∀ s : ℝ, Qc (p + 1) lam sigma 0 0 *
      (NormedSpace.exp ((r + s) • F (p + 1) lam) ⟨0, by omega⟩ ⟨p + 1 - 1, by omega⟩) *
      (NormedSpace.exp (s • F (p + 1) lam) ⟨0, by omega⟩ ⟨p + 1 - 1, by omega⟩) =
      ∑ i ∈ Finset.range (p + 1), (Qc (p + 1) lam sigma 0 0 / (p.factorial : ℝ) ^ 2 * Real.exp (-(lam * r)) *
        (p.choose i : ℝ) * r ^ (p - i)) * (Real.exp (-((2 * lam) * s)) * s ^ (p + i)) := by
    intro s
    rw [impulse (by omega), impulse (by omega)]
    simp only [Nat.add_sub_cancel]
    have e1 : Real.exp (-((2 * lam) * s)) = Real.exp (-lam * s) * Real.exp (-lam * s) := by
      rw [← Real.exp_add]; congr 1; ring
    have e2 : Real.exp (-lam * (r + s)) = Real.exp (-(lam * r)) * Real.exp (-lam * s) := by
      rw [← Real.exp_add]; congr 1; ring
    rw [e2, add_comm r s, add_pow]
    simp only [e1, Finset.mul_sum, Finset.sum_mul, Finset.sum_div]
    refine Finset.sum_congr rfl fun i _ => ?_
    rw [pow_add]
    field_simp
  have h2 : (0 : ℝ) < 2 * lam := by positivity
  have hterm : ∀ i ∈ Finset.range (p + 1), MeasureTheory.IntegrableOn (fun s : ℝ =>
      (Qc (p + 1) lam sigma 0 0 / (p.factorial : ℝ) ^ 2 * Real.exp (-(lam * r)) *
        (p.choose i : ℝ) * r ^ (p - i)) * (Real.exp (-((2 * lam) * s)) * s ^ (p + i))) (Set.Ioi 0) :=
    fun i _ => (gamma_integrable h2 (p + i)).const_mul _
  rw [cov_integral (by omega) hl r]
  · simp only [hexp]
    rw [MeasureTheory.integral_finsetSum _ hterm]
    simp only [MeasureTheory.integral_const_mul, gamma_integral h2]
    rw [Finset.mul_sum]
    refine Finset.sum_congr rfl fun i hi => ?_
    rw [Finset.mem_range] at hi
    have hip : i ≤ p := by omega
    have hQ : Qc (p + 1) lam sigma 0 0 = sigma ^ 2 * (p.factorial : ℝ) ^ 2 / ((2 * p).factorial : ℝ) *
        (2 * lam) ^ (2 * p + 1) := by
      show sigma ^ 2 * ((p + 1 - 1).factorial : ℝ) ^ 2 / ((2 * (p + 1) - 2).factorial : ℝ) *
        (2 * lam) ^ (2 * (p + 1) - 1) = _
      rw [show 2 * (p + 1) - 2 = 2 * p by omega, show 2 * (p + 1) - 1 = 2 * p + 1 by omega, Nat.add_sub_cancel]
    rw [hQ, Nat.cast_choose ℝ hip, show (2 * lam) ^ (2 * p + 1) = (2 * lam) ^ (p + i + 1) * (2 * lam) ^ (p - i) by
      rw [← pow_add]; congr 1; omega, mul_pow (2 * lam) r]
    have hne : (2 * lam) ^ (p + i + 1) ≠ 0 := by positivity
    field_simp
  · simp only [hexp]
    exact (MeasureTheory.integrable_finsetSum _ hterm).neg

theorem lam_pos {d : ℕ} {scale : ℝ} (hd : 0 < d) (hs : 0 < scale) : 0 < Real.sqrt (2 * ((d : ℝ) - 1 / 2)) / scale := by
  have : (1 : ℝ) ≤ d := by exact_mod_cast hd
  have : 0 < 2 * ((d : ℝ) - 1 / 2) := by linarith
  positivity

end Matern

theorem maternGeneric_regular {d : ℕ} {scale sigma : ℝ} (hd : 0 < d) (hs : 0 < scale) (hσ : sigma ≠ 0) :
    (maternGeneric d scale sigma).Regular :=
  SSM.Regular.of_lyapunov _ _ (fun _ _ => rfl) (fun _ _ => rfl) (Matern.P_pd hd (Matern.lam_pos hd hs) hσ)
    (Matern.noise_psd (Matern.lam_pos hd hs)) (Matern.P_lyapunov (Matern.lam_pos hd hs))
    (defaultObs_const _ _ fun _ => rfl)

end Verif
