import Verif.Lemmas.NoisyRun

/-! # Invertibility of the predicted covariances when the process noise is slightly off -/

set_option linter.unusedSectionVars false

namespace Verif
open Matrix Spec

section stack
variable {n : Type*} [Fintype n] [DecidableEq n]

/-- joint covariance matrix of the states at the first `N` steps -/
def stack (N : ℕ) (S : ℕ → ℕ → Matrix n n ℝ) : Matrix (Fin N × n) (Fin N × n) ℝ := Matrix.of fun p q => S p.1 q.1 p.2 q.2

theorem stack_quad {N : ℕ} (S : ℕ → ℕ → Matrix n n ℝ) (c c' : Fin N × n → ℝ) :
    c ⬝ᵥ stack N S *ᵥ c' = ∑ i : Fin N, ∑ j : Fin N, ((Matrix.of fun _ : Fin 1 => fun a => c (i, a)) * S i j *
      (Matrix.of fun _ : Fin 1 => fun a => c' (j, a))ᵀ) 0 0 := by
  have e : ∀ (h h' : n → ℝ) (M : Matrix n n ℝ), ((Matrix.of fun _ : Fin 1 => h) * M * (Matrix.of fun _ : Fin 1 => h')ᵀ) 0 0 =
      ∑ a, ∑ b, h a * (M a b * h' b) := fun h h' M => by
    rw [Matrix.mul_assoc, Matrix.mul_apply]
    refine Finset.sum_congr rfl fun a _ => ?_
    rw [Matrix.mul_apply, Finset.mul_sum]; rfl
  simp only [dotProduct, mulVec, Finset.mul_sum, Fintype.sum_prod_type, stack, of_apply, e]
  refine Finset.sum_congr rfl fun i _ => ?_
  rw [Finset.sum_comm]

/-- the effect of bounded errors on the joint covariance of the states -/
theorem stack_perturb {T Q Q' : ℕ → Matrix n n ℝ} {P0 : Matrix n n ℝ} {ε : ℝ} (hε : 0 ≤ ε) {N : ℕ}
    (hE : ∀ l, l + 1 < N → ∀ a b, |(Q' l - Q l) a b| ≤ ε) (c : Fin N × n → ℝ) (b : Fin N → ℝ)
    (hb : ∀ i : Fin N, ∀ l ≤ i.1, ∑ a, |((Matrix.of fun _ : Fin 1 => fun a => c (i, a)) * propagator T l i) 0 a| ≤ b i) :
    |c ⬝ᵥ stack N (stateCov T Q' P0) *ᵥ c - c ⬝ᵥ stack N (stateCov T Q P0) *ᵥ c| ≤ N * ε * (∑ i, b i) ^ 2 := by
  have e : (N : ℝ) * ε * (∑ i, b i) ^ 2 = ∑ i, ∑ j, N * (ε * b i * b j) := by
    rw [sq, Finset.sum_mul_sum, Finset.mul_sum]
    refine Finset.sum_congr rfl fun i _ => ?_
    rw [Finset.mul_sum]
    exact Finset.sum_congr rfl fun j _ => by ring
  rw [e, stack_quad, stack_quad, ← Finset.sum_sub_distrib]
  refine (Finset.abs_sum_le_sum_abs _ _).trans (Finset.sum_le_sum fun i _ => ?_)
  rw [← Finset.sum_sub_distrib]
  refine (Finset.abs_sum_le_sum_abs _ _).trans (Finset.sum_le_sum fun j _ => ?_)
  exact stateCov_perturb hε hE i.2 j.2 (hb i) (hb j)

end stack

section
variable {k : SSM} {ε : ℝ} (hq : k.NoiseWithin ε) {G : Matrix k.n k.n ℝ} (hG : k.CovModel G) {t : Arr ℝ} (ht : Sorted t) (hN : 0 < t.len)
include hG ht hN

theorem gapQ0_psd (j : ℕ) : (gapQ0 k t j).PosSemidef := hG.incr (sub_nonneg.2 (tau_mono ht hN (Nat.le_succ j)))

/-- with the stationary process noise, the joint covariance is positive semidefinite -/
theorem ideal_stack_psd (c : Fin t.len × k.n → ℝ) : 0 ≤ c ⬝ᵥ stack t.len (stateCov (gapA k t) (gapQ0 k t) k.Pinf) *ᵥ c := by
  set g := discreteGM (gapA k t) (gapQ0 k t) k.Pinf (fun j => psd_symm (gapQ0_psd hG ht hN j)) (psd_symm hG.P_psd) with hg
  have hP : ∀ s, g.P s = k.Pinf := fun s => ideal_marginalCov hG ht hN _
  have hA : ∀ s s', s ≤ s' → g.A s s' = k.At 0 (tau t ⌊s'⌋₊ - tau t ⌊s⌋₊) := fun s s' h =>
    gap_propagator hG ht hN (Nat.floor_mono h)
  have h := g.quad_nonneg (fun s => by rw [hP]; exact hG.P_psd) (fun s s' h => by
    unfold GM.Q
    rw [hP, hP, hA s s' h]
    exact hG.incr (sub_nonneg.2 (tau_mono ht hN (Nat.floor_mono h)))) t.len (fun i => (i : ℝ)) (fun i j hij _ => Nat.cast_le.2 hij)
    (fun i a => if hi : i < t.len then c (⟨i, hi⟩, a) else 0)
  have e : ∑ i ∈ Finset.range t.len, ∑ a, (if hi : i < t.len then c (⟨i, hi⟩, a) else 0) • GM.x (n := k.n) (i : ℝ) a =
      ∑ p : Fin t.len × k.n, c p • GM.x (n := k.n) ((p.1.1 : ℕ) : ℝ) p.2 := by
    rw [Finset.sum_range, Fintype.sum_prod_type]
    exact Finset.sum_congr rfl fun i _ => Finset.sum_congr rfl fun a _ => by rw [dif_pos i.2]
  rw [e, Chain.B_sum_sum] at h
  have e2 : (Matrix.of fun p q : Fin t.len × k.n => g.B 0 (GM.x ((p.1.1 : ℕ) : ℝ) p.2) (GM.x ((q.1.1 : ℕ) : ℝ) q.2)) =
      stack t.len (stateCov (gapA k t) (gapQ0 k t) k.Pinf) := by
    ext p q
    rw [of_apply, stack, of_apply, ← discreteGM_C (fun j => psd_symm (gapQ0_psd hG ht hN j)) (psd_symm hG.P_psd)]
    exact GM.B_xx _ 0 _ _ _ _
  rwa [e2] at h

/-- the variance of a function of one state against a combination of data: lower bound with the stationary process noise -/
theorem ideal_stack_lower (f v : Fin t.len × k.n → ℝ) :
    f ⬝ᵥ stack t.len (stateCov (gapA k t) (gapQ0 k t) k.Pinf) *ᵥ f / 2 - v ⬝ᵥ stack t.len (stateCov (gapA k t) (gapQ0 k t) k.Pinf) *ᵥ v ≤
      (f + v) ⬝ᵥ stack t.len (stateCov (gapA k t) (gapQ0 k t) k.Pinf) *ᵥ (f + v) := by
  have h := ideal_stack_psd hG ht hN (f + (2 : ℝ) • v)
  simp only [mulVec_add, mulVec_smul, add_dotProduct, dotProduct_add, smul_dotProduct, dotProduct_smul, smul_eq_mul] at h ⊢
  linarith


theorem CovModel_Ht (s : ℝ) : k.Ht s = k.Ht 0 := hG.ideal_proper.H_const (.time s)

omit ht hN in
theorem CovModel_evaluate_self (s : ℝ) : k.evaluate (.time s) (.time s) = (k.Ht 0 * k.Pinf * (k.Ht 0)ᵀ) 0 0 := by
  have e : k.obsModel (.time s) none = k.Ht 0 := hG.ideal_proper.H_const (.time s)
  have hA : k.A (.time s) (.time s) = 1 := by
    have := hG.ideal_proper.shift_A (.time s) (.time s)
    rw [show Coord.sortable (.time s) - Coord.sortable (.time s) = 0 from sub_self s] at this
    exact this.trans hG.At_zero
  unfold SSM.evaluate
  simp only [e, hA, lt_irrefl, if_false]
  simp

omit ht hN in
theorem CovModel_evaluate_abs (s s' : ℝ) : |k.evaluate (.time s) (.time s')| ≤ (k.Ht 0 * k.Pinf * (k.Ht 0)ᵀ) 0 0 := by
  have h := psd_cauchy (hG.gram_psd (N := 2) ![.time s, .time s']) (Pi.single 0 1) (Pi.single 1 1)
  simp only [mulVec_single_one, single_one_dotProduct, col_apply, of_apply, Matrix.cons_val_zero, Matrix.cons_val_one] at h
  rw [CovModel_evaluate_self hG, CovModel_evaluate_self hG, ← sq] at h
  refine abs_le_of_sq_le_sq h ?_
  rw [row_dot]
  exact ((psd_iff _).1 hG.P_psd).2 _

/-- combinations of data, stationary process noise -/
theorem ideal_data_upper (w : Fin t.len → ℝ) :
    (fun p : Fin t.len × k.n => -(w p.1 * k.Ht 0 0 p.2)) ⬝ᵥ stack t.len (stateCov (gapA k t) (gapQ0 k t) k.Pinf) *ᵥ
      (fun p : Fin t.len × k.n => -(w p.1 * k.Ht 0 0 p.2)) ≤ (k.Ht 0 * k.Pinf * (k.Ht 0)ᵀ) 0 0 * (t.len * (w ⬝ᵥ w)) := by
  set κ := (k.Ht 0 * k.Pinf * (k.Ht 0)ᵀ) 0 0 with hκ
  have hκ0 : 0 ≤ κ := (abs_nonneg _).trans (CovModel_evaluate_abs hG 0 0)
  rw [stack_quad]
  have e : ∀ i : Fin t.len, (Matrix.of fun _ : Fin 1 => fun a => -(w i * k.Ht 0 0 a)) = (-(w i)) • k.Ht 0 := fun i => by
    ext j a
    have : j = 0 := Subsingleton.elim _ _
    subst this
    simp
  have e2 : ∀ i j : Fin t.len, ((-(w i)) • k.Ht 0 * stateCov (gapA k t) (gapQ0 k t) k.Pinf i j * ((-(w j)) • k.Ht 0)ᵀ) 0 0 =
      w i * w j * k.evaluate (.time (t.get i)) (.time (t.get j)) := fun i j => by
    rw [← ideal_stateCov hG ht hN i.2 j.2, CovModel_Ht hG ht hN (t.get i), CovModel_Ht hG ht hN (t.get j), transpose_smul]
    simp only [Matrix.smul_mul, Matrix.mul_smul, Matrix.smul_apply, smul_eq_mul]
    ring
  have h1 : ∑ i : Fin t.len, ∑ j : Fin t.len, w i * w j * k.evaluate (.time (t.get i)) (.time (t.get j)) ≤ κ * (∑ i, |w i|) ^ 2 := by
    rw [sq, Finset.sum_mul_sum, Finset.mul_sum]
    refine Finset.sum_le_sum fun i _ => ?_
    rw [Finset.mul_sum]
    refine Finset.sum_le_sum fun j _ => (le_abs_self _).trans ?_
    rw [abs_mul, abs_mul, mul_comm κ]
    exact mul_le_mul_of_nonneg_left (CovModel_evaluate_abs hG _ _) (by positivity)
  have h2 : (∑ i, |w i|) ^ 2 ≤ t.len * (w ⬝ᵥ w) := by
    refine (sq_sum_le_card_mul_sum_sq (s := Finset.univ) (f := fun i => |w i|)).trans (le_of_eq ?_)
    simp only [sq_abs, Finset.card_univ, Fintype.card_fin]
    congr 1
    simp [dotProduct, sq]
  refine le_trans (le_of_eq ?_) (h1.trans (mul_le_mul_of_nonneg_left h2 hκ0))
  exact Finset.sum_congr rfl fun i _ => Finset.sum_congr rfl fun j _ => by rw [e, e, e2]

omit ht hN in
theorem row_bound_sqrt {c : ℝ} (hc : 0 < c) (hlow : ∀ v : k.n → ℝ, c * (v ⬝ᵥ v) ≤ v ⬝ᵥ k.Pinf *ᵥ v) (h : Matrix (Fin 1) k.n ℝ) {s : ℝ} (hs : 0 ≤ s) :
    ∑ a, |(h * k.At 0 s) 0 a| ≤ Real.sqrt (Fintype.card k.n * (h * k.Pinf * hᵀ) 0 0 / c) := by
  have h0 : 0 ≤ (h * k.Pinf * hᵀ) 0 0 := by rw [row_dot]; exact ((psd_iff _).1 hG.P_psd).2 _
  refine hG.row_bound hc hlow h hs (Real.sqrt_nonneg _) ?_
  rw [Real.sq_sqrt (by positivity), mul_div_cancel₀ _ hc.ne']

omit hG ht hN in
theorem pos_arith {q' q0 A2 κ N ρ δ r : ℝ} (hN : 0 ≤ N) (hκ : 0 ≤ κ) (hρ : 0 ≤ ρ) (hr : 0 < r) (hA : 0 < A2)
    (hcond : 4 * δ * (2 * N * κ + r) < r) (l0 : 0 ≤ q0) (l1 : A2 / 2 - κ * (N * ρ) ≤ q0)
    (l2 : q0 - (2 * δ * A2 + 2 * δ * (N * κ * ρ)) ≤ q') : 0 < q' + r * ρ := by
  have d : 0 < r + 2 * N * κ := by positivity
  have z : 0 ≤ N * κ * ρ := by positivity
  have m0 : 0 ≤ 2 * N * κ * q0 := by positivity
  have m1 : r * (A2 / 2 - κ * (N * ρ)) ≤ r * q0 := mul_le_mul_of_nonneg_left l1 hr.le
  have t1 : (r + 2 * N * κ) * (q0 - (2 * δ * A2 + 2 * δ * (N * κ * ρ))) ≤ (r + 2 * N * κ) * q' := mul_le_mul_of_nonneg_left l2 d.le
  have t2 : 4 * δ * (2 * N * κ + r) * A2 < r * A2 := mul_lt_mul_of_pos_right hcond hA
  have t3 : 4 * δ * (2 * N * κ + r) * (N * κ * ρ) ≤ r * (N * κ * ρ) := mul_le_mul_of_nonneg_right hcond.le z
  have t4 : 0 ≤ r * r * ρ := by positivity
  have t5 : 0 ≤ r * (N * κ * ρ) := by positivity
  have fin : 0 < (r + 2 * N * κ) * (q' + r * ρ) := by linarith
  exact (mul_pos_iff_of_pos_left d).1 fin

/-- **Positivity with perturbed process noise.** The variance of a function of a state against any combination of noisy data. -/
theorem noisy_var_pos {ε c r : ℝ} (hε : 0 ≤ ε) (hq : k.NoiseWithin ε) (hc : 0 < c)
    (hlow : ∀ v : k.n → ℝ, c * (v ⬝ᵥ v) ≤ v ⬝ᵥ k.Pinf *ᵥ v) (hr : 0 < r)
    (hcond : 4 * t.len * ε * Fintype.card k.n * (2 * t.len * (k.Ht 0 * k.Pinf * (k.Ht 0)ᵀ) 0 0 + r) < c * r)
    (i0 : Fin t.len) {a : k.n → ℝ} (ha : a ≠ 0) (w : Fin t.len → ℝ) :
    0 < ((fun p : Fin t.len × k.n => if p.1 = i0 then a p.2 else 0) + fun p : Fin t.len × k.n => -(w p.1 * k.Ht 0 0 p.2)) ⬝ᵥ
      stack t.len (stateCov (gapA k t) (gapQ k t) k.Pinf) *ᵥ
      ((fun p : Fin t.len × k.n => if p.1 = i0 then a p.2 else 0) + fun p : Fin t.len × k.n => -(w p.1 * k.Ht 0 0 p.2)) +
        r * (w ⬝ᵥ w) := by
  set f : Fin t.len × k.n → ℝ := fun p => if p.1 = i0 then a p.2 else 0 with hf
  set v : Fin t.len × k.n → ℝ := fun p => -(w p.1 * k.Ht 0 0 p.2) with hv
  set κ := (k.Ht 0 * k.Pinf * (k.Ht 0)ᵀ) 0 0 with hκ
  set A2 := a ⬝ᵥ k.Pinf *ᵥ a with hA2
  set ρ := w ⬝ᵥ w with hρ
  set n : ℝ := ((Fintype.card k.n : ℕ) : ℝ) with hn
  set N : ℝ := ((t.len : ℕ) : ℝ) with hN'
  have hκ0 : 0 ≤ κ := (abs_nonneg _).trans (CovModel_evaluate_abs hG 0 0)
  have hρ0 : 0 ≤ ρ := by simpa using dotProduct_star_self_nonneg w
  have haa : 0 < a ⬝ᵥ a := lt_of_le_of_ne (by simpa using dotProduct_star_self_nonneg a)
    fun h => ha (by simpa using dotProduct_self_eq_zero.1 h.symm)
  have hA0 : 0 < A2 := lt_of_lt_of_le (mul_pos hc haa) (hlow a)
  have hN1 : 1 ≤ N := by rw [hN']; exact_mod_cast hN
  have hn0 : 0 ≤ n := Nat.cast_nonneg _
  -- stationary process noise
  have l0 := ideal_stack_psd hG ht hN (f + v)
  have l1 := ideal_stack_lower hG ht hN f v
  have l2 := ideal_data_upper hG ht hN w
  have ef : f ⬝ᵥ stack t.len (stateCov (gapA k t) (gapQ0 k t) k.Pinf) *ᵥ f = A2 := by
    rw [stack_quad]
    have z : ∀ i : Fin t.len, i ≠ i0 → (Matrix.of fun _ : Fin 1 => fun b => f (i, b)) = 0 := fun i hi => by
      ext j b; simp [hf, hi]
    rw [Finset.sum_eq_single i0 (fun i _ hi => ?_) (by simp), Finset.sum_eq_single i0 (fun i _ hi => ?_) (by simp)]
    · have : stateCov (gapA k t) (gapQ0 k t) k.Pinf i0 i0 = k.Pinf := by
        unfold stateCov
        rw [if_pos le_rfl, ideal_marginalCov hG ht hN, propagator_self, transpose_one, Matrix.mul_one]
      rw [this, row_dot]
      simp only [hf, if_true, hA2]
      rfl
    · rw [z i hi]; simp
    · refine Finset.sum_eq_zero fun j _ => ?_
      rw [z i hi]; simp
  rw [ef] at l1
  -- the perturbation
  set ba := Real.sqrt (n * A2 / c) with hba
  set b := Real.sqrt (n * κ / c) with hb
  have hba0 : 0 ≤ ba := Real.sqrt_nonneg _
  have hb0 : 0 ≤ b := Real.sqrt_nonneg _
  have hba2 : ba ^ 2 = n * A2 / c := Real.sq_sqrt (by positivity)
  have hb2 : b ^ 2 = n * κ / c := Real.sq_sqrt (by positivity)
  have l3 := stack_perturb (T := gapA k t) (Q := gapQ0 k t) (Q' := gapQ k t) (P0 := k.Pinf) hε (N := t.len)
    (fun l hl a b => hq.near _ (sub_nonneg.2 (tau_mono ht hN (Nat.le_succ l))) a b) (f + v)
    (fun i => (if i = i0 then ba else 0) + |w i| * b) (fun i l hl => by
      rw [gap_propagator hG ht hN hl]
      have hs := sub_nonneg.2 (tau_mono ht hN hl)
      have e : (Matrix.of fun _ : Fin 1 => fun b => (f + v) (i, b)) * k.At 0 (tau t i - tau t l) =
          (if i = i0 then (Matrix.of fun _ : Fin 1 => a) * k.At 0 (tau t i - tau t l) else 0) - w i • (k.Ht 0 * k.At 0 (tau t i - tau t l)) := by
        rw [← Matrix.smul_mul]
        split_ifs with hi
        · rw [← Matrix.sub_mul]; congr 1
          ext j b
          have : j = 0 := Subsingleton.elim _ _
          subst this
          simp [hf, hv, hi, sub_eq_add_neg]
        · rw [zero_sub, ← Matrix.neg_mul]; congr 1
          ext j b
          have : j = 0 := Subsingleton.elim _ _
          subst this
          simp [hf, hv, hi]
      rw [e]
      have r1 := row_bound_sqrt hG hc hlow (Matrix.of fun _ : Fin 1 => a) hs
      have r2 := row_bound_sqrt hG hc hlow (k.Ht 0) hs
      rw [row_dot] at r1
      have r1' : ∑ b, |((Matrix.of fun _ : Fin 1 => a) * k.At 0 (tau t i - tau t l)) 0 b| ≤ ba := r1
      calc ∑ b, |((if i = i0 then (Matrix.of fun _ : Fin 1 => a) * k.At 0 (tau t i - tau t l) else 0) -
            w i • (k.Ht 0 * k.At 0 (tau t i - tau t l))) 0 b|
          ≤ ∑ b, (|(if i = i0 then (Matrix.of fun _ : Fin 1 => a) * k.At 0 (tau t i - tau t l) else 0) 0 b| +
            |w i| * |(k.Ht 0 * k.At 0 (tau t i - tau t l)) 0 b|) := by
            refine Finset.sum_le_sum fun b _ => ?_
            rw [Matrix.sub_apply, Matrix.smul_apply, smul_eq_mul, ← abs_mul]
            exact abs_sub _ _
        _ ≤ _ := by
            rw [Finset.sum_add_distrib, ← Finset.mul_sum]
            refine add_le_add ?_ (mul_le_mul_of_nonneg_left r2 (abs_nonneg _))
            split_ifs
            · exact r1'
            · simp)
  have s1 : ∑ i : Fin t.len, ((if i = i0 then ba else 0) + |w i| * b) = ba + (∑ i, |w i|) * b := by
    rw [Finset.sum_add_distrib, ← Finset.sum_mul]
    simp
  rw [s1] at l3
  have s2 : (∑ i, |w i|) ^ 2 ≤ N * ρ := by
    refine (sq_sum_le_card_mul_sum_sq (s := Finset.univ) (f := fun i => |w i|)).trans (le_of_eq ?_)
    simp only [sq_abs, Finset.card_univ, Fintype.card_fin]
    congr 1
    simp [hρ, dotProduct, sq]
  have s3 : (ba + (∑ i, |w i|) * b) ^ 2 ≤ 2 * (n * A2 / c) + 2 * (N * ρ * (n * κ / c)) := by
    have h1 : (ba + (∑ i, |w i|) * b) ^ 2 ≤ 2 * ba ^ 2 + 2 * ((∑ i, |w i|) ^ 2 * b ^ 2) := by
      nlinarith [sq_nonneg (ba - (∑ i, |w i|) * b)]
    rw [hba2, hb2] at h1
    have h2 : (∑ i, |w i|) ^ 2 * (n * κ / c) ≤ N * ρ * (n * κ / c) := mul_le_mul_of_nonneg_right s2 (by positivity)
    linarith
  have l4 := (abs_le.1 l3).1
  have l5 : N * ε * (ba + (∑ i, |w i|) * b) ^ 2 ≤ N * ε * (2 * (n * A2 / c) + 2 * (N * ρ * (n * κ / c))) :=
    mul_le_mul_of_nonneg_left s3 (by positivity)
  generalize (f + v) ⬝ᵥ stack t.len (stateCov (gapA k t) (gapQ k t) k.Pinf) *ᵥ (f + v) = q' at *
  generalize (f + v) ⬝ᵥ stack t.len (stateCov (gapA k t) (gapQ0 k t) k.Pinf) *ᵥ (f + v) = q0 at *
  generalize v ⬝ᵥ stack t.len (stateCov (gapA k t) (gapQ0 k t) k.Pinf) *ᵥ v = qv at *
  have hcond' : 4 * (N * ε * n / c) * (2 * N * κ + r) < r := by
    have : 4 * (N * ε * n / c) * (2 * N * κ + r) = 4 * N * ε * n * (2 * N * κ + r) / c := by field_simp
    rw [this, div_lt_iff₀ hc, mul_comm r]
    exact hcond
  have e5 : N * ε * (2 * (n * A2 / c) + 2 * (N * ρ * (n * κ / c))) =
      2 * (N * ε * n / c) * A2 + 2 * (N * ε * n / c) * (N * κ * ρ) := by
    field_simp
  rw [e5] at l5
  exact pos_arith (by linarith) hκ0 hρ0 hr hA0 hcond' l0 (by linarith) (by linarith)

end

/-- an estimate whose error has positive variance in every direction has a positive definite covariance -/
theorem IsEst.pd {V : Type*} [AddCommGroup V] [Module ℝ V] {n : Type*} [Fintype n] [DecidableEq n] {B : LinearMap.BilinForm ℝ V}
    {φ : V →ₗ[ℝ] ℝ} {U : Submodule ℝ V} {X Xh : n → V} {mu : n → ℝ} {P : Matrix n n ℝ} (hB : ∀ u v, B u v = B v u)
    (h : IsEst B φ U X Xh mu P) (hpos : ∀ a : n → ℝ, a ≠ 0 → ∀ u ∈ U, 0 < B (∑ i, a i • X i - u) (∑ i, a i • X i - u)) : P.PosDef := by
  rw [pd_iff]
  refine ⟨h.symm hB, fun a ha => ?_⟩
  have hu : ∑ i, a i • Xh i ∈ U := Submodule.sum_mem _ fun i _ => Submodule.smul_mem _ _ (h.mem i)
  have := hpos a ha _ hu
  rw [← Finset.sum_sub_distrib] at this
  simp only [← smul_sub] at this
  rw [Chain.B_sum_sum] at this
  convert this using 4
  ext i j
  rw [of_apply, map_sub, h.orth i _ (h.mem j), sub_zero, h.cov]

section
variable {k : SSM} {ε : ℝ} (hq : k.NoiseWithin ε) {G : Matrix k.n k.n ℝ} (hG : k.CovModel G) {t : Arr ℝ} (ht : Sorted t) (hN : 0 < t.len)
  {R y : Arr ℝ} {c r : ℝ} (hε : 0 ≤ ε) (hc : 0 < c) (hlow : ∀ v : k.n → ℝ, c * (v ⬝ᵥ v) ≤ v ⬝ᵥ k.Pinf *ᵥ v) (hr : 0 < r)
  (hR : ∀ i < t.len, r ≤ R.get i)
  (hcond : 4 * t.len * ε * Fintype.card k.n * (2 * t.len * (k.Ht 0 * k.Pinf * (k.Ht 0)ᵀ) 0 0 + r) < c * r)
include hq hG ht hN hε hc hlow hr hR hcond

/-- the error variances of the filter -/
theorem noisy_error_pos {i0 : ℕ} (hi : i0 < t.len) {a : k.n → ℝ} (ha : a ≠ 0) {u : GM.Space k.n}
    (hu : u ∈ (noisyChain hq hG ht hN R y).U i0) :
    0 < (discreteGM (gapA k t) (gapQ k t) k.Pinf (gapQ_symm hq ht hN) (psd_symm hG.P_psd)).B R.get
      (∑ b, a b • (noisyChain hq hG ht hN R y).x i0 b - u) (∑ b, a b • (noisyChain hq hG ht hN R y).x i0 b - u) := by
  let B := (discreteGM (gapA k t) (gapQ k t) k.Pinf (gapQ_symm hq ht hN) (psd_symm hG.P_psd)).B R.get
  let C : Chain B (GM.φ k.n y.get) k.n := noisyChain hq hG ht hN R y
  change u ∈ C.U i0 at hu
  change 0 < B (∑ b, a b • C.x i0 b - u) (∑ b, a b • C.x i0 b - u)
  obtain ⟨w, -, rfl⟩ := C.mem_U_sum (fun _ => rfl) hi.le hu
  have hpos := noisy_var_pos hG ht hN hε hq hc hlow hr hcond ⟨i0, hi⟩ ha w
  set f : Fin t.len × k.n → ℝ := (fun p : Fin t.len × k.n => if p.1 = ⟨i0, hi⟩ then a p.2 else 0) +
    fun p : Fin t.len × k.n => -(w p.1 * k.Ht 0 0 p.2) with hf
  have e : ∑ b, a b • C.x i0 b - ∑ i : Fin t.len, w i • C.Y i = ∑ p : Fin t.len × k.n, f p • C.x p.1 p.2 - ∑ i : Fin t.len, w i • C.r i := by
    have h1 : ∀ i : Fin t.len, C.Y i = ∑ b, k.Ht 0 0 b • C.x i b + C.r i := fun i => by
      unfold Chain.Y lin
      have : C.H i = k.Ht 0 := CovModel_Ht hG ht hN (t.get i)
      rw [this]
    simp only [h1, hf, Pi.add_apply, Fintype.sum_prod_type, add_smul, Finset.sum_add_distrib, smul_add]
    have h2 : ∑ i : Fin t.len, ∑ b, (if i = ⟨i0, hi⟩ then a b else 0) • C.x i b = ∑ b, a b • C.x i0 b := by
      rw [Finset.sum_eq_single ⟨i0, hi⟩ (fun i _ hne => by simp [hne]) (by simp)]
      simp
    rw [h2]
    simp only [neg_smul, Finset.sum_neg_distrib, mul_smul, Finset.smul_sum]
    abel
  have exr : ∀ (i : ℕ) (b : k.n) (j : ℕ), B (C.r j) (C.x i b) = 0 := fun i b j => C.hr j i b
  have err : ∀ i j : ℕ, B (C.r i) (C.r j) = if i = j then R.get i else 0 := fun i j =>
    GM.B_rr (discreteGM (gapA k t) (gapQ k t) k.Pinf (gapQ_symm hq ht hN) (psd_symm hG.P_psd)) R.get i j
  rw [e]
  set Z := ∑ p : Fin t.len × k.n, f p • C.x p.1 p.2 with hZ
  set W := ∑ i : Fin t.len, w i • C.r i with hW
  have hWZ : B W Z = 0 := by
    simp only [hW, hZ, map_sum, LinearMap.sum_apply, map_smul, LinearMap.smul_apply, smul_eq_mul]
    refine Finset.sum_eq_zero fun p _ => ?_
    rw [Finset.sum_eq_zero fun i _ => by rw [exr, mul_zero], mul_zero]
  have hZW : B Z W = 0 := by rw [C.symm]; exact hWZ
  have hWW : r * (w ⬝ᵥ w) ≤ B W W := by
    rw [hW, Chain.B_sum_sum]
    have : (Matrix.of fun i j : Fin t.len => B (C.r i) (C.r j)) = diagonal fun i : Fin t.len => R.get i := by
      ext i j
      rw [of_apply, err, diagonal_apply]
      simp [Fin.ext_iff]
    rw [this]
    simp only [dotProduct, mulVec_diagonal, Finset.mul_sum]
    refine Finset.sum_le_sum fun i _ => ?_
    nlinarith [hR i i.2, mul_self_nonneg (w i)]
  have hZZ : B Z Z = f ⬝ᵥ stack t.len (stateCov (gapA k t) (gapQ k t) k.Pinf) *ᵥ f := by
    rw [hZ, Chain.B_sum_sum]
    congr 2
    ext p q
    exact discreteChain_xx (T := gapA k t) (gapQ_symm hq ht hN) (psd_symm hG.P_psd) (fun _ => true) (fun i => k.Ht (t.get i)) R.get y.get _ _ _ _
  simp only [map_sub, LinearMap.sub_apply, hWZ, hZW]
  rw [hZZ]
  linarith

theorem noisy_PPred_pd (hpd : (noisyData k t R).PosDef) {i : ℕ} (hi : i < t.len) : ((k.kalman t y R).get i).PPred.PosDef := by
  obtain ⟨Xh, h⟩ := (noisy_filter (y := y) hq hG ht hN hpd).est_pred hi
  exact h.pd (noisyChain hq hG ht hN R y).symm fun a ha u hu => noisy_error_pos hq hG ht hN hε hc hlow hr hR hcond hi ha hu

theorem noisy_smoother (hpd : (noisyData k t R).PosDef) : (noisyChain hq hG ht hN R y).Smoother t.len
    (fun j => ((k.kalman t y R).get j).mPred) (fun j => ((k.kalman t y R).get j).PPred)
    (fun j => ((k.kalman t y R).get j).m) (fun j => ((k.kalman t y R).get j).P)
    (fun j => ((k.condition t y R).2.get j).m) (fun j => ((k.condition t y R).2.get j).P) where
  last_m := by
    show ((rtsSmoother k.At t (k.kalman t y R)).get (t.len - 1)).m = _
    rw [rts_last]; rfl
  last_P := by
    show ((rtsSmoother k.At t (k.kalman t y R)).get (t.len - 1)).P = _
    rw [rts_last]; rfl
  step j hj := by
    have e : (k.condition t y R).2.get j = (rtsStep k.At t (k.kalman t y R) ((k.condition t y R).2.get (j + 1)) j).1 :=
      rts_step k.At t _ j hj
    rw [e]
    refine ⟨_, ?_, rfl, rfl⟩
    rw [show (noisyChain hq hG ht hN R y).T j = gapA k t j from discreteChain_T ..]
    unfold gapA
    rw [tau_eq t hj, tau_eq t (by omega)]
    exact solve_gain (pd_det (noisy_PPred_pd hq hG ht hN hε hc hlow hr hR hcond hpd hj)) rfl

/-- the conditioned means and variances are those of the system the filter works with -/
theorem noisy_conditioned (hpd : (noisyData k t R).PosDef) (i : Fin t.len) :
    (k.Ht (t.get i) *ᵥ ((k.condition t y R).2.get i).m) 0 = postMean (noisyData k t R) (fun j => y.get j)
      (fun j => noisyData k t R i j - if i = j then R.get i else 0) ∧
    (k.Ht (t.get i) * ((k.condition t y R).2.get i).P * (k.Ht (t.get i))ᵀ) 0 0 = postVar (noisyData k t R)
      (noisyData k t R i i - R.get i) (fun j => noisyData k t R i j - if i = j then R.get i else 0) := by
  obtain ⟨Xh, h⟩ := (noisy_smoother (y := y) hq hG ht hN hε hc hlow hr hR hcond hpd).est
    (noisy_filter (y := y) hq hG ht hN hpd) i.2
  have hspan := Chain.U_eq_span_equiv (noisyObs hq hG ht hN R y)
  have := IsEst.dense_scalar (noisyChain hq hG ht hN R y).symm _
    (Eq.mp (congrArg (fun W => IsEst _ _ W _ _ _ _) hspan) h) (noisyData k t R)
    (fun i j => noisyData_eq hq hG ht hN R y i j) (pd_det hpd) (k.Ht (t.get i))
  have e0 : ∀ a b : Fin t.len, noisyData k t R a b - (if a = b then R.get a else 0) =
      (k.Ht (t.get a) * stateCov (gapA k t) (gapQ k t) k.Pinf a b * (k.Ht (t.get b))ᵀ) 0 0 := fun a b => by
    simp [noisyData, noisyGram]
  have e1 : ∀ j : Fin t.len, (discreteGM (gapA k t) (gapQ k t) k.Pinf (gapQ_symm hq ht hN) (psd_symm hG.P_psd)).B R.get
      (lin (k.Ht (t.get i)) ((noisyChain hq hG ht hN R y).x i) 0) ((noisyChain hq hG ht hN R y).Y j) =
      noisyData k t R i j - (if i = j then R.get i else 0) := fun j => by
    rw [e0]
    exact discreteChain_xY (T := gapA k t) (gapQ_symm hq ht hN) (psd_symm hG.P_psd) (fun _ => true) (fun i => k.Ht (t.get i)) R.get y.get _ _ _
  have e2 : (discreteGM (gapA k t) (gapQ k t) k.Pinf (gapQ_symm hq ht hN) (psd_symm hG.P_psd)).B R.get
      (lin (k.Ht (t.get i)) ((noisyChain hq hG ht hN R y).x i) 0) (lin (k.Ht (t.get i)) ((noisyChain hq hG ht hN R y).x i) 0) =
      noisyData k t R i i - R.get i := by
    have := e0 i i
    rw [if_pos rfl] at this
    rw [this]
    exact B_lin_lin _ _ _ _ _ _ (discreteChain_xx (T := gapA k t) (gapQ_symm hq ht hN) (psd_symm hG.P_psd) (fun _ => true)
      (fun i => k.Ht (t.get i)) R.get y.get i i)
  have e3 : (fun j : Fin t.len => GM.φ k.n y.get ((noisyChain hq hG ht hN R y).Y j)) = fun j : Fin t.len => y.get j :=
    funext fun j => (noisyChain hq hG ht hN R y).hy j
  have e4 := funext e1
  rw [← e4, ← e2, ← e3]
  exact this

end

end Verif
