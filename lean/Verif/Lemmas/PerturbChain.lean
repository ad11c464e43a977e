import Verif.Lemmas.Perturb
import Verif.Lemmas.Discrete
import Verif.Lemmas.ExactSSM

/-! # Chains whose process noise is perturbed -/

set_option linter.unusedSectionVars false

namespace Verif
open Matrix Spec

section moments
variable {n : Type*} [Fintype n] [DecidableEq n]

/-- a bilinear form with entries bounded by `ε` -/
theorem abs_row_form_le {E : Matrix n n ℝ} {ε : ℝ} (hE : ∀ a b, |E a b| ≤ ε) (h h' : Matrix (Fin 1) n ℝ) :
    |(h * E * h'ᵀ) 0 0| ≤ ε * (∑ a, |h 0 a|) * ∑ a, |h' 0 a| := by
  have this : ε * (∑ a, |h 0 a|) * ∑ a, |h' 0 a| = ∑ a, ∑ b, |h 0 a| * (ε * |h' 0 b|) := by
    rw [mul_comm ε, mul_assoc, Finset.mul_sum (f := fun b => |h' 0 b|), Finset.sum_mul_sum]
  rw [Matrix.mul_assoc, Matrix.mul_apply]
  have e : ∀ a, h 0 a * (E * h'ᵀ) a 0 = ∑ b, h 0 a * (E a b * h' 0 b) := fun a => by
    rw [Matrix.mul_apply, Finset.mul_sum]; rfl
  rw [Finset.sum_congr rfl fun a _ => e a]
  refine (Finset.abs_sum_le_sum_abs _ _).trans ?_
  rw [this]
  refine Finset.sum_le_sum fun a _ => (Finset.abs_sum_le_sum_abs _ _).trans (Finset.sum_le_sum fun b _ => ?_)
  rw [abs_mul, abs_mul]
  exact mul_le_mul_of_nonneg_left (mul_le_mul_of_nonneg_right (hE a b) (abs_nonneg _)) (abs_nonneg _)

variable {T Q Q' : ℕ → Matrix n n ℝ} {P0 : Matrix n n ℝ} {ε b b' : ℝ}

/-- the effect of the perturbations before step `k` on functions of later states -/
theorem marginalCov_perturb (hε : 0 ≤ ε) {k : ℕ} (hE : ∀ l < k, ∀ a b, |(Q' l - Q l) a b| ≤ ε) {i j : ℕ} (hi : k ≤ i) (hj : k ≤ j)
    {h h' : Matrix (Fin 1) n ℝ} (hb : ∀ l ≤ i, ∑ a, |(h * propagator T l i) 0 a| ≤ b)
    (hb' : ∀ l ≤ j, ∑ a, |(h' * propagator T l j) 0 a| ≤ b') :
    |((h * propagator T k i) * (marginalCov T Q' P0 k - marginalCov T Q P0 k) * (h' * propagator T k j)ᵀ) 0 0| ≤ k * (ε * b * b') := by
  induction k with
  | zero => simp [marginalCov]
  | succ k ih =>
    have h1 := ih (fun l hl => hE l (by omega)) (by omega) (by omega)
    have e1 : propagator T k i = propagator T (k + 1) i * T k := by rw [propagator_comp T (Nat.le_succ k) hi, propagator_one]
    have e2 : propagator T k j = propagator T (k + 1) j * T k := by rw [propagator_comp T (Nat.le_succ k) hj, propagator_one]
    have e : (h * propagator T (k + 1) i) * (marginalCov T Q' P0 (k + 1) - marginalCov T Q P0 (k + 1)) * (h' * propagator T (k + 1) j)ᵀ =
        (h * propagator T k i) * (marginalCov T Q' P0 k - marginalCov T Q P0 k) * (h' * propagator T k j)ᵀ +
        (h * propagator T (k + 1) i) * (Q' k - Q k) * (h' * propagator T (k + 1) j)ᵀ := by
      rw [e1, e2, marginalCov, marginalCov]
      simp only [transpose_mul, Matrix.mul_sub, Matrix.sub_mul, Matrix.mul_add, Matrix.add_mul, Matrix.mul_assoc]
      abel
    have h2 := abs_row_form_le (hE k (Nat.lt_succ_self k)) (h * propagator T (k + 1) i) (h' * propagator T (k + 1) j)
    have s1 := hb (k + 1) hi
    have s2 := hb' (k + 1) hj
    have n1 : 0 ≤ ∑ a, |(h * propagator T (k + 1) i) 0 a| := Finset.sum_nonneg fun _ _ => abs_nonneg _
    have n2 : 0 ≤ ∑ a, |(h' * propagator T (k + 1) j) 0 a| := Finset.sum_nonneg fun _ _ => abs_nonneg _
    have h3 : ε * (∑ a, |(h * propagator T (k + 1) i) 0 a|) * (∑ a, |(h' * propagator T (k + 1) j) 0 a|) ≤ ε * b * b' :=
      mul_le_mul (mul_le_mul_of_nonneg_left s1 hε) s2 n2 (mul_nonneg hε (n1.trans s1))
    rw [e, Matrix.add_apply]
    push_cast
    refine (abs_add_le _ _).trans ?_
    linarith

theorem stateCov_perturb (hε : 0 ≤ ε) {N : ℕ} (hE : ∀ l, l + 1 < N → ∀ a b, |(Q' l - Q l) a b| ≤ ε) {i j : ℕ} (hi : i < N) (hj : j < N)
    {h h' : Matrix (Fin 1) n ℝ} (hb : ∀ l ≤ i, ∑ a, |(h * propagator T l i) 0 a| ≤ b)
    (hb' : ∀ l ≤ j, ∑ a, |(h' * propagator T l j) 0 a| ≤ b') :
    |(h * stateCov T Q' P0 i j * h'ᵀ) 0 0 - (h * stateCov T Q P0 i j * h'ᵀ) 0 0| ≤ N * (ε * b * b') := by
  have hn : 0 ≤ ε * b * b' := mul_nonneg (mul_nonneg hε ((Finset.sum_nonneg fun _ _ => abs_nonneg _).trans (hb i le_rfl)))
    ((Finset.sum_nonneg fun _ _ => abs_nonneg _).trans (hb' j le_rfl))
  have hN : ∀ k, k < N → (k : ℝ) * (ε * b * b') ≤ N * (ε * b * b') := fun k hk =>
    mul_le_mul_of_nonneg_right (Nat.cast_le.2 hk.le) hn
  rw [← Matrix.sub_apply, ← Matrix.sub_mul, ← Matrix.mul_sub]
  unfold stateCov
  split_ifs with hij
  · have := marginalCov_perturb (T := T) (P0 := P0) hε (k := i) (fun l hl => hE l (by omega)) le_rfl hij hb hb'
    rw [propagator_self, Matrix.mul_one, transpose_mul] at this
    rw [← Matrix.sub_mul]
    simp only [Matrix.mul_assoc] at this ⊢
    exact this.trans (hN i hi)
  · have := marginalCov_perturb (T := T) (P0 := P0) hε (k := j) (fun l hl => hE l (by omega)) (by omega) le_rfl hb hb'
    rw [propagator_self, Matrix.mul_one] at this
    rw [← Matrix.mul_sub]
    simp only [Matrix.mul_assoc] at this ⊢
    exact this.trans (hN j hj)

end moments

namespace Chain
variable {V : Type*} [AddCommGroup V] [Module ℝ V] {n : Type*} [Fintype n] [DecidableEq n]
  {B : LinearMap.BilinForm ℝ V} {φ : V →ₗ[ℝ] ℝ} (c : Chain B φ n)

/-- prediction of the next state -/
theorem est_next {k : ℕ} {m : n → ℝ} {P : Matrix n n ℝ} (h : ∃ Xh, IsEst B φ (c.U (k + 1)) (c.x k) Xh m P) :
    ∃ Xh, IsEst B φ (c.U (k + 1)) (c.x (k + 1)) Xh (c.T k *ᵥ m) (c.T k * P * (c.T k)ᵀ + c.Q k) := by
  obtain ⟨Xh, h⟩ := h
  have hx : c.x (k + 1) = fun a => lin (c.T k) (c.x k) a + c.q k a := funext (c.step k)
  rw [hx]
  refine ⟨_, (h.linMap (c.T k)).addNoise c.symm (c.q_orth_U k le_rfl) (fun a b => ?_) (c.hQ k)⟩
  rw [B_lin_right]
  exact Finset.sum_eq_zero fun j _ => by rw [c.hq k k a j le_rfl, mul_zero]

/-- the innovation variance is the variance of an observation minus a combination of the earlier ones -/
theorem innovation_var {k : ℕ} {Xh : n → V} {m : n → ℝ} {P : Matrix n n ℝ} (h : IsEst B φ (c.U k) (c.x k) Xh m P) :
    ∃ u ∈ c.U k, (c.H k * P * (c.H k)ᵀ) 0 0 + c.R k = B (c.Y k - u) (c.Y k - u) := by
  refine ⟨lin (c.H k) Xh 0, lin_mem _ _ _ h.mem 0, ?_⟩
  set e := c.Y k - lin (c.H k) Xh 0 with he
  have h3 : e = lin (c.H k) (fun a => c.x k a - Xh a) 0 + c.r k := by
    simp only [he, Y, lin_sub]; abel
  have heU : ∀ u ∈ c.U k, B e u = 0 := by
    intro u hu
    rw [h3, map_add, LinearMap.add_apply, c.r_orth_U le_rfl u hu, add_zero, B_lin_left]
    exact Finset.sum_eq_zero fun j _ => by rw [h.orth j u hu, mul_zero]
  have h1 : B e (lin (c.H k) Xh 0) = 0 := heU _ (lin_mem _ _ _ h.mem 0)
  have h2 : B e e = B e (c.Y k) := by
    conv_lhs => rw [he]
    rw [map_sub, ← he, h1, sub_zero]
  have hXhr : ∀ b, B (c.r k) (Xh b) = 0 := fun b => c.r_orth_U le_rfl _ (h.mem b)
  rw [h2, h3, Y]
  have t1 : B (lin (c.H k) (fun a => c.x k a - Xh a) 0) (lin (c.H k) (c.x k) 0) = (c.H k * P * (c.H k)ᵀ) 0 0 := by
    rw [B_lin_left, Matrix.mul_assoc, Matrix.mul_apply]
    refine Finset.sum_congr rfl fun a _ => ?_
    rw [B_lin_right, Matrix.mul_apply]
    congr 1
    exact Finset.sum_congr rfl fun b _ => by rw [h.cov, transpose_apply, mul_comm]
  have t2 : B (lin (c.H k) (fun a => c.x k a - Xh a) 0) (c.r k) = 0 := by
    rw [B_lin_left]
    refine Finset.sum_eq_zero fun a _ => ?_
    rw [c.symm, map_sub, c.hr, hXhr, sub_zero, mul_zero]
  have t3 : B (c.r k) (lin (c.H k) (c.x k) 0) = 0 := by
    rw [B_lin_right]
    exact Finset.sum_eq_zero fun a _ => by rw [c.hr, mul_zero]
  simp only [map_add, LinearMap.add_apply]
  rw [t1, t2, t3, c.hR]
  ring

/-- combinations of observations before `N` -/
theorem mem_U_sum (hall : ∀ k, c.isObs k = true) {k N : ℕ} (hk : k ≤ N) {u : V} (hu : u ∈ c.U k) :
    ∃ w : Fin N → ℝ, (∀ i, k ≤ i.1 → w i = 0) ∧ u = ∑ i, w i • c.Y i := by
  induction k generalizing u with
  | zero =>
    simp only [U, Submodule.mem_bot] at hu
    exact ⟨0, fun _ _ => rfl, by simp [hu]⟩
  | succ k ih =>
    simp only [U, hall, if_true, addObs] at hu
    obtain ⟨u', hu', v, hv, rfl⟩ := Submodule.mem_sup.1 hu
    obtain ⟨a, rfl⟩ := Submodule.mem_span_singleton.1 hv
    obtain ⟨w, hw, rfl⟩ := ih (by omega) hu'
    refine ⟨w + Pi.single ⟨k, hk⟩ a, fun i hi => ?_, ?_⟩
    · rw [Pi.add_apply, hw i (by omega), Pi.single_eq_of_ne (by intro h; rw [h] at hi; simp at hi), add_zero]
    · simp only [Pi.add_apply, add_smul, Finset.sum_add_distrib]
      congr 1
      rw [Finset.sum_eq_single ⟨k, hk⟩ (fun i _ hi => by rw [Pi.single_eq_of_ne hi, zero_smul]) (by simp), Pi.single_eq_same]

theorem B_sum_sum {ι : Type*} [Fintype ι] (f : ι → V) (w w' : ι → ℝ) :
    B (∑ i, w i • f i) (∑ i, w' i • f i) = w ⬝ᵥ (Matrix.of fun i j => B (f i) (f j)) *ᵥ w' := by
  simp only [map_sum, LinearMap.sum_apply, map_smul, LinearMap.smul_apply, smul_eq_mul, dotProduct, mulVec, Finset.mul_sum, of_apply]
  rw [Finset.sum_comm]
  exact Finset.sum_congr rfl fun i _ => Finset.sum_congr rfl fun j _ => by ring

/-- observations with positive definite covariance: none is a combination of the earlier ones -/
theorem innovation_pos_of_pd (hall : ∀ k, c.isObs k = true) {N : ℕ}
    (hpd : (Matrix.of fun i j : Fin N => B (c.Y i) (c.Y j)).PosDef) {k : ℕ} (hk : k < N) {u : V} (hu : u ∈ c.U k) :
    0 < B (c.Y k - u) (c.Y k - u) := by
  obtain ⟨w, hw, rfl⟩ := c.mem_U_sum hall hk.le hu
  have e : c.Y k - ∑ i, w i • c.Y i = ∑ i : Fin N, (Pi.single ⟨k, hk⟩ 1 - w : Fin N → ℝ) i • c.Y i := by
    simp only [Pi.sub_apply, sub_smul, Finset.sum_sub_distrib]
    congr 1
    rw [Finset.sum_eq_single ⟨k, hk⟩ (fun i _ hi => by rw [Pi.single_eq_of_ne hi, zero_smul]) (by simp), Pi.single_eq_same, one_smul]
  rw [e, B_sum_sum]
  refine ((pd_iff _).1 hpd).2 _ fun h => ?_
  have := congrFun h ⟨k, hk⟩
  rw [Pi.sub_apply, Pi.single_eq_same, hw _ le_rfl] at this
  norm_num at this

/-- A recursion that updates correctly whenever the innovation variance is not zero, on observations with positive definite covariance:
all innovation variances are positive. -/
theorem S_pos_of_pd (hall : ∀ k, c.isObs k = true) {N : ℕ} (hpd : (Matrix.of fun i j : Fin N => B (c.Y i) (c.Y j)).PosDef)
    {mp mf : ℕ → n → ℝ} {Pp Pf : ℕ → Matrix n n ℝ} (m0 : mp 0 = 0) (P0 : ∀ a b, Pp 0 a b = B (c.x 0 a) (c.x 0 b))
    (mp_succ : ∀ k, k + 1 < N → mp (k + 1) = c.T k *ᵥ mf k)
    (Pp_succ : ∀ k, k + 1 < N → Pp (k + 1) = c.T k * Pf k * (c.T k)ᵀ + c.Q k)
    (upd : ∀ k < N, (c.H k * Pp k * (c.H k)ᵀ) 0 0 + c.R k ≠ 0 →
      ∃ K : Matrix n (Fin 1) ℝ, (∀ a, K a 0 * ((c.H k * Pp k * (c.H k)ᵀ) 0 0 + c.R k) = (Pp k * (c.H k)ᵀ) a 0) ∧
        (mf k = fun a => mp k a + K a 0 * (c.y k - (c.H k *ᵥ mp k) 0)) ∧
        (Pf k = fun a b => Pp k a b - K a 0 * ((c.H k * Pp k * (c.H k)ᵀ) 0 0 + c.R k) * K b 0))
    {k : ℕ} (hk : k < N) : 0 < (c.H k * Pp k * (c.H k)ᵀ) 0 0 + c.R k := by
  induction k using Nat.strong_induction_on with
  | _ k ih =>
    have f : c.Filter k mp Pp mf Pf := {
      m0 := m0
      P0 := P0
      mp_succ := fun j hj => mp_succ j (by omega)
      Pp_succ := fun j hj => Pp_succ j (by omega)
      upd := fun j hj _ => upd j (by omega) (ih j hj (by omega)).ne'
      noupd := fun j _ h => by rw [hall] at h; cases h }
    have hest : ∃ Xh, IsEst B φ (c.U k) (c.x k) Xh (mp k) (Pp k) := by
      cases k with
      | zero => rw [m0]; exact ⟨_, IsEst.prior _ _ P0⟩
      | succ k =>
        rw [mp_succ k hk, Pp_succ k hk]
        exact c.est_next (f.est_filt (Nat.lt_succ_self k))
    obtain ⟨Xh, hXh⟩ := hest
    obtain ⟨u, hu, e⟩ := c.innovation_var hXh
    rw [e]
    exact c.innovation_pos_of_pd hall hpd hk hu

end Chain

end Verif
