import Verif.Lemmas.Chain
import Mathlib.LinearAlgebra.Finsupp.LinearCombination

/-!
# The second-order space of a Gauss-Markov process

A formal vector space spanned by the state variables `x(t)_a` at all times `t` and by measurement noises
`r_i`, with the covariance form of a (not necessarily stationary) Gauss-Markov process.
-/

set_option linter.unusedSectionVars false

namespace Verif
open Matrix

variable {n : Type*} [Fintype n] [DecidableEq n]

/-- transition matrices and marginal covariances of a Gauss-Markov process -/
structure GM (n : Type*) [Fintype n] [DecidableEq n] where
  A : ℝ → ℝ → Matrix n n ℝ
  P : ℝ → Matrix n n ℝ
  A_self : ∀ t, A t t = 1
  A_comp : ∀ s t u, s ≤ t → t ≤ u → A s u = A t u * A s t
  P_symm : ∀ t, (P t)ᵀ = P t

namespace GM
variable (g : GM n) (R y : ℕ → ℝ)

/-- covariance of `x(s)` and `x(t)` -/
noncomputable def C (s t : ℝ) : Matrix n n ℝ := if s ≤ t then g.P s * (g.A s t)ᵀ else g.A t s * g.P t

/-- covariance of the increment from `s` to `t` -/
def Q (s t : ℝ) : Matrix n n ℝ := g.P t - g.A s t * g.P s * (g.A s t)ᵀ

theorem C_symm (s t : ℝ) : (g.C s t)ᵀ = g.C t s := by
  unfold C
  rcases lt_trichotomy s t with h | h | h
  · rw [if_pos h.le, if_neg (not_le.2 h), transpose_mul, transpose_transpose, g.P_symm]
  · subst h; simp [g.A_self, g.P_symm]
  · rw [if_neg (not_le.2 h), if_pos h.le, transpose_mul, g.P_symm]

theorem C_of_ge {s t : ℝ} (h : t ≤ s) : g.C s t = g.A t s * g.P t := by
  rw [← C_symm, C, if_pos h, transpose_mul, transpose_transpose, g.P_symm]

theorem C_of_le {s t : ℝ} (h : s ≤ t) : g.C s t = g.P s * (g.A s t)ᵀ := if_pos h

theorem C_self (t : ℝ) : g.C t t = g.P t := by simp [C, g.A_self]

/-- the Gram function on basis labels -/
noncomputable def gram : (ℝ × n) ⊕ ℕ → (ℝ × n) ⊕ ℕ → ℝ
  | .inl (s, a), .inl (t, b) => g.C s t a b
  | .inr i, .inr j => if i = j then R i else 0
  | _, _ => 0

/-- the space of random variables -/
abbrev Space (n : Type*) := ((ℝ × n) ⊕ ℕ) →₀ ℝ

/-- covariance form -/
noncomputable def B : LinearMap.BilinForm ℝ (Space n) :=
  Finsupp.linearCombination ℝ (fun a => Finsupp.linearCombination ℝ (g.gram R a))

/-- observed values -/
noncomputable def φ (n : Type*) (y : ℕ → ℝ) : Space n →ₗ[ℝ] ℝ :=
  Finsupp.linearCombination ℝ (Sum.elim (fun _ => 0) y)

/-- state at time `t` -/
noncomputable def x (t : ℝ) (a : n) : Space n := Finsupp.single (Sum.inl (t, a)) 1
/-- noise of observation `i` -/
noncomputable def r (i : ℕ) : Space n := Finsupp.single (Sum.inr i) 1

theorem gram_symm (a b) : g.gram R a b = g.gram R b a := by
  rcases a with ⟨s, a⟩ | i <;> rcases b with ⟨t, b⟩ | j
  · simp only [gram]; rw [← C_symm, transpose_apply]
  · rfl
  · rfl
  · simp only [gram]
    by_cases h : i = j
    · subst h; rfl
    · rw [if_neg h, if_neg (Ne.symm h)]

theorem B_single (a b : (ℝ × n) ⊕ ℕ) : g.B R (Finsupp.single a 1) (Finsupp.single b 1) = g.gram R a b := by
  simp [B]

theorem B_symm (u v : Space n) : g.B R u v = g.B R v u := by
  have : g.B R = (g.B R).flip := by
    ext a b
    simp only [LinearMap.coe_comp, Function.comp_apply, Finsupp.lsingle_apply]
    show _ = g.B R (Finsupp.single b 1) (Finsupp.single a 1)
    rw [B_single, B_single, gram_symm]
  conv_lhs => rw [this]
  rfl

theorem B_xx (s t : ℝ) (a b : n) : g.B R (x s a) (x t b) = g.C s t a b := g.B_single R _ _
theorem B_xr (s : ℝ) (a : n) (i : ℕ) : g.B R (x s a) (r i) = 0 := g.B_single R _ _
theorem B_rx (s : ℝ) (a : n) (i : ℕ) : g.B R (r i) (x s a) = 0 := g.B_single R _ _
theorem B_rr (i j : ℕ) : g.B R (r i) (r j) = if i = j then R i else 0 := g.B_single R _ _

theorem φ_x (t : ℝ) (a : n) : φ n y (x t a) = 0 := by simp [φ, x]
theorem φ_r (i : ℕ) : φ n y (r i) = y i := by simp [φ, r]

/-- increment from `s` to `t` -/
noncomputable def q (s t : ℝ) (a : n) : Space n := x t a - lin (g.A s t) (x s) a

theorem x_eq (s t : ℝ) (a : n) : x t a = lin (g.A s t) (x s) a + g.q s t a := by
  simp [q]

theorem B_qx {u s t : ℝ} (h1 : u ≤ s) (h2 : s ≤ t) (a b : n) : g.B R (g.q s t a) (x u b) = 0 := by
  rw [q, map_sub, LinearMap.sub_apply, B_lin_left, B_xx, g.C_of_ge (h1.trans h2), g.A_comp u s t h1 h2,
    sub_eq_zero, Matrix.mul_assoc, Matrix.mul_apply]
  exact Finset.sum_congr rfl fun j _ => by rw [B_xx, g.C_of_ge h1]

theorem B_qr (s t : ℝ) (a : n) (i : ℕ) : g.B R (g.q s t a) (r i) = 0 := by
  rw [q, map_sub, LinearMap.sub_apply, B_lin_left, B_xr]
  simp [B_xr]

theorem B_qq {s t : ℝ} (h : s ≤ t) (a b : n) : g.B R (g.q s t a) (g.q s t b) = g.Q s t a b := by
  conv_lhs => rw [q.eq_def g s t b]
  rw [map_sub, B_lin_right]
  have : ∑ j, g.A s t b j * g.B R (g.q s t a) (x s j) = 0 :=
    Finset.sum_eq_zero fun j _ => by rw [B_qx g R le_rfl h, mul_zero]
  rw [this, sub_zero, q, map_sub, LinearMap.sub_apply, B_lin_left, B_xx, C_self, Q, Matrix.sub_apply,
    Matrix.mul_assoc, Matrix.mul_apply]
  congr 1
  exact Finset.sum_congr rfl fun j _ => by rw [B_xx, g.C_of_le h]

/-- the chain of states at non-decreasing times, all observed -/
noncomputable def chain (τ : ℕ → ℝ) (hτ : Monotone τ) (H : ℕ → Matrix (Fin 1) n ℝ) :
    Chain (g.B R) (φ n y) n where
  x k := x (τ k)
  r := r
  q k := g.q (τ k) (τ (k + 1))
  T k := g.A (τ k) (τ (k + 1))
  Q k := g.Q (τ k) (τ (k + 1))
  isObs _ := true
  H := H
  R := R
  y := y
  symm := g.B_symm R
  step k a := g.x_eq _ _ a
  hq k j a b hj := g.B_qx R (hτ hj) (hτ (Nat.le_succ k)) a b
  hqr k j a := g.B_qr R _ _ a j
  hr k j b := g.B_rx R _ b k
  hrr i j h := by rw [B_rr, if_neg h]
  hQ k a b := (g.B_qq R (hτ (Nat.le_succ k)) a b).symm
  hR k := by rw [B_rr, if_pos rfl]
  hy k := by
    rw [map_add, φ_r, map_lin]
    simp [φ_x, mulVec, dotProduct]

end GM

namespace Chain
variable {V : Type*} [AddCommGroup V] [Module ℝ V] {B : LinearMap.BilinForm ℝ V} {φ : V →ₗ[ℝ] ℝ}
  (c : Chain B φ n)

theorem orth_future' {k N : ℕ} {e : V} (heU : ∀ u ∈ c.U k, B e u = 0)
    (hex : ∀ a, B e (c.x k a) = 0)
    (hq : ∀ j, k ≤ j → ∀ a, B (c.q j a) e = 0)
    (hr : ∀ j, k ≤ j → B (c.r j) e = 0) :
    ∀ u ∈ c.U N, B e u = 0 := by
  have hx : ∀ j, k ≤ j → ∀ a, B e (c.x j a) = 0 := by
    intro j hj
    induction j, hj using Nat.le_induction with
    | base => exact hex
    | succ j hj ih =>
      intro a
      rw [c.step, map_add, c.symm e (c.q j a), hq j hj, add_zero, B_lin_right]
      exact Finset.sum_eq_zero fun i _ => by rw [ih, mul_zero]
  by_cases hkN : N ≤ k
  · exact fun u hu => heU u (c.U_mono hkN hu)
  induction N with
  | zero => omega
  | succ N ih =>
    have h0 : ∀ u ∈ c.U N, B e u = 0 := by
      by_cases h : N ≤ k
      · exact fun u hu => heU u (c.U_mono h hu)
      · exact ih h
    simp only [U]
    split_ifs
    · refine orth_addObs h0 ?_
      rw [Y, map_add, c.symm e (c.r N), hr N (by omega), add_zero, B_lin_right]
      exact Finset.sum_eq_zero fun i _ => by rw [hx N (by omega), mul_zero]
    · exact h0

/-- A variable between two steps of the chain can be smoothed from the next step. -/
theorem smooth_at {k N : ℕ} (hk : k ≤ N) {z zh q2 : n → V} {mz : n → ℝ} {Pz A2 Q2 : Matrix n n ℝ}
    (hz : IsEst B φ (c.U k) z zh mz Pz) (hx : ∀ a, c.x k a = lin A2 z a + q2 a)
    (hqU : ∀ a, ∀ u ∈ c.U k, B (q2 a) u = 0) (hqz : ∀ a b, B (q2 a) (z b) = 0)
    (hQ : ∀ a b, Q2 a b = B (q2 a) (q2 b))
    (hfq : ∀ j, k ≤ j → ∀ a b, B (c.q j a) (z b) = 0) (hfr : ∀ j, k ≤ j → ∀ b, B (c.r j) (z b) = 0)
    {ms : n → ℝ} {Ps : Matrix n n ℝ} {Xh : n → V} (hs : IsEst B φ (c.U N) (c.x k) Xh ms Ps)
    (G : Matrix n n ℝ) (hG : G * (A2 * Pz * A2ᵀ + Q2) = Pz * A2ᵀ) :
    ∃ zh', IsEst B φ (c.U N) z zh' (mz + G *ᵥ (ms - A2 *ᵥ mz))
      (Pz + G * (Ps - (A2 * Pz * A2ᵀ + Q2)) * Gᵀ) := by
  refine ⟨_, IsEst.smooth c.symm (c.U_mono hk) hz hx hqU hqz hQ ?_ hs G hG⟩
  rintro e heU hex ⟨d, d', u, hu, he⟩
  refine c.orth_future' heU hex (fun j hj a => ?_) (fun j hj => ?_)
  · rw [he, map_add, map_add, map_sum, map_sum, c.orth_U (k := k) (fun i hi b => c.hq j i a b (by omega))
      (fun i _ => c.hqr j i a) u hu]
    simp only [map_smul, hfq j hj, c.hq j k a _ hj]
    simp
  · rw [he, map_add, map_add, map_sum, map_sum, c.r_orth_U hj u hu]
    simp only [map_smul, hfr j hj, c.hr j]
    simp

end Chain
end Verif
