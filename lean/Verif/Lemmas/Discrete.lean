import Verif.Spec.Discrete
import Verif.Lemmas.GM
import Mathlib.Algebra.Order.Floor.Semiring

/-!
# Discrete-time linear systems as Gauss-Markov processes
-/

set_option linter.unusedSectionVars false

namespace Verif
open Matrix Spec

variable {n : Type*} [Fintype n] [DecidableEq n]

theorem propagator_self (T : ℕ → Matrix n n ℝ) (i : ℕ) : propagator T i i = 1 := by
  cases i with
  | zero => rfl
  | succ i => rw [propagator, if_neg (by omega)]

theorem propagator_succ (T : ℕ → Matrix n n ℝ) {i j : ℕ} (h : i ≤ j) :
    propagator T i (j + 1) = T j * propagator T i j := by rw [propagator, if_pos h]

theorem propagator_one (T : ℕ → Matrix n n ℝ) (i : ℕ) : propagator T i (i + 1) = T i := by
  rw [propagator_succ T le_rfl, propagator_self, Matrix.mul_one]

theorem propagator_comp (T : ℕ → Matrix n n ℝ) {i j k : ℕ} (h1 : i ≤ j) (h2 : j ≤ k) :
    propagator T i k = propagator T j k * propagator T i j := by
  induction k, h2 using Nat.le_induction with
  | base => rw [propagator_self, Matrix.one_mul]
  | succ k hk ih => rw [propagator_succ T (h1.trans hk), propagator_succ T hk, ih, Matrix.mul_assoc]

theorem marginalCov_symm {T Q : ℕ → Matrix n n ℝ} {P0 : Matrix n n ℝ} (hQ : ∀ k, (Q k)ᵀ = Q k) (h0 : P0ᵀ = P0) (k : ℕ) :
    (marginalCov T Q P0 k)ᵀ = marginalCov T Q P0 k := by
  induction k with
  | zero => exact h0
  | succ k ih =>
    rw [marginalCov, transpose_add, transpose_mul, transpose_mul, transpose_transpose, ih, hQ, Matrix.mul_assoc]

/-- a discrete-time system, as a process in continuous time that is constant between the integers -/
noncomputable def discreteGM (T Q : ℕ → Matrix n n ℝ) (P0 : Matrix n n ℝ) (hQ : ∀ k, (Q k)ᵀ = Q k) (h0 : P0ᵀ = P0) : GM n where
  A s t := propagator T ⌊s⌋₊ ⌊t⌋₊
  P t := marginalCov T Q P0 ⌊t⌋₊
  A_self _ := propagator_self T _
  A_comp _ _ _ h1 h2 := propagator_comp T (Nat.floor_mono h1) (Nat.floor_mono h2)
  P_symm _ := marginalCov_symm hQ h0 _

section
variable {T Q : ℕ → Matrix n n ℝ} {P0 : Matrix n n ℝ} (hQ : ∀ k, (Q k)ᵀ = Q k) (h0 : P0ᵀ = P0)

theorem discreteGM_C (i j : ℕ) : (discreteGM T Q P0 hQ h0).C i j = stateCov T Q P0 i j := by
  unfold stateCov
  split_ifs with h
  · rw [GM.C_of_le _ (Nat.cast_le.2 h)]
    simp [discreteGM]
  · rw [GM.C_of_ge _ (Nat.cast_le.2 (by omega))]
    simp [discreteGM]

theorem discreteGM_A (k : ℕ) : (discreteGM T Q P0 hQ h0).A k (k + 1 : ℕ) = T k := by
  show propagator T _ _ = _
  rw [Nat.floor_natCast, Nat.floor_natCast, propagator_one]

theorem discreteGM_Q (k : ℕ) : (discreteGM T Q P0 hQ h0).Q k (k + 1 : ℕ) = Q k := by
  unfold GM.Q
  rw [discreteGM_A]
  show marginalCov T Q P0 _ - T k * marginalCov T Q P0 _ * _ = _
  rw [Nat.floor_natCast, Nat.floor_natCast, marginalCov]
  abel

/-- the chain of a discrete-time system with some of its steps observed -/
noncomputable def discreteChain (hQ : ∀ k, (Q k)ᵀ = Q k) (h0 : P0ᵀ = P0) (isObs : ℕ → Bool) (H : ℕ → Matrix (Fin 1) n ℝ) (R y : ℕ → ℝ) :
    Chain ((discreteGM T Q P0 hQ h0).B R) (GM.φ n y) n where
  __ := (discreteGM T Q P0 hQ h0).chain R y (fun k : ℕ => (k : ℝ)) Nat.mono_cast H
  isObs := isObs

theorem discreteChain_T (isObs : ℕ → Bool) (H : ℕ → Matrix (Fin 1) n ℝ) (R y : ℕ → ℝ) (k : ℕ) :
    (discreteChain (T := T) hQ h0 isObs H R y).T k = T k := discreteGM_A hQ h0 k

theorem discreteChain_Q (isObs : ℕ → Bool) (H : ℕ → Matrix (Fin 1) n ℝ) (R y : ℕ → ℝ) (k : ℕ) :
    (discreteChain (T := T) hQ h0 isObs H R y).Q k = Q k := discreteGM_Q hQ h0 k

theorem discreteChain_xx (isObs : ℕ → Bool) (H : ℕ → Matrix (Fin 1) n ℝ) (R y : ℕ → ℝ) (i j : ℕ) (a b : n) :
    (discreteGM T Q P0 hQ h0).B R ((discreteChain (T := T) hQ h0 isObs H R y).x i a) ((discreteChain (T := T) hQ h0 isObs H R y).x j b) =
      stateCov T Q P0 i j a b := by
  rw [← discreteGM_C hQ h0]
  exact GM.B_xx _ R _ _ a b

/-- covariance of linear functions of vectors of variables -/
theorem B_lin_lin {V : Type*} [AddCommGroup V] [Module ℝ V] (B : LinearMap.BilinForm ℝ V) {m m' : Type*} [Fintype m] [Fintype m']
    (H : Matrix (Fin 1) m ℝ) (H' : Matrix (Fin 1) m' ℝ) (X : m → V) (X' : m' → V) (C : Matrix m m' ℝ)
    (hC : ∀ a b, B (X a) (X' b) = C a b) : B (lin H X 0) (lin H' X' 0) = (H * C * H'ᵀ) 0 0 := by
  rw [Matrix.mul_assoc, Matrix.mul_apply, B_lin_left]
  refine Finset.sum_congr rfl fun i _ => ?_
  rw [B_lin_right, Matrix.mul_apply]
  congr 1
  exact Finset.sum_congr rfl fun j _ => by rw [hC, transpose_apply, mul_comm]

theorem discreteChain_YY (isObs : ℕ → Bool) (H : ℕ → Matrix (Fin 1) n ℝ) (R y : ℕ → ℝ) (i j : ℕ) :
    (discreteGM T Q P0 hQ h0).B R ((discreteChain (T := T) hQ h0 isObs H R y).Y i) ((discreteChain (T := T) hQ h0 isObs H R y).Y j) =
      (H i * stateCov T Q P0 i j * (H j)ᵀ) 0 0 + if i = j then R i else 0 := by
  set c := discreteChain (T := T) hQ h0 isObs H R y with hc
  unfold Chain.Y
  simp only [map_add, LinearMap.add_apply]
  have e1 : (discreteGM T Q P0 hQ h0).B R (c.r i) (lin (c.H j) (c.x j) 0) = 0 := by
    rw [B_lin_right]; exact Finset.sum_eq_zero fun b _ => by rw [c.hr, mul_zero]
  have e2 : (discreteGM T Q P0 hQ h0).B R (lin (c.H i) (c.x i) 0) (c.r j) = 0 := by
    rw [c.symm, B_lin_right]; exact Finset.sum_eq_zero fun b _ => by rw [c.hr, mul_zero]
  have e3 : (discreteGM T Q P0 hQ h0).B R (c.r i) (c.r j) = if i = j then R i else 0 := GM.B_rr _ R i j
  rw [e1, e2, e3, zero_add, add_zero]
  congr 1
  exact B_lin_lin _ (H i) (H j) _ _ _ (discreteChain_xx hQ h0 isObs H R y i j)

theorem discreteChain_xY (isObs : ℕ → Bool) (H : ℕ → Matrix (Fin 1) n ℝ) (R y : ℕ → ℝ) (h : Matrix (Fin 1) n ℝ) (i j : ℕ) :
    (discreteGM T Q P0 hQ h0).B R (lin h ((discreteChain (T := T) hQ h0 isObs H R y).x i) 0)
      ((discreteChain (T := T) hQ h0 isObs H R y).Y j) = (h * stateCov T Q P0 i j * (H j)ᵀ) 0 0 := by
  set c := discreteChain (T := T) hQ h0 isObs H R y with hc
  unfold Chain.Y
  rw [map_add]
  have e2 : (discreteGM T Q P0 hQ h0).B R (lin h (c.x i) 0) (c.r j) = 0 := by
    rw [c.symm, B_lin_right]; exact Finset.sum_eq_zero fun b _ => by rw [c.hr, mul_zero]
  rw [e2, add_zero]
  exact B_lin_lin _ h (H j) _ _ _ (discreteChain_xx hQ h0 isObs H R y i j)

end

/-- the second moments of any chain are those of its transition and noise matrices -/
theorem Chain.xx {V : Type*} [AddCommGroup V] [Module ℝ V] {B : LinearMap.BilinForm ℝ V} {φ : V →ₗ[ℝ] ℝ} (c : Chain B φ n)
    {P0 : Matrix n n ℝ} (h0 : ∀ a b, P0 a b = B (c.x 0 a) (c.x 0 b)) (i j : ℕ) (a b : n) :
    B (c.x i a) (c.x j b) = stateCov c.T c.Q P0 i j a b := by
  have hd : ∀ k a b, B (c.x k a) (c.x k b) = marginalCov c.T c.Q P0 k a b := by
    intro k
    induction k with
    | zero => intro a b; exact (h0 a b).symm
    | succ k ih =>
      intro a b
      have e1 : B (lin (c.T k) (c.x k) a) (c.q k b) = 0 := by
        rw [c.symm, B_lin_right]; exact Finset.sum_eq_zero fun i _ => by rw [c.hq k k b i le_rfl, mul_zero]
      have e2 : B (c.q k a) (lin (c.T k) (c.x k) b) = 0 := by
        rw [B_lin_right]; exact Finset.sum_eq_zero fun i _ => by rw [c.hq k k a i le_rfl, mul_zero]
      rw [c.step, c.step]
      simp only [map_add, LinearMap.add_apply]
      rw [e1, e2, ← c.hQ, marginalCov, Matrix.add_apply, zero_add, add_zero]
      congr 1
      rw [Matrix.mul_assoc, Matrix.mul_apply, B_lin_left]
      refine Finset.sum_congr rfl fun i _ => ?_
      rw [B_lin_right, Matrix.mul_apply]
      congr 1
      exact Finset.sum_congr rfl fun j _ => by rw [ih, transpose_apply, mul_comm]
  have hle : ∀ i j, i ≤ j → ∀ a b, B (c.x i a) (c.x j b) = (marginalCov c.T c.Q P0 i * (propagator c.T i j)ᵀ) a b := by
    intro i j hij
    induction j, hij using Nat.le_induction with
    | base => intro a b; rw [hd, propagator_self, transpose_one, Matrix.mul_one]
    | succ j hj ih =>
      intro a b
      rw [c.step, map_add, c.symm _ (c.q j b), c.hq j i b a hj, add_zero, propagator_succ _ hj, transpose_mul,
        ← Matrix.mul_assoc, Matrix.mul_apply, B_lin_right]
      exact Finset.sum_congr rfl fun l _ => by rw [ih, transpose_apply, mul_comm]
  unfold stateCov
  split_ifs with h
  · exact hle i j h a b
  · rw [c.symm, hle j i (by omega) b a]
    have hs : (marginalCov c.T c.Q P0 j)ᵀ = marginalCov c.T c.Q P0 j := by
      ext a b; rw [transpose_apply, ← hd, ← hd, c.symm]
    rw [← transpose_apply (_ * _), transpose_mul, transpose_transpose, hs]

end Verif
