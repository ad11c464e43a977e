import Verif.Model.Kalman
import Mathlib.LinearAlgebra.BilinearForm.Properties
import Mathlib.LinearAlgebra.Span.Basic

/-!
# Linear estimation in a space of random variables

`V` is a real vector space of (formal, zero-mean) random variables, `B` its covariance form,
`φ` the functional which assigns observed values to observations. `Est B φ U X m P` says: `m` and `P`
are mean and covariance of the best linear estimate of the vector `X` from the observation space `U`.
-/

set_option linter.unusedSectionVars false
set_option linter.unusedSimpArgs false

namespace Verif
open Matrix

variable {V : Type*} [AddCommGroup V] [Module ℝ V]
variable {n m : Type*} [Fintype n]

/-- matrix applied to a vector of elements of `V` -/
def lin (A : Matrix m n ℝ) (X : n → V) : m → V := fun i => ∑ j, A i j • X j

theorem lin_sub (A : Matrix m n ℝ) (X X' : n → V) (a : m) :
    lin A (fun a => X a - X' a) a = lin A X a - lin A X' a := by
  simp [lin, smul_sub, Finset.sum_sub_distrib]

theorem B_lin_left (B : LinearMap.BilinForm ℝ V) (A : Matrix m n ℝ) (X : n → V) (a : m) (v : V) :
    B (lin A X a) v = ∑ j, A a j * B (X j) v := by
  simp [lin, LinearMap.sum_apply]

theorem B_lin_right (B : LinearMap.BilinForm ℝ V) (A : Matrix m n ℝ) (X : n → V) (a : m) (v : V) :
    B v (lin A X a) = ∑ j, A a j * B v (X j) := by
  simp [lin]

theorem map_lin (φ : V →ₗ[ℝ] ℝ) (A : Matrix m n ℝ) (X : n → V) (a : m) :
    φ (lin A X a) = (A *ᵥ (fun b => φ (X b))) a := by
  simp [lin, mulVec, dotProduct]

theorem lin_lin {l : Type*} [Fintype m] (A : Matrix l m ℝ) (A' : Matrix m n ℝ) (X : n → V) :
    lin A (lin A' X) = lin (A * A') X := by
  funext i
  simp only [lin, Matrix.mul_apply, Finset.smul_sum, Finset.sum_smul, smul_smul]
  rw [Finset.sum_comm]

theorem lin_one [DecidableEq n] (X : n → V) : lin (1 : Matrix n n ℝ) X = X := by
  funext i
  simp [lin, Matrix.one_apply]

theorem lin_mem (U : Submodule ℝ V) (A : Matrix m n ℝ) (X : n → V) (h : ∀ a, X a ∈ U) (a : m) :
    lin A X a ∈ U := by
  unfold lin
  exact Submodule.sum_mem _ fun j _ => Submodule.smul_mem _ _ (h j)

/-- covariance matrix of two vectors of random variables -/
def cov (B : LinearMap.BilinForm ℝ V) (X : m → V) (Y : n → V) : Matrix m n ℝ :=
  Matrix.of fun a b => B (X a) (Y b)

theorem cov_lin_left {l : Type*} [Fintype m] (B : LinearMap.BilinForm ℝ V) (A : Matrix l m ℝ) (X : m → V)
    (Y : n → V) : cov B (lin A X) Y = A * cov B X Y := by
  ext a b; simp [cov, Matrix.mul_apply, B_lin_left]

theorem cov_lin_right {l : Type*} (B : LinearMap.BilinForm ℝ V) (A : Matrix l n ℝ) (X : m → V)
    (Y : n → V) : cov B X (lin A Y) = cov B X Y * Aᵀ := by
  ext a b; simp [cov, Matrix.mul_apply, B_lin_right, mul_comm]

/-- Best linear estimate of `X` from the observation space `U`. -/
structure IsEst (B : LinearMap.BilinForm ℝ V) (φ : V →ₗ[ℝ] ℝ) (U : Submodule ℝ V)
    (X : n → V) (Xh : n → V) (mu : n → ℝ) (P : Matrix n n ℝ) : Prop where
  mem : ∀ a, Xh a ∈ U
  mean : ∀ a, mu a = φ (Xh a)
  orth : ∀ a, ∀ u ∈ U, B (X a - Xh a) u = 0
  cov : ∀ a b, P a b = B (X a - Xh a) (X b)

def Est (B : LinearMap.BilinForm ℝ V) (φ : V →ₗ[ℝ] ℝ) (U : Submodule ℝ V)
    (X : n → V) (mu : n → ℝ) (P : Matrix n n ℝ) : Prop := ∃ Xh, IsEst B φ U X Xh mu P

variable {B : LinearMap.BilinForm ℝ V} {φ : V →ₗ[ℝ] ℝ} {U : Submodule ℝ V}

theorem IsEst.symm (hB : ∀ u v, B u v = B v u) {X Xh : n → V} {mu : n → ℝ} {P : Matrix n n ℝ}
    (h : IsEst B φ U X Xh mu P) : Pᵀ = P := by
  ext a b
  have h1 : B (X b - Xh b) (Xh a) = 0 := h.orth b _ (h.mem a)
  have h2 : B (X a - Xh a) (Xh b) = 0 := h.orth a _ (h.mem b)
  have e1 : B (X b - Xh b) (X a) = B (X b - Xh b) (X a - Xh a) := by
    rw [map_sub (B (X b - Xh b)), h1, sub_zero]
  have e2 : B (X a - Xh a) (X b) = B (X a - Xh a) (X b - Xh b) := by
    rw [map_sub (B (X a - Xh a)), h2, sub_zero]
  rw [transpose_apply, h.cov, h.cov, e1, e2, hB]

/-- no observations: prior -/
theorem IsEst.prior (X : n → V) (P : Matrix n n ℝ) (hP : ∀ a b, P a b = B (X a) (X b)) :
    IsEst B φ ⊥ X (fun _ => 0) (fun _ => 0) P where
  mem a := by simp
  mean a := by simp
  orth a u hu := by
    rw [Submodule.mem_bot] at hu
    simp [hu]
  cov a b := by simp [hP]

/-- linear transformation -/
theorem IsEst.linMap {X Xh : n → V} {mu : n → ℝ} {P : Matrix n n ℝ}
    (h : IsEst B φ U X Xh mu P) (A : Matrix m n ℝ) :
    IsEst B φ U (lin A X) (lin A Xh) (A *ᵥ mu) (A * P * Aᵀ) where
  mem a := lin_mem _ _ _ h.mem a
  mean a := by
    rw [map_lin]
    congr 2
    funext b
    exact h.mean b
  orth a u hu := by
    rw [← lin_sub, B_lin_left]
    exact Finset.sum_eq_zero fun j _ => by rw [h.orth j u hu, mul_zero]
  cov a b := by
    rw [← lin_sub, B_lin_left]
    simp only [B_lin_right, Matrix.mul_apply, transpose_apply, Finset.sum_mul, Finset.mul_sum, h.cov]
    rw [Finset.sum_comm]
    refine Finset.sum_congr rfl fun i _ => Finset.sum_congr rfl fun j _ => ?_
    ring

/-- independent noise -/
theorem IsEst.addNoise (hB : ∀ u v, B u v = B v u) {X Xh : n → V} {mu : n → ℝ}
    {P Q : Matrix n n ℝ} {q : n → V} (h : IsEst B φ U X Xh mu P)
    (hqU : ∀ a, ∀ u ∈ U, B (q a) u = 0) (hqX : ∀ a b, B (q a) (X b) = 0)
    (hQ : ∀ a b, Q a b = B (q a) (q b)) :
    IsEst B φ U (fun a => X a + q a) Xh mu (P + Q) where
  mem := h.mem
  mean := h.mean
  orth a u hu := by
    have := h.orth a u hu
    rw [add_sub_right_comm, map_add, LinearMap.add_apply, this, hqU a u hu, add_zero]
  cov a b := by
    have e1 : B (Xh a) (q b) = 0 := by rw [hB]; exact hqU b _ (h.mem a)
    have e2 : B (X a) (q b) = 0 := by rw [hB]; exact hqX b a
    rw [Matrix.add_apply, h.cov, hQ]
    have e3 := hqX a b
    simp only [map_sub, map_add, LinearMap.sub_apply, LinearMap.add_apply]
    linarith

/-- the observation space after one more observation -/
def addObs (U : Submodule ℝ V) (Yi : V) : Submodule ℝ V := U ⊔ Submodule.span ℝ {Yi}

theorem mem_addObs_self (U : Submodule ℝ V) (Yi : V) : Yi ∈ addObs U Yi :=
  Submodule.mem_sup_right (Submodule.mem_span_singleton_self _)

theorem le_addObs (U : Submodule ℝ V) (Yi : V) : U ≤ addObs U Yi := le_sup_left

theorem orth_addObs {w : V} {Yi : V} (h1 : ∀ u ∈ U, B w u = 0) (h2 : B w Yi = 0) :
    ∀ u ∈ addObs U Yi, B w u = 0 := by
  intro u hu
  obtain ⟨a, ha, b, hb, rfl⟩ := Submodule.mem_sup.1 hu
  obtain ⟨c, rfl⟩ := Submodule.mem_span_singleton.1 hb
  simp [h1 a ha, h2]

theorem lin_apply_one (H : Matrix (Fin 1) n ℝ) (X : n → V) : lin H X 0 = ∑ j, H 0 j • X j := rfl

/-- The measurement update for a scalar observation `Y = H X + r`. -/
theorem IsEst.measure (hB : ∀ u v, B u v = B v u) {X Xh : n → V} {mu : n → ℝ} {P : Matrix n n ℝ}
    (h : IsEst B φ U X Xh mu P) (H : Matrix (Fin 1) n ℝ) {Yi r : V} {R yi : ℝ}
    (hY : Yi = lin H X 0 + r) (hφ : φ Yi = yi)
    (hrU : ∀ u ∈ U, B r u = 0) (hrX : ∀ b, B r (X b) = 0) (hR : B r r = R)
    (K : Matrix n (Fin 1) ℝ)
    (hK : ∀ a, K a 0 * ((H * P * Hᵀ) 0 0 + R) = (P * Hᵀ) a 0) :
    IsEst B φ (addObs U Yi) X (fun a => Xh a + K a 0 • (Yi - lin H Xh 0))
      (fun a => mu a + K a 0 * (yi - (H *ᵥ mu) 0))
      (fun a b => P a b - K a 0 * ((H * P * Hᵀ) 0 0 + R) * K b 0) := by
  have hXhr : ∀ b, B r (Xh b) = 0 := fun b => hrU _ (h.mem b)
  -- the innovation
  have hinn : Yi - lin H Xh 0 = lin H (fun a => X a - Xh a) 0 + r := by
    rw [hY, lin_sub]; abel
  set e : V := Yi - lin H Xh 0 with he
  have heU : ∀ u ∈ U, B e u = 0 := by
    intro u hu
    rw [hinn, map_add, LinearMap.add_apply, hrU u hu, B_lin_left, add_zero]
    exact Finset.sum_eq_zero fun j _ => by rw [h.orth j u hu, mul_zero]
  have heX : ∀ b, B e (X b) = (H * P) 0 b := by
    intro b
    rw [hinn, map_add, LinearMap.add_apply, hrX b, B_lin_left, add_zero, Matrix.mul_apply]
    exact Finset.sum_congr rfl fun j _ => by rw [h.cov]
  have hXY : ∀ a, B (X a - Xh a) Yi = (P * Hᵀ) a 0 := by
    intro a
    have hr : B (X a - Xh a) r = 0 := by
      rw [map_sub, LinearMap.sub_apply, hB (X a) r, hB (Xh a) r, hrX, hXhr, sub_zero]
    rw [hY, map_add, hr, add_zero, B_lin_right, Matrix.mul_apply]
    exact Finset.sum_congr rfl fun j _ => by rw [h.cov, transpose_apply, mul_comm]
  have heY : B e Yi = (H * P * Hᵀ) 0 0 + R := by
    have her : B e r = R := by
      rw [hinn, map_add, LinearMap.add_apply, hR, B_lin_left]
      have : ∑ j, H 0 j * B (X j - Xh j) r = 0 := Finset.sum_eq_zero fun j _ => by
        rw [map_sub, LinearMap.sub_apply, hB (X j) r, hB (Xh j) r, hrX, hXhr]; simp
      rw [this, zero_add]
    rw [hY, map_add, her, B_lin_right, Matrix.mul_apply]
    congr 1
    exact Finset.sum_congr rfl fun j _ => by rw [heX, transpose_apply, mul_comm]
  have hPs := h.symm hB
  refine ⟨fun a => ?_, fun a => ?_, fun a => ?_, fun a b => ?_⟩
  · refine Submodule.add_mem _ (le_addObs _ _ (h.mem a)) (Submodule.smul_mem _ _ ?_)
    exact Submodule.sub_mem _ (mem_addObs_self _ _) (le_addObs _ _ (lin_mem _ _ _ h.mem 0))
  · rw [map_add, map_smul, he, map_sub, hφ, map_lin, h.mean a, smul_eq_mul]
    have : (fun b => φ (Xh b)) = mu := by funext b; rw [h.mean b]
    rw [this]
  · refine orth_addObs (fun u hu => ?_) ?_
    · rw [← sub_sub, map_sub, LinearMap.sub_apply, h.orth a u hu, map_smul, LinearMap.smul_apply,
        heU u hu]
      simp
    · rw [← sub_sub, map_sub, LinearMap.sub_apply, hXY, map_smul, LinearMap.smul_apply, heY,
        smul_eq_mul, hK, sub_self]
  · rw [← sub_sub, map_sub, LinearMap.sub_apply, ← h.cov, map_smul, LinearMap.smul_apply, heX,
      smul_eq_mul, mul_assoc]
    congr 2
    rw [mul_comm, hK]
    rw [Matrix.mul_apply, Matrix.mul_apply]
    refine Finset.sum_congr rfl fun j _ => ?_
    have : P b j = P j b := by conv_lhs => rw [← hPs, transpose_apply]
    rw [transpose_apply, this, mul_comm]

/-- The RTS step. `X` at step `k`, `X'` at step `k+1`; `U` the observations up to `k`, `T` all
observations. Every `u ∈ T` is, modulo something orthogonal to the estimation error at `k`, a linear
function of `X'` (hypothesis `hT`). -/
theorem IsEst.smooth [DecidableEq n] (hB : ∀ u v, B u v = B v u)
    {X Xh X' : n → V} {mu : n → ℝ} {P : Matrix n n ℝ} {A Q : Matrix n n ℝ} {q : n → V}
    {T : Submodule ℝ V} (hUT : U ≤ T)
    (h : IsEst B φ U X Xh mu P)
    (hX' : ∀ a, X' a = lin A X a + q a)
    (hqU : ∀ a, ∀ u ∈ U, B (q a) u = 0) (hqX : ∀ a b, B (q a) (X b) = 0)
    (hQ : ∀ a b, Q a b = B (q a) (q b))
    (hT : ∀ e : V, (∀ u ∈ U, B e u = 0) → (∀ a, B e (X' a) = 0) →
      (∃ c : n → ℝ, ∃ c' : n → ℝ, ∃ u ∈ U, e = ∑ a, c a • X a + ∑ a, c' a • X' a + u) →
      ∀ u ∈ T, B e u = 0)
    {Xh' : n → V} {mu' : n → ℝ} {P' : Matrix n n ℝ}
    (h' : IsEst B φ T X' Xh' mu' P')
    (G : Matrix n n ℝ) (hG : G * (A * P * Aᵀ + Q) = P * Aᵀ) :
    IsEst B φ T X (fun a => Xh a + lin G (fun b => Xh' b - lin A Xh b) a)
      (mu + G *ᵥ (mu' - A *ᵥ mu)) (P + G * (P' - (A * P * Aᵀ + Q)) * Gᵀ) := by
  have hX'f : X' = fun a => lin A X a + q a := funext hX'
  -- predicted estimate of X' from U
  have hp : IsEst B φ U X' (lin A Xh) (A *ᵥ mu) (A * P * Aᵀ + Q) := by
    rw [hX'f]
    refine (h.linMap A).addNoise hB hqU (fun a b => ?_) hQ
    rw [B_lin_right]
    exact Finset.sum_eq_zero fun j _ => by rw [hqX, mul_zero]
  have hPs := h.symm hB
  have hPps := hp.symm hB
  have hP's := h'.symm hB
  -- the smoothing residual
  set e : n → V := fun a => X a - Xh a - lin G (fun b => X' b - lin A Xh b) a with he
  have heU : ∀ a, ∀ u ∈ U, B (e a) u = 0 := by
    intro a u hu
    simp only [he]
    rw [map_sub, LinearMap.sub_apply, h.orth a u hu, B_lin_left, zero_sub, neg_eq_zero]
    exact Finset.sum_eq_zero fun j _ => by rw [hp.orth j u hu, mul_zero]
  have hXX' : ∀ a b, B (X a - Xh a) (X' b) = (P * Aᵀ) a b := by
    intro a b
    have hq : B (X a - Xh a) (q b) = 0 := by
      rw [map_sub, LinearMap.sub_apply, hB (X a), hB (Xh a), hqX, hqU b _ (h.mem a), sub_zero]
    rw [hX', map_add, hq, add_zero, B_lin_right, Matrix.mul_apply]
    exact Finset.sum_congr rfl fun j _ => by rw [h.cov, transpose_apply, mul_comm]
  have heX' : ∀ a b, B (e a) (X' b) = 0 := by
    intro a b
    simp only [he]
    rw [map_sub, LinearMap.sub_apply, hXX', B_lin_left, ← hG, Matrix.mul_apply, sub_eq_zero]
    exact Finset.sum_congr rfl fun j _ => by rw [hp.cov]
  have heT : ∀ a, ∀ u ∈ T, B (e a) u = 0 := by
    intro a
    refine hT (e a) (heU a) (heX' a) ?_
    refine ⟨fun b => if b = a then 1 else 0, fun b => - G a b,
      - Xh a + lin G (lin A Xh) a, ?_, ?_⟩
    · exact Submodule.add_mem _ (Submodule.neg_mem _ (h.mem a))
        (lin_mem _ _ _ (lin_mem _ _ _ h.mem) a)
    · simp only [he, lin_sub]
      simp only [ite_smul, one_smul, zero_smul, Finset.sum_ite_eq', Finset.mem_univ, if_true,
        neg_smul, Finset.sum_neg_distrib, lin]
      abel
  have hdec : ∀ a, X a - (Xh a + lin G (fun b => Xh' b - lin A Xh b) a)
      = e a + lin G (fun b => X' b - Xh' b) a := by
    intro a
    simp only [he, lin_sub]
    abel
  refine ⟨fun a => ?_, fun a => ?_, fun a u hu => ?_, fun a b => ?_⟩
  · refine Submodule.add_mem _ (hUT (h.mem a)) (lin_mem _ _ _ (fun b => ?_) a)
    exact Submodule.sub_mem _ (h'.mem b) (hUT (lin_mem _ _ _ h.mem b))
  · rw [map_add, map_lin, Pi.add_apply, h.mean a]
    congr 2
    funext b
    rw [Pi.sub_apply, map_sub, h'.mean b, hp.mean b]
  · rw [hdec, map_add, LinearMap.add_apply, heT a u hu, zero_add, B_lin_left]
    exact Finset.sum_eq_zero fun j _ => by rw [h'.orth j u hu, mul_zero]
  · rw [hdec, map_add, LinearMap.add_apply]
    have h1 : B (e a) (X b) = P a b - (G * (A * P)) a b := by
      simp only [he]
      rw [map_sub, LinearMap.sub_apply, ← h.cov, B_lin_left, Matrix.mul_apply]
      congr 1
      refine Finset.sum_congr rfl fun j _ => ?_
      congr 1
      have hq : B (q j) (X b) = 0 := hqX j b
      rw [hX', add_sub_right_comm, map_add, LinearMap.add_apply, hq, add_zero, ← lin_sub,
        B_lin_left, Matrix.mul_apply]
      exact Finset.sum_congr rfl fun i _ => by rw [h.cov]
    have h2 : ∀ j, B (X' j - Xh' j) (X b) = (P' * Gᵀ) j b := by
      intro j
      have hXb : X b = e b + (Xh b - lin G (lin A Xh) b) + lin G X' b := by
        simp only [he, lin_sub]; abel
      have z1 : B (X' j - Xh' j) (e b) = 0 := by
        rw [hB, map_sub, heX', heT b _ (h'.mem j), sub_zero]
      have z2 : B (X' j - Xh' j) (Xh b - lin G (lin A Xh) b) = 0 :=
        h'.orth j _ (hUT (Submodule.sub_mem _ (h.mem b) (lin_mem _ _ _ (lin_mem _ _ _ h.mem) b)))
      rw [hXb, map_add, map_add, z1, z2, zero_add, zero_add, B_lin_right, Matrix.mul_apply]
      exact Finset.sum_congr rfl fun i _ => by rw [h'.cov, transpose_apply, mul_comm]
    rw [h1, B_lin_left]
    have h3 : ∑ j, G a j * B (X' j - Xh' j) (X b) = (G * (P' * Gᵀ)) a b := by
      rw [Matrix.mul_apply]
      exact Finset.sum_congr rfl fun j _ => by rw [h2]
    rw [h3]
    have hGA : G * (A * P * Aᵀ + Q) * Gᵀ = G * (A * P) := by
      have : (A * P * Aᵀ + Q) * Gᵀ = A * P := by
        have := congrArg transpose hG
        rw [transpose_mul, transpose_mul, transpose_transpose, hPps, hPs] at this
        exact this
      rw [Matrix.mul_assoc, this]
    have : P + G * (P' - (A * P * Aᵀ + Q)) * Gᵀ = P - G * (A * P) + G * (P' * Gᵀ) := by
      rw [Matrix.mul_sub, Matrix.sub_mul, hGA, Matrix.mul_assoc]
      abel
    rw [this]
    simp [Matrix.add_apply, Matrix.sub_apply]

end Verif
