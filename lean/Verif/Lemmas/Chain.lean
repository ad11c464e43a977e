import Verif.Lemmas.Gram

/-!
# Linear-Gaussian chains

A chain of state vectors `x (k+1) = T k x k + q k` some of which are observed through
`Y k = H k x k + r k`. The Kalman recursion computes best linear estimates, the RTS recursion smooths them,
and the innovations orthogonalise the observations. Both the instantaneous and the integrated solver are
instances (for the latter, `T k = A k * Reset` at exposure starts).
-/

set_option linter.unusedSectionVars false

namespace Verif
open Matrix

variable {V : Type*} [AddCommGroup V] [Module ℝ V]
variable {n : Type*} [Fintype n] [DecidableEq n]

structure Chain (B : LinearMap.BilinForm ℝ V) (φ : V →ₗ[ℝ] ℝ) (n : Type*) [Fintype n] where
  x : ℕ → n → V
  r : ℕ → V
  q : ℕ → n → V
  T : ℕ → Matrix n n ℝ
  Q : ℕ → Matrix n n ℝ
  isObs : ℕ → Bool
  H : ℕ → Matrix (Fin 1) n ℝ
  R : ℕ → ℝ
  y : ℕ → ℝ
  symm : ∀ u v, B u v = B v u
  step : ∀ k a, x (k + 1) a = lin (T k) (x k) a + q k a
  hq : ∀ k j a b, j ≤ k → B (q k a) (x j b) = 0
  hqr : ∀ k j a, B (q k a) (r j) = 0
  hr : ∀ k j b, B (r k) (x j b) = 0
  hrr : ∀ i j, i ≠ j → B (r i) (r j) = 0
  hQ : ∀ k a b, Q k a b = B (q k a) (q k b)
  hR : ∀ k, B (r k) (r k) = R k
  hy : ∀ k, φ (lin (H k) (x k) 0 + r k) = y k

namespace Chain
variable {B : LinearMap.BilinForm ℝ V} {φ : V →ₗ[ℝ] ℝ} (c : Chain B φ n)

/-- the observation made at step `k` -/
def Y (k : ℕ) : V := lin (c.H k) (c.x k) 0 + c.r k

/-- observation space before step `k` -/
def U : ℕ → Submodule ℝ V
  | 0 => ⊥
  | k + 1 => if c.isObs k then addObs (U k) (c.Y k) else U k

theorem U_mono_succ (k : ℕ) : c.U k ≤ c.U (k + 1) := by
  simp only [U]; split_ifs
  · exact le_addObs _ _
  · exact le_rfl

theorem U_mono {j k : ℕ} (h : j ≤ k) : c.U j ≤ c.U k := monotone_nat_of_le_succ c.U_mono_succ h

/-- Anything orthogonal to the states and observation noises before step `k` is orthogonal to `U k`. -/
theorem orth_U {w : V} {k : ℕ} (hx : ∀ j < k, ∀ b, B w (c.x j b) = 0) (hr : ∀ j < k, B w (c.r j) = 0) :
    ∀ u ∈ c.U k, B w u = 0 := by
  induction k with
  | zero =>
    intro u hu
    simp only [U, Submodule.mem_bot] at hu
    simp [hu]
  | succ k ih =>
    have h0 := ih (fun j hj => hx j (Nat.lt_succ_of_lt hj)) (fun j hj => hr j (Nat.lt_succ_of_lt hj))
    simp only [U]
    split_ifs
    · refine orth_addObs h0 ?_
      rw [Y, map_add, hr k (Nat.lt_succ_self k), add_zero, B_lin_right]
      exact Finset.sum_eq_zero fun j _ => by rw [hx k (Nat.lt_succ_self k), mul_zero]
    · exact h0

theorem q_orth_U (k : ℕ) {j : ℕ} (hj : j ≤ k + 1) (a : n) : ∀ u ∈ c.U j, B (c.q k a) u = 0 :=
  c.orth_U (fun i hi b => c.hq k i a b (by omega)) (fun i _ => c.hqr k i a)

theorem r_orth_U {k j : ℕ} (hj : j ≤ k) : ∀ u ∈ c.U j, B (c.r k) u = 0 :=
  c.orth_U (fun i _ b => c.hr k i b) (fun i hi => c.hrr k i (by omega))

/-- the Kalman recursion -/
structure Filter (N : ℕ) (mp : ℕ → n → ℝ) (Pp : ℕ → Matrix n n ℝ) (mf : ℕ → n → ℝ)
    (Pf : ℕ → Matrix n n ℝ) : Prop where
  m0 : mp 0 = 0
  P0 : ∀ a b, Pp 0 a b = B (c.x 0 a) (c.x 0 b)
  mp_succ : ∀ k, k + 1 < N → mp (k + 1) = c.T k *ᵥ mf k
  Pp_succ : ∀ k, k + 1 < N → Pp (k + 1) = c.T k * Pf k * (c.T k)ᵀ + c.Q k
  upd : ∀ k < N, c.isObs k = true →
    ∃ K : Matrix n (Fin 1) ℝ, (∀ a, K a 0 * ((c.H k * Pp k * (c.H k)ᵀ) 0 0 + c.R k) = (Pp k * (c.H k)ᵀ) a 0) ∧
      (mf k = fun a => mp k a + K a 0 * (c.y k - (c.H k *ᵥ mp k) 0)) ∧
      (Pf k = fun a b => Pp k a b - K a 0 * ((c.H k * Pp k * (c.H k)ᵀ) 0 0 + c.R k) * K b 0)
  noupd : ∀ k < N, c.isObs k = false → mf k = mp k ∧ Pf k = Pp k

variable {c} {N : ℕ} {mp mf ms : ℕ → n → ℝ} {Pp Pf Ps : ℕ → Matrix n n ℝ}

theorem Filter.est_filt_of_pred (f : c.Filter N mp Pp mf Pf) {k : ℕ} (hk : k < N)
    (h : ∃ Xh, IsEst B φ (c.U k) (c.x k) Xh (mp k) (Pp k)) :
    ∃ Xh, IsEst B φ (c.U (k + 1)) (c.x k) Xh (mf k) (Pf k) := by
  obtain ⟨Xh, h⟩ := h
  by_cases hobs : c.isObs k = true
  · obtain ⟨K, hK, hm, hP⟩ := f.upd k hk hobs
    have := h.measure c.symm (c.H k) (Yi := c.Y k) (r := c.r k) rfl (c.hy k)
      (c.r_orth_U le_rfl) (c.hr k k) (c.hR k) K hK
    rw [hm, hP]
    simp only [U, hobs, if_true]
    exact ⟨_, this⟩
  · have hobs' : c.isObs k = false := by simpa using hobs
    obtain ⟨hm, hP⟩ := f.noupd k hk hobs'
    rw [hm, hP]
    simp only [U, hobs']
    exact ⟨Xh, h⟩

theorem Filter.est_pred (f : c.Filter N mp Pp mf Pf) {k : ℕ} (hk : k < N) :
    ∃ Xh, IsEst B φ (c.U k) (c.x k) Xh (mp k) (Pp k) := by
  induction k with
  | zero =>
    rw [f.m0]
    exact ⟨_, IsEst.prior _ _ f.P0⟩
  | succ k ih =>
    obtain ⟨Xh, h⟩ := f.est_filt_of_pred (by omega) (ih (by omega))
    rw [f.mp_succ k hk, f.Pp_succ k hk]
    have hx : c.x (k + 1) = fun a => lin (c.T k) (c.x k) a + c.q k a := funext (c.step k)
    rw [hx]
    refine ⟨_, (h.linMap (c.T k)).addNoise c.symm (c.q_orth_U k le_rfl) (fun a b => ?_) (c.hQ k)⟩
    rw [B_lin_right]
    exact Finset.sum_eq_zero fun j _ => by rw [c.hq k k a j le_rfl, mul_zero]

theorem Filter.est_filt (f : c.Filter N mp Pp mf Pf) {k : ℕ} (hk : k < N) :
    ∃ Xh, IsEst B φ (c.U (k + 1)) (c.x k) Xh (mf k) (Pf k) :=
  f.est_filt_of_pred hk (f.est_pred hk)

/-- If `e` is orthogonal to the observations up to step `k`, to the state `x (k+1)`, and lies in the span
of `x k`, `x (k+1)` and those observations, then it is orthogonal to all observations. More generally
`hr`: `e` is orthogonal to all later noises. -/
theorem orth_future {k N : ℕ} {e : V} (heU : ∀ u ∈ c.U (k + 1), B e u = 0)
    (hex : ∀ a, B e (c.x (k + 1) a) = 0)
    (hq : ∀ j, k + 1 ≤ j → ∀ a, B (c.q j a) e = 0)
    (hr : ∀ j, k + 1 ≤ j → B (c.r j) e = 0) :
    ∀ u ∈ c.U N, B e u = 0 := by
  have hx : ∀ j, k + 1 ≤ j → ∀ a, B e (c.x j a) = 0 := by
    intro j hj
    induction j, hj using Nat.le_induction with
    | base => exact hex
    | succ j hj ih =>
      intro a
      rw [c.step, map_add, c.symm e (c.q j a), hq j hj, add_zero, B_lin_right]
      exact Finset.sum_eq_zero fun i _ => by rw [ih, mul_zero]
  induction N with
  | zero =>
    intro u hu
    simp only [U, Submodule.mem_bot] at hu
    simp [hu]
  | succ N ih =>
    by_cases hN : N + 1 ≤ k + 1
    · exact fun u hu => heU u (c.U_mono hN hu)
    · simp only [U]
      split_ifs
      · refine orth_addObs ih ?_
        rw [Y, map_add, c.symm e (c.r N), hr N (by omega), add_zero, B_lin_right]
        exact Finset.sum_eq_zero fun i _ => by rw [hx N (by omega), mul_zero]
      · exact ih

theorem q_orth_span {k j : ℕ} (hj : k + 1 ≤ j) (a : n) {e : V}
    (he : ∃ d : n → ℝ, ∃ d' : n → ℝ, ∃ u ∈ c.U (k + 1),
      e = ∑ a, d a • c.x k a + ∑ a, d' a • c.x (k + 1) a + u) : B (c.q j a) e = 0 := by
  obtain ⟨d, d', u, hu, rfl⟩ := he
  rw [map_add, map_add, map_sum, map_sum, c.q_orth_U j (by omega) a u hu]
  simp only [map_smul, c.hq j k a _ (by omega), c.hq j (k + 1) a _ hj]
  simp

theorem r_orth_span {k j : ℕ} (hj : k + 1 ≤ j) {e : V}
    (he : ∃ d : n → ℝ, ∃ d' : n → ℝ, ∃ u ∈ c.U (k + 1),
      e = ∑ a, d a • c.x k a + ∑ a, d' a • c.x (k + 1) a + u) : B (c.r j) e = 0 := by
  obtain ⟨d, d', u, hu, rfl⟩ := he
  rw [map_add, map_add, map_sum, map_sum, c.r_orth_U hj u hu]
  simp only [map_smul, c.hr j]
  simp

/-- the RTS recursion -/
structure Smoother (c : Chain B φ n) (N : ℕ) (mp : ℕ → n → ℝ) (Pp : ℕ → Matrix n n ℝ) (mf : ℕ → n → ℝ)
    (Pf : ℕ → Matrix n n ℝ) (ms : ℕ → n → ℝ) (Ps : ℕ → Matrix n n ℝ) : Prop where
  last_m : ms (N - 1) = mf (N - 1)
  last_P : Ps (N - 1) = Pf (N - 1)
  step : ∀ k, k + 1 < N → ∃ G : Matrix n n ℝ, G * Pp (k + 1) = Pf k * (c.T k)ᵀ ∧
    ms k = mf k + G *ᵥ (ms (k + 1) - mp (k + 1)) ∧ Ps k = Pf k + G * (Ps (k + 1) - Pp (k + 1)) * Gᵀ

/-- the RTS recursion down to step `s` gives best linear estimates there -/
theorem smooth_from (f : c.Filter N mp Pp mf Pf) {s : ℕ} (last_m : ms (N - 1) = mf (N - 1)) (last_P : Ps (N - 1) = Pf (N - 1))
    (step : ∀ k, s ≤ k → k + 1 < N → ∃ G : Matrix n n ℝ, G * Pp (k + 1) = Pf k * (c.T k)ᵀ ∧
      ms k = mf k + G *ᵥ (ms (k + 1) - mp (k + 1)) ∧ Ps k = Pf k + G * (Ps (k + 1) - Pp (k + 1)) * Gᵀ)
    {k : ℕ} (hsk : s ≤ k) (hk : k < N) : ∃ Xh, IsEst B φ (c.U N) (c.x k) Xh (ms k) (Ps k) := by
  obtain ⟨d, rfl⟩ : ∃ d, k = N - 1 - d := ⟨N - 1 - k, by omega⟩
  induction d with
  | zero =>
    rw [Nat.sub_zero, last_m, last_P]
    have := f.est_filt (k := N - 1) (by omega)
    rwa [Nat.sub_add_cancel (by omega)] at this
  | succ d ih =>
    by_cases hd : N - 1 - d = 0
    · have : N - 1 - (d + 1) = N - 1 - d := by omega
      rw [this]; exact ih (by omega) (by omega)
    · have hk1 : N - 1 - (d + 1) + 1 = N - 1 - d := by omega
      set k := N - 1 - (d + 1) with hkdef
      have ih' := ih (by omega) (by omega)
      rw [← hk1] at ih'
      obtain ⟨Xh', h'⟩ := ih'
      obtain ⟨Xh, h⟩ := f.est_filt hk
      obtain ⟨G, hG, hm, hP⟩ := step k hsk (by omega)
      rw [hm, hP, f.mp_succ k (by omega), f.Pp_succ k (by omega)]
      rw [f.Pp_succ k (by omega)] at hG
      refine ⟨_, IsEst.smooth c.symm (c.U_mono (by omega)) h (c.step k) (c.q_orth_U k le_rfl)
        (fun a b => c.hq k k a b le_rfl) (c.hQ k) ?_ h' G hG⟩
      intro e heU hex hspan
      exact orth_future heU hex (fun j hj a => q_orth_span hj a hspan) (fun j hj => r_orth_span hj hspan)

theorem Smoother.est (f : c.Filter N mp Pp mf Pf) (s : Smoother c N mp Pp mf Pf ms Ps)
    {k : ℕ} (hk : k < N) : ∃ Xh, IsEst B φ (c.U N) (c.x k) Xh (ms k) (Ps k) :=
  smooth_from f s.last_m s.last_P (fun k _ => s.step k) (Nat.zero_le k) hk

/-- indices of the observed steps before `N` -/
abbrev Obs (c : Chain B φ n) (N : ℕ) := {k : Fin N // c.isObs k = true}

theorem U_eq_span (k : ℕ) : c.U k = Submodule.span ℝ (c.Y '' {j | j < k ∧ c.isObs j = true}) := by
  induction k with
  | zero => simp [U]
  | succ k ih =>
    by_cases hobs : c.isObs k = true
    · simp only [U, hobs, if_true]
      rw [addObs, ih, ← Submodule.span_union]
      congr 1
      ext v
      simp only [Set.mem_union, Set.mem_image, Set.mem_ofPred_eq, Set.mem_singleton_iff]
      constructor
      · rintro (⟨j, ⟨hj, hj'⟩, rfl⟩ | rfl)
        · exact ⟨j, ⟨by omega, hj'⟩, rfl⟩
        · exact ⟨k, ⟨by omega, hobs⟩, rfl⟩
      · rintro ⟨j, ⟨hj, hj'⟩, rfl⟩
        by_cases hjk : j = k
        · subst hjk; exact Or.inr rfl
        · exact Or.inl ⟨j, ⟨by omega, hj'⟩, rfl⟩
    · have hobs' : c.isObs k = false := by simpa using hobs
      simp only [U, hobs']
      rw [if_neg (by simp), ih]
      congr 1
      ext v
      simp only [Set.mem_image, Set.mem_ofPred_eq]
      constructor
      · rintro ⟨j, ⟨hj, hj'⟩, rfl⟩; exact ⟨j, ⟨by omega, hj'⟩, rfl⟩
      · rintro ⟨j, ⟨hj, hj'⟩, rfl⟩
        refine ⟨j, ⟨?_, hj'⟩, rfl⟩
        rcases Nat.lt_succ_iff_lt_or_eq.1 hj with h | h
        · exact h
        · subst h; exact absurd hj' hobs

theorem U_eq_span_range (N : ℕ) :
    c.U N = Submodule.span ℝ (Set.range fun k : Obs c N => c.Y k.1) := by
  rw [U_eq_span]
  congr 1
  ext v
  constructor
  · rintro ⟨j, ⟨hj, hj'⟩, rfl⟩; exact ⟨⟨⟨j, hj⟩, hj'⟩, rfl⟩
  · rintro ⟨⟨⟨j, hj⟩, hj'⟩, rfl⟩; exact ⟨j, ⟨hj, hj'⟩, rfl⟩

/-- Likelihood by innovations: determinant and quadratic form of the covariance of the observations. -/
theorem Filter.likelihood (f : c.Filter N mp Pp mf Pf)
    (S v : ℕ → ℝ) (hS : ∀ k < N, c.isObs k = true → S k = (c.H k * Pp k * (c.H k)ᵀ) 0 0 + c.R k)
    (hv : ∀ k < N, c.isObs k = true → v k = c.y k - (c.H k *ᵥ mp k) 0)
    (hS0 : ∀ k < N, c.isObs k = true → S k ≠ 0)
    (K : Matrix (Obs c N) (Obs c N) ℝ) (hK : ∀ i j, K i j = B (c.Y i.1) (c.Y j.1)) :
    K.det = ∏ i : Obs c N, S i.1 ∧
    (fun i : Obs c N => c.y i.1) ⬝ᵥ K⁻¹ *ᵥ (fun i : Obs c N => c.y i.1)
      = ∑ i : Obs c N, (v i.1) ^ 2 / S i.1 := by
  have hest : ∀ i : Obs c N, ∃ Xh, IsEst B φ (c.U i.1) (c.x i.1) Xh (mp i.1) (Pp i.1) :=
    fun i => f.est_pred i.1.2
  choose Xh hXh using hest
  let e : Obs c N → V := fun i => c.Y i.1 - lin (c.H i.1) (Xh i) 0
  have hYφ : ∀ i : Obs c N, φ (c.Y i.1) = c.y i.1 := fun i => c.hy i.1
  have heU : ∀ i : Obs c N, ∀ u ∈ c.U i.1, B (e i) u = 0 := by
    intro i u hu
    have : e i = lin (c.H i.1) (fun a => c.x i.1 a - Xh i a) 0 + c.r i.1 := by
      simp only [e, Y, lin_sub]; abel
    rw [this, map_add, LinearMap.add_apply, c.r_orth_U le_rfl u hu, add_zero, B_lin_left]
    exact Finset.sum_eq_zero fun j _ => by rw [(hXh i).orth j u hu, mul_zero]
  have hφe : ∀ i : Obs c N, φ (e i) = v i.1 := by
    intro i
    rw [hv _ i.1.2 i.2]
    simp only [e]
    rw [map_sub, hYφ, map_lin]
    congr 3
    funext b
    rw [(hXh i).mean b]
  have hee : ∀ i : Obs c N, S i.1 = B (e i) (e i) := by
    intro i
    rw [hS _ i.1.2 i.2]
    have h1 : B (e i) (lin (c.H i.1) (Xh i) 0) = 0 := heU i _ (lin_mem _ _ _ (hXh i).mem 0)
    have h2 : B (e i) (e i) = B (e i) (c.Y i.1) := by
      have : e i = c.Y i.1 - lin (c.H i.1) (Xh i) 0 := rfl
      conv_lhs => rw [this]
      rw [map_sub, ← this, h1, sub_zero]
    have h3 : e i = lin (c.H i.1) (fun a => c.x i.1 a - Xh i a) 0 + c.r i.1 := by
      simp only [e, Y, lin_sub]; abel
    have hXhr : ∀ b, B (c.r i.1) (Xh i b) = 0 := fun b => c.r_orth_U le_rfl _ ((hXh i).mem b)
    rw [h2, h3, Y]
    have t1 : B (lin (c.H i.1) (fun a => c.x i.1 a - Xh i a) 0) (lin (c.H i.1) (c.x i.1) 0)
        = (c.H i.1 * Pp i.1 * (c.H i.1)ᵀ) 0 0 := by
      rw [B_lin_left, Matrix.mul_assoc, Matrix.mul_apply]
      refine Finset.sum_congr rfl fun a _ => ?_
      rw [B_lin_right, Matrix.mul_apply]
      congr 1
      exact Finset.sum_congr rfl fun b _ => by rw [(hXh i).cov, transpose_apply, mul_comm]
    have t2 : B (lin (c.H i.1) (fun a => c.x i.1 a - Xh i a) 0) (c.r i.1) = 0 := by
      rw [B_lin_left]
      refine Finset.sum_eq_zero fun a _ => ?_
      rw [c.symm, map_sub, c.hr, hXhr, sub_zero, mul_zero]
    have t3 : B (c.r i.1) (lin (c.H i.1) (c.x i.1) 0) = 0 := by
      rw [B_lin_right]
      exact Finset.sum_eq_zero fun a _ => by rw [c.hr, mul_zero]
    simp only [map_add, LinearMap.add_apply]
    rw [t1, t2, t3, c.hR]
    ring
  have hlt : ∀ i j : Obs c N, j < i → c.Y j.1 ∈ c.U i.1 := by
    intro i j hij
    rw [U_eq_span]
    exact Submodule.subset_span ⟨j.1, ⟨hij, j.2⟩, rfl⟩
  have main := innovations (φ := φ) c.symm (fun i : Obs c N => c.Y i.1) e (fun i => ?_)
    (fun i j hij => heU i _ (hlt i j hij)) K hK (fun i => S i.1) hee (fun i => hS0 _ i.1.2 i.2)
  · refine ⟨main.1, ?_⟩
    have := main.2
    simp only [hYφ, hφe] at this
    exact this
  · have h1 : c.Y i.1 - e i = lin (c.H i.1) (Xh i) 0 := by simp only [e]; abel
    rw [h1]
    have h2 := lin_mem _ (c.H i.1) _ (hXh i).mem 0
    rw [U_eq_span] at h2
    refine Submodule.span_mono ?_ h2
    rintro _ ⟨j, ⟨hj, hj'⟩, rfl⟩
    exact ⟨⟨⟨j, by omega⟩, hj'⟩, hj, rfl⟩

end Chain
end Verif
