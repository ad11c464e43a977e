import Verif.Lemmas.IntSum

/-!
# Augmented models along arbitrary lines of events

A line of events is a monotone sequence of times together with the instrument (if any) that is reset at each of them. The events of a
data set form one; so do these events with a test time inserted.
-/

set_option linter.unusedSectionVars false

namespace Verif
open Matrix Spec MeasureTheory

section
variable (k : SSM) (τ : ℕ → ℝ) (J : ℕ → Option ℤ)

/-- what an event does to the state -/
def SSM.jumpOf : Option ℤ → Matrix k.n k.n ℝ
  | none => 1
  | some i => k.reset i

/-- transition from just before event `j` to just before event `j + 1` -/
def SSM.lineT (j : ℕ) : Matrix k.n k.n ℝ := k.At 0 (τ (j + 1) - τ j) * k.jumpOf (J j)

/-- noise from event `j` to event `j + 1` -/
def SSM.lineQ (j : ℕ) : Matrix k.n k.n ℝ := k.Qt 0 (τ (j + 1) - τ j)

/-- covariance of the states just before events `i` and `j`, starting from the stationary covariance -/
noncomputable def SSM.lineCov (i j : ℕ) : Matrix k.n k.n ℝ := stateCov (k.lineT τ J) (k.lineQ τ) k.Pinf i j

end

theorem lineT_sum (k1 k2 : SSM) (τ : ℕ → ℝ) (J : ℕ → Option ℤ) (j : ℕ) :
    (k1.sum k2).lineT τ J j = blockDiag (k1.lineT τ J j) (k2.lineT τ J j) := by
  unfold SSM.lineT
  rw [← blockDiag_mul]
  congr 1
  cases J j with
  | none => exact blockDiag_one.symm
  | some i => rfl

theorem lineCov_sum (k1 k2 : SSM) (τ : ℕ → ℝ) (J : ℕ → Option ℤ) (i j : ℕ) :
    (k1.sum k2).lineCov τ J i j = blockDiag (k1.lineCov τ J i j) (k2.lineCov τ J i j) := by
  refine Eq.trans ?_ (stateCov_blockDiag _ _ _ _ _ _ i j)
  unfold SSM.lineCov
  rw [funext (lineT_sum k1 k2 τ J)]
  rfl

/-- coordinate `c` is measured at event `s`: at its time if it is instantaneous; otherwise at the end of an exposure which starts at
an event that resets its instrument and is not disturbed afterwards -/
inductive LineProbe (τ : ℕ → ℝ) (J : ℕ → Option ℤ) : ℕ → Coord → Prop
  | latent {s : ℕ} {c : Coord} (hc : c.delta = 0) (ht : τ s = c.sortable) : LineProbe τ J s c
  | exposure {a e : ℕ} {c : Coord} (hc : 0 < c.delta) (hae : a < e) (ha : J a = some c.inst) (hs : τ a = c.start) (he : τ e = c.stop)
      (h : ∀ l, a < l → l < e → J l = some c.inst → τ l = τ a) : LineProbe τ J e c

/-- a line whose resets concern the instruments `0, ..., m` -/
structure LineOk (m : ℕ) (τ : ℕ → ℝ) (J : ℕ → Option ℤ) : Prop where
  mono : Monotone τ
  inst : ∀ j i, J j = some i → 0 ≤ i ∧ i ≤ m

/-- in the augmented model the covariance of the quantities observed at coordinates `c` and `d` is `K c d` -/
def SSM.LineMeasures (k : SSM) (τ : ℕ → ℝ) (J : ℕ → Option ℤ) (K : Coord → Coord → ℝ) : Prop :=
  ∀ s c s' d, LineProbe τ J s c → LineProbe τ J s' d →
    (k.obsModel c none * k.lineCov τ J s s' * (k.obsModel d none)ᵀ) 0 0 = K c d

/-- before the first event, what is read for an exposure average is uncorrelated with every measurement -/
def SSM.LineFresh (k : SSM) (τ : ℕ → ℝ) (J : ℕ → Option ℤ) : Prop :=
  ∀ c s' d, 0 < c.delta → LineProbe τ J s' d → (k.obsModel c none * k.lineCov τ J 0 s' * (k.obsModel d none)ᵀ) 0 0 = 0

theorem SSM.LineFresh.sum {k1 k2 : SSM} {τ : ℕ → ℝ} {J : ℕ → Option ℤ} (h1 : k1.LineFresh τ J) (h2 : k2.LineFresh τ J) :
    (k1.sum k2).LineFresh τ J := by
  intro c s' d hc hd
  refine Eq.trans ?_ ((congrArg₂ (· + ·) (h1 c s' d hc hd) (h2 c s' d hc hd)).trans (add_zero 0))
  refine Eq.trans ?_ (hstack_blockDiag (k1.obsModel c none) (k2.obsModel c none) (k1.lineCov τ J 0 s') (k2.lineCov τ J 0 s')
    (k1.obsModel d none) (k2.obsModel d none))
  exact congrArg (fun M => ((k1.sum k2).obsModel c none * M * ((k1.sum k2).obsModel d none)ᵀ) 0 0) (lineCov_sum k1 k2 τ J 0 s')

theorem SSM.LineMeasures.sum {k1 k2 : SSM} {τ : ℕ → ℝ} {J : ℕ → Option ℤ} {K1 K2 : Coord → Coord → ℝ} (h1 : k1.LineMeasures τ J K1)
    (h2 : k2.LineMeasures τ J K2) : (k1.sum k2).LineMeasures τ J fun c d => K1 c d + K2 c d := by
  intro s c s' d hc hd
  refine Eq.trans ?_ (congrArg₂ (· + ·) (h1 s c s' d hc hd) (h2 s c s' d hc hd))
  refine Eq.trans ?_ (hstack_blockDiag (k1.obsModel c none) (k2.obsModel c none) (k1.lineCov τ J s s') (k2.lineCov τ J s s')
    (k1.obsModel d none) (k2.obsModel d none))
  exact congrArg (fun M => ((k1.sum k2).obsModel c none * M * ((k1.sum k2).obsModel d none)ᵀ) 0 0) (lineCov_sum k1 k2 τ J s s')

theorem SSM.LineMeasures.congr {k : SSM} {τ : ℕ → ℝ} {J : ℕ → Option ℤ} {K K' : Coord → Coord → ℝ} (h : k.LineMeasures τ J K)
    (hK : ∀ c d, K c d = K' c d) : k.LineMeasures τ J K' := fun s c s' d hc hd => (h s c s' d hc hd).trans (hK c d)

/-! ### integrated leaves -/

section leaf
variable {name : String} {m m' : ℕ} {base : SSM} {first : base.n} {phibar : ℝ → ℝ → Matrix base.n base.n ℝ} {q12 : ℝ → ℝ → base.n → ℝ}
  {q22 : ℝ → ℝ → ℝ}

local notation "K" => integratedSSM name m' base first phibar q12 q22

theorem line_obs (hm : m ≤ m') {τ : ℕ → ℝ} {J : ℕ → Option ℤ} (hL : LineOk m τ J) {s : ℕ} {c : Coord} (hc : LineProbe τ J s c) :
    lin (integratedSSM.obs m' base first c) (augVar m' τ (fun j => (J j).map (slot m')) s) 0 = measVar first c := by
  unfold measVar
  cases hc with
  | latent hd ht =>
    have hob : ∀ a, integratedSSM.obs m' base first c 0 a = Sum.elim (fun a => if a = first then (1 : ℝ) else 0) (fun _ => 0) a := by
      intro a
      cases c with
      | time t => rfl
      | exposure t d o =>
        have : ¬ d > 0 := by
          change d = 0 at hd
          rw [hd]; exact lt_irrefl _
        simp only [integratedSSM.obs, of_apply, if_neg this]
    rw [if_neg (by rw [hd]; exact lt_irrefl _)]
    simp only [lin, hob, Fintype.sum_sum_type, Sum.elim_inl, Sum.elim_inr, zero_smul, Finset.sum_const_zero, add_zero, ite_smul, one_smul]
    rw [Finset.sum_ite_eq' Finset.univ first, if_pos (Finset.mem_univ _), ← ht]
    rfl
  | @exposure a _ _ hd hae ha hs he hun =>
    rw [if_pos hd]
    cases c with
    | time t => exact absurd hd (lt_irrefl _)
    | exposure t d o =>
      have hz := zvar_eq (n := base.n) m' τ (fun j => (J j).map (slot m')) (slot m' o) hae (by rw [ha]; rfl) (fun l h1 h2 h3 => by
        cases hJ : J l with
        | none => rw [hJ] at h3; cases h3
        | some i =>
          rw [hJ] at h3
          have hr := hL.inst l i hJ
          have ho := hL.inst a _ ha
          have hmm : (m : ℤ) ≤ m' := by exact_mod_cast hm
          have : i = o := slot_inj ⟨hr.1, hr.2.trans hmm⟩ ⟨ho.1, ho.2.trans hmm⟩ (Option.some.inj h3)
          exact hun l h1 h2 (by rw [hJ, this]; rfl))
      change 0 < d at hd
      have hob : ∀ a, integratedSSM.obs m' base first (.exposure t d o) 0 a =
          Sum.elim (fun _ => (0 : ℝ)) (fun j => if j = slot m' o then 1 / d else 0) a := by
        intro a
        simp only [integratedSSM.obs, of_apply, gt_iff_lt, if_pos hd]
      simp only [lin, hob, Fintype.sum_sum_type, Sum.elim_inl, Sum.elim_inr, zero_smul, Finset.sum_const_zero, zero_add, ite_smul]
      rw [Finset.sum_ite_eq' Finset.univ (slot m' o), if_pos (Finset.mem_univ _)]
      show (1 / d) • zvar m' τ (fun j => (J j).map (slot m')) (slot m' o) s = _
      rw [hz, he, hs]
      rfl

theorem integrated_line_measures (hm : m ≤ m') (hA : (K).TransitionIsExp) (hL : base.Lyapunov) (hP : base.Pinfᵀ = base.Pinf)
    (hqc : base.Qcᵀ = base.Qc) {τ : ℕ → ℝ} {J : ℕ → Option ℤ} (hl : LineOk m τ J)
    (hQ : ∀ j, (K).NoiseIntegralOver (τ (j + 1) - τ j)) :
    (K).LineMeasures τ J (exposureCov (latK base.F base.Pinf first)) := by
  intro s c s' d hc hd
  have hT : (K).lineT τ J = fun j => augA base.F first m' (τ (j + 1) - τ j) * jumpMat m' ((J j).map (slot m')) := by
    funext j
    unfold SSM.lineT
    rw [integrated_At hA]
    congr 1
    cases J j <;> rfl
  have hNs : (K).lineQ τ = fun j => augQ base.F base.Pinf first m' (τ (j + 1) - τ j) :=
    funext fun j => integrated_Qt hL hP hqc (hQ j)
  rw [← measVar_cov base.F base.Pinf first hP (fun _ => 1), ← line_obs hm hl hc, ← line_obs hm hl hd]
  have e : ∀ c, (K).obsModel c none = integratedSSM.obs m' base first c := fun c => defaultObs_none _ _ _
  rw [e, e]
  refine (B_lin_lin ((intGM base.F base.Pinf hP first).B fun _ => 1) _ _ _ _ ((K).lineCov τ J s s') fun a b => ?_).symm
  unfold SSM.lineCov
  rw [hT, hNs]
  exact (stateCov_aug base.F base.Pinf hP first m' τ (fun j => (J j).map (slot m')) hl.mono s s' a b).symm

/-- before the first event an exposure average is read from a slot that holds an independent unit variable -/
theorem integrated_line_fresh (hm : m ≤ m') (hA : (K).TransitionIsExp) (hL : base.Lyapunov) (hP : base.Pinfᵀ = base.Pinf)
    (hqc : base.Qcᵀ = base.Qc) {τ : ℕ → ℝ} {J : ℕ → Option ℤ} (hl : LineOk m τ J)
    (hQ : ∀ j, (K).NoiseIntegralOver (τ (j + 1) - τ j)) : (K).LineFresh τ J := by
  intro c s' d hc hd
  have hT : (K).lineT τ J = fun j => augA base.F first m' (τ (j + 1) - τ j) * jumpMat m' ((J j).map (slot m')) := by
    funext j
    unfold SSM.lineT
    rw [integrated_At hA]
    congr 1
    cases J j <;> rfl
  have hNs : (K).lineQ τ = fun j => augQ base.F base.Pinf first m' (τ (j + 1) - τ j) :=
    funext fun j => integrated_Qt hL hP hqc (hQ j)
  have e : ∀ c, (K).obsModel c none = integratedSSM.obs m' base first c := fun c => defaultObs_none _ _ _
  have hv : lin (integratedSSM.obs m' base first c) (augVar m' τ (fun j => (J j).map (slot m')) 0) 0 =
      (1 / c.delta) • GM.r (slot m' c.inst : ℕ) := by
    cases c with
    | time t => exact absurd hc (lt_irrefl _)
    | exposure t δ o =>
      change 0 < δ at hc
      have hob : ∀ a, integratedSSM.obs m' base first (.exposure t δ o) 0 a =
          Sum.elim (fun _ => (0 : ℝ)) (fun j => if j = slot m' o then 1 / δ else 0) a := by
        intro a
        simp only [integratedSSM.obs, of_apply, gt_iff_lt, if_pos hc]
      simp only [lin, hob, Fintype.sum_sum_type, Sum.elim_inl, Sum.elim_inr, zero_smul, Finset.sum_const_zero, zero_add, ite_smul]
      rw [Finset.sum_ite_eq' Finset.univ (slot m' o), if_pos (Finset.mem_univ _)]
      rfl
  have h0 : (intGM base.F base.Pinf hP first).B (fun _ => 1) ((1 / c.delta) • GM.r (slot m' c.inst : ℕ)) (measVar first d) = 0 := by
    rw [map_smul, LinearMap.smul_apply]
    unfold measVar
    split_ifs
    · rw [map_smul, map_sub, GM.B_rx, GM.B_rx]; simp
    · rw [GM.B_rx]; simp
  rw [← h0, ← hv, ← line_obs hm hl hd, e, e]
  refine (B_lin_lin ((intGM base.F base.Pinf hP first).B fun _ => 1) _ _ _ _ ((K).lineCov τ J 0 s') fun a b => ?_).symm
  unfold SSM.lineCov
  rw [hT, hNs]
  exact (stateCov_aug base.F base.Pinf hP first m' τ (fun j => (J j).map (slot m')) hl.mono 0 s' a b).symm

theorem integrated_fresh_var {c : Coord} (hc : 0 < c.delta) :
    ((K).obsModel c none * (K).Pinf * ((K).obsModel c none)ᵀ) 0 0 = 1 / c.delta ^ 2 := by
  have e : (K).obsModel c none = integratedSSM.obs m' base first c := defaultObs_none _ _ _
  rw [e]
  cases c with
  | time t => exact absurd hc (lt_irrefl _)
  | exposure t δ o =>
    change 0 < δ at hc
    have hob : integratedSSM.obs m' base first (.exposure t δ o) =
        hstack (0 : Matrix (Fin 1) base.n ℝ) (Matrix.of fun _ j => if j = slot m' o then 1 / δ else 0) := by
      ext i a
      rcases a with a | a
      · simp only [integratedSSM.obs, of_apply, gt_iff_lt, if_pos hc, Sum.elim_inl]; rfl
      · simp only [integratedSSM.obs, of_apply, gt_iff_lt, if_pos hc, Sum.elim_inr]; rfl
    rw [hob]
    refine (hstack_blockDiag _ _ base.Pinf (1 : Matrix (Fin (m' + 1)) (Fin (m' + 1)) ℝ) _ _).trans ?_
    rw [Matrix.zero_mul, Matrix.zero_mul, Matrix.mul_one, Matrix.mul_apply]
    simp [Coord.delta]
    field_simp

end leaf

/-! ### composition of steps -/

/-- transition and noise over `s` followed by `t` are those over `s + t` -/
structure SSM.StepsCompose (k : SSM) (s t : ℝ) : Prop where
  A : k.At 0 (s + t) = k.At 0 t * k.At 0 s
  Q : k.Qt 0 (s + t) = k.At 0 t * k.Qt 0 s * (k.At 0 t)ᵀ + k.Qt 0 t

theorem SSM.StepsCompose.sum {k1 k2 : SSM} {s t : ℝ} (h1 : k1.StepsCompose s t) (h2 : k2.StepsCompose s t) : (k1.sum k2).StepsCompose s t where
  A := by
    show blockDiag (k1.At 0 (s + t)) (k2.At 0 (s + t)) = blockDiag (k1.At 0 t) (k2.At 0 t) * blockDiag (k1.At 0 s) (k2.At 0 s)
    rw [blockDiag_mul, h1.A, h2.A]
  Q := by
    show blockDiag (k1.Qt 0 (s + t)) (k2.Qt 0 (s + t)) = blockDiag (k1.At 0 t) (k2.At 0 t) * blockDiag (k1.Qt 0 s) (k2.Qt 0 s) *
      (blockDiag (k1.At 0 t) (k2.At 0 t))ᵀ + blockDiag (k1.Qt 0 t) (k2.Qt 0 t)
    rw [blockDiag_transpose, blockDiag_mul, blockDiag_mul, blockDiag_add, h1.Q, h2.Q]

/-- accumulated noise composes -/
theorem SSM.NoiseIntegralOver.compose {k : SSM} (hA : k.TransitionIsExp) {s t : ℝ} (hs : k.NoiseIntegralOver s) (ht : k.NoiseIntegralOver t)
    (hst : k.NoiseIntegralOver (s + t)) : k.StepsCompose s t := by
  have eA : ∀ u, k.At 0 u = NormedSpace.exp (u • k.F) := by
    intro u
    have h := hA (.time 0) (.time u)
    rw [show (Coord.time u).sortable - (Coord.time 0).sortable = u from sub_zero u] at h
    exact h
  refine ⟨by rw [eA, eA, eA, add_comm, expm_add], ?_⟩
  set D : ℝ → Matrix k.n k.n ℝ := fun u => NormedSpace.exp (u • k.F) * (k.L * k.Qc * k.Lᵀ) * (NormedSpace.exp (u • k.F))ᵀ with hD
  have hc : ∀ i j, Continuous fun u => D u i j := fun i j => noise_integrand_continuous _ _ i j
  have hshift : ∀ u, D (u + t) = k.At 0 t * D u * (k.At 0 t)ᵀ := by
    intro u
    simp only [hD]
    rw [eA, add_comm u t, expm_add, transpose_mul]
    simp only [Matrix.mul_assoc]
  ext i j
  rw [Matrix.add_apply, hst i j, ht i j, ← intervalIntegral.integral_add_adjacent_intervals (b := t)
    ((hc i j).intervalIntegrable _ _) ((hc i j).intervalIntegrable _ _), add_comm]
  congr 1
  have h1 := intervalIntegral.integral_comp_add_right (fun u => D u i j) t (a := 0) (b := s)
  rw [zero_add] at h1
  rw [← h1]
  have key : ∀ (A M : Matrix k.n k.n ℝ) (E : ℝ → Matrix k.n k.n ℝ), (∀ i j, Continuous fun u => E u i j) →
      (∀ i j, M i j = ∫ u in (0 : ℝ)..s, E u i j) → ∫ u in (0 : ℝ)..s, (A * E u * Aᵀ) i j = (A * M * Aᵀ) i j := by
    intro A M E hE hM
    have e1 : ∀ M : Matrix k.n k.n ℝ, (A * M * Aᵀ) i j = ∑ a, ∑ b, A i b * M b a * A j a := by
      intro M
      simp only [Matrix.mul_apply, Finset.sum_mul, transpose_apply]
    simp only [e1]
    have hterm : ∀ a b, Continuous fun u => A i b * E u b a * A j a := fun a b => (continuous_const.mul (hE b a)).mul continuous_const
    rw [intervalIntegral.integral_finsetSum fun a _ => (continuous_finsetSum _ fun b _ => hterm a b).intervalIntegrable _ _]
    refine Finset.sum_congr rfl fun a _ => ?_
    rw [intervalIntegral.integral_finsetSum fun b _ => (hterm a b).intervalIntegrable _ _]
    refine Finset.sum_congr rfl fun b _ => ?_
    rw [intervalIntegral.integral_mul_const, intervalIntegral.integral_const_mul, hM b a]
  simp only [hshift]
  exact key _ _ D hc hs

end Verif
