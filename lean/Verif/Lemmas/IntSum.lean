import Verif.Lemmas.IntMeasure
import Verif.Props.C33_IntegratedSHO
import Verif.Props.C09_IntegratedExact

/-! # Sums of integrated and instantaneous kernels: what their events measure -/

set_option linter.unusedSectionVars false

namespace Verif
open Matrix Spec MeasureTheory

/-! ### noise as an integral -/

/-- over a time step `s` the process noise is the accumulated noise of the kernel's own stochastic differential equation -/
def SSM.NoiseIntegralOver (k : SSM) (s : ℝ) : Prop := ∀ i j, k.Qt 0 s i j =
  ∫ u in (0 : ℝ)..s, (NormedSpace.exp (u • k.F) * (k.L * k.Qc * k.Lᵀ) * (NormedSpace.exp (u • k.F))ᵀ) i j

theorem SSM.NoiseIsIntegral.over {k : SSM} (h : k.NoiseIsIntegral) (s : ℝ) : k.NoiseIntegralOver s := fun i j => by
  have := h (.time 0) (.time s) i j
  rw [show (Coord.time s).sortable - (Coord.time 0).sortable = s from sub_zero s] at this
  exact this

theorem noise_integrand_continuous {n : Type} [Fintype n] [DecidableEq n] (F M : Matrix n n ℝ) (i j : n) :
    Continuous fun u : ℝ => (NormedSpace.exp (u • F) * M * (NormedSpace.exp (u • F))ᵀ) i j :=
  MDeriv.continuous (expm_cov_deriv F M) i j

/-- an integral of positive semidefinite matrices is positive semidefinite -/
theorem psd_of_integral {n : Type} [Fintype n] {Q : Matrix n n ℝ} {D : ℝ → Matrix n n ℝ} {t : ℝ} (ht : 0 ≤ t)
    (hc : ∀ i j, Continuous fun u => D u i j) (hD : ∀ u, (D u).PosSemidef)
    (hQ : ∀ i j, Q i j = ∫ u in (0 : ℝ)..t, D u i j) : Q.PosSemidef := by
  have key : ∀ x : n → ℝ, x ⬝ᵥ Q *ᵥ x = ∫ u in (0 : ℝ)..t, x ⬝ᵥ D u *ᵥ x := by
    intro x
    simp only [dotProduct, mulVec, Finset.mul_sum]
    rw [intervalIntegral.integral_finsetSum]
    · refine Finset.sum_congr rfl fun i _ => ?_
      rw [intervalIntegral.integral_finsetSum]
      · refine Finset.sum_congr rfl fun j _ => ?_
        rw [hQ, intervalIntegral.integral_const_mul, intervalIntegral.integral_mul_const]
      · intro j _
        exact (continuous_const.mul ((hc i j).mul continuous_const)).intervalIntegrable _ _
    · intro i _
      exact (continuous_finsetSum _ fun j _ => continuous_const.mul ((hc i j).mul continuous_const)).intervalIntegrable _ _
  rw [psd_iff]
  constructor
  · ext i j
    rw [transpose_apply, hQ, hQ]
    refine intervalIntegral.integral_congr fun u _ => ?_
    show D u j i = D u i j
    rw [← transpose_apply (D u), psd_symm (hD u)]
  · intro x
    rw [key]
    exact intervalIntegral.integral_nonneg ht fun u _ => ((psd_iff _).1 (hD u)).2 x

theorem SSM.NoiseIntegralOver.psd {k : SSM} {s : ℝ} (h : k.NoiseIntegralOver s) (hs : 0 ≤ s) (hM : (k.L * k.Qc * k.Lᵀ).PosSemidef) :
    (k.Qt 0 s).PosSemidef :=
  psd_of_integral hs (fun i j => noise_integrand_continuous _ _ i j) (fun _ => psd_conj hM _) h

/-! ### sums -/

section
variable {n₁ n₂ : Type} [Fintype n₁] [DecidableEq n₁] [Fintype n₂] [DecidableEq n₂]

theorem marginalCov_blockDiag (T1 Q1 : ℕ → Matrix n₁ n₁ ℝ) (T2 Q2 : ℕ → Matrix n₂ n₂ ℝ) (P1 : Matrix n₁ n₁ ℝ) (P2 : Matrix n₂ n₂ ℝ) (k : ℕ) :
    marginalCov (fun j => blockDiag (T1 j) (T2 j)) (fun j => blockDiag (Q1 j) (Q2 j)) (blockDiag P1 P2) k =
      blockDiag (marginalCov T1 Q1 P1 k) (marginalCov T2 Q2 P2 k) := by
  induction k with
  | zero => rfl
  | succ k ih => simp only [marginalCov, ih, blockDiag_mul, blockDiag_transpose, blockDiag_add]

theorem propagator_blockDiag (T1 : ℕ → Matrix n₁ n₁ ℝ) (T2 : ℕ → Matrix n₂ n₂ ℝ) (i j : ℕ) :
    propagator (fun j => blockDiag (T1 j) (T2 j)) i j = blockDiag (propagator T1 i j) (propagator T2 i j) := by
  induction j with
  | zero => simp only [propagator, blockDiag_one]
  | succ j ih =>
    simp only [propagator, ih]
    split_ifs
    · rw [blockDiag_mul]
    · rw [blockDiag_one]

theorem stateCov_blockDiag (T1 Q1 : ℕ → Matrix n₁ n₁ ℝ) (T2 Q2 : ℕ → Matrix n₂ n₂ ℝ) (P1 : Matrix n₁ n₁ ℝ) (P2 : Matrix n₂ n₂ ℝ) (i j : ℕ) :
    stateCov (fun j => blockDiag (T1 j) (T2 j)) (fun j => blockDiag (Q1 j) (Q2 j)) (blockDiag P1 P2) i j =
      blockDiag (stateCov T1 Q1 P1 i j) (stateCov T2 Q2 P2 i j) := by
  unfold stateCov
  simp only [marginalCov_blockDiag, propagator_blockDiag]
  split_ifs <;> simp only [blockDiag_transpose, blockDiag_mul]

end

theorem eventCov_sum (k1 k2 : SSM) (X : Arr Coord) (i j : ℕ) :
    (k1.sum k2).eventCov X i j = blockDiag (k1.eventCov X i j) (k2.eventCov X i j) := by
  have hT : (stateCoords X).transition (k1.sum k2).At (k1.sum k2).reset =
      fun j => blockDiag ((stateCoords X).transition k1.At k1.reset j) ((stateCoords X).transition k2.At k2.reset j) := by
    funext l
    unfold StateCoords.transition StateCoords.jump
    rw [← blockDiag_mul]
    congr 1
    split_ifs
    · rfl
    · exact blockDiag_one.symm
  have hP : (k1.sum k2).At 0 0 * (k1.sum k2).Pinf * ((k1.sum k2).At 0 0)ᵀ + (k1.sum k2).Qt 0 0 =
      blockDiag (k1.At 0 0 * k1.Pinf * (k1.At 0 0)ᵀ + k1.Qt 0 0) (k2.At 0 0 * k2.Pinf * (k2.At 0 0)ᵀ + k2.Qt 0 0) := by
    rw [← blockDiag_add, ← blockDiag_mul, ← blockDiag_mul, ← blockDiag_transpose]
    rfl
  refine Eq.trans ?_ (stateCov_blockDiag _ _ _ _ _ _ i j)
  unfold SSM.eventCov
  rw [hT, hP]
  rfl

theorem hstack_blockDiag {n₁ n₂ : Type} [Fintype n₁] [Fintype n₂] (h1 : Matrix (Fin 1) n₁ ℝ) (h2 : Matrix (Fin 1) n₂ ℝ)
    (C1 : Matrix n₁ n₁ ℝ) (C2 : Matrix n₂ n₂ ℝ) (h1' : Matrix (Fin 1) n₁ ℝ) (h2' : Matrix (Fin 1) n₂ ℝ) :
    (hstack h1 h2 * blockDiag C1 C2 * (hstack h1' h2')ᵀ) 0 0 = (h1 * C1 * h1'ᵀ) 0 0 + (h2 * C2 * h2'ᵀ) 0 0 := by
  unfold hstack blockDiag
  rw [Matrix.fromCols_mul_fromBlocks, Matrix.mul_zero, Matrix.mul_zero, add_zero, zero_add, Matrix.transpose_fromCols,
    Matrix.fromCols_mul_fromRows]
  rfl

/-- the latent value at an event, or a measurement at the end of its exposure -/
inductive Probe (X : Arr Coord) : ℕ → Coord → Prop
  | latent {s : ℕ} (hs : s < 2 * X.len) : Probe X s (.time ((stateCoords X).t.get s))
  | measurement {i e : ℕ} (hi : i < X.len) (he : IsEnd X i e) : Probe X e (X.get i)

/-- in the augmented model the covariance of the quantities observed at coordinates `c` and `d` is `K c d` -/
def SSM.Measures (k : SSM) (X : Arr Coord) (K : Coord → Coord → ℝ) : Prop := ∀ s c s' d, Probe X s c → Probe X s' d →
  (k.obsModel c none * k.eventCov X s s' * (k.obsModel d none)ᵀ) 0 0 = K c d

theorem SSM.Measures.sum {k1 k2 : SSM} {X : Arr Coord} {K1 K2 : Coord → Coord → ℝ} (h1 : k1.Measures X K1) (h2 : k2.Measures X K2) :
    (k1.sum k2).Measures X fun c d => K1 c d + K2 c d := by
  intro s c s' d hc hd
  refine Eq.trans ?_ (congrArg₂ (· + ·) (h1 s c s' d hc hd) (h2 s c s' d hc hd))
  refine Eq.trans ?_ (hstack_blockDiag (k1.obsModel c none) (k2.obsModel c none) (k1.eventCov X s s') (k2.eventCov X s s')
    (k1.obsModel d none) (k2.obsModel d none))
  exact congrArg (fun M => ((k1.sum k2).obsModel c none * M * ((k1.sum k2).obsModel d none)ᵀ) 0 0) (eventCov_sum k1 k2 X s s')

theorem SSM.Measures.congr {k : SSM} {X : Arr Coord} {K K' : Coord → Coord → ℝ} (h : k.Measures X K) (hK : ∀ c d, K c d = K' c d) :
    k.Measures X K' := fun s c s' d hc hd => (h s c s' d hc hd).trans (hK c d)

/-! ### integrated leaves -/

section leaf
variable {name : String} {m : ℕ} {base : SSM} {first : base.n} {phibar : ℝ → ℝ → Matrix base.n base.n ℝ} {q12 : ℝ → ℝ → base.n → ℝ}
  {q22 : ℝ → ℝ → ℝ}

local notation "K" => integratedSSM name m base first phibar q12 q22

theorem integrated_At (hA : (K).TransitionIsExp) (s : ℝ) : (K).At 0 s = augA base.F first m s := by
  have h := hA (.time 0) (.time s)
  rw [show (Coord.time s).sortable - (Coord.time 0).sortable = s from sub_zero s] at h
  have e1 : NormedSpace.exp (s • (K).F) = _ := expm_augmented base.F (pickFirst m first) s
  rw [pickFirst_mul] at e1
  exact h.trans e1

theorem integrated_Qt (hL : base.Lyapunov) (hP : base.Pinfᵀ = base.Pinf) (hqc : base.Qcᵀ = base.Qc) {s : ℝ}
    (hQ : (K).NoiseIntegralOver s) : (K).Qt 0 s = augQ base.F base.Pinf first m s := by
  have e1 : (K).Qt 0 s = augNoise base m first s := by
    ext i j
    exact (hQ i j).trans (augNoise_integral first name m hqc s i j).symm
  rw [e1]
  unfold augNoise augQ defaultQ12
  rw [QFromVanLoan_stationary hL]
  have e2 := vanLoan_M hL s
  have e3 := vanLoan_W hL hP s
  congr 1
  · ext a b
    show ((vanLoan base.F base.L base.Qc (s - 0)).F3ᵀ * (vanLoan base.F base.L base.Qc (s - 0)).H2) a first = _
    rw [sub_zero, e2]; rfl
  · ext a b
    show ((vanLoan base.F base.L base.Qc (s - 0)).F3ᵀ * (vanLoan base.F base.L base.Qc (s - 0)).H2) b first = _
    rw [sub_zero, e2]; rfl
  · ext a b
    show defaultQ22 base first 0 s = _
    rw [IntegratedSHO.defaultQ22_eq, sub_zero, e3]; rfl

theorem integrated_obs (c : Coord) {X : Arr Coord} (hX : Schedule m X) {s : ℕ} (hc : Probe X s c) :
    lin (integratedSSM.obs m base first c) (augVar m (evTime X) (resetSlot X m) s) 0 = measVar first c := by
  have lat : ∀ t (h : Matrix (Fin 1) (base.n ⊕ Fin (m + 1)) ℝ), evTime X s = t →
      (∀ a, h 0 a = Sum.elim (fun a => if a = first then 1 else 0) (fun _ => 0) a) →
      lin h (augVar m (evTime X) (resetSlot X m) s) 0 = GM.x t (.inl first) := by
    intro t h ht hh
    simp only [lin, hh, Fintype.sum_sum_type, Sum.elim_inl, Sum.elim_inr, zero_smul, Finset.sum_const_zero, add_zero, ite_smul, one_smul]
    rw [Finset.sum_ite_eq' Finset.univ first, if_pos (Finset.mem_univ _), ← ht]
    rfl
  unfold measVar
  cases hc with
  | latent hs =>
    rw [if_neg (by simp [Coord.delta])]
    exact lat _ _ (evTime_lt hs) fun a => rfl
  | @measurement i _ hi he =>
    have hend := evTime_end hi he
    have hgap : ∀ a, a = startStep X i → 0 < (X.get i).delta →
        zvar (n := base.n) m (evTime X) (resetSlot X m) (slot m (X.get i).inst) s =
          GM.x (X.get i).stop (.inr ()) - GM.x (X.get i).start (.inr ()) := by
      intro a ha hd
      have hst : IsStart X i a := (isStart_iff hi).2 ha
      have hr : resetSlot X m a = some (slot m (X.get i).inst) := by
        unfold resetSlot
        rw [if_pos hst.2.2, hst.2.1]; rfl
      rw [zvar_eq (n := base.n) m (evTime X) (resetSlot X m) (slot m (X.get i).inst) (a := a) (e := s) ((C13_start_before_end X i a s hi hst he).2 hd) hr
        (fun l h1 h2 h3 => slot_undisturbed hX hi hst he h1 h2 h3), hend, evTime_start hi hst]
    cases hXi : X.get i with
    | time t =>
      rw [if_neg (by simp [Coord.delta])]
      refine lat _ _ ?_ fun a => rfl
      rw [hend, hXi]
      simp [Coord.stop, Coord.delta]
    | exposure t d o =>
      have hd0 := hX.delta_nonneg i hi
      rw [hXi] at hd0
      by_cases hd : 0 < d
      · have hg := hgap _ rfl (by rw [hXi]; exact hd)
        rw [hXi] at hg
        rw [if_pos (by exact hd)]
        have hob : ∀ a, integratedSSM.obs m base first (.exposure t d o) 0 a =
            Sum.elim (fun _ => (0 : ℝ)) (fun j => if j = slot m o then 1 / d else 0) a := by
          intro a
          simp only [integratedSSM.obs, of_apply, gt_iff_lt, if_pos hd]
        simp only [lin, hob, Fintype.sum_sum_type, Sum.elim_inl, Sum.elim_inr, zero_smul, Finset.sum_const_zero, zero_add, ite_smul]
        rw [Finset.sum_ite_eq' Finset.univ (slot m o), if_pos (Finset.mem_univ _)]
        show (1 / d) • zvar m (evTime X) (resetSlot X m) (slot m o) s = _
        rw [← hg]
        rfl
      · have hd1 : d = 0 := le_antisymm (not_lt.1 hd) hd0
        rw [if_neg (by exact hd)]
        refine lat _ _ ?_ fun a => ?_
        · rw [hend, hXi, hd1]; simp [Coord.stop, Coord.delta]
        · simp only [integratedSSM.obs, of_apply, gt_iff_lt, if_neg hd]

/-- what an integrated kernel measures: exposure averages of its latent process -/
theorem integrated_measures (hA : (K).TransitionIsExp) (hL : base.Lyapunov) (hP : base.Pinfᵀ = base.Pinf) (hqc : base.Qcᵀ = base.Qc)
    {X : Arr Coord} (hX : Schedule m X) (hN : 0 < X.len)
    (hQ : ∀ j, j + 1 < 2 * X.len → (K).NoiseIntegralOver ((stateCoords X).t.get (j + 1) - (stateCoords X).t.get j))
    (hQ0 : (K).NoiseIntegralOver 0) :
    (K).Measures X (exposureCov (latK base.F base.Pinf first)) := by
  intro s c s' d hc hd
  have hgap : ∀ j, (K).NoiseIntegralOver ((stateCoords X).gap j) := by
    intro j
    unfold StateCoords.gap
    rw [sc_len]
    by_cases hj : j + 1 < 2 * X.len
    · rw [min_eq_left (by omega), min_eq_left (by omega)]
      exact hQ j hj
    · rw [min_eq_right (by omega), min_eq_right (by omega), sub_self]
      exact hQ0
  have hT : (stateCoords X).transition (K).At (K).reset =
      fun j => augA base.F first m (evTime X (j + 1) - evTime X j) * jumpMat m (resetSlot X m j) := by
    funext j
    unfold StateCoords.transition
    have e : (stateCoords X).jump (K).reset j = jumpMat m (resetSlot X m j) := by
      unfold StateCoords.jump resetSlot
      split_ifs <;> rfl
    rw [integrated_At hA, e]
    rfl
  have hNs : (stateCoords X).noise (K).Qt = fun j => augQ base.F base.Pinf first m (evTime X (j + 1) - evTime X j) := by
    funext j
    exact integrated_Qt hL hP hqc (hgap j)
  have hP0 : (K).At 0 0 * (K).Pinf * ((K).At 0 0)ᵀ + (K).Qt 0 0 = fromBlocks base.Pinf 0 0 1 := by
    have e1 : (K).At 0 0 = 1 := by
      rw [integrated_At hA]
      unfold augA
      rw [expm_zero, phibar_zero]
      exact fromBlocks_one
    have e2 : (K).Qt 0 0 = 0 := by
      ext i j
      rw [hQ0 i j, intervalIntegral.integral_same]; rfl
    rw [e1, e2, Matrix.one_mul, transpose_one, Matrix.mul_one, add_zero]
    rfl
  rw [← measVar_cov base.F base.Pinf first hP (fun _ => 1), ← integrated_obs c hX hc, ← integrated_obs d hX hd]
  have e : ∀ c, (K).obsModel c none = integratedSSM.obs m base first c := fun c => defaultObs_none _ _ _
  rw [e, e]
  refine (B_lin_lin ((intGM base.F base.Pinf hP first).B fun _ => 1) _ _ _ _ ((K).eventCov X s s') fun a b => ?_).symm
  unfold SSM.eventCov
  rw [hT, hNs, hP0]
  exact (stateCov_aug base.F base.Pinf hP first m (evTime X) (resetSlot X m) (evTime_mono hN) s s' a b).symm

end leaf

end Verif
