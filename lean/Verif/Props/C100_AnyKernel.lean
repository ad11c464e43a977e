import Verif.Props.C97_Resolved
import Verif.Props.C99_ResolvedExposures
import Verif.Props.C18_Causality
import Verif.Lemmas.ParallelAny

/-!
# C100. What holds for every kernel tree, exact or not

Linearity in the data, independence of the origin of time, interpolation of noise-free data and totality of the likelihood need no
property of the kernel: they hold for every tree of exported classes which runs, scaled kernels and oscillators with cut-off noise
included, for instantaneous data and for exposures in any order and overlap. Linearity and independence of the origin of time hold with
all four solvers, interpolation with the sequential and the integrated one.
-/

set_option linter.unusedSectionVars false

namespace Verif
open Matrix
open scoped Kronecker

/-! ## Runs -/

section run
variable {n : Type} [Fintype n] [DecidableEq n] {P1 : Matrix n n ℝ} {T Q : ℕ → Matrix n n ℝ} {Z : ℕ → Option (Matrix n n ℝ)}
  {H : ℕ → Matrix (Fin 1) n ℝ} {R R' y y' : ℕ → ℝ} {kf kf' : ℕ → FilterOut n}

/-- two runs agree as long as the data observed so far do -/
theorem Run.causal (r : Run P1 T Q Z H R y kf) (r' : Run P1 T Q Z H R' y' kf') {j : ℕ}
    (h : ∀ k ≤ j, Z k = none → y k = y' k ∧ R k = R' k) : kf j = kf' j := by
  have upd : ∀ k ≤ j, (kf k).mPred = (kf' k).mPred → (kf k).PPred = (kf' k).PPred → kf k = kf' k := by
    intro k hk hm hP
    rw [r.upd k, r'.upd k, hm, hP]
    unfold stepUpdate
    cases hz : Z k with
    | some z => rfl
    | none => obtain ⟨h1, h2⟩ := h k hk hz; rw [h1, h2]
  induction j with
  | zero => exact upd 0 le_rfl (r.zero_m.trans r'.zero_m.symm) (r.zero_P.trans r'.zero_P.symm)
  | succ j ih =>
    have e := ih (fun k hk => h k (by omega)) (fun k hk => upd k (by omega))
    exact upd _ le_rfl (by rw [r.succ_m, r'.succ_m, e]) (by rw [r.succ_P, r'.succ_P, e])

theorem Run.symm (r : Run P1 T Q Z H R y kf) (hP : P1ᵀ = P1) {j : ℕ} (hQ : ∀ k < j, (Q k)ᵀ = Q k) : (kf j).PPredᵀ = (kf j).PPred := by
  induction j with
  | zero => rw [r.zero_P, hP]
  | succ j ih =>
    have h := ih fun k hk => hQ k (by omega)
    have hf : (kf j).Pᵀ = (kf j).P := by
      rw [r.upd j]
      unfold stepUpdate
      cases Z j with
      | some z => show (z * (kf j).PPred * zᵀ)ᵀ = z * (kf j).PPred * zᵀ; rw [transpose_mul, transpose_mul, transpose_transpose, h, Matrix.mul_assoc]
      | none => exact update_symm h
    rw [r.succ_P, transpose_add, transpose_mul, transpose_mul, transpose_transpose, hf, hQ j (by omega), Matrix.mul_assoc]

variable {N : ℕ} {TB : ℕ → Matrix n n ℝ} {sm sm' : ℕ → StateMP n}

/-- a noise-free observation is reproduced by the smoother -/
theorem Back.interpolates (r : Run P1 T Q Z H R y kf) (b : Back N TB Z kf sm) {j : ℕ} (hj : j < N) (hz : Z j = none) (h0 : R j = 0)
    (hS : (kf j).S 0 0 ≠ 0) (hs : (kf j).PPredᵀ = (kf j).PPred) :
    (H j *ᵥ (sm j).m) 0 = y j ∧ (H j * (sm j).P * (H j)ᵀ) 0 0 = 0 := by
  have hu : kf j = kalmanUpdate (H j) 0 (y j) (kf j).mPred (kf j).PPred := by
    have := r.upd j
    rwa [hz, h0] at this
  have hS' : (H j * (kf j).PPred * (H j)ᵀ) 0 0 ≠ 0 := by
    rw [hu] at hS
    have e : (kalmanUpdate (H j) 0 (y j) (kf j).mPred (kf j).PPred).S 0 0 = (H j * (kf j).PPred * (H j)ᵀ) 0 0 + 0 := rfl
    rwa [e, add_zero] at hS
  obtain ⟨hm, hP⟩ := update_exact (y := y j) (m := (kf j).mPred) hS' hs
  rw [← hu] at hm hP
  by_cases hl : j + 1 < N
  · have hG : ∀ (D Pn : Matrix n n ℝ), H j * (solve Pnᵀ ((kf j).P * D)ᵀ)ᵀ = 0 := by
      intro D Pn
      unfold solve
      rw [transpose_mul, transpose_transpose, ← Matrix.mul_assoc, ← Matrix.mul_assoc, hP, Matrix.zero_mul, Matrix.zero_mul]
    have b1 : (Run.base Z kf j).m = (kf j).m := by unfold Run.base; rw [hz]
    have b2 : (Run.base Z kf j).P = (kf j).P := by unfold Run.base; rw [hz]
    rw [b.step_m j hl, b.step_P j hl, b1, b2, mulVec_add, Pi.add_apply, hm, mulVec_mulVec, hG, Matrix.mul_add, hP, ← Matrix.mul_assoc,
      ← Matrix.mul_assoc, hG]
    simp
  · have hl' : j = N - 1 := by omega
    have e1 : (sm j).m = (kf j).m := by rw [hl']; exact b.last_m
    have e2 : (sm j).P = (kf j).P := by rw [hl']; exact b.last_P
    rw [e1, e2, hm, hP]
    simp

theorem StateMP.ext' {s s' : StateMP n} (hm : s.m = s'.m) (hP : s.P = s'.P) : s = s' := by
  cases s; cases s'; cases hm; cases hP; rfl

/-- the backward recursion determines the smoothed states -/
theorem Back.unique (b : Back N TB Z kf sm) (b' : Back N TB Z kf' sm') (h : ∀ j, kf j = kf' j) {j : ℕ} (hj : j < N) : sm j = sm' j := by
  have hb : ∀ k, Run.base Z kf k = Run.base Z kf' k := fun k => by unfold Run.base; rw [h]
  obtain ⟨d, rfl⟩ : ∃ d, j = N - 1 - d := ⟨N - 1 - j, by omega⟩
  induction d with
  | zero => exact StateMP.ext' (by rw [Nat.sub_zero, b.last_m, b'.last_m, h]) (by rw [Nat.sub_zero, b.last_P, b'.last_P, h])
  | succ d ih =>
    by_cases hd : N - 1 - d = 0
    · have : N - 1 - (d + 1) = N - 1 - d := by omega
      rw [this]; exact ih (by omega)
    · have hk1 : N - 1 - (d + 1) + 1 = N - 1 - d := by omega
      set k := N - 1 - (d + 1) with hkdef
      have i1 := ih (by omega)
      rw [← hk1] at i1
      exact StateMP.ext' (by rw [b.step_m k (by omega), b'.step_m k (by omega), i1, hb, h])
        (by rw [b.step_P k (by omega), b'.step_P k (by omega), i1, hb, h])

/-- the three branches of a prediction depend on time differences only -/
theorem predict_shift (A Q : ℝ → ℝ → Matrix n n ℝ) (P : Matrix n n ℝ) {t t' : Arr ℝ} {kf kf' : Arr (FilterOut n)} {sm sm' : Arr (StateMP n)}
    (c x : ℝ) (hl : t.len = t'.len) (hN : 0 < t.len) (ht : ∀ i, t'.get i = t.get i + c) (hkf : ∀ j, kf'.get j = kf.get j)
    (hsm : ∀ j < t.len, sm'.get j = sm.get j) : ssPredictPoint A Q P t' kf' sm' (x + c) = ssPredictPoint A Q P t kf sm x := by
  have hs : searchsortedRight t' (x + c) = searchsortedRight t x := searchsorted_shift c x hl fun i _ => ht i
  rw [predict_branches _ _ _ _ _ _ _ _ hs, predict_branches _ _ _ _ _ _ x _ rfl, ← hl]
  generalize searchsortedRight t x = j
  by_cases h0 : j = 0
  · simp only [if_pos h0]
    rw [hkf, hsm 0 hN, ht, add_sub_add_right_eq_sub]
  · by_cases h1 : t.len ≤ j
    · simp only [if_neg h0, if_pos h1]
      rw [hkf, ht, add_sub_add_right_eq_sub]
    · simp only [if_neg h0, if_neg h1]
      rw [hkf, hkf, hsm j (not_le.1 h1), ht, ht, add_sub_add_right_eq_sub, add_sub_add_right_eq_sub]

end run

/-! ## The integrated solver -/

/-- **C18, exposures.** What the integrated filter knows just after an event depends only on the measurements whose exposures have
ended by then. -/
theorem C18_integrated_causal (k : SSM) (X : Arr Coord) (y y' R R' : Arr ℝ) {j : ℕ} (hj : j < 2 * X.len)
    (h : ∀ n < X.len, ∀ e ≤ j, IsEnd X n e → y.get n = y'.get n ∧ R.get n = R'.get n) :
    (k.integratedKalman X y R).get j = (k.integratedKalman X y' R').get j := by
  refine Run.causal (ikf_run k.At k.Qt (X.map fun x => k.obsModel x none) k.reset R y (stateCoords X) k.Pinf)
    (ikf_run k.At k.Qt (X.map fun x => k.obsModel x none) k.reset R' y' (stateCoords X) k.Pinf) fun i hi hz => ?_
  have hs : (stateCoords X).stateid.get i ≠ 0 := fun h0 => by rw [(stateCoords X).resetAt_start k.reset h0] at hz; cases hz
  have h1 : (stateCoords X).stateid.get i = 1 := by rw [sc_stateid] at hs ⊢; omega
  exact h _ (obsid_lt (by omega)) i hi ⟨by omega, rfl, h1⟩

/-- **C19, exposures.** -/
theorem integrated_linear (k : SSM) (X : Arr Coord) (y y' y'' R : Arr ℝ) (a b : ℝ) (h : ∀ i, y''.get i = a * y.get i + b * y'.get i)
    (j : ℕ) (hj : j < (stateCoords X).t.len) :
    ((k.integratedCondition X y'' R).2.get j).m = a • ((k.integratedCondition X y R).2.get j).m + b • ((k.integratedCondition X y' R).2.get j).m ∧
    ((k.integratedCondition X y'' R).2.get j).P = ((k.integratedCondition X y R).2.get j).P ∧
    ((k.integratedCondition X y'' R).2.get j).P = ((k.integratedCondition X y' R).2.get j).P := by
  have r := fun z : Arr ℝ => ikf_run k.At k.Qt (X.map fun x => k.obsModel x none) k.reset R z (stateCoords X) k.Pinf
  have s := fun z : Arr ℝ => irts_back k.At k.reset (stateCoords X) (k.integratedKalman X z R) rfl
  exact ⟨Back.linear (r y) (r y') (r y'') (s y) (s y') (s y'') (fun i => h _) hj, Back.cov_indep (r y'') (r y) (s y'') (s y) hj,
    Back.cov_indep (r y'') (r y') (s y'') (s y') hj⟩

/-- **C46, exposures.** `log_probability` of the integrated solver is a finite number when the innovation variances at the ends of all
exposures are positive, and `-inf` otherwise. -/
theorem C46_integrated_total (k : SSM) (X : Arr Coord) (y R : Arr ℝ) (hy : y.len = X.len) :
    ((∀ n < X.len, ∀ e, IsEnd X n e → 0 < ((k.integratedKalman X y R).get e).S 0 0) ∧ ∃ x : ℝ, k.integratedLogProbability X y R = x) ∨
    ((∃ n < X.len, ∃ e, IsEnd X n e ∧ ((k.integratedKalman X y R).get e).S 0 0 ≤ 0) ∧ k.integratedLogProbability X y R = ⊥) := by
  have hp : ∀ i < X.len, ∃ n < X.len, IsEnd X n ((endsIdx (stateCoords X) X.len).get i) := fun i hi => by
    obtain ⟨h1, h2⟩ := endsIdx_spec hi
    exact ⟨_, obsid_lt h1, h1, rfl, by rw [sc_stateid]; exact h2⟩
  unfold SSM.integratedLogProbability
  rw [hy]
  by_cases h : ∀ n < X.len, ∀ e, IsEnd X n e → 0 < ((k.integratedKalman X y R).get e).S 0 0
  · refine .inl ⟨h, _, computeLogProb_of_pos _ _ fun i hi => ?_⟩
    obtain ⟨n, hn, he⟩ := hp i hi
    exact h n hn _ he
  · refine .inr ⟨?_, computeLogProb_of_not_pos _ _ fun h' => h fun n hn e he => ?_⟩
    · push Not at h
      obtain ⟨n, hn, e, he, hS⟩ := h
      exact ⟨n, hn, e, he, hS⟩
    · obtain ⟨i, hi, h1, -⟩ := endStep_pos hn
      have := h' i hi
      rw [(isEnd_iff hn).1 he, h1]
      exact this

/-- **C51, exposures.** -/
theorem C51_integrated_interpolation (k : SSM) (X : Arr Coord) (hk : k.SymmModel X) (y R : Arr ℝ) {n e : ℕ} (hn : n < X.len)
    (he : IsEnd X n e) (hS : ((k.integratedKalman X y R).get e).S 0 0 ≠ 0) (h0 : R.get n = 0) :
    (k.integratedConditionedAtData X y R).get n = (y.get n, 0) := by
  have r := ikf_run k.At k.Qt (X.map fun x => k.obsModel x none) k.reset R y (stateCoords X) k.Pinf
  have hs := r.symm (j := e) hk.init fun i hi => hk.Q i (by have := he.1; omega)
  obtain ⟨h1, h2⟩ := Back.interpolates r (irts_back k.At k.reset (stateCoords X) (k.integratedKalman X y R) rfl) (j := e)
    (by rw [sc_len]; exact he.1) ((stateCoords X).resetAt_end k.reset (by rw [he.2.2]; decide)) (by rw [he.2.1]; exact h0) hS hs
  rw [C14_results_in_input_order k X y R n e hn he]
  rw [he.2.1] at h1 h2
  exact Prod.ext h1 h2

/-- **C51** without sortedness, exactness or conditions on the other noise variances -/
theorem C51_interpolation_any (k : SSM) (hP : k.Pinfᵀ = k.Pinf) (hQ : ∀ s, (k.Qt 0 s)ᵀ = k.Qt 0 s)
    (X : Arr Coord) (y R : Arr ℝ) {i : ℕ} (hi : i < X.len) (hH : k.obsModel (.time (X.get i).sortable) none = k.obsModel (X.get i) none)
    (hS : ((k.kalman (X.map Coord.sortable) y R).get i).S 0 0 ≠ 0) (h0 : R.get i = 0) :
    (k.conditionedAtData X y R).get i = (y.get i, 0) := by
  have r := kf_run k.At k.Qt k.Ht R (X.map Coord.sortable) y k.Pinf
  have hs := r.symm (j := i) (by rw [transpose_add, transpose_mul, transpose_mul, transpose_transpose, hP, hQ, Matrix.mul_assoc])
    fun j _ => hQ _
  obtain ⟨h1, h2⟩ := Back.interpolates r (rts_back k.At (X.map Coord.sortable) (k.kalman (X.map Coord.sortable) y R) rfl) hi rfl h0 hS hs
  rw [conditionedAtData_get k X y R hi, ← hH]
  exact Prod.ext h1 h2

/-! ## Every tree of exported classes -/

theorem kron_symm {a b : Type} {A : Matrix a a ℝ} {B : Matrix b b ℝ} (hA : Aᵀ = A) (hB : Bᵀ = B) : (A ⊗ₖ B)ᵀ = A ⊗ₖ B := by
  rw [← kroneckerMap_transpose, hA, hB]

theorem blockDiag_symm {a b : Type} {A : Matrix a a ℝ} {B : Matrix b b ℝ} (hA : Aᵀ = A) (hB : Bᵀ = B) :
    (blockDiag A B)ᵀ = blockDiag A B := by
  unfold blockDiag
  rw [fromBlocks_transpose, hA, hB, transpose_zero, transpose_zero]

/-- the stationary covariance and the process noise are symmetric -/
def SSM.Symm (k : SSM) : Prop := k.Pinfᵀ = k.Pinf ∧ ∀ X1 X2, (k.Q X1 X2)ᵀ = k.Q X1 X2

theorem SSM.Symm.sum {k1 k2 : SSM} (h1 : k1.Symm) (h2 : k2.Symm) : (k1.sum k2).Symm :=
  ⟨blockDiag_symm h1.1 h2.1, fun _ _ => blockDiag_symm (h1.2 _ _) (h2.2 _ _)⟩

theorem SSM.Symm.prod {k1 k2 : SSM} (h1 : k1.Symm) (h2 : k2.Symm) : (k1.prod k2).Symm :=
  ⟨kron_symm h1.1 h2.1, fun X1 X2 => by
    show (k1.Pinf ⊗ₖ k2.Q X1 X2 + k1.Q X1 X2 ⊗ₖ k2.Pinf - k1.Q X1 X2 ⊗ₖ k2.Q X1 X2)ᵀ =
      k1.Pinf ⊗ₖ k2.Q X1 X2 + k1.Q X1 X2 ⊗ₖ k2.Pinf - k1.Q X1 X2 ⊗ₖ k2.Q X1 X2
    rw [transpose_sub, transpose_add, kron_symm h1.1 (h2.2 _ _), kron_symm (h1.2 _ _) h2.1, kron_symm (h1.2 _ _) (h2.2 _ _)]⟩

theorem integratedSSM_symm {name : String} {m : ℕ} {base : SSM} {first : base.n} {phibar : ℝ → ℝ → Matrix base.n base.n ℝ}
    {q12 : ℝ → ℝ → base.n → ℝ} {q22 : ℝ → ℝ → ℝ} (h : base.Symm) : (integratedSSM name m base first phibar q12 q22).Symm := by
  refine ⟨?_, fun X1 X2 => ?_⟩
  · show (fromBlocks base.Pinf 0 0 1)ᵀ = fromBlocks base.Pinf 0 0 1
    rw [fromBlocks_transpose, h.1, transpose_zero, transpose_zero, transpose_one]
  · show (fromBlocks _ _ _ _)ᵀ = fromBlocks _ _ _ _
    rw [fromBlocks_transpose, h.2]
    rfl

theorem one_symm (M : Matrix (Fin 1) (Fin 1) ℝ) : Mᵀ = M := transpose_one_by_one M

theorem two_symm {M : Matrix (Fin 2) (Fin 2) ℝ} (h : M 0 1 = M 1 0) : Mᵀ = M := by
  ext i j; fin_cases i <;> fin_cases j <;> first | rfl | exact h | exact h.symm

theorem sho_symm (omega quality sigma : ℝ) (name : String) : (sho omega quality sigma name).Symm := by
  refine ⟨two_symm ?_, fun X1 X2 => two_symm ?_⟩
  · show SHO.Pinf omega sigma 0 1 = SHO.Pinf omega sigma 1 0
    simp [SHO.Pinf]
  · show SHO.Q omega quality sigma (dtOf X1 X2) 0 1 = SHO.Q omega quality sigma (dtOf X1 X2) 1 0
    unfold SHO.Q
    split_ifs
    · simp [SHO.Qcrit]
    · simp [SHO.truncate, SHO.QunderExact]
    · simp [SHO.Qover]

theorem matern32_symm (scale sigma : ℝ) (name : String) : (matern32 scale sigma name).Symm := by
  refine ⟨two_symm ?_, fun X1 X2 => two_symm ?_⟩
  · show Matern32.Pinf (Matern32.lam scale) sigma 0 1 = Matern32.Pinf (Matern32.lam scale) sigma 1 0
    simp [Matern32.Pinf]
  · show Matern32.Q (Matern32.lam scale) sigma (dtOf X1 X2) 0 1 = Matern32.Q (Matern32.lam scale) sigma (dtOf X1 X2) 1 0
    simp [Matern32.Q]

theorem three_symm {M : Matrix (Fin 3) (Fin 3) ℝ} (h1 : M 0 1 = M 1 0) (h2 : M 0 2 = M 2 0) (h3 : M 1 2 = M 2 1) : Mᵀ = M := by
  ext i j; fin_cases i <;> fin_cases j <;> first | rfl | exact h1 | exact h1.symm | exact h2 | exact h2.symm | exact h3 | exact h3.symm

theorem matern52_symm (scale sigma : ℝ) (name : String) : (matern52 scale sigma name).Symm := by
  refine ⟨?_, fun X1 X2 => ?_⟩
  · show (Matern52.Pinf (Matern52.lam scale) sigma)ᵀ = Matern52.Pinf (Matern52.lam scale) sigma
    apply three_symm <;> simp [Matern52.Pinf]
  · show (Matern52.Q (Matern52.lam scale) sigma (dtOf X1 X2))ᵀ = Matern52.Q (Matern52.lam scale) sigma (dtOf X1 X2)
    apply three_symm <;> simp [Matern52.Q]

theorem cosine_symm (scale sigma : ℝ) (name : String) : (cosine scale sigma name).Symm := by
  refine ⟨?_, fun X1 X2 => transpose_zero⟩
  show (sigma ^ 2 • (1 : Matrix (Fin 2) (Fin 2) ℝ))ᵀ = sigma ^ 2 • 1
  rw [transpose_smul, transpose_one]

theorem sumTerms_symm (omega scale : ℝ) (j : ℕ) : (ExpSineSquared.sumTerms omega scale j).Symm := by
  have ht : ∀ j, (periodicTerm j omega scale).Symm := fun j => by
    refine ⟨?_, fun X1 X2 => transpose_zero⟩
    show (ExpSineSquared.qj2 j scale • (1 : Matrix (Fin 2) (Fin 2) ℝ))ᵀ = ExpSineSquared.qj2 j scale • 1
    rw [transpose_smul, transpose_one]
  induction j with
  | zero => exact ht 0
  | succ j ih => exact ih.sum (ht _)

theorem Kern.symm (k : Kern) : k.model.Symm := by
  induction k with
  | constant sigma s => exact ⟨one_symm _, fun _ _ => one_symm _⟩
  | exp => exact ⟨one_symm _, fun _ _ => one_symm _⟩
  | sho => exact sho_symm _ _ _ _
  | matern32 => exact matern32_symm _ _ _
  | matern52 => exact matern52_symm _ _ _
  | cosine => exact cosine_symm _ _ _
  | expSineSquared p g sigma order s =>
    have h := sumTerms_symm (2 * Real.pi / p) (2 / g) (order - 1)
    refine ⟨?_, h.2⟩
    show (sigma ^ 2 • (ExpSineSquared.sumTerms (2 * Real.pi / p) (2 / g) (order - 1)).Pinf)ᵀ = _
    rw [transpose_smul, h.1]
    rfl
  | integratedSHO => exact integratedSSM_symm (sho_symm _ _ _ _)
  | integratedExp => exact integratedSSM_symm ⟨one_symm _, fun _ _ => one_symm _⟩
  | integratedMatern32 => exact integratedSSM_symm (matern32_symm _ _ _)
  | integratedMatern52 => exact integratedSSM_symm (matern52_symm _ _ _)
  | integratedCosine => exact integratedSSM_symm (cosine_symm _ _ _)
  | scale s k c ih =>
    refine ⟨?_, ih.2⟩
    show (c • k.model.Pinf)ᵀ = c • k.model.Pinf
    rw [transpose_smul, ih.1]
  | sum a b iha ihb => exact iha.sum ihb
  | prod a b iha ihb => exact iha.prod ihb

/-- no observation row depends on the time of the coordinate -/
def SSM.ObsShift (k : SSM) (c : ℝ) : Prop :=
  ∀ X : Coord, k.obsMatrix (X.shift c) = k.obsMatrix X ∧ ∀ s, k.obsModel (X.shift c) s = k.obsModel X s

theorem SSM.ObsShift.sum {k1 k2 : SSM} {c : ℝ} (h1 : k1.ObsShift c) (h2 : k2.ObsShift c) : (k1.sum k2).ObsShift c := fun X =>
  ⟨congrArg₂ hstack (h1 X).1 (h2 X).1, fun s => congrArg₂ hstack ((h1 X).2 s) ((h2 X).2 s)⟩

theorem SSM.ObsShift.prod {k1 k2 : SSM} {c : ℝ} (h1 : k1.ObsShift c) (h2 : k2.ObsShift c) : (k1.prod k2).ObsShift c := fun X =>
  ⟨congrArg₂ kronRow (h1 X).1 (h2 X).1, fun s => congrArg₂ kronRow ((h1 X).2 s) ((h2 X).2 s)⟩

theorem integratedSSM_obsShift {name : String} {m : ℕ} {base : SSM} {first : base.n} {phibar : ℝ → ℝ → Matrix base.n base.n ℝ}
    {q12 : ℝ → ℝ → base.n → ℝ} {q22 : ℝ → ℝ → ℝ} (c : ℝ) : (integratedSSM name m base first phibar q12 q22).ObsShift c := fun X => by
  cases X <;> exact ⟨rfl, fun _ => rfl⟩

theorem sumTerms_obsShift (omega scale c : ℝ) (j : ℕ) : (ExpSineSquared.sumTerms omega scale j).ObsShift c := by
  induction j with
  | zero => exact fun X => ⟨rfl, fun _ => rfl⟩
  | succ j ih => exact ih.sum fun X => ⟨rfl, fun _ => rfl⟩

theorem SSM.ObsShift.wrapper {k : SSM} {c : ℝ} {name : String} {P : Matrix k.n k.n ℝ} (h : k.ObsShift c) :
    SSM.ObsShift { SSM.wrapper name k with Pinf := P } c := fun X =>
  ⟨(h X).1, fun s => congrArg (keepFactor name s • ·) (h X).1⟩

theorem Kern.obsShift (k : Kern) (c : ℝ) : k.model.ObsShift c := by
  induction k with
  | constant | exp | sho | matern32 | matern52 | cosine => exact fun X => ⟨rfl, fun _ => rfl⟩
  | expSineSquared p g sigma order s => exact (sumTerms_obsShift (2 * Real.pi / p) (2 / g) c (order - 1)).wrapper
  | integratedSHO | integratedExp | integratedMatern32 | integratedMatern52 | integratedCosine => exact integratedSSM_obsShift c
  | scale s k a ih => exact fun X => ⟨(ih X).1, fun n => congrArg (keepFactor s n • ·) (ih X).1⟩
  | sum a b iha ihb => exact iha.sum ihb
  | prod a b iha ihb => exact iha.prod ihb

/-! ## States of the two sequential solvers -/

/-- the state which is projected for datum `i` -/
noncomputable def dataStep (kind : SolverKind) (X : Arr Coord) (i : ℕ) : ℕ := if kind.isIntegrated then endStep X i else i

theorem projectTest_point (k : SSM) (c : Conditioned k.n) (obs : Coord → Matrix (Fin 1) k.n ℝ) (Xt : Arr Coord) (m : ℕ) :
    (k.projectTest c obs Xt).get m =
      ((obs (Xt.get m) *ᵥ (ssPredictPoint k.At k.Qt k.Pinf c.t c.filt c.smooth (Xt.get m).sortable).m) 0,
       (obs (Xt.get m) * (ssPredictPoint k.At k.Qt k.Pinf c.t c.filt c.smooth (Xt.get m).sortable).P * (obs (Xt.get m))ᵀ) 0 0) := rfl

section states
variable {kind : SolverKind} (k : SSM) (X : Arr Coord) (y R : Arr ℝ)

theorem states_t_len (kind : SolverKind) : (k.states kind X y R).t.len = if kind.isIntegrated then 2 * X.len else X.len := by
  cases kind with
  | stateSpace => rfl
  | parallel => rfl
  | integrated => exact sc_len
  | parallelIntegrated => exact sc_len

theorem dataStep_lt {i : ℕ} (hi : i < X.len) : dataStep kind X i < (k.states kind X y R).t.len := by
  rw [states_t_len]
  unfold dataStep
  split_ifs
  · exact endStep_lt hi
  · exact hi

theorem projectData_scan (obs : Coord → Matrix (Fin 1) k.n ℝ) {i : ℕ} (hi : i < X.len) :
    (k.projectData (k.states kind X y R) obs X).get i =
      ((obs (X.get i) *ᵥ ((k.states kind X y R).smooth.get (dataStep kind X i)).m) 0,
       (obs (X.get i) * ((k.states kind X y R).smooth.get (dataStep kind X i)).P * (obs (X.get i))ᵀ) 0 0) := by
  cases kind with
  | stateSpace => exact projectData_get k X y R obs hi
  | parallel => exact projectAtData_all obs X _ hi
  | integrated => rfl
  | parallelIntegrated => rfl

theorem states_linear (y' y'' : Arr ℝ) (a b : ℝ) (h : ∀ i, y''.get i = a * y.get i + b * y'.get i) {j : ℕ}
    (hj : j < (k.states kind X y R).t.len) :
    ((k.states kind X y'' R).smooth.get j).m = a • ((k.states kind X y R).smooth.get j).m + b • ((k.states kind X y' R).smooth.get j).m ∧
    ((k.states kind X y'' R).smooth.get j).P = ((k.states kind X y R).smooth.get j).P ∧
    ((k.states kind X y'' R).smooth.get j).P = ((k.states kind X y' R).smooth.get j).P := by
  cases kind with
  | stateSpace => exact condition_linear k (X.map Coord.sortable) y y' y'' R a b h j hj
  | parallel =>
    have l := parallelSmooth_lin k X R h j
    exact ⟨l.m, l.P, l.P.trans l.P'.symm⟩
  | integrated => exact integrated_linear k X y y' y'' R a b h j hj
  | parallelIntegrated =>
    have l := parIntSmooth_lin k X R h j
    exact ⟨l.m, l.P, l.P.trans l.P'.symm⟩

theorem filt_linear (y' y'' : Arr ℝ) (a b : ℝ) (h : ∀ i, y''.get i = a * y.get i + b * y'.get i) (j : ℕ) :
    (((k.states kind X y'' R).filt.get j).mPred = a • ((k.states kind X y R).filt.get j).mPred + b • ((k.states kind X y' R).filt.get j).mPred ∧
    ((k.states kind X y'' R).filt.get j).m = a • ((k.states kind X y R).filt.get j).m + b • ((k.states kind X y' R).filt.get j).m) ∧
    (((k.states kind X y'' R).filt.get j).PPred = ((k.states kind X y R).filt.get j).PPred ∧
    ((k.states kind X y'' R).filt.get j).P = ((k.states kind X y R).filt.get j).P) ∧
    ((k.states kind X y'' R).filt.get j).PPred = ((k.states kind X y' R).filt.get j).PPred ∧
    ((k.states kind X y'' R).filt.get j).P = ((k.states kind X y' R).filt.get j).P := by
  cases kind with
  | stateSpace =>
    have r := fun z : Arr ℝ => kf_run k.At k.Qt k.Ht R (X.map Coord.sortable) z k.Pinf
    exact ⟨(r y).mean_linear (r y') (r y'') h j, ⟨((r y'').cov_indep (r y) j).1, ((r y'').cov_indep (r y) j).2.1⟩,
      ((r y'').cov_indep (r y') j).1, ((r y'').cov_indep (r y') j).2.1⟩
  | parallel =>
    have l := parallelKalman_lin k X R h j
    exact ⟨⟨l.mPred, l.m⟩, ⟨l.PPred, l.P⟩, l.PPred.trans l.PPred'.symm, l.P.trans l.P'.symm⟩
  | integrated =>
    have r := fun z : Arr ℝ => ikf_run k.At k.Qt (X.map fun x => k.obsModel x none) k.reset R z (stateCoords X) k.Pinf
    exact ⟨(r y).mean_linear (r y') (r y'') (fun i => h _) j, ⟨((r y'').cov_indep (r y) j).1, ((r y'').cov_indep (r y) j).2.1⟩,
      ((r y'').cov_indep (r y') j).1, ((r y'').cov_indep (r y') j).2.1⟩
  | parallelIntegrated =>
    have l := parIntKalman_lin k X R h j
    exact ⟨⟨l.mPred, l.m⟩, ⟨l.PPred, l.P⟩, l.PPred.trans l.PPred'.symm, l.P.trans l.P'.symm⟩

theorem projectTest_linear (y' y'' : Arr ℝ) (a b : ℝ) (h : ∀ i, y''.get i = a * y.get i + b * y'.get i) (hN : 0 < X.len)
    (obs : Coord → Matrix (Fin 1) k.n ℝ) (Xt : Arr Coord) (m : ℕ) :
    ((k.projectTest (k.states kind X y'' R) obs Xt).get m).1 =
      a * ((k.projectTest (k.states kind X y R) obs Xt).get m).1 + b * ((k.projectTest (k.states kind X y' R) obs Xt).get m).1 ∧
    ((k.projectTest (k.states kind X y'' R) obs Xt).get m).2 = ((k.projectTest (k.states kind X y R) obs Xt).get m).2 ∧
    ((k.projectTest (k.states kind X y R) obs Xt).get m).2 = ((k.projectTest (k.states kind X y' R) obs Xt).get m).2 := by
  have hl := states_t_len k X y R kind
  have hpos : 0 < (k.states kind X y R).t.len := by rw [hl]; split_ifs <;> omega
  have ht' : (k.states kind X y' R).t = (k.states kind X y R).t := by cases kind <;> rfl
  have ht'' : (k.states kind X y'' R).t = (k.states kind X y R).t := by cases kind <;> rfl
  have hf := filt_linear (kind := kind) k X y R y' y'' a b h
  have hsm := fun j hj => states_linear (kind := kind) k X y R y' y'' a b h (j := j) hj
  obtain ⟨h1, h2, h3⟩ := predict_linear k.At k.Qt k.Pinf (k.states kind X y R).t (k.states kind X y R).filt (k.states kind X y' R).filt
    (k.states kind X y'' R).filt (k.states kind X y R).smooth (k.states kind X y' R).smooth (k.states kind X y'' R).smooth
    (Xt.get m).sortable a b hpos (fun j => (hf j).1.1) (fun j => (hf j).1.2) (fun j => (hf j).2.1.1) (fun j => (hf j).2.2.1)
    (fun j => (hf j).2.1.2) (fun j => (hf j).2.2.2) (fun j hj => (hsm j hj).1) (fun j hj => (hsm j hj).2.1) (fun j hj => (hsm j hj).2.2)
  rw [projectTest_point, projectTest_point, projectTest_point, ht', ht'', h1, h2, ← h3, mulVec_add, mulVec_smul, mulVec_smul]
  exact ⟨rfl, h2 ▸ rfl, rfl⟩

/-- the states of exposures shifted in time -/
theorem stateCoords_shift (c : ℝ) :
    (∀ i, (stateCoords (X.map (Coord.shift c))).t.get i = (stateCoords X).t.get i + c) ∧
    (stateCoords (X.map (Coord.shift c))).t.len = (stateCoords X).t.len ∧
    (stateCoords (X.map (Coord.shift c))).obsid = (stateCoords X).obsid ∧ (stateCoords (X.map (Coord.shift c))).stateid = (stateCoords X).stateid ∧
    (stateCoords (X.map (Coord.shift c))).instid = (stateCoords X).instid ∧ perStateInst (X.map (Coord.shift c)) = perStateInst X := by
  have hev : ∀ i, (eventTimes (X.map (Coord.shift c))).get i = (eventTimes X).get i + c := fun i => by
    have h1 : ∀ x : Coord, (x.shift c).start = x.start + c := fun x => by
      cases x <;> simp only [Coord.start, Coord.shift, Coord.sortable, Coord.delta] <;> ring
    have h2 : ∀ x : Coord, (x.shift c).stop = x.stop + c := fun x => by
      cases x <;> simp only [Coord.stop, Coord.shift, Coord.sortable, Coord.delta] <;> ring
    show (if i % 2 = 0 then ((X.get (i / 2)).shift c).start else ((X.get (i / 2)).shift c).stop) =
      (if i % 2 = 0 then (X.get (i / 2)).start else (X.get (i / 2)).stop) + c
    split_ifs
    · exact h1 _
    · exact h2 _
  have ho : eventOrder (X.map (Coord.shift c)) = eventOrder X := by
    unfold eventOrder lexsort
    have e : (fun i j => decide ((eventTimes (X.map (Coord.shift c))).get i < (eventTimes (X.map (Coord.shift c))).get j ∨
        ((eventTimes (X.map (Coord.shift c))).get i = (eventTimes (X.map (Coord.shift c))).get j ∧
          ((eventKinds (X.map (Coord.shift c))).map fun s : ℕ => -(s : ℤ)).get i ≤
            ((eventKinds (X.map (Coord.shift c))).map fun s : ℕ => -(s : ℤ)).get j))) =
        fun i j => decide ((eventTimes X).get i < (eventTimes X).get j ∨ ((eventTimes X).get i = (eventTimes X).get j ∧
          ((eventKinds X).map fun s : ℕ => -(s : ℤ)).get i ≤ ((eventKinds X).map fun s : ℕ => -(s : ℤ)).get j)) := by
      funext i j
      rw [decide_eq_decide, hev, hev, add_lt_add_iff_right, add_left_inj]
      exact Iff.rfl
    rw [e, show (eventTimes (X.map (Coord.shift c))).len = (eventTimes X).len from rfl]
  have hi : (X.map (Coord.shift c)).map Coord.inst = X.map Coord.inst := by
    have : ∀ x : Coord, (x.shift c).inst = x.inst := fun x => by cases x <;> rfl
    show (⟨X.len, fun i => ((X.get i).shift c).inst⟩ : Arr ℤ) = ⟨X.len, fun i => (X.get i).inst⟩
    simp only [this]
  have ht : ∀ i, (stateCoords (X.map (Coord.shift c))).t.get i = (stateCoords X).t.get i + c := fun i => by
    show (eventTimes (X.map (Coord.shift c))).get ((eventOrder (X.map (Coord.shift c))).get i) = (eventTimes X).get ((eventOrder X).get i) + c
    rw [ho, hev]
  have hl : (stateCoords (X.map (Coord.shift c))).t.len = (stateCoords X).t.len := by rw [sc_len, sc_len]; rfl
  have hoi : (stateCoords (X.map (Coord.shift c))).obsid = (stateCoords X).obsid := by
    show ((Arr.arange X.len).repeat2).take (eventOrder (X.map (Coord.shift c))) = ((Arr.arange X.len).repeat2).take (eventOrder X)
    rw [ho]
  have hsi : (stateCoords (X.map (Coord.shift c))).stateid = (stateCoords X).stateid := by
    show (eventKinds X).take (eventOrder (X.map (Coord.shift c))) = (eventKinds X).take (eventOrder X)
    rw [ho]
  have hii : (stateCoords (X.map (Coord.shift c))).instid = (stateCoords X).instid := hi
  exact ⟨ht, hl, hoi, hsi, hii, by unfold perStateInst; rw [hi, ho]⟩

theorem obs_shift {c : ℝ} (hk : k.ObsShift c) : ((X.map (Coord.shift c)).map fun x => k.obsModel x none) = X.map fun x => k.obsModel x none := by
  show (⟨X.len, fun i => k.obsModel ((X.get i).shift c) none⟩ : Arr _) = ⟨X.len, fun i => k.obsModel (X.get i) none⟩
  simp only [fun x => (hk x).2 none]

theorem parallelKalman_shift {c : ℝ} (hk : k.ObsShift c) : k.parallelKalman (X.map (Coord.shift c)) y R = k.parallelKalman X y R := by
  unfold SSM.parallelKalman
  rw [obs_shift k X hk]
  exact parallelKalmanFilter_diff _ _ _ _ _ _ _ _ (Arr.diff_shift rfl fun i => Coord.shift_sortable c (X.get i))

theorem parIntKalman_shift {c : ℝ} (hk : k.ObsShift c) : k.parIntKalman (X.map (Coord.shift c)) y R = k.parIntKalman X y R := by
  obtain ⟨ht, hl, hoi, hsi, -, hp⟩ := stateCoords_shift X c
  unfold SSM.parIntKalman
  rw [obs_shift k X hk, hp]
  exact parIntKalmanFilter_diff _ _ _ _ _ _ _ _ _ (Arr.diff_shift hl ht) hoi hsi

theorem parallelCondition_shift {c : ℝ} (hk : k.ObsShift c) : k.parallelCondition (X.map (Coord.shift c)) y R = k.parallelCondition X y R := by
  have hd : ((X.map (Coord.shift c)).map Coord.sortable).diff = (X.map Coord.sortable).diff :=
    Arr.diff_shift (t := X.map Coord.sortable) (t' := (X.map (Coord.shift c)).map Coord.sortable) rfl fun i => Coord.shift_sortable c (X.get i)
  unfold SSM.parallelCondition
  dsimp only
  rw [parallelKalman_shift k X y R hk, parallelRtsSmoother_diff _ _ _ _ hd]

theorem parallelIntegratedCondition_shift {c : ℝ} (hk : k.ObsShift c) :
    k.parallelIntegratedCondition (X.map (Coord.shift c)) y R = k.parallelIntegratedCondition X y R := by
  obtain ⟨ht, hl, -, hsi, -, hp⟩ := stateCoords_shift X c
  unfold SSM.parallelIntegratedCondition
  dsimp only
  rw [parIntKalman_shift k X y R hk, hp, parIntRtsSmoother_diff _ _ _ _ _ (Arr.diff_shift hl ht) hsi]

/-- the states of a data set shifted in time -/
theorem states_shift {c : ℝ} (hk : k.ObsShift c) :
    (k.states kind (X.map (Coord.shift c)) y R).t.len = (k.states kind X y R).t.len ∧
    (∀ i, (k.states kind (X.map (Coord.shift c)) y R).t.get i = (k.states kind X y R).t.get i + c) ∧
    (∀ i, dataStep kind (X.map (Coord.shift c)) i = dataStep kind X i) ∧
    (∀ j, (k.states kind (X.map (Coord.shift c)) y R).filt.get j = (k.states kind X y R).filt.get j) ∧
    (∀ j < (k.states kind X y R).t.len, (k.states kind (X.map (Coord.shift c)) y R).smooth.get j = (k.states kind X y R).smooth.get j) ∧
    (k.states kind (X.map (Coord.shift c)) y R).stateid = (k.states kind X y R).stateid := by
  cases kind with
  | stateSpace =>
    have ht : ∀ i, ((X.map (Coord.shift c)).map Coord.sortable).get i = (X.map Coord.sortable).get i + c := fun i =>
      Coord.shift_sortable c (X.get i)
    have hkf : ∀ j, (k.kalman ((X.map (Coord.shift c)).map Coord.sortable) y R).get j = (k.kalman (X.map Coord.sortable) y R).get j := by
      intro j
      refine kf_congr rfl rfl (fun i _ => ?_) (fun i _ => ?_) (fun i _ => ?_) (fun _ _ => rfl) (fun _ _ => rfl)
      · rw [ht, ht, add_sub_add_right_eq_sub]
      · rw [ht, ht, add_sub_add_right_eq_sub]
      · rw [ht]; exact (hk (.time _)).2 none
    refine ⟨rfl, ht, fun _ => by unfold dataStep; rw [if_neg (by decide), if_neg (by decide)], hkf, fun j hj => ?_, rfl⟩
    have b := rts_back k.At ((X.map (Coord.shift c)).map Coord.sortable) (k.kalman ((X.map (Coord.shift c)).map Coord.sortable) y R) rfl
    have b' := rts_back k.At (X.map Coord.sortable) (k.kalman (X.map Coord.sortable) y R) rfl
    simp only [ht, add_sub_add_right_eq_sub] at b
    exact Back.unique b b' hkf hj
  | parallel =>
    have ht : ∀ i, ((X.map (Coord.shift c)).map Coord.sortable).get i = (X.map Coord.sortable).get i + c := fun i =>
      Coord.shift_sortable c (X.get i)
    have hkf := parallelKalman_shift k X y R hk
    refine ⟨rfl, ht, fun _ => rfl, fun j => congrArg (fun f => f.get j) hkf, fun j hj => ?_, rfl⟩
    exact congrArg (fun f => f.2.get j) (parallelCondition_shift k X y R hk)
  | integrated =>
    obtain ⟨ht, hl, hoi, hsi, hii, -⟩ := stateCoords_shift X c
    have hH := obs_shift k X hk
    have hz : (stateCoords (X.map (Coord.shift c))).resetAt k.reset = (stateCoords X).resetAt k.reset := by
      funext j
      unfold StateCoords.resetAt
      rw [hoi, hsi, hii]
    have hj : (stateCoords (X.map (Coord.shift c))).jump k.reset = (stateCoords X).jump k.reset := by
      funext j
      unfold StateCoords.jump
      rw [hoi, hsi, hii]
    have r := ikf_run k.At k.Qt ((X.map (Coord.shift c)).map fun x => k.obsModel x none) k.reset R y (stateCoords (X.map (Coord.shift c))) k.Pinf
    have r' := ikf_run k.At k.Qt (X.map fun x => k.obsModel x none) k.reset R y (stateCoords X) k.Pinf
    have hkf : ∀ j, (k.integratedKalman (X.map (Coord.shift c)) y R).get j = (k.integratedKalman X y R).get j := by
      intro j
      simp only [ht, add_sub_add_right_eq_sub, hz, hoi] at r
      refine Run.causal (kf := (k.integratedKalman (X.map (Coord.shift c)) y R).get) (hH ▸ r) r' fun _ _ _ => ⟨rfl, rfl⟩
    refine ⟨hl, ht, fun i => ?_, hkf, fun j hj' => ?_, hsi⟩
    · unfold dataStep endStep endsIdx
      rw [hsi, hoi, show (X.map (Coord.shift c)).len = X.len from rfl]
    · have b := irts_back k.At k.reset (stateCoords (X.map (Coord.shift c))) (k.integratedKalman (X.map (Coord.shift c)) y R) rfl
      have b' := irts_back k.At k.reset (stateCoords X) (k.integratedKalman X y R) rfl
      rw [hl, hz, hj] at b
      simp only [ht, add_sub_add_right_eq_sub] at b
      exact Back.unique b b' hkf hj'
  | parallelIntegrated =>
    obtain ⟨ht, hl, hoi, hsi, hii, hp⟩ := stateCoords_shift X c
    have hkf := parIntKalman_shift k X y R hk
    refine ⟨hl, ht, fun i => ?_, fun j => congrArg (fun f => f.get j) hkf, fun j hj => ?_, hsi⟩
    · unfold dataStep endStep endsIdx
      rw [hsi, hoi, show (X.map (Coord.shift c)).len = X.len from rfl]
    · exact congrArg (fun f => f.2.get j) (parallelIntegratedCondition_shift k X y R hk)

theorem projectTest_shift {c : ℝ} (hk : k.ObsShift c) (hN : 0 < X.len) (s : Option String) (Xt : Arr Coord) (m : ℕ) :
    (k.projectTest (k.states kind (X.map (Coord.shift c)) y R) (fun x => k.obsModel x s) (Xt.map (Coord.shift c))).get m =
      (k.projectTest (k.states kind X y R) (fun x => k.obsModel x s) Xt).get m := by
  obtain ⟨h1, h2, -, h4, h5, -⟩ := states_shift (kind := kind) k X y R hk
  have hl := states_t_len k X y R kind
  have hpos : 0 < (k.states kind X y R).t.len := by rw [hl]; split_ifs <;> omega
  have h := predict_shift k.At k.Qt k.Pinf c (Xt.get m).sortable h1.symm hpos h2 h4 h5
  rw [projectTest_point, projectTest_point]
  have e : (Xt.map (Coord.shift c)).get m = (Xt.get m).shift c := rfl
  rw [e, Coord.shift_sortable, h, (hk (Xt.get m)).2 s]

theorem logProb_shift {c : ℝ} (hk : k.ObsShift c) : k.logProb kind (X.map (Coord.shift c)) y R = k.logProb kind X y R := by
  obtain ⟨h1, -, -, h4, -, h6⟩ := states_shift (kind := kind) k X y R hk
  cases kind with
  | stateSpace =>
    show computeLogProb ((k.kalman ((X.map (Coord.shift c)).map Coord.sortable) y R).map FilterOut.v)
      ((k.kalman ((X.map (Coord.shift c)).map Coord.sortable) y R).map FilterOut.S) =
      computeLogProb ((k.kalman (X.map Coord.sortable) y R).map FilterOut.v) ((k.kalman (X.map Coord.sortable) y R).map FilterOut.S)
    have h : ∀ j, (k.kalman ((X.map (Coord.shift c)).map Coord.sortable) y R).get j = (k.kalman (X.map Coord.sortable) y R).get j := h4
    have hl : (k.kalman ((X.map (Coord.shift c)).map Coord.sortable) y R).len = (k.kalman (X.map Coord.sortable) y R).len := by
      rw [kalman_len, kalman_len]; rfl
    generalize k.kalman ((X.map (Coord.shift c)).map Coord.sortable) y R = kf1 at h hl ⊢
    generalize k.kalman (X.map Coord.sortable) y R = kf2 at h hl ⊢
    exact computeLogProb_congr hl (fun i _ => congrArg FilterOut.v (h i)) (fun i _ => congrArg FilterOut.S (h i))
  | parallel =>
    show k.parallelLogProbability _ y R = k.parallelLogProbability X y R
    unfold SSM.parallelLogProbability
    rw [parallelKalman_shift k X y R hk]
  | integrated =>
    have h : ∀ j, (k.integratedKalman (X.map (Coord.shift c)) y R).get j = (k.integratedKalman X y R).get j := h4
    have he : endsIdx (stateCoords (X.map (Coord.shift c))) y.len = endsIdx (stateCoords X) y.len := by
      have h6' : (stateCoords (X.map (Coord.shift c))).stateid = (stateCoords X).stateid := h6
      unfold endsIdx
      rw [h6']
    show computeLogProb
        (((k.integratedKalman (X.map (Coord.shift c)) y R).map FilterOut.v).take (endsIdx (stateCoords (X.map (Coord.shift c))) y.len))
        (((k.integratedKalman (X.map (Coord.shift c)) y R).map FilterOut.S).take (endsIdx (stateCoords (X.map (Coord.shift c))) y.len)) =
      computeLogProb (((k.integratedKalman X y R).map FilterOut.v).take (endsIdx (stateCoords X) y.len))
        (((k.integratedKalman X y R).map FilterOut.S).take (endsIdx (stateCoords X) y.len))
    rw [he]
    generalize k.integratedKalman (X.map (Coord.shift c)) y R = kf1 at h ⊢
    generalize k.integratedKalman X y R = kf2 at h ⊢
    exact computeLogProb_congr rfl (fun i _ => congrArg FilterOut.v (h _)) (fun i _ => congrArg FilterOut.S (h _))
  | parallelIntegrated =>
    obtain ⟨-, -, hoi, hsi, -, -⟩ := stateCoords_shift X c
    show k.parallelIntegratedLogProbability _ y R = k.parallelIntegratedLogProbability X y R
    unfold SSM.parallelIntegratedLogProbability endsIdx
    rw [parIntKalman_shift k X y R hk, hsi]

end states

/-! ## The package interface -/

/-- the same measurements on a clock with another origin -/
def XArg.shift (c : ℝ) : XArg → XArg
  | .times t => .times (t.map (· + c))
  | .pair t d => .pair (t.map (· + c)) d
  | .triple t d i => .triple (t.map (· + c)) d i

theorem XArg.shift_coords (c : ℝ) (X : XArg) : (X.shift c).coords = X.coords.map (Coord.shift c) := by cases X <;> rfl
theorem XArg.shift_len (c : ℝ) (X : XArg) : (X.shift c).len = X.len := by cases X <;> rfl
theorem XArg.shift_isTuple (c : ℝ) (X : XArg) : (X.shift c).isTuple = X.isTuple := by cases X <;> rfl
theorem XArg.coords_len (X : XArg) : X.coords.len = X.len := by cases X <;> rfl

/-- means and variances predicted from the stored states -/
noncomputable def GP.rows (k : Kern) (s : Solver) (y : Arr ℝ) (component : Option String) (Xt : Arr Coord) : Arr (ℝ × ℝ) :=
  k.model.projectTest (k.model.states s.kind s.X.coords y s.noise) (fun x => k.model.obsModel x component) Xt

theorem GP.predict_rows {g : GP} {y : Arr ℝ} (hst : g.states = some y) {Xt : XArg} {component : Option String} {r : Arr ℝ × Arr ℝ}
    (h : g.predict (some Xt) none component = .ok r) :
    r = ((GP.rows g.kernel g.solver y component Xt.coords).map Prod.fst, (GP.rows g.kernel g.solver y component Xt.coords).map Prod.snd) := by
  unfold GP.predict at h
  simp only [hst, GP.predictConditioned] at h
  split at h
  · cases h
  · split_ifs at h
    split at h
    · cases h
    · cases h; rfl

section interface
variable {kernel : Kern} {X : XArg} {diag : Option (ℝ ⊕ Arr ℝ)} {mean : Option (Coord → ℝ)} {solver : Option SolverKind} {u : Bool}
  {gp g g' g'' : GP} {y y' y'' : Arr ℝ} {lp lp' lp'' : EReal}

theorem atData_of_new (hnew : GP.new kernel X diag mean solver u = .ok gp) (y : Arr ℝ) :
    gp.atData y = kernel.model.projectData (kernel.model.states (solver.getD (GP.chooseSolver kernel)) X.coords y (GP.noiseOf X.len diag))
      (fun x => kernel.model.obsModel x none) X.coords := by
  obtain ⟨-, hs0, hX0, -, -, -, -, hs', -⟩ := GP.new_ok hnew
  unfold GP.atData GP.projectAtData
  rw [← SSM.strip_projectData, hs0.strip, SSM.strip_projectData, hX0, hs']

/-- **C100, linearity.** Conditioned and predicted means, of the process and of its components, are linear in the data; the variances
do not depend on the data. Every kernel tree, every kind of data. -/
theorem C100_linear (hnew : GP.new kernel X diag mean solver u = .ok gp) {a b : ℝ}
    (h : ∀ i, y''.get i = a * y.get i + b * y'.get i) (hc : gp.condition y = .ok (lp, g)) (hc' : gp.condition y' = .ok (lp', g'))
    (hc'' : gp.condition y'' = .ok (lp'', g'')) :
    (∀ i < X.len, g''.mean.get i = a * g.mean.get i + b * g'.mean.get i) ∧
    (∃ v v'', g.var = some v ∧ g''.var = some v'' ∧ ∀ i < X.len, v''.get i = v.get i) ∧
    (0 < X.len → ∀ Xt component r r' r'', g.predict (some Xt) none component = .ok r → g'.predict (some Xt) none component = .ok r' →
      g''.predict (some Xt) none component = .ok r'' → ∀ m, r''.1.get m = a * r.1.get m + b * r'.1.get m ∧ r''.2.get m = r.2.get m) := by
  obtain ⟨-, -, -, -, -, -, -, hs', -⟩ := GP.new_ok hnew
  obtain ⟨-, -, hk, -, -, -, hm, hv, -, hso, hst, -⟩ := GP.condition_ok hc
  obtain ⟨-, -, hk', -, -, -, hm', -, -, hso', hst', -⟩ := GP.condition_ok hc'
  obtain ⟨-, -, hk'', -, -, -, hm'', hv'', -, hso'', hst'', -⟩ := GP.condition_ok hc''
  have key : ∀ i < X.len, ((gp.atData y'').get i).1 = a * ((gp.atData y).get i).1 + b * ((gp.atData y').get i).1 ∧
      ((gp.atData y'').get i).2 = ((gp.atData y).get i).2 := fun i hi => by
    rw [← X.coords_len] at hi
    rw [atData_of_new hnew, atData_of_new hnew, atData_of_new hnew, projectData_scan _ _ _ _ _ hi, projectData_scan _ _ _ _ _ hi,
      projectData_scan _ _ _ _ _ hi]
    obtain ⟨h1, h2, -⟩ := states_linear kernel.model X.coords y (GP.noiseOf X.len diag) y' y'' a b h
      (dataStep_lt kernel.model X.coords y _ hi)
    rw [h1, h2, mulVec_add, mulVec_smul, mulVec_smul]
    exact ⟨rfl, rfl⟩
  refine ⟨fun i hi => ?_, ⟨_, _, hv, hv'', fun i hi => (key i hi).2⟩, fun hN Xt component r r' r'' e e' e'' m => ?_⟩
  · rw [hm, hm', hm'']; exact (key i hi).1
  · rw [hk] at hk' hk''
    injection hk' with hk'
    injection hk'' with hk''
    rw [GP.predict_rows hst e, GP.predict_rows hst' e', GP.predict_rows hst'' e'', ← hk', ← hk'', hso, hso', hso'', hs']
    obtain ⟨h1, h2, -⟩ := projectTest_linear g.kernel.model X.coords y (GP.noiseOf X.len diag) y' y'' a b h (X.coords_len ▸ hN)
      (fun x => g.kernel.model.obsModel x component) Xt.coords m
    exact ⟨h1, h2⟩

/-- **C100, origin of time.** Shifting all times by `c` changes neither the likelihood nor the conditioned means and variances, and shifts
the predictions. Every kernel tree, oscillators with cut-off noise included. -/
theorem C100_translation (hnew : GP.new kernel X diag mean solver u = .ok gp) (c : ℝ)
    {mean' : Option (Coord → ℝ)} {gp' : GP} (hnew' : GP.new kernel (X.shift c) diag mean' solver u = .ok gp') (y : Arr ℝ) :
    gp'.logProbability y = gp.logProbability y ∧ ∀ lp g lp' g', gp.condition y = .ok (lp, g) → gp'.condition y = .ok (lp', g') →
      lp' = lp ∧ (∀ i < X.len, g'.mean.get i = g.mean.get i) ∧
      (∃ v v', g.var = some v ∧ g'.var = some v' ∧ ∀ i < X.len, v'.get i = v.get i) ∧
      (0 < X.len → ∀ Xt component r r', g.predict (some Xt) none component = .ok r → g'.predict (some (Xt.shift c)) none component = .ok r' →
        ∀ m, r'.1.get m = r.1.get m ∧ r'.2.get m = r.2.get m) := by
  obtain ⟨hn, hs0, -, -, -, -, -, hs1, -⟩ := GP.new_ok hnew
  obtain ⟨hn', hs0', -, -, -, -, -, hs1', -⟩ := GP.new_ok hnew'
  have hke : gp'.kernel = gp.kernel := by rw [hn] at hn'; injection hn' with e; exact e.symm
  have hlp : gp'.kernel.model.logProb gp'.solver.kind gp'.solver.X.coords y gp'.solver.noise =
      gp.kernel.model.logProb gp.solver.kind gp.solver.X.coords y gp.solver.noise := by
    rw [hke, hs1, hs1']
    dsimp only
    rw [XArg.shift_coords, XArg.shift_len]
    exact logProb_shift gp.kernel.model X.coords y _ (gp.kernel.obsShift c)
  have hrun : gp'.runError = gp.runError := by
    unfold GP.runError
    rw [hke, hs1, hs1']
  refine ⟨?_, fun lp g lp' g' hc hc' => ?_⟩
  · unfold GP.logProbability
    rw [hrun, hlp]
  · obtain ⟨-, hl, hk, -, -, -, hm, hv, -, hso, hst, -⟩ := GP.condition_ok hc
    obtain ⟨-, hl', hk', -, -, -, hm', hv', -, hso', hst', -⟩ := GP.condition_ok hc'
    have hlen : ∀ {i}, i < X.len → i < X.coords.len := fun hi => X.coords_len ▸ hi
    have key : ∀ i < X.len, (gp'.atData y).get i = (gp.atData y).get i := fun i hi => by
      rw [atData_of_new hnew, atData_of_new hnew', XArg.shift_coords, XArg.shift_len, projectData_scan _ _ _ _ _ (hlen hi),
        projectData_scan _ (X.coords.map (Coord.shift c)) _ _ _ (hlen hi)]
      obtain ⟨-, -, h3, -, h5, -⟩ := states_shift kernel.model X.coords y (GP.noiseOf X.len diag) (kernel.obsShift c)
      rw [h3, h5 _ (dataStep_lt kernel.model X.coords y _ (hlen hi)), show (X.coords.map (Coord.shift c)).get i = (X.coords.get i).shift c from rfl,
        (kernel.obsShift c (X.coords.get i)).2 none]
    refine ⟨by rw [hl, hl', hlp], fun i hi => ?_, ⟨_, _, hv, hv', fun i hi => congrArg Prod.snd (key i hi)⟩, fun hN Xt component r r' e e' m => ?_⟩
    · rw [hm, hm']; exact congrArg Prod.fst (key i hi)
    · rw [hke, hk] at hk'
      injection hk' with hk'
      rw [GP.predict_rows hst e, GP.predict_rows hst' e', ← hk', hso, hso', hs1, hs1']
      have h := projectTest_shift (kind := solver.getD (GP.chooseSolver kernel)) g.kernel.model X.coords y (GP.noiseOf X.len diag) (g.kernel.obsShift c) (hlen hN) component Xt.coords m
      unfold GP.rows
      dsimp only
      rw [XArg.shift_coords, XArg.shift_coords, XArg.shift_len]
      exact ⟨congrArg Prod.fst h, congrArg Prod.snd h⟩

/-- the coordinates which a solver conditions on are the ones its data are observed at: exposures need the integrated solver -/
def Suits (kernel : Kern) (solver : Option SolverKind) (X : XArg) : Prop :=
  solver.getD (GP.chooseSolver kernel) = .integrated ∨
    solver.getD (GP.chooseSolver kernel) = .stateSpace ∧ ∀ t d i, X ≠ .triple t d i

/-- **C100, interpolation.** If `log_probability` is finite, the conditioned mean of every noise-free datum is the datum, with variance
zero. Every kernel tree. -/
theorem C100_interpolation (hsol : Suits kernel solver X) (hnew : GP.new kernel X diag mean solver u = .ok gp) (hy : y.len = X.len)
    (hlp : lp ≠ ⊥) (hc : gp.condition y = .ok (lp, g)) {n : ℕ} (hn : n < X.len) (h0 : (GP.noiseOf X.len diag).get n = 0) :
    g.mean.get n = y.get n ∧ ∃ v, g.var = some v ∧ v.get n = 0 := by
  obtain ⟨-, hs0, -, -, -, -, -, hs1, -⟩ := GP.new_ok hnew
  obtain ⟨-, hl, -, -, -, -, hm, hv, -⟩ := GP.condition_ok hc
  have hn' : n < X.coords.len := X.coords_len ▸ hn
  have hl' : lp = kernel.model.logProb (solver.getD (GP.chooseSolver kernel)) X.coords y (GP.noiseOf X.len diag) := by
    rw [hl, ← SSM.strip_logProb, hs0.strip, SSM.strip_logProb, hs1]
  have key : (gp.atData y).get n = (y.get n, 0) := by
    rw [atData_of_new hnew]
    rcases hsol with e | ⟨e, hX⟩
    · rw [e] at hl' ⊢
      have hS : ∀ i < X.coords.len, ∀ j, IsEnd X.coords i j → 0 < ((kernel.model.integratedKalman X.coords y (GP.noiseOf X.len diag)).get j).S 0 0 := by
        rcases C46_integrated_total kernel.model X.coords y (GP.noiseOf X.len diag) (hy.trans X.coords_len.symm) with ⟨h, -⟩ | ⟨-, h⟩
        · exact h
        · exact absurd (hl'.trans h) hlp
      have he : IsEnd X.coords n (endStep X.coords n) := (isEnd_iff hn').2 rfl
      exact C51_integrated_interpolation kernel.model X.coords ⟨kernel.symm.1, kernel.symm.2 _ _, fun _ _ => kernel.symm.2 _ _⟩ y _ hn' he
        (hS n hn' _ he).ne' h0
    · rw [e] at hl' ⊢
      have hS : ∀ i < X.coords.len, 0 < ((kernel.model.kalman (X.coords.map Coord.sortable) y (GP.noiseOf X.len diag)).get i).S 0 0 := by
        rcases C46_total kernel.model (X.coords.map Coord.sortable) y (GP.noiseOf X.len diag) with ⟨h, -⟩ | ⟨-, h⟩
        · exact h
        · exact absurd (hl'.trans h) hlp
      exact C51_interpolation_any kernel.model kernel.symm.1 (fun _ => kernel.symm.2 _ _) X.coords y _ hn'
        (by cases X with
          | times t => rfl
          | pair t d => rfl
          | triple t d i => exact absurd rfl (hX t d i)) (hS n hn').ne' h0
  refine ⟨by rw [hm]; exact congrArg Prod.fst key, _, hv, congrArg Prod.snd key⟩

end interface

/-! ## Concrete cases -/

section examples

/-- an underdamped integrated oscillator over exposures in disorder, without any condition on its frequency or time steps: conditioned means
and predictions of its sum with a slow component are additive in the data -/
example (w σ : ℝ) (hw : 0 < w) (hσ : σ ≠ 0) (y y' : Arr ℝ) (ts : Arr ℝ) :
    ∃ gp lp g lp' g' lp'' g'', GP.new (.sum (.integratedSHO w 3 σ 1 "osc") (.integratedMatern32 5 3 4 "slow")) (.triple exT exD exI)
        (some (.inl (1 / 10))) none none true = .ok gp ∧ gp.condition y = .ok (lp, g) ∧ gp.condition y' = .ok (lp', g') ∧
      gp.condition ⟨3, fun i => y.get i + y'.get i⟩ = .ok (lp'', g'') ∧ (∀ i < 3, g''.mean.get i = g.mean.get i + g'.mean.get i) ∧
      ∀ component r r' r'', g.predict (some (.times ts)) none component = .ok r → g'.predict (some (.times ts)) none component = .ok r' →
        g''.predict (some (.times ts)) none component = .ok r'' → ∀ m, r''.1.get m = r.1.get m + r'.1.get m ∧ r''.2.get m = r.2.get m := by
  have hc : ¬ SHO.isCritical 3 := by unfold SHO.isCritical; norm_num [abs_of_pos]
  have hk : (Kern.sum (.integratedSHO w 3 σ 1 "osc") (.integratedMatern32 5 3 4 "slow")).IntegratesAny 1 _ :=
    .sum (.sho hw (by norm_num) hc hσ le_rfl) (.exact (.matern32 (by norm_num) (by norm_num) (by norm_num)))
  obtain ⟨gp, hnew, h⟩ := C99_succeeds (t := exT) (d := exD) (inst := exI) hk (.inl rfl)
    (by simp [Kern.componentNames, Kern.extractLeafKernels, Kern.name]) (some (.inl (1 / 10))) none
  obtain ⟨⟨lp, g⟩, h1⟩ := h (by decide) y
  obtain ⟨⟨lp', g'⟩, h2⟩ := h (by decide) y'
  obtain ⟨⟨lp'', g''⟩, h3⟩ := h (by decide) ⟨3, fun i => y.get i + y'.get i⟩
  obtain ⟨e1, -, e2⟩ := C100_linear (a := 1) (b := 1) hnew (fun i => by simp) h1 h2 h3
  refine ⟨gp, lp, g, lp', g', lp'', g'', hnew, h1, h2, h3, fun i hi => by simpa using e1 i hi, fun component r r' r'' p1 p2 p3 m => ?_⟩
  simpa using e2 (by decide) _ component r r' r'' p1 p2 p3 m

/-- the parallel solver, for an underdamped oscillator in a sum, without any condition on its frequency, the times or the noise -/
example (w σ : ℝ) (hw : 0 < w) (hσ : σ ≠ 0) (y y' : Arr ℝ) (t ts : Arr ℝ) (ht : 2 ≤ t.len) (diag : Option (ℝ ⊕ Arr ℝ)) :
    ∃ gp lp g lp' g' lp'' g'', GP.new (.sum (.sho w 3 σ "osc") (.matern32 3 4 "slow")) (.times t) diag none (some .parallel) true = .ok gp ∧
      gp.condition y = .ok (lp, g) ∧ gp.condition y' = .ok (lp', g') ∧
      gp.condition ⟨t.len, fun i => 2 * y.get i - y'.get i⟩ = .ok (lp'', g'') ∧
      (∀ i < t.len, g''.mean.get i = 2 * g.mean.get i - g'.mean.get i) ∧
      ∀ component r r' r'', g.predict (some (.times ts)) none component = .ok r → g'.predict (some (.times ts)) none component = .ok r' →
        g''.predict (some (.times ts)) none component = .ok r'' → ∀ m, r''.1.get m = 2 * r.1.get m - r'.1.get m ∧ r''.2.get m = r.2.get m := by
  have hc : ¬ SHO.isCritical 3 := by unfold SHO.isCritical; norm_num [abs_of_pos]
  have hk : (Kern.sum (.sho w 3 σ "osc") (.matern32 3 4 "slow")).AnyDamping :=
    .sum (.sho hw (by norm_num) hc hσ) (.valid (.matern32 (by norm_num) (by norm_num)))
  obtain ⟨gp, hnew, h⟩ := C97_succeeds hk (solver := some .parallel) (.inr ⟨rfl, ((transitionError_iff true _).1 rfl).2 rfl⟩)
    (by simp [Kern.componentNames, Kern.extractLeafKernels, Kern.name]) t diag none
  obtain ⟨⟨lp, g⟩, h1⟩ := h (by omega) y
  obtain ⟨⟨lp', g'⟩, h2⟩ := h (by omega) y'
  obtain ⟨⟨lp'', g''⟩, h3⟩ := h (by omega) ⟨t.len, fun i => 2 * y.get i - y'.get i⟩
  obtain ⟨e1, -, e2⟩ := C100_linear (a := 2) (b := -1) hnew (fun i => by ring) h1 h2 h3
  refine ⟨gp, lp, g, lp', g', lp'', g'', hnew, h1, h2, h3, fun i hi => by have := e1 i hi; linarith, fun component r r' r'' p1 p2 p3 m => ?_⟩
  obtain ⟨e3, e4⟩ := e2 (by show 0 < t.len; omega) _ component r r' r'' p1 p2 p3 m
  exact ⟨by linarith, e4⟩

/-- the same kernel a year later -/
example (w σ : ℝ) (hw : 0 < w) (hσ : σ ≠ 0) (y : Arr ℝ) :
    ∃ gp gp', GP.new (.sum (.integratedSHO w 3 σ 1 "osc") (.integratedMatern32 5 3 4 "slow")) (.triple exT exD exI) none none none true
        = .ok gp ∧
      GP.new (.sum (.integratedSHO w 3 σ 1 "osc") (.integratedMatern32 5 3 4 "slow")) (.triple (exT.map (· + 365)) exD exI) none none none true
        = .ok gp' ∧ gp'.logProbability y = gp.logProbability y := by
  have hc : ¬ SHO.isCritical 3 := by unfold SHO.isCritical; norm_num [abs_of_pos]
  have hk : (Kern.sum (.integratedSHO w 3 σ 1 "osc") (.integratedMatern32 5 3 4 "slow")).IntegratesAny 1 _ :=
    .sum (.sho hw (by norm_num) hc hσ le_rfl) (.exact (.matern32 (by norm_num) (by norm_num) (by norm_num)))
  have hn : (Kern.sum (.integratedSHO w 3 σ 1 "osc") (.integratedMatern32 5 3 4 "slow")).componentNames.Nodup := by
    simp [Kern.componentNames, Kern.extractLeafKernels, Kern.name]
  obtain ⟨gp, hnew, -⟩ := C99_succeeds (t := exT) (d := exD) (inst := exI) hk (.inl rfl) hn none none
  obtain ⟨gp', hnew', -⟩ := C99_succeeds (t := exT.map (· + 365)) (d := exD) (inst := exI) hk (.inl rfl) hn none none
  exact ⟨gp, gp', hnew, hnew', (C100_translation hnew 365 hnew' y).1⟩

/-- the first of two measurements is free of noise: it is interpolated -/
example (y : Arr ℝ) (hy : y.len = 2) :
    ∃ gp lp g, GP.new (.exp 1 1 "Exp") (.times ⟨2, fun i => i⟩) (some (.inr ⟨2, fun i => if i = 0 then 0 else 1 / 10⟩)) none none true = .ok gp ∧
      gp.condition y = .ok (lp, g) ∧ lp ≠ ⊥ ∧ g.mean.get 0 = y.get 0 ∧ ∃ v, g.var = some v ∧ v.get 0 = 0 := by
  have hr := expKernel_regular 1 1 "Exp" one_pos one_ne_zero
  obtain ⟨gp, hnew, h⟩ := C97_succeeds (kernel := .exp 1 1 "Exp") (solver := none) (.valid (.exp one_pos one_ne_zero)) (.inl (.inl rfl))
    (by simp [Kern.componentNames, Kern.extractLeafKernels, Kern.name]) ⟨2, fun i => i⟩
    (some (.inr ⟨2, fun i => if i = 0 then 0 else 1 / 10⟩)) none
  obtain ⟨⟨lp, g⟩, hc⟩ := h (by decide) y
  have hlp : lp ≠ ⊥ := by
    obtain ⟨-, hl, -⟩ := GP.condition_ok hc
    obtain ⟨-, hs0, -, -, -, -, -, hs1, -⟩ := GP.new_ok hnew
    rw [hl, ← SSM.strip_logProb, hs0.strip, SSM.strip_logProb, hs1]
    set t : Arr ℝ := ⟨2, fun i => i⟩
    set R : Arr ℝ := ⟨2, fun i => if i = 0 then 0 else 1 / 10⟩
    show (expKernel 1 1).logProbability t y R ≠ ⊥
    rcases C46_total (expKernel 1 1) t y R with ⟨-, x, e⟩ | ⟨⟨i, hi, hle⟩, -⟩
    · rw [e]; exact EReal.coe_ne_bot x
    · have r := kf_run (expKernel 1 1).At (expKernel 1 1).Qt (expKernel 1 1).Ht R t y (expKernel 1 1).Pinf
      have h0 : 0 < (((expKernel 1 1).kalman t y R).get 0).S 0 0 := by rw [exp_first_S]; norm_num [R]
      have hP0 : (((expKernel 1 1).kalman t y R).get 0).PPred = (expKernel 1 1).Pinf := by
        refine (kf_zero_P _ _ _ _ _ _ _ _).trans ?_
        rw [hr.A_zero, hr.toProper.Qt_zero]; simp
      have hU : (((expKernel 1 1).kalman t y R).get 0).P.PosSemidef := by
        have hP : (((expKernel 1 1).kalman t y R).get 0).PPred.PosSemidef := by rw [hP0]; exact hr.P_pd.posSemidef
        exact update_psd' hP le_rfl h0.ne'
      have h1 : 0 < (((expKernel 1 1).kalman t y R).get 1).S 0 0 := by
        have e : (((expKernel 1 1).kalman t y R).get 1).PPred.PosSemidef := by
          have := r.succ_P 0
          change (((expKernel 1 1).kalman t y R).get 1).PPred = _ at this
          rw [this]
          exact (psd_conj hU _).add (hr.toProper.Q_psd _ (by norm_num [t]))
        exact innovation_pos e (by norm_num : (0 : ℝ) < 1 / 10)
      have hi' : i < 2 := hi
      interval_cases i
      · exact absurd h0 hle.not_gt
      · exact absurd h1 hle.not_gt
  obtain ⟨e1, e2⟩ := C100_interpolation (.inr ⟨rfl, fun _ _ _ h => by cases h⟩) hnew hy hlp hc (n := 0) (by show 0 < 2; decide) rfl
  exact ⟨gp, lp, g, hnew, hc, hlp, e1, e2⟩

end examples

end Verif
