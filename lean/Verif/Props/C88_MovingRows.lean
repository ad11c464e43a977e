import Verif.Lemmas.Moving
import Verif.Props.C86_UserKernels
import Verif.Props.C12_ParallelIntegrated

/-!
# C88: observation rows which vary with time

`docs/tutorials/introssm.ipynb` allows the observation matrix to differ from datum to datum; `observation_matrix(X)` gets the coordinate for
that purpose.
-/

set_option linter.unusedSectionVars false

namespace Verif
open Matrix Spec

/-! ## What is claimed -/

/-- the sequential solver returns what the textbook gives for the covariance function `K` of two times -/
structure Spec.SequentialExactFor (k : SSM) (K : ℝ → ℝ → ℝ) : Prop where
  likelihood : ∀ (X : Arr Coord) (y R : Arr ℝ), Sorted (X.map Coord.sortable) → (∀ i < X.len, 0 < R.get i) → 0 < X.len →
    k.logProbability (X.map Coord.sortable) y R =
      ((gaussLogDensity (noisyGram (fun i j : Fin X.len => K (X.get i).sortable (X.get j).sortable) fun i => R.get i)
        (fun i => y.get i) : ℝ) : EReal)
  conditioned : ∀ (X : Arr Coord) (y R : Arr ℝ), Sorted (X.map Coord.sortable) → (∀ i < X.len, 0 < R.get i) → ∀ i < X.len,
    (k.conditionedAtData X y R).get i =
      (postMean (noisyGram (fun i j : Fin X.len => K (X.get i).sortable (X.get j).sortable) fun i => R.get i)
        (fun j => y.get j) (fun j => K (X.get i).sortable (X.get j).sortable),
       postVar (noisyGram (fun i j : Fin X.len => K (X.get i).sortable (X.get j).sortable) fun i => R.get i)
        (K (X.get i).sortable (X.get i).sortable) (fun j => K (X.get i).sortable (X.get j).sortable))
  predicted : ∀ (X : Arr Coord) (y R : Arr ℝ) (Xtest : Arr Coord), Sorted (X.map Coord.sortable) → (∀ i < X.len, 0 < R.get i) → 0 < X.len →
    ∀ m, (k.predictAt X y R Xtest).get m =
      (postMean (noisyGram (fun i j : Fin X.len => K (X.get i).sortable (X.get j).sortable) fun i => R.get i)
        (fun j => y.get j) (fun j => K (Xtest.get m).sortable (X.get j).sortable),
       postVar (noisyGram (fun i j : Fin X.len => K (X.get i).sortable (X.get j).sortable) fun i => R.get i)
        (K (Xtest.get m).sortable (Xtest.get m).sortable) (fun j => K (Xtest.get m).sortable (X.get j).sortable))

/-- the covariance of `h(s) x(s)` and `h(t) x(t)` for the stationary solution `x` of `dx = F x dt + …` with covariance `P` -/
noncomputable def Spec.movingCov {n : Type} [Fintype n] [DecidableEq n] (F P : Matrix n n ℝ) (h : ℝ → Matrix (Fin 1) n ℝ) (s t : ℝ) : ℝ :=
  (h s * stationaryCov F P s t * (h t)ᵀ) 0 0

/-- kernels whose observation rows may vary with time, with the covariance function this should give -/
inductive Spec.Varying : SSM → (ℝ → ℝ → ℝ) → Prop where
  | builtIn {k : SSM} {c : ℝ → ℝ} (hk : BuiltIn k) (hc : k.HasCov c) : Spec.Varying k fun s t => c |s - t|
  | user (name : String) {n p : Type} [Fintype n] [DecidableEq n] [Fintype p] [DecidableEq p] {F P : Matrix n n ℝ} (L : Matrix n p ℝ)
      (Qc : Matrix p p ℝ) (h : ℝ → Matrix (Fin 1) n ℝ) (hP : P.PosDef) (hdiss : (-(F * P + P * Fᵀ)).PosSemidef) :
      Spec.Varying (userKernel name F P L Qc fun X => h X.sortable) (movingCov F P h)
  | observing (name : String) {k : SSM} (hk : BuiltIn k) (hA : k.TransitionIsExp) (h : ℝ → Matrix (Fin 1) k.n ℝ) :
      Spec.Varying (SSM.observing name k fun X => h X.sortable) (movingCov k.F k.Pinf h)
  | sum {k1 k2 : SSM} {K1 K2 : ℝ → ℝ → ℝ} : Spec.Varying k1 K1 → Spec.Varying k2 K2 → Spec.Varying (k1.sum k2) fun s t => K1 s t + K2 s t
  | prod {k1 k2 : SSM} {K1 K2 : ℝ → ℝ → ℝ} : Spec.Varying k1 K1 → Spec.Varying k2 K2 → Spec.Varying (k1.prod k2) fun s t => K1 s t * K2 s t

/-! ## Proofs -/

theorem Spec.SequentialExactFor.of_moving {k : SSM} {h : ℝ → Matrix (Fin 1) k.n ℝ} (hk : k.Moving h) : Spec.SequentialExactFor k k.timeCov where
  likelihood X y R hX hR hN := hk.log_probability hX hN hR
  conditioned X y R hX hR i hi := by
    rw [conditionedAtData_get k X y R hi]
    have h := hk.smoothed_dense (y := y) hX (by omega) hR hi
    exact Prod.ext h.1 h.2
  predicted X y R Xtest hX hR hN m := by
    have h := hk.predicted_dense (y := y) hX hN hR (Xtest.get m)
    exact Prod.ext h.1 h.2

/-- a regular kernel stays regular when its row is replaced -/
theorem SSM.Regular.freeze {k k' : SSM} (hk : k.Regular) (hn : k' = SSM.observing "" k fun _ => 0) : k'.Regular :=
  hn ▸ hk.observing "" 0

theorem SSM.Moving.sum {k1 k2 : SSM} {h1 : ℝ → Matrix (Fin 1) k1.n ℝ} {h2 : ℝ → Matrix (Fin 1) k2.n ℝ} (m1 : k1.Moving h1) (m2 : k2.Moving h2) :
    (k1.sum k2).Moving fun t => hstack (h1 t) (h2 t) where
  frozen := by
    have hr := m1.frozen.sum m2.frozen
    exact {
      shift_A := hr.shift_A
      A_zero := hr.A_zero
      A_add := hr.A_add
      Q_eq := hr.Q_eq
      Q_psd := hr.Q_psd
      P_psd := hr.P_psd
      H_const := defaultObs_const _ _ fun _ => rfl
      P_pd := hr.P_pd
      A_unit := hr.A_unit }
  H_time X := by
    show hstack (k1.obsModel X none) (k2.obsModel X none) = _
    rw [m1.H_time, m2.H_time]

theorem SSM.Moving.prod {k1 k2 : SSM} {h1 : ℝ → Matrix (Fin 1) k1.n ℝ} {h2 : ℝ → Matrix (Fin 1) k2.n ℝ} (m1 : k1.Moving h1) (m2 : k2.Moving h2) :
    (k1.prod k2).Moving fun t => kronRow (h1 t) (h2 t) where
  frozen := by
    have hr := m1.frozen.prod m2.frozen
    exact {
      shift_A := hr.shift_A
      A_zero := hr.A_zero
      A_add := hr.A_add
      Q_eq := hr.Q_eq
      Q_psd := hr.Q_psd
      P_psd := hr.P_psd
      H_const := defaultObs_const _ _ fun _ => rfl
      P_pd := hr.P_pd
      A_unit := hr.A_unit }
  H_time X := by
    show kronRow (k1.obsModel X none) (k2.obsModel X none) = _
    rw [m1.H_time, m2.H_time]

theorem movingCov_symm {n : Type} [Fintype n] [DecidableEq n] {F P : Matrix n n ℝ} (hP : Pᵀ = P) (h : ℝ → Matrix (Fin 1) n ℝ) (s t : ℝ) :
    movingCov F P h s t = movingCov F P h t s := by
  unfold movingCov
  rw [← transpose_apply (h s * _ * _), transpose_mul, transpose_mul, transpose_transpose, stationaryCov_transpose hP, Matrix.mul_assoc]

/-- `timeCov` of a kernel with exponential transitions -/
theorem SSM.Moving.timeCov_moving {k : SSM} {h : ℝ → Matrix (Fin 1) k.n ℝ} (m : k.Moving h) (hA : k.TransitionIsExp) (s t : ℝ) :
    k.timeCov s t = movingCov k.F k.Pinf h s t := by
  have key : ∀ s t, t ≤ s → k.evaluate (.time s) (.time t) = movingCov k.F k.Pinf h s t := fun s t hst => by
    rw [m.evaluate_of_ge (X1 := .time s) (X2 := .time t) hst]
    unfold movingCov stationaryCov
    rw [if_neg (not_lt.2 hst)]
    have e : k.At 0 (s - t) = NormedSpace.exp ((s - t) • k.F) := by
      have := hA (.time 0) (.time (s - t))
      simp only [Coord.sortable, sub_zero] at this
      exact this
    show (h s * k.At 0 (s - t) * k.Pinf * (h t)ᵀ) 0 0 = _
    rw [e, Matrix.mul_assoc (h s)]
  unfold SSM.timeCov
  split_ifs with hlt
  · rw [key _ _ hlt.le, movingCov_symm (P := k.Pinf) (psd_symm m.frozen.P_psd)]
  · exact key _ _ (not_lt.1 hlt)

theorem Spec.Varying.facts {k : SSM} {K : ℝ → ℝ → ℝ} (hv : Spec.Varying k K) : (∃ h, k.Moving h) ∧ ∀ s t, k.timeCov s t = K s t := by
  induction hv with
  | builtIn hk hc =>
    refine ⟨⟨fun _ => _, hk.regular.observing "" 0, hk.regular.H_const⟩, fun s t => ?_⟩
    unfold SSM.timeCov
    split_ifs with h
    · rw [hc, abs_sub_comm]; rfl
    · rw [hc]; rfl
  | user name L Qc h hP hdiss =>
    have m : (userKernel name _ _ L Qc fun X => h X.sortable).Moving h :=
      ⟨(userKernel_regular name L Qc 0 hP hdiss).observing "" 0, fun X => one_smul ℝ _⟩
    exact ⟨⟨h, m⟩, m.timeCov_moving fun _ _ => rfl⟩
  | observing name hk hA h =>
    have m : (SSM.observing name _ fun X => h X.sortable).Moving h := ⟨hk.regular.observing "" 0, fun X => one_smul ℝ _⟩
    exact ⟨⟨h, m⟩, m.timeCov_moving hA⟩
  | sum _ _ h1 h2 =>
    obtain ⟨⟨g1, m1⟩, e1⟩ := h1
    obtain ⟨⟨g2, m2⟩, e2⟩ := h2
    refine ⟨⟨_, m1.sum m2⟩, fun s t => ?_⟩
    beta_reduce
    rw [← e1, ← e2]
    unfold SSM.timeCov
    split_ifs <;> exact C27_sum_evaluate _ _ _ _
  | prod _ _ h1 h2 =>
    obtain ⟨⟨g1, m1⟩, e1⟩ := h1
    obtain ⟨⟨g2, m2⟩, e2⟩ := h2
    refine ⟨⟨_, m1.prod m2⟩, fun s t => ?_⟩
    beta_reduce
    rw [← e1, ← e2]
    unfold SSM.timeCov
    split_ifs <;> exact C27_prod_evaluate _ _ _ _

/-- **C88.** With observation rows which vary with time, the sequential solver is exact for the covariance function `Cov(h(s) x(s), h(t) x(t))`,
also in sums and products. -/
theorem C88_sequential {k : SSM} {K : ℝ → ℝ → ℝ} (hv : Spec.Varying k K) : Spec.SequentialExactFor k K := by
  obtain ⟨⟨h, m⟩, e⟩ := hv.facts
  have : k.timeCov = K := funext fun s => funext fun t => e s t
  exact this ▸ Spec.SequentialExactFor.of_moving m

/-- **C88.** In particular a time-dependent amplitude: a row `a(t) H` gives the covariance function `a(s) a(t) c(|s - t|)`. -/
theorem C88_amplitude {k : SSM} {c : ℝ → ℝ} (hk : BuiltIn k) (hA : k.TransitionIsExp) (hc : k.HasCov c) (name : String) (a : ℝ → ℝ) :
    Spec.SequentialExactFor (SSM.observing name k fun X => a X.sortable • k.obsModel (.time 0) none) fun s t => a s * a t * c |s - t| := by
  have h := C88_sequential (.observing name hk hA fun t => a t • k.obsModel (.time 0) none)
  have e : movingCov k.F k.Pinf (fun t => a t • k.obsModel (.time 0) none) = fun s t => a s * a t * c |s - t| := by
    funext s t
    have h1 := hk.regular.toProper.hasCov hA (.time s) (.time t)
    rw [hc] at h1
    have h1 : c |s - t| = Spec.sdeCov k.F k.Pinf (k.obsModel (.time 0) none) |s - t| := h1
    rw [h1, sdeCov_abs (psd_symm hk.regular.P_psd)]
    unfold movingCov
    simp only [Matrix.smul_mul, transpose_smul, Matrix.mul_smul, Matrix.smul_apply, smul_eq_mul]
    ring
  exact e ▸ h

/-- **C88.** The kernel function itself is the covariance when its first argument is not earlier than the second. -/
theorem C88_evaluate_partial {k : SSM} {K : ℝ → ℝ → ℝ} (hv : Spec.Varying k K) (X1 X2 : Coord) (h12 : X2.sortable ≤ X1.sortable) :
    k.evaluate X1 X2 = K X1.sortable X2.sortable := by
  obtain ⟨⟨h, m⟩, e⟩ := hv.facts
  rw [← e]
  unfold SSM.timeCov
  rw [if_neg (not_lt.2 h12), m.evaluate_of_ge h12, m.evaluate_of_ge (X1 := .time X1.sortable) (X2 := .time X2.sortable) h12]
  rfl

/-- value of the process up to time 0, its derivative afterwards -/
noncomputable def Spec.valueThenDerivative (t : ℝ) : Matrix (Fin 1) (Fin 2) ℝ := if t ≤ 0 then !![1, 0] else !![0, 1]

/-- **C88, where it fails.** The kernel function of a Matérn-3/2 kernel of which the value is observed at time 0 and the derivative at time 1 is
not symmetric: called with the earlier coordinate first, it is not the covariance (it has the wrong sign). -/
theorem C88_evaluate_refuted : ∃ (k : SSM) (K : ℝ → ℝ → ℝ), Spec.Varying k K ∧
    k.evaluate (.time 0) (.time 1) ≠ K 0 1 ∧ k.evaluate (.time 0) (.time 1) ≠ k.evaluate (.time 1) (.time 0) := by
  have hA : (matern32 1 1).TransitionIsExp := (Leaf.matern32 (shoOk := SHO.Genuine) one_pos).transitionIsExp
  have hv := Spec.Varying.observing "D" (.matern32 one_pos one_ne_zero) hA (k := matern32 1 1) Spec.valueThenDerivative
  refine ⟨_, _, hv, ?_⟩
  have hs := movingCov_symm (F := (matern32 1 1).F) (psd_symm (BuiltIn.matern32 (scale := 1) (sigma := 1) one_pos one_ne_zero).regular.P_psd)
    Spec.valueThenDerivative 0 1
  have h1 := C88_evaluate_partial hv (.time 1) (.time 0) (by simp [Coord.sortable])
  have key : (SSM.observing "D" (matern32 1 1) fun X => Spec.valueThenDerivative X.sortable).evaluate (.time 0) (.time 1) ≠
      (SSM.observing "D" (matern32 1 1) fun X => Spec.valueThenDerivative X.sortable).evaluate (.time 1) (.time 0) := by
    have e0 : Spec.valueThenDerivative 0 = !![1, 0] := if_pos le_rfl
    have e1 : Spec.valueThenDerivative 1 = !![0, 1] := if_neg (by norm_num)
    have l : 0 < Matern32.lam 1 := by unfold Matern32.lam; positivity
    have a1 : (SSM.observing "D" (matern32 1 1) fun X => Spec.valueThenDerivative X.sortable).evaluate (.time 0) (.time 1) =
        ((!![0, 1] : Matrix (Fin 1) (Fin 2) ℝ) * Matern32.Pinf (Matern32.lam 1) 1 * (Matern32.A (Matern32.lam 1) (1 - 0))ᵀ *
          (!![1, 0] : Matrix (Fin 1) (Fin 2) ℝ)ᵀ) 0 0 := by
      unfold SSM.evaluate
      rw [if_pos (by simp [Coord.sortable])]
      show ((1 : ℝ) • Spec.valueThenDerivative 1 * Matern32.Pinf (Matern32.lam 1) 1 * (Matern32.A (Matern32.lam 1) (1 - 0))ᵀ *
        ((1 : ℝ) • Spec.valueThenDerivative 0)ᵀ) 0 0 = _
      rw [one_smul, one_smul, e0, e1]
    have a2 : (SSM.observing "D" (matern32 1 1) fun X => Spec.valueThenDerivative X.sortable).evaluate (.time 1) (.time 0) =
        ((!![0, 1] : Matrix (Fin 1) (Fin 2) ℝ) * Matern32.A (Matern32.lam 1) (1 - 0) * Matern32.Pinf (Matern32.lam 1) 1 *
          (!![1, 0] : Matrix (Fin 1) (Fin 2) ℝ)ᵀ) 0 0 := by
      unfold SSM.evaluate
      rw [if_neg (by simp [Coord.sortable])]
      show ((1 : ℝ) • Spec.valueThenDerivative 1 * Matern32.A (Matern32.lam 1) (1 - 0) * Matern32.Pinf (Matern32.lam 1) 1 *
        ((1 : ℝ) • Spec.valueThenDerivative 0)ᵀ) 0 0 = _
      rw [one_smul, one_smul, e0, e1]
    rw [a1, a2]
    unfold Matern32.A Matern32.Pinf
    generalize Matern32.lam 1 = x at l
    have hE := Real.exp_pos (-x * (1 - 0))
    generalize Real.exp (-x * (1 - 0)) = E at hE
    simp only [Matrix.mul_smul, Matrix.smul_mul, Matrix.smul_apply, smul_eq_mul, Matrix.mul_apply, Fin.sum_univ_two, transpose_apply,
      transpose_smul]
    have : 0 < x ^ 2 * E := by positivity
    simp
    nlinarith
  refine ⟨?_, key⟩
  rw [hs]
  exact fun h => key (h.trans h1.symm)

theorem KElem.first_of_zero {n : Type} [Fintype n] [DecidableEq n] (Phi : ℝ → ℝ → Matrix n n ℝ) {H : ℝ → Matrix (Fin 1) n ℝ} (hH : H 0 = 0)
    (P0 : Matrix n n ℝ) (y0 r0 : ℝ) : (KElem.first Phi H 0 P0 y0 r0).b = 0 ∧ (KElem.first Phi H 0 P0 y0 r0).C = Phi 0 0 * P0 * (Phi 0 0)ᵀ := by
  unfold KElem.first solve
  simp only [hH, transpose_zero, Matrix.mul_zero, Matrix.zero_mul, mulVec_zero, zero_mulVec, add_zero, sub_zero, and_self]

/-- the parallel solver for the kernel `(t, 0)` with a constant state, data 0 at times 1 and 2, noise 1 -/
theorem line_parallel (Phi Q : ℝ → ℝ → Matrix (Fin 2) (Fin 2) ℝ) (H : ℝ → Matrix (Fin 1) (Fin 2) ℝ) (hPhi : Phi = fun _ _ => 1)
    (hQ : Q = fun _ _ => 0) (hH : H = fun t => !![t, 0]) :
    computeLogProb ((parallelKalmanFilter Phi Q H ⟨2, fun i => H (i + 1)⟩ ⟨2, fun _ => 1⟩ ⟨2, fun i => i + 1⟩ ⟨2, fun _ => 0⟩ 0 1).map FilterOut.v)
      ((parallelKalmanFilter Phi Q H ⟨2, fun i => H (i + 1)⟩ ⟨2, fun _ => 1⟩ ⟨2, fun i => i + 1⟩ ⟨2, fun _ => 0⟩ 0 1).map FilterOut.S) =
      ((-(1 / 2) * (Real.log 2 + Real.log 5 + 2 * Real.log (2 * Real.pi)) : ℝ) : EReal) := by
  subst hPhi hQ hH
  have hf := KElem.first_of_zero (fun _ _ => (1 : Matrix (Fin 2) (Fin 2) ℝ)) (H := fun t => !![t, 0]) (by ext i j; fin_cases i; fin_cases j <;> rfl)
    (1 : Matrix (Fin 2) (Fin 2) ℝ) 0 1
  set kf := parallelKalmanFilter (fun _ _ => (1 : Matrix (Fin 2) (Fin 2) ℝ)) (fun _ _ => 0) (fun t => !![t, 0])
    ⟨2, fun i => !![(i : ℝ) + 1, 0]⟩ ⟨2, fun _ => 1⟩ ⟨2, fun i => i + 1⟩ ⟨2, fun _ => 0⟩ 0 1 with hkf
  have s0 : (kf.get 0).S 0 0 = 2 := by
    show (((!![((0 : ℕ) : ℝ) + 1, 0] : Matrix (Fin 1) (Fin 2) ℝ) * ((1 : Matrix (Fin 2) (Fin 2) ℝ) * 1 * (1 : Matrix (Fin 2) (Fin 2) ℝ)ᵀ + 0) *
      (!![((0 : ℕ) : ℝ) + 1, 0] : Matrix (Fin 1) (Fin 2) ℝ)ᵀ : Matrix (Fin 1) (Fin 1) ℝ) 0 0 + 1) = 2
    simp [Matrix.mul_apply, Fin.sum_univ_two]
    norm_num
  have v0 : (kf.get 0).v 0 = 0 := by
    show 0 - ((!![((0 : ℕ) : ℝ) + 1, 0] : Matrix (Fin 1) (Fin 2) ℝ) *ᵥ ((1 : Matrix (Fin 2) (Fin 2) ℝ) *ᵥ 0)) 0 = 0
    simp
  have hs : ∀ p : Arr (KElem (Fin 2)), (parallelKalmanScan p).get 0 = p.get 0 := fun p => assocScanGet_zero _ _ _
  have hq : (parallelKalmanScan (parallelParams (fun _ _ => (1 : Matrix (Fin 2) (Fin 2) ℝ)) (fun _ _ => 0) (fun t => !![t, 0])
      ⟨2, fun _ => 1⟩ ⟨2, fun i => i + 1⟩ ⟨2, fun _ => 0⟩ 0 1)).get 0 =
      KElem.first (fun _ _ => (1 : Matrix (Fin 2) (Fin 2) ℝ)) (fun t => !![t, 0]) 0 1 0 1 := hs _
  have s1 : (kf.get 1).S 0 0 = 5 := by
    show (((!![((1 : ℕ) : ℝ) + 1, 0] : Matrix (Fin 1) (Fin 2) ℝ) * ((1 : Matrix (Fin 2) (Fin 2) ℝ) *
      ((parallelKalmanScan (parallelParams (fun _ _ => (1 : Matrix (Fin 2) (Fin 2) ℝ)) (fun _ _ => 0) (fun t => !![t, 0])
      ⟨2, fun _ => 1⟩ ⟨2, fun i => i + 1⟩ ⟨2, fun _ => 0⟩ 0 1)).get 0).C * (1 : Matrix (Fin 2) (Fin 2) ℝ)ᵀ + 0) *
      (!![((1 : ℕ) : ℝ) + 1, 0] : Matrix (Fin 1) (Fin 2) ℝ)ᵀ : Matrix (Fin 1) (Fin 1) ℝ) 0 0 + 1) = 5
    rw [hq, hf.2]
    simp [Matrix.mul_apply, Fin.sum_univ_two]
    norm_num
  have v1 : (kf.get 1).v 0 = 0 := by
    show 0 - ((!![((1 : ℕ) : ℝ) + 1, 0] : Matrix (Fin 1) (Fin 2) ℝ) *ᵥ ((1 : Matrix (Fin 2) (Fin 2) ℝ) *ᵥ
      ((parallelKalmanScan (parallelParams (fun _ _ => (1 : Matrix (Fin 2) (Fin 2) ℝ)) (fun _ _ => 0) (fun t => !![t, 0])
      ⟨2, fun _ => 1⟩ ⟨2, fun i => i + 1⟩ ⟨2, fun _ => 0⟩ 0 1)).get 0).b)) 0 = 0
    rw [hq, hf.1]
    simp
  have hl : kf.len = 2 := rfl
  rw [computeLogProb_eq (kf.map FilterOut.v) (kf.map FilterOut.S) fun i hi => ?_]
  · show ((-(1 / 2) * ∑ i : Fin 2, (((kf.get i).v 0 / Real.sqrt ((kf.get i).S 0 0)) ^ 2 + 2 * Real.log (Real.sqrt ((kf.get i).S 0 0)) +
      1 * Real.log (2 * Real.pi)) : ℝ) : EReal) = _
    rw [Fin.sum_univ_two, show ((0 : Fin 2) : ℕ) = 0 from rfl, show ((1 : Fin 2) : ℕ) = 1 from rfl, s0, s1, v0, v1,
      Real.log_sqrt (by norm_num), Real.log_sqrt (by norm_num)]
    congr 1
    ring
  · have hi : i < 2 := hi
    have hc : i = 0 ∨ i = 1 := by omega
    show 0 < (kf.get i).S 0 0
    rcases hc with rfl | rfl
    · rw [s0]; norm_num
    · rw [s1]; norm_num

/-- **C88, where it fails.** The parallel solver evaluates the observation row at time differences instead of times
(`solvers/parallel/kalman.py:60,88`): for a straight line through the origin with a random slope (row `(t, 0)`), observed at times 1 and 2, its
log likelihood is not that of the textbook, although the sequential solver's is. -/
theorem C88_parallel_refuted : ∃ (k : SSM) (K : ℝ → ℝ → ℝ) (X : Arr Coord) (y R : Arr ℝ), Spec.Varying k K ∧ (∀ s t, K s t = s * t) ∧
    Sorted (X.map Coord.sortable) ∧ (∀ i < X.len, 0 < R.get i) ∧ X.len = 2 ∧
    k.parallelLogProbability X y R ≠ k.logProbability (X.map Coord.sortable) y R := by
  have hdiss : (-((0 : Matrix (Fin 2) (Fin 2) ℝ) * 1 + 1 * (0 : Matrix (Fin 2) (Fin 2) ℝ)ᵀ)).PosSemidef := by
    simpa using Matrix.PosSemidef.zero
  have hv := Spec.Varying.user "Line" (F := (0 : Matrix (Fin 2) (Fin 2) ℝ)) (P := 1) (0 : Matrix (Fin 2) (Fin 1) ℝ) (0 : Matrix (Fin 1) (Fin 1) ℝ)
    (fun t => !![t, 0]) Matrix.PosDef.one hdiss
  have hK : ∀ s t, movingCov (0 : Matrix (Fin 2) (Fin 2) ℝ) 1 (fun t => !![t, 0]) s t = s * t := fun s t => by
    unfold movingCov stationaryCov
    split_ifs <;> simp [Matrix.mul_apply, Fin.sum_univ_two]
  have hX : Sorted ((⟨2, fun i => .time (i + 1)⟩ : Arr Coord).map Coord.sortable) := fun i j hij _ => by
    simpa [Arr.map, Coord.sortable] using hij
  refine ⟨_, _, ⟨2, fun i => .time (i + 1)⟩, ⟨2, fun _ => 0⟩, ⟨2, fun _ => 1⟩, hv, hK, hX, fun _ _ => one_pos, rfl, ?_⟩
  rw [(C88_sequential hv).likelihood ⟨2, fun i => .time (i + 1)⟩ ⟨2, fun _ => 0⟩ ⟨2, fun _ => 1⟩ hX (fun _ _ => one_pos) two_pos]
  simp only [hK]
  have hH : (userKernel "Line" (0 : Matrix (Fin 2) (Fin 2) ℝ) 1 (0 : Matrix (Fin 2) (Fin 1) ℝ) (0 : Matrix (Fin 1) (Fin 1) ℝ)
    (fun X => !![X.sortable, 0])).Ht = fun t => !![t, 0] := funext fun t => one_smul ℝ _
  have hA : (userKernel "Line" (0 : Matrix (Fin 2) (Fin 2) ℝ) 1 (0 : Matrix (Fin 2) (Fin 1) ℝ) (0 : Matrix (Fin 1) (Fin 1) ℝ)
    (fun X => !![X.sortable, 0])).At = fun _ _ => (1 : Matrix (Fin 2) (Fin 2) ℝ) := funext fun s => funext fun t => by
    show NormedSpace.exp ((t - s) • (0 : Matrix (Fin 2) (Fin 2) ℝ)) = 1
    rw [smul_zero, NormedSpace.exp_zero]
  have hQ : (userKernel "Line" (0 : Matrix (Fin 2) (Fin 2) ℝ) 1 (0 : Matrix (Fin 2) (Fin 1) ℝ) (0 : Matrix (Fin 1) (Fin 1) ℝ)
    (fun X => !![X.sortable, 0])).Qt = fun _ _ => (0 : Matrix (Fin 2) (Fin 2) ℝ) := funext fun s => funext fun t => by
    show (1 : Matrix (Fin 2) (Fin 2) ℝ) - NormedSpace.exp ((t - s) • (0 : Matrix (Fin 2) (Fin 2) ℝ)) * 1 *
      (NormedSpace.exp ((t - s) • (0 : Matrix (Fin 2) (Fin 2) ℝ)))ᵀ = 0
    rw [smul_zero, NormedSpace.exp_zero]
    simp
  have hp := line_parallel _ _ _ hA hQ hH
  refine fun h => absurd (hp.symm.trans h) ?_
  show ((-(1 / 2) * (Real.log 2 + Real.log 5 + 2 * Real.log (2 * Real.pi)) : ℝ) : EReal) ≠
    ((gaussLogDensity (noisyGram (fun i j : Fin 2 => (((i : ℕ) : ℝ) + 1) * (((j : ℕ) : ℝ) + 1)) fun _ => 1) (fun _ => 0) : ℝ) : EReal)
  intro h
  have h := EReal.coe_eq_coe_iff.1 h
  unfold gaussLogDensity at h
  have hd : (noisyGram (fun i j : Fin 2 => (((i : ℕ) : ℝ) + 1) * (((j : ℕ) : ℝ) + 1)) fun _ => 1).det = 6 := by
    rw [Matrix.det_fin_two]
    simp [noisyGram]
    norm_num
  have hz : (fun _ : Fin 2 => (0 : ℝ)) ⬝ᵥ (noisyGram (fun i j : Fin 2 => (((i : ℕ) : ℝ) + 1) * (((j : ℕ) : ℝ) + 1)) fun _ => 1)⁻¹ *ᵥ (fun _ => 0) = 0 := by
    simp [dotProduct]
  rw [hd, hz, Fintype.card_fin] at h
  have h10 : Real.log 10 = Real.log 2 + Real.log 5 := by
    rw [← Real.log_mul (by norm_num) (by norm_num)]
    norm_num
  have h6 : Real.log 10 = Real.log 6 := by
    push_cast at h
    linarith
  have := Real.log_injOn_pos (Set.mem_Ioi.2 (by norm_num : (0 : ℝ) < 10)) (Set.mem_Ioi.2 (by norm_num : (0 : ℝ) < 6)) h6
  norm_num at this

/-! ## Concrete cases -/

/-- a Matérn-3/2 process whose amplitude grows like `exp t`, data at times 0, 1, 2: regression with `exp(s + t) c(|s - t|)` -/
example (y : Arr ℝ) :
    (SSM.observing "Growing" (matern32 2 1) fun X => Real.exp X.sortable • (matern32 2 1).obsModel (.time 0) none).logProbability
      ⟨3, fun i => (i : ℝ)⟩ y ⟨3, fun _ => 1⟩ =
    ((gaussLogDensity (noisyGram (fun i j : Fin 3 => Real.exp ((i : ℕ) : ℝ) * Real.exp ((j : ℕ) : ℝ) * covMatern32 2 1 |((i : ℕ) : ℝ) - ((j : ℕ) : ℝ)|)
      fun _ => 1) (fun i => y.get i) : ℝ) : EReal) :=
  (C88_amplitude (.matern32 two_pos one_ne_zero) (Leaf.matern32 (shoOk := SHO.Genuine) two_pos).transitionIsExp
    (C24_matern32 2 1 "Matern32" two_pos) "Growing" Real.exp).likelihood ⟨3, fun i => .time i⟩ y ⟨3, fun _ => 1⟩
    (fun i j hij _ => by simpa [Arr.map, Coord.sortable] using hij) (fun _ _ => one_pos) three_pos

/-- values and derivatives of one process in the same data set, plus a periodic component -/
example : ∃ K, Spec.SequentialExactFor ((SSM.observing "D" (matern32 1 1) fun X => Spec.valueThenDerivative X.sortable).sum (cosine 3 1 "c")) K :=
  ⟨_, C88_sequential (.sum (.observing "D" (.matern32 one_pos one_ne_zero)
    (Leaf.matern32 (shoOk := SHO.Genuine) one_pos).transitionIsExp Spec.valueThenDerivative)
    (.builtIn (.cosine three_pos one_ne_zero) (C24_cosine 3 1 "c" three_pos)))⟩

/-- a random straight line through the origin -/
example : ∃ K, Spec.SequentialExactFor (userKernel "Line" (0 : Matrix (Fin 1) (Fin 1) ℝ) 1 (0 : Matrix (Fin 1) (Fin 1) ℝ) (0 : Matrix (Fin 1) (Fin 1) ℝ)
    fun X => !![X.sortable]) K :=
  ⟨_, C88_sequential (.user "Line" 0 0 (fun t => !![t]) Matrix.PosDef.one (by simpa using Matrix.PosSemidef.zero))⟩

end Verif
