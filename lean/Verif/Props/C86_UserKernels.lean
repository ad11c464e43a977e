import Verif.Model.UserKernel
import Verif.Props.C06_Parallel
import Verif.Props.C11_ExposureAverage
import Verif.Props.C59_States

/-!
# C86, C87: kernels written by the user, and kernels of derivatives

A kernel defined by its matrices alone, or by a new observation row for an existing kernel, is used by the solvers exactly as a built-in one.
-/

set_option linter.unusedSectionVars false

namespace Verif
open Matrix Spec

/-! ## What is claimed -/

/-- `log_probability`, the conditioned values and the predictions, of the sequential and of the parallel solver, are those of the textbook for
the covariance function `c` of the time difference: for every sorted array of coordinates, all data and every positive noise. -/
structure Spec.ExactFor (k : SSM) (c : ℝ → ℝ) : Prop where
  likelihood : ∀ (X : Arr Coord) (y R : Arr ℝ), Sorted (X.map Coord.sortable) → (∀ i < X.len, 0 < R.get i) → 0 < X.len →
    k.logProbability (X.map Coord.sortable) y R =
      ((Spec.gaussLogDensity (Spec.noisyGram (fun i j : Fin X.len => c |(X.get i).sortable - (X.get j).sortable|) fun i => R.get i)
        (fun i => y.get i) : ℝ) : EReal) ∧
    k.parallelLogProbability X y R = k.logProbability (X.map Coord.sortable) y R
  conditioned : ∀ (X : Arr Coord) (y R : Arr ℝ), Sorted (X.map Coord.sortable) → (∀ i < X.len, 0 < R.get i) → ∀ i < X.len,
    (k.conditionedAtData X y R).get i =
      (Spec.postMean (Spec.noisyGram (fun i j : Fin X.len => c |(X.get i).sortable - (X.get j).sortable|) fun i => R.get i)
        (fun j => y.get j) (fun j => c |(X.get i).sortable - (X.get j).sortable|),
       Spec.postVar (Spec.noisyGram (fun i j : Fin X.len => c |(X.get i).sortable - (X.get j).sortable|) fun i => R.get i)
        (c 0) (fun j => c |(X.get i).sortable - (X.get j).sortable|)) ∧
    (k.parallelConditionedAtData X y R).get i = (k.conditionedAtData X y R).get i
  predicted : ∀ (X : Arr Coord) (y R : Arr ℝ) (Xtest : Arr Coord), Sorted (X.map Coord.sortable) → (∀ i < X.len, 0 < R.get i) → 0 < X.len →
    ∀ m, (k.predictAt X y R Xtest).get m =
      (Spec.postMean (Spec.noisyGram (fun i j : Fin X.len => c |(X.get i).sortable - (X.get j).sortable|) fun i => R.get i)
        (fun j => y.get j) (fun j => c |(Xtest.get m).sortable - (X.get j).sortable|),
       Spec.postVar (Spec.noisyGram (fun i j : Fin X.len => c |(X.get i).sortable - (X.get j).sortable|) fun i => R.get i)
        (c 0) (fun j => c |(Xtest.get m).sortable - (X.get j).sortable|)) ∧
    (k.parallelPredictAt X y R Xtest).get m = (k.predictAt X y R Xtest).get m

theorem Spec.ExactFor.of_regular {k : SSM} {c : ℝ → ℝ} (hk : k.Regular) (hc : k.HasCov c) : Spec.ExactFor k c where
  likelihood X y R hX hR hN := by
    refine ⟨?_, C06_parallel_likelihood k hk.toProper X y R hX hN (hk.toProper.freshOk hX hN hR)⟩
    rw [C01_likelihood_exact k hk.toProper X y R hX fun i hi => hk.S_pos hX hN hR hi]
    simp only [dataGram, hc _ _]
  conditioned X y R hX hR i hi := by
    refine ⟨?_, C07_parallel_conditioned k hk X y R hX (by omega) hR i hi⟩
    refine Prod.ext ?_ ?_
    · rw [C02_conditioned_mean_exact k hk X y R hX hR i hi]
      simp only [dataGram, hc _ _]
    · rw [C03_conditioned_variance_exact k hk X y R hX hR i hi]
      simp only [dataGram, hc _ _, sub_self, abs_zero]
  predicted X y R Xtest hX hR hN m := by
    refine ⟨?_, C07_parallel_prediction k hk X y R Xtest hX hN hR m⟩
    rw [C04_prediction_exact k hk X y R Xtest hX hN hR m]
    simp only [dataGram, hc _ _, sub_self, abs_zero]

/-- the covariance function of the functional `h` of the stationary solution of `dx = F x dt + …` with covariance `P` -/
noncomputable def Spec.sdeCov {n : Type} [Fintype n] [DecidableEq n] (F P : Matrix n n ℝ) (h : Matrix (Fin 1) n ℝ) (r : ℝ) : ℝ :=
  (h * NormedSpace.exp (r • F) * P * hᵀ) 0 0

/-- the value of a regular kernel with exponential transitions -/
theorem SSM.Proper.hasCov {k : SSM} (hk : k.Proper) (hA : k.TransitionIsExp) : k.HasCov (Spec.sdeCov k.F k.Pinf (k.obsModel (.time 0) none)) := by
  intro X1 X2
  unfold SSM.evaluate Spec.sdeCov
  rw [hA X1 X2, hA X2 X1]
  simp only [hk.H_const X1, hk.H_const X2]
  split_ifs with h
  · rw [abs_of_neg (by linarith), neg_sub, ← transpose_apply (_ * _ * _ * _), transpose_mul, transpose_mul, transpose_mul, transpose_transpose,
      transpose_transpose, psd_symm hk.P_psd]
    simp only [Matrix.mul_assoc]
  · rw [abs_of_nonneg (by linarith)]

section user
variable {n p : Type} [Fintype n] [DecidableEq n] [Fintype p] [DecidableEq p] {F P : Matrix n n ℝ} {L : Matrix n p ℝ} {Qc : Matrix p p ℝ}

/-! ## C86 -/

theorem userKernel_regular (name : String) (L : Matrix n p ℝ) (Qc : Matrix p p ℝ) (h : Matrix (Fin 1) n ℝ) (hP : P.PosDef)
    (hdiss : (-(F * P + P * Fᵀ)).PosSemidef) : (userKernel name F P L Qc fun _ => h).Regular :=
  SSM.Regular.of_lyapunov _ (-(F * P + P * Fᵀ)) (fun _ _ => rfl) (fun _ _ => rfl) hP hdiss (add_neg_cancel _)
    (defaultObs_const _ _ fun _ => rfl)

theorem userKernel_row (name : String) (h : Matrix (Fin 1) n ℝ) (X : Coord) :
    (userKernel name F P L Qc fun _ => h).obsModel X none = h := one_smul ℝ h

theorem userKernel_hasCov (name : String) (L : Matrix n p ℝ) (Qc : Matrix p p ℝ) (h : Matrix (Fin 1) n ℝ) (hP : P.PosDef)
    (hdiss : (-(F * P + P * Fᵀ)).PosSemidef) : (userKernel name F P L Qc fun _ => h).HasCov (Spec.sdeCov F P h) := by
  have := (userKernel_regular name L Qc h hP hdiss).toProper.hasCov fun _ _ => rfl
  rwa [userKernel_row] at this

/-- **C86.** A kernel given by its matrices `F`, `Pinf` and a row `H`, with all other methods inherited, is used exactly: if `Pinf` is positive
definite and `-(F Pinf + Pinf Fᵀ)` positive semidefinite, everything the solvers return is that of the textbook for the covariance function
`H exp(F r) Pinf Hᵀ`. The matrices `L` and `Qc` play no role (the default process noise does not use them). -/
theorem C86_user_kernel (name : String) (L : Matrix n p ℝ) (Qc : Matrix p p ℝ) (h : Matrix (Fin 1) n ℝ) (hP : P.PosDef)
    (hdiss : (-(F * P + P * Fᵀ)).PosSemidef) : Spec.ExactFor (userKernel name F P L Qc fun _ => h) (Spec.sdeCov F P h) :=
  .of_regular (userKernel_regular name L Qc h hP hdiss) (userKernel_hasCov name L Qc h hP hdiss)

/-- **C86.** The two ways of computing the process noise (from the stationary covariance; `use_van_loan=True`) agree for all coordinates if and
only if the matrices solve the Lyapunov equation `F Pinf + Pinf Fᵀ + L Qc Lᵀ = 0`. -/
theorem C86_van_loan_iff (name : String) (H : Coord → Matrix (Fin 1) n ℝ) :
    (∀ X1 X2, (userKernel name F P L Qc H).Q X1 X2 = (userKernelVanLoan name F P L Qc H).Q X1 X2) ↔
      F * P + P * Fᵀ + L * Qc * Lᵀ = 0 := by
  have e1 : ∀ X1 X2, (userKernel name F P L Qc H).Q X1 X2 =
      P - NormedSpace.exp ((X2.sortable - X1.sortable) • F) * P * (NormedSpace.exp ((X2.sortable - X1.sortable) • F))ᵀ := fun _ _ => rfl
  have e2 : ∀ X1 X2, (userKernelVanLoan name F P L Qc H).Q X1 X2 = QFromVanLoan F L Qc (X2.sortable - X1.sortable) := fun _ _ => rfl
  simp only [e1, e2]
  constructor
  · intro h
    have h1 : ∀ t : ℝ, QFromVanLoan F L Qc t = P - NormedSpace.exp (t • F) * P * (NormedSpace.exp (t • F))ᵀ := fun t => by
      have := h (.time 0) (.time t)
      simp only [Coord.sortable, sub_zero] at this
      exact this.symm
    have d1 := QFromVanLoan_deriv F L Qc 0
    have d2 := (MDeriv.const (t := (0 : ℝ)) P).sub (expm_cov_deriv F P 0)
    have e : L * Qc * Lᵀ = -(F * P + P * Fᵀ) := by
      ext i j
      have a := d1 i j
      have b := d2 i j
      have hf : (fun t => QFromVanLoan F L Qc t i j) =
          fun t : ℝ => (P - NormedSpace.exp (t • F) * P * (NormedSpace.exp (t • F))ᵀ) i j := funext fun t => by rw [h1 t]
      have := a.unique (hf ▸ b)
      simp only [expm_zero, transpose_one, Matrix.mul_one, Matrix.one_mul] at this
      rw [this]
      simp
    rw [e, add_neg_cancel]
  · intro hL X1 X2
    exact (QFromVanLoan_stationary hL _).symm

/-- **C86.** With the Lyapunov equation, the kernel which overloads `process_noise` with the Van Loan formula is exact too. -/
theorem C86_van_loan_kernel (name : String) (h : Matrix (Fin 1) n ℝ) (hP : P.PosDef) (hQc : Qc.PosSemidef)
    (hL : F * P + P * Fᵀ + L * Qc * Lᵀ = 0) :
    Spec.ExactFor (userKernelVanLoan name F P L Qc fun _ => h) (Spec.sdeCov F P h) := by
  have e : userKernelVanLoan name F P L Qc (fun _ => h) = userKernel name F P L Qc fun _ => h := by
    have hq : (userKernelVanLoan name F P L Qc fun _ => h).Q = (userKernel name F P L Qc fun _ => h).Q := by
      funext X1 X2
      exact ((C86_van_loan_iff name fun _ => h).2 hL X1 X2).symm
    show ({ userKernel name F P L Qc (fun _ => h) with Q := vanLoanProcessNoise F L Qc } : SSM) = _
    exact congrArg (fun q => ({ userKernel name F P L Qc (fun _ => h) with Q := q } : SSM)) hq
  rw [e]
  refine C86_user_kernel name L Qc h hP ?_
  rw [neg_eq_of_add_eq_zero_right hL]
  exact psd_conj hQc L

/-- kernels assembled by sums and products from kernels of the user (as above), rows of the user on kernels of the library, and kernels of the
library, with the covariance function this should give -/
inductive Spec.Assembled : SSM → (ℝ → ℝ) → Prop where
  | builtIn {k : SSM} {c : ℝ → ℝ} (hk : BuiltIn k) (hc : k.HasCov c) : Spec.Assembled k c
  | user (name : String) {n p : Type} [Fintype n] [DecidableEq n] [Fintype p] [DecidableEq p] {F P : Matrix n n ℝ} (L : Matrix n p ℝ)
      (Qc : Matrix p p ℝ) (h : Matrix (Fin 1) n ℝ) (hP : P.PosDef) (hdiss : (-(F * P + P * Fᵀ)).PosSemidef) :
      Spec.Assembled (userKernel name F P L Qc fun _ => h) (Spec.sdeCov F P h)
  | observing (name : String) {k : SSM} (hk : BuiltIn k) (hA : k.TransitionIsExp) (h : Matrix (Fin 1) k.n ℝ) :
      Spec.Assembled (SSM.observing name k fun _ => h) (Spec.sdeCov k.F k.Pinf h)
  | sum {k1 k2 : SSM} {c1 c2 : ℝ → ℝ} : Spec.Assembled k1 c1 → Spec.Assembled k2 c2 → Spec.Assembled (k1.sum k2) fun r => c1 r + c2 r
  | prod {k1 k2 : SSM} {c1 c2 : ℝ → ℝ} : Spec.Assembled k1 c1 → Spec.Assembled k2 c2 → Spec.Assembled (k1.prod k2) fun r => c1 r * c2 r

theorem SSM.Regular.observing {k : SSM} (hk : k.Regular) (name : String) (h : Matrix (Fin 1) k.n ℝ) :
    (SSM.observing name k fun _ => h).Regular where
  shift_A := hk.shift_A
  A_zero := hk.A_zero
  A_add := hk.A_add
  Q_eq := hk.Q_eq
  Q_psd := hk.Q_psd
  P_psd := hk.P_psd
  H_const := defaultObs_const _ _ fun _ => rfl
  P_pd := hk.P_pd
  A_unit := hk.A_unit

theorem observing_hasCov {k : SSM} (hk : k.Regular) (hA : k.TransitionIsExp) (name : String) (h : Matrix (Fin 1) k.n ℝ) :
    (SSM.observing name k fun _ => h).HasCov (Spec.sdeCov k.F k.Pinf h) := by
  have := (hk.observing name h).toProper.hasCov hA
  rwa [show (SSM.observing name k fun _ => h).obsModel (.time 0) none = h from one_smul ℝ h] at this

theorem Spec.Assembled.facts {k : SSM} {c : ℝ → ℝ} (h : Spec.Assembled k c) : k.Regular ∧ k.HasCov c := by
  induction h with
  | builtIn hk hc => exact ⟨hk.regular, hc⟩
  | user name L Qc h hP hdiss => exact ⟨userKernel_regular name L Qc h hP hdiss, userKernel_hasCov name L Qc h hP hdiss⟩
  | observing name hk hA h => exact ⟨hk.regular.observing name h, observing_hasCov hk.regular hA name h⟩
  | sum _ _ h1 h2 =>
    refine ⟨h1.1.sum h2.1, fun X1 X2 => (C27_sum_evaluate _ _ X1 X2).trans ?_⟩
    rw [h1.2, h2.2]
  | prod _ _ h1 h2 =>
    refine ⟨h1.1.prod h2.1, fun X1 X2 => (C27_prod_evaluate _ _ X1 X2).trans ?_⟩
    rw [h1.2, h2.2]

/-- **C86.** Sums and products of the user's kernels, with each other and with the kernels of the library, are exact for the sums and products of
the covariance functions. -/
theorem C86_assembled {k : SSM} {c : ℝ → ℝ} (h : Spec.Assembled k c) : Spec.ExactFor k c := .of_regular h.facts.1 h.facts.2

/-- **C86.** A subclass of `IntegratedStateSpaceModel` around a kernel of the user whose row picks the first state: the log likelihood of
exposure-averaged data is that of the textbook for the doubly averaged covariance function (non-overlapping exposures per instrument). -/
theorem C86_integrated (name iname : String) (first : n) (hP : P.PosDef) (hQc : Qc.PosSemidef) (hL : F * P + P * Fᵀ + L * Qc * Lᵀ = 0)
    (m : ℕ) (X : Arr Coord) (hX : Schedule m X) (y R : Arr ℝ) (hy : y.len = X.len) (hR : ∀ i < X.len, 0 < R.get i) :
    (integratedDefault iname m (userKernel name F P L Qc fun _ => Matrix.of fun _ a => if a = first then 1 else 0)
      first).integratedLogProbability X y R =
      ((Spec.gaussLogDensity (Spec.noisyGram (fun i j : Fin X.len =>
        exposureCov (Spec.sdeCov F P (Matrix.of fun _ a => if a = first then 1 else 0)) (X.get i) (X.get j)) fun i => R.get i)
        (fun i => y.get i) : ℝ) : EReal) := by
  set base := userKernel name F P L Qc fun _ => Matrix.of fun _ a => if a = first then (1 : ℝ) else 0 with hbase
  have hsrc := psd_conj hQc L
  have hdiss : (-(F * P + P * Fᵀ)).PosSemidef := by rw [neg_eq_of_add_eq_zero_right hL]; exact hsrc
  have hbo : base.BaseOk := ⟨fun _ _ => rfl, fun _ _ => rfl, hL, psd_symm hP.posSemidef, psd_symm hQc⟩
  have hn : ∀ s, (integratedDefault iname m base first).NoiseIntegralOver s := fun s => by
    refine SSM.NoiseIsIntegral.over (fun X1 X2 i j => ?_) s
    exact C32_process_noise first iname m hbo X1 X2 i j
  have hok : (integratedDefault iname m base first).IntegratedOk m (Spec.sdeCov F P (Matrix.of fun _ a => if a = first then 1 else 0)) :=
    integratedOk_of_base (base := base) (first := first) le_rfl (C32_transition (base := base) first iname m hbo.exp) hbo.exp hL hP.posSemidef (psd_symm hQc) hsrc
      (userKernel_hasCov name L Qc _ hP hdiss) (fun X => userKernel_row name _ X) (hn 0)
  have he : ∀ n < X.len, IsEnd X n (endStep X n) := fun n hn => (isEnd_iff hn).2 rfl
  rw [C09_integrated_likelihood_exact_psd _ X (SSM.NoiseOnEvents.psd hok fun j _ => hn _) y R hy hR _ he,
    augmentedGram_eq hok hX (fun j _ => hn _) he R]

/-- **C86, where it fails.** The integrated kernel around a kernel of the user does not depend on the user's observation row: the first state is
observed (averaged over the exposure) whatever the row is. So with any other row the results are not those of the user's process. -/
theorem C86_integrated_ignores_row (name iname : String) (first : n) (m : ℕ) (H H' : Coord → Matrix (Fin 1) n ℝ) (X : Arr Coord) (y R : Arr ℝ) :
    (integratedDefault iname m (userKernel name F P L Qc H) first).integratedLogProbability X y R =
      (integratedDefault iname m (userKernel name F P L Qc H') first).integratedLogProbability X y R := rfl

end user

/-! ## C87 -/

/-- `c'` is the covariance function of the derivative of a process with covariance function `c`:
`∂/∂s ∂/∂t c(|s - t|) = c'(|s - t|)` -/
def Spec.DerivativeCov (c c' : ℝ → ℝ) : Prop :=
  ∃ D : ℝ → ℝ → ℝ, ∀ s t, HasDerivAt (fun s => c |s - t|) (D s t) s ∧ HasDerivAt (fun t => D s t) (c' |s - t|) t

section deriv
variable {n : Type} [Fintype n] [DecidableEq n] {F P : Matrix n n ℝ}

theorem sdeCov_abs (hP : Pᵀ = P) (h : Matrix (Fin 1) n ℝ) (s t : ℝ) :
    Spec.sdeCov F P h |s - t| = (h * stationaryCov F P s t * hᵀ) 0 0 := by
  unfold Spec.sdeCov stationaryCov
  split_ifs with hst
  · rw [abs_of_neg (by linarith), neg_sub, ← transpose_apply (h * _ * _ * _), transpose_mul, transpose_mul, transpose_mul, transpose_transpose, hP]
    simp only [Matrix.mul_assoc]
  · rw [abs_of_nonneg (by linarith)]
    simp only [Matrix.mul_assoc]

theorem derivativeCov_of_smooth (hP : Pᵀ = P) {h : Matrix (Fin 1) n ℝ} (hs : h * (F * P + P * Fᵀ) = 0) :
    Spec.DerivativeCov (Spec.sdeCov F P h) (Spec.sdeCov F P (h * F)) := by
  refine ⟨fun s t => (h * F * stationaryCov F P s t * hᵀ) 0 0, fun s t => ⟨?_, ?_⟩⟩
  · simp only [sdeCov_abs hP]
    exact stationaryCov_deriv hs _ s t
  · have e : ∀ (w : Matrix (Fin 1) n ℝ) (t : ℝ), (h * F * stationaryCov F P s t * wᵀ) 0 0 = (w * stationaryCov F P t s * (h * F)ᵀ) 0 0 := fun w t => by
      rw [← transpose_apply (h * F * _ * _), transpose_mul, transpose_mul, transpose_transpose, stationaryCov_transpose hP, Matrix.mul_assoc]
    simp only [sdeCov_abs hP, e]
    exact stationaryCov_deriv hs _ t s

/-- a process and its derivative at the same lag are uncorrelated in the symmetric sense, so the covariance functions of a combination add -/
theorem sdeCov_combination (hP : Pᵀ = P) {h : Matrix (Fin 1) n ℝ} (hs : h * (F * P + P * Fᵀ) = 0) (a b r : ℝ) :
    Spec.sdeCov F P (a • h + b • (h * F)) r = a ^ 2 * Spec.sdeCov F P h r + b ^ 2 * Spec.sdeCov F P (h * F) r := by
  have hs' : (F * P + P * Fᵀ) * hᵀ = 0 := by
    have := congrArg transpose hs
    rwa [transpose_mul, transpose_add, transpose_mul, transpose_mul, transpose_transpose, hP, transpose_zero, add_comm (P * Fᵀ)] at this
  have hc : h * F * NormedSpace.exp (r • F) * P * hᵀ + h * NormedSpace.exp (r • F) * P * (h * F)ᵀ = 0 := by
    have e : F * NormedSpace.exp (r • F) = NormedSpace.exp (r • F) * F := (expm_comm F r).symm
    rw [Matrix.mul_assoc h F, e, transpose_mul]
    calc h * (NormedSpace.exp (r • F) * F) * P * hᵀ + h * NormedSpace.exp (r • F) * P * (Fᵀ * hᵀ)
        = h * NormedSpace.exp (r • F) * ((F * P + P * Fᵀ) * hᵀ) := by
          simp only [Matrix.mul_add, Matrix.add_mul, Matrix.mul_assoc]
      _ = 0 := by rw [hs', Matrix.mul_zero]
  have hc0 := congrFun (congrFun hc 0) 0
  unfold Spec.sdeCov
  simp only [Matrix.add_mul, Matrix.smul_mul, transpose_add, transpose_smul, Matrix.mul_add, Matrix.mul_smul, Matrix.add_apply, Matrix.smul_apply,
    smul_eq_mul, Matrix.zero_apply] at hc0 ⊢
  linear_combination (a * b) * hc0
end deriv

/-- **C87.** A `Wrapper` around a kernel `k` whose `observation_matrix` returns another row `h` is exact for the covariance function
`h exp(F r) Pinf hᵀ`. -/
theorem C87_any_row {k : SSM} (hk : BuiltIn k) (hA : k.TransitionIsExp) (name : String) (h : Matrix (Fin 1) k.n ℝ) :
    Spec.ExactFor (SSM.observing name k fun _ => h) (Spec.sdeCov k.F k.Pinf h) := C86_assembled (.observing name hk hA h)

/-- **C87.** For kernels of the library without `Exp`, the `Wrapper` with row `H F` models the derivative of the process: its covariance function
is that of the derivative, and regression with it is exact. If the derivative has a derivative (no noise enters it either), the row `H F F` models that. -/
theorem C87_derivative (k : Kern) (hv : k.Valid) (hg : k.Genuine) (he : ¬ Uses IsExp k) (name : String) :
    ∃ c c', k.model.HasCov c ∧ Spec.DerivativeCov c c' ∧ Spec.ExactFor (SSM.observing name k.model fun _ => k.model.derivativeRow) c' ∧
      (k.model.derivativeRow * (k.model.L * k.model.Qc * k.model.Lᵀ) = 0 →
        ∃ c'', Spec.DerivativeCov c' c'' ∧ Spec.ExactFor (SSM.observing name k.model fun _ => k.model.derivativeRow * k.model.F) c'') := by
  have hr := hv.builtIn.regular
  have hA := hv.transitionIsExp hg
  have hP := psd_symm hr.P_psd
  refine ⟨_, _, hr.toProper.hasCov hA, derivativeCov_of_smooth hP (hv.smooth he), C87_any_row hv.builtIn hA name _, fun h2 => ?_⟩
  refine ⟨_, derivativeCov_of_smooth hP ?_, C87_any_row hv.builtIn hA name _⟩
  rw [eq_neg_of_add_eq_zero_left hv.lyapunov, Matrix.mul_neg, neg_eq_zero]
  exact h2

/-- **C87.** The `Wrapper` with row `a H + b H F` models `a f + b f'`, whose covariance function is `a² c + b² c'`. -/
theorem C87_combination (k : Kern) (hv : k.Valid) (hg : k.Genuine) (he : ¬ Uses IsExp k) (name : String) (a b : ℝ) :
    ∃ c c', k.model.HasCov c ∧ Spec.DerivativeCov c c' ∧
      Spec.ExactFor (SSM.observing name k.model fun _ => a • k.model.valueRow + b • k.model.derivativeRow) fun r => a ^ 2 * c r + b ^ 2 * c' r := by
  have hr := hv.builtIn.regular
  have hA := hv.transitionIsExp hg
  have hP := psd_symm hr.P_psd
  refine ⟨_, _, hr.toProper.hasCov hA, derivativeCov_of_smooth hP (hv.smooth he), ?_⟩
  have := C87_any_row hv.builtIn hA name (a • k.model.valueRow + b • k.model.derivativeRow)
  rwa [show Spec.sdeCov k.model.F k.model.Pinf (a • k.model.valueRow + b • k.model.derivativeRow) = _ from
    funext fun r => sdeCov_combination hP (hv.smooth he) a b r] at this

/-! ### The kernel of the tutorial -/

/-- covariance function of the first derivative of a Matérn-5/2 process: minus the second derivative of `covMatern52` -/
noncomputable def Spec.covMatern52Deriv (ell sigma r : ℝ) : ℝ :=
  sigma ^ 2 * (Real.sqrt 5 / ell) ^ 2 / 3 * (1 + Real.sqrt 5 / ell * r - (Real.sqrt 5 / ell) ^ 2 * r ^ 2) * Real.exp (-(Real.sqrt 5 / ell * r))

/-- covariance function of the second derivative of a Matérn-5/2 process: the fourth derivative of `covMatern52` -/
noncomputable def Spec.covMatern52Deriv2 (ell sigma r : ℝ) : ℝ :=
  sigma ^ 2 * (Real.sqrt 5 / ell) ^ 4 / 3 * (3 - 5 * (Real.sqrt 5 / ell * r) + (Real.sqrt 5 / ell) ^ 2 * r ^ 2) * Real.exp (-(Real.sqrt 5 / ell * r))

theorem matern52_exp (scale : ℝ) (hs : 0 < scale) (r : ℝ) :
    NormedSpace.exp (r • Matern52.F (Matern52.lam scale)) = Matern52.A (Matern52.lam scale) r := by
  have h : (matern52 scale 1 "Matern52").A (.time 0) (.time r) = NormedSpace.exp ((r - 0) • Matern52.F (Matern52.lam scale)) :=
    (Leaf.matern52 (shoOk := SHO.Genuine) (scale := scale) (sigma := 1) hs).transitionIsExp _ _
  have e : (matern52 scale 1 "Matern52").A (.time 0) (.time r) = Matern52.A (Matern52.lam scale) (r - 0) := rfl
  rw [sub_zero] at h e
  rw [← h, e]

theorem sdeCov_matern52 (scale sigma : ℝ) (hs : 0 < scale) (a b c r : ℝ) :
    Spec.sdeCov (Matern52.F (Matern52.lam scale)) (Matern52.Pinf (Matern52.lam scale) sigma) !![a, b, c] r =
      a ^ 2 * Spec.covMatern52 scale sigma r + b ^ 2 * Spec.covMatern52Deriv scale sigma r + c ^ 2 * Spec.covMatern52Deriv2 scale sigma r
        - 2 * a * c * Spec.covMatern52Deriv scale sigma r := by
  unfold Spec.sdeCov
  rw [matern52_exp scale hs]
  unfold Matern52.A Matern52.Pinf Spec.covMatern52 Spec.covMatern52Deriv Spec.covMatern52Deriv2
  rw [show Real.sqrt 5 / scale = Matern52.lam scale from rfl]
  simp only [neg_mul]
  generalize Real.exp (-(Matern52.lam scale * r)) = E
  generalize Matern52.lam scale = l
  simp only [Matrix.mul_smul, Matrix.smul_mul, Matrix.smul_apply, smul_eq_mul, Matrix.mul_apply, Fin.sum_univ_three, transpose_apply]
  simp
  ring

/-- **C87.** The kernel of the tutorial: `Matern52Derivative(scale, sigma, order=1)` is exact for the covariance function of the first derivative
of the Matérn-5/2 process, `order=2` for that of the second derivative (and `order=0` is the process itself); the covariance functions are
derivatives of each other. -/
theorem C87_tutorial (scale sigma : ℝ) (hs : 0 < scale) (hσ : sigma ≠ 0) (name : String) :
    Spec.ExactFor (matern52Derivative scale sigma 0 name) (Spec.covMatern52 scale sigma) ∧
    Spec.ExactFor (matern52Derivative scale sigma 1 name) (Spec.covMatern52Deriv scale sigma) ∧
    Spec.ExactFor (matern52Derivative scale sigma 2 name) (Spec.covMatern52Deriv2 scale sigma) ∧
    Spec.DerivativeCov (Spec.covMatern52 scale sigma) (Spec.covMatern52Deriv scale sigma) ∧
    Spec.DerivativeCov (Spec.covMatern52Deriv scale sigma) (Spec.covMatern52Deriv2 scale sigma) := by
  have hk : BuiltIn (matern52 scale sigma) := .matern52 hs hσ
  have hA : (matern52 scale sigma).TransitionIsExp := (Leaf.matern52 (shoOk := SHO.Genuine) hs).transitionIsExp
  have hP : (Matern52.Pinf (Matern52.lam scale) sigma)ᵀ = Matern52.Pinf (Matern52.lam scale) sigma := psd_symm hk.regular.P_psd
  have e : ∀ a b c : ℝ, Spec.ExactFor (SSM.observing name (matern52 scale sigma) fun _ => (!![a, b, c] : Matrix (Fin 1) (Fin 3) ℝ))
      (Spec.sdeCov (Matern52.F (Matern52.lam scale)) (Matern52.Pinf (Matern52.lam scale) sigma) !![a, b, c]) := fun a b c =>
    C87_any_row hk hA name _
  have row : ∀ (o : Fin 3) (a b c : ℝ), (Matrix.of fun (_ : Fin 1) (j : Fin 3) => if j = o then (1 : ℝ) else 0) = !![a, b, c] →
      Spec.ExactFor (matern52Derivative scale sigma o name)
        (Spec.sdeCov (Matern52.F (Matern52.lam scale)) (Matern52.Pinf (Matern52.lam scale) sigma) !![a, b, c]) := fun o a b c h => by
    have h' : matern52Derivative scale sigma o name = SSM.observing name (matern52 scale sigma) fun _ => (!![a, b, c] : Matrix (Fin 1) (Fin 3) ℝ) :=
      congrArg (fun M : Matrix (Fin 1) (Fin 3) ℝ => SSM.observing name (matern52 scale sigma) fun _ => M) h
    rw [h']
    exact e a b c
  have f0 := row 0 1 0 0 (by ext i j; fin_cases i; fin_cases j <;> simp)
  have f1 := row 1 0 1 0 (by ext i j; fin_cases i; fin_cases j <;> simp)
  have f2 := row 2 0 0 1 (by ext i j; fin_cases i; fin_cases j <;> simp)
  have c0 : Spec.sdeCov (Matern52.F (Matern52.lam scale)) (Matern52.Pinf (Matern52.lam scale) sigma) !![1, 0, 0] = Spec.covMatern52 scale sigma := by
    funext r; rw [sdeCov_matern52 scale sigma hs]; ring
  have c1 : Spec.sdeCov (Matern52.F (Matern52.lam scale)) (Matern52.Pinf (Matern52.lam scale) sigma) !![0, 1, 0] = Spec.covMatern52Deriv scale sigma := by
    funext r; rw [sdeCov_matern52 scale sigma hs]; ring
  have c2 : Spec.sdeCov (Matern52.F (Matern52.lam scale)) (Matern52.Pinf (Matern52.lam scale) sigma) !![0, 0, 1] = Spec.covMatern52Deriv2 scale sigma := by
    funext r; rw [sdeCov_matern52 scale sigma hs]; ring
  have r1 : (!![1, 0, 0] : Matrix (Fin 1) (Fin 3) ℝ) * Matern52.F (Matern52.lam scale) = !![0, 1, 0] := by
    unfold Matern52.F; ext i j; fin_cases i; fin_cases j <;> simp [Matrix.mul_apply, Fin.sum_univ_three]
  have r2 : (!![0, 1, 0] : Matrix (Fin 1) (Fin 3) ℝ) * Matern52.F (Matern52.lam scale) = !![0, 0, 1] := by
    unfold Matern52.F; ext i j; fin_cases i; fin_cases j <;> simp [Matrix.mul_apply, Fin.sum_univ_three]
  obtain ⟨q, hL⟩ : ∃ q : Matrix (Fin 1) (Fin 1) ℝ, Matern52.F (Matern52.lam scale) * Matern52.Pinf (Matern52.lam scale) sigma +
      Matern52.Pinf (Matern52.lam scale) sigma * (Matern52.F (Matern52.lam scale))ᵀ =
      -((!![0; 0; 1] : Matrix (Fin 3) (Fin 1) ℝ) * q * (!![0; 0; 1] : Matrix (Fin 3) (Fin 1) ℝ)ᵀ) :=
    ⟨(matern52 scale sigma).Qc, eq_neg_of_add_eq_zero_left (C23_lyapunov _ (.leaf (.matern52 hs)))⟩
  have s1 : (!![1, 0, 0] : Matrix (Fin 1) (Fin 3) ℝ) * (Matern52.F (Matern52.lam scale) * Matern52.Pinf (Matern52.lam scale) sigma +
      Matern52.Pinf (Matern52.lam scale) sigma * (Matern52.F (Matern52.lam scale))ᵀ) = 0 := by
    rw [hL, Matrix.mul_neg, ← Matrix.mul_assoc, ← Matrix.mul_assoc,
      show (!![1, 0, 0] : Matrix (Fin 1) (Fin 3) ℝ) * (!![0; 0; 1] : Matrix (Fin 3) (Fin 1) ℝ) = 0 by
        ext i j; fin_cases i; fin_cases j; simp [Matrix.mul_apply, Fin.sum_univ_three]]
    simp
  have s2 : (!![0, 1, 0] : Matrix (Fin 1) (Fin 3) ℝ) * (Matern52.F (Matern52.lam scale) * Matern52.Pinf (Matern52.lam scale) sigma +
      Matern52.Pinf (Matern52.lam scale) sigma * (Matern52.F (Matern52.lam scale))ᵀ) = 0 := by
    rw [hL, Matrix.mul_neg, ← Matrix.mul_assoc, ← Matrix.mul_assoc,
      show (!![0, 1, 0] : Matrix (Fin 1) (Fin 3) ℝ) * (!![0; 0; 1] : Matrix (Fin 3) (Fin 1) ℝ) = 0 by
        ext i j; fin_cases i; fin_cases j; simp [Matrix.mul_apply, Fin.sum_univ_three]]
    simp
  have d1 := derivativeCov_of_smooth hP s1
  have d2 := derivativeCov_of_smooth hP s2
  rw [r1, c0, c1] at d1
  rw [r2, c1, c2] at d2
  exact ⟨c0 ▸ f0, c1 ▸ f1, c2 ▸ f2, d1, d2⟩

/-- **C87.** `H = [A, B, 0]` of the tutorial: `A f + B f'`. -/
theorem C87_tutorial_combination (scale sigma : ℝ) (hs : 0 < scale) (hσ : sigma ≠ 0) (name : String) (a b : ℝ) :
    Spec.ExactFor (SSM.observing name (matern52 scale sigma) fun _ => (!![a, b, 0] : Matrix (Fin 1) (Fin 3) ℝ))
      fun r => a ^ 2 * Spec.covMatern52 scale sigma r + b ^ 2 * Spec.covMatern52Deriv scale sigma r := by
  have hA : (matern52 scale sigma).TransitionIsExp := (Leaf.matern52 (shoOk := SHO.Genuine) hs).transitionIsExp
  have h := C87_any_row (k := matern52 scale sigma) (.matern52 hs hσ) hA name (!![a, b, 0] : Matrix (Fin 1) (Fin 3) ℝ)
  have c0 : Spec.sdeCov (Matern52.F (Matern52.lam scale)) (Matern52.Pinf (Matern52.lam scale) sigma) !![a, b, 0] =
      fun r => a ^ 2 * Spec.covMatern52 scale sigma r + b ^ 2 * Spec.covMatern52Deriv scale sigma r := by
    funext r; rw [sdeCov_matern52 scale sigma hs]; ring
  exact c0 ▸ h

/-! ## Concrete cases -/

/-- the matrices of a kernel not in the library: two damped, coupled components driven by one noise -/
noncomputable def Spec.demoF : Matrix (Fin 2) (Fin 2) ℝ := !![-1, 1; -1, -1]

theorem demo_lyapunov : Spec.demoF * (1 : Matrix (Fin 2) (Fin 2) ℝ) + (1 : Matrix (Fin 2) (Fin 2) ℝ) * Spec.demoFᵀ +
    (1 : Matrix (Fin 2) (Fin 2) ℝ) * ((2 : ℝ) • (1 : Matrix (Fin 2) (Fin 2) ℝ)) * (1 : Matrix (Fin 2) (Fin 2) ℝ)ᵀ = 0 := by
  unfold Spec.demoF
  ext i j
  fin_cases i <;> fin_cases j <;> simp [Matrix.smul_apply] <;> norm_num

theorem demo_noise : ((2 : ℝ) • (1 : Matrix (Fin 2) (Fin 2) ℝ)).PosSemidef := Matrix.PosSemidef.one.smul (by norm_num)

theorem demo_dissipative : (-(Spec.demoF * (1 : Matrix (Fin 2) (Fin 2) ℝ) + (1 : Matrix (Fin 2) (Fin 2) ℝ) * Spec.demoFᵀ)).PosSemidef := by
  rw [neg_eq_of_add_eq_zero_right demo_lyapunov]
  exact psd_conj demo_noise 1

/-- the hypotheses of `C86_user_kernel` hold for this kernel, whatever `L` and `Qc` it returns -/
example (h : Matrix (Fin 1) (Fin 2) ℝ) (L Qc : Matrix (Fin 2) (Fin 2) ℝ) :
    Spec.ExactFor (userKernel "Demo" Spec.demoF 1 L Qc fun _ => h) (Spec.sdeCov Spec.demoF 1 h) :=
  C86_user_kernel "Demo" L Qc h Matrix.PosDef.one demo_dissipative

/-- likewise with the Van Loan process noise -/
example (h : Matrix (Fin 1) (Fin 2) ℝ) :
    Spec.ExactFor (userKernelVanLoan "Demo" Spec.demoF 1 (1 : Matrix (Fin 2) (Fin 2) ℝ) ((2 : ℝ) • 1) fun _ => h) (Spec.sdeCov Spec.demoF 1 h) :=
  C86_van_loan_kernel "Demo" h Matrix.PosDef.one demo_noise demo_lyapunov

/-- with the noise amplitude forgotten (`Qc` the identity) the two process noises differ -/
example : ∃ X1 X2, (userKernel "Demo" Spec.demoF 1 (1 : Matrix (Fin 2) (Fin 2) ℝ) (1 : Matrix (Fin 2) (Fin 2) ℝ) fun _ => !![1, 0]).Q X1 X2 ≠
    (userKernelVanLoan "Demo" Spec.demoF 1 (1 : Matrix (Fin 2) (Fin 2) ℝ) (1 : Matrix (Fin 2) (Fin 2) ℝ) fun _ => !![1, 0]).Q X1 X2 := by
  by_contra h
  push Not at h
  have := congrFun (congrFun ((C86_van_loan_iff "Demo" fun _ => !![1, 0]).1 h) 0) 0
  unfold Spec.demoF at this
  simp at this

/-- (user's kernel + Matérn-3/2) · derivative of a Matérn-5/2: covered by `C86_assembled` -/
example : ∃ c, Spec.ExactFor (((userKernel "Demo" Spec.demoF 1 (1 : Matrix (Fin 2) (Fin 2) ℝ) (1 : Matrix (Fin 2) (Fin 2) ℝ) fun _ => !![1, 0]).sum
    (matern32 2 1)).prod (matern52Derivative 3 1 1)) c :=
  ⟨_, C86_assembled (.prod (.sum (.user "Demo" 1 1 !![1, 0] Matrix.PosDef.one demo_dissipative)
    (.builtIn (.matern32 two_pos one_ne_zero) (C24_matern32 2 1 "Matern32" two_pos)))
    (.observing _ (.matern52 three_pos one_ne_zero) (Leaf.matern52 (shoOk := SHO.Genuine) three_pos).transitionIsExp _))⟩

/-- exposures of `threeExposures` with this kernel -/
example (y : Arr ℝ) (hy : y.len = 3) :
    (integratedDefault "IDemo" 1 (userKernel "Demo" Spec.demoF 1 (1 : Matrix (Fin 2) (Fin 2) ℝ) ((2 : ℝ) • 1) fun _ =>
      Matrix.of fun _ a => if a = (0 : Fin 2) then 1 else 0) (0 : Fin 2)).integratedLogProbability threeExposures y ⟨3, fun _ => 1/10⟩ =
      ((Spec.gaussLogDensity (Spec.noisyGram (fun i j : Fin threeExposures.len =>
        exposureCov (Spec.sdeCov Spec.demoF 1 (Matrix.of fun _ a => if a = (0 : Fin 2) then 1 else 0)) (threeExposures.get i) (threeExposures.get j))
        fun _ => 1/10) (fun i => y.get i) : ℝ) : EReal) :=
  C86_integrated "Demo" "IDemo" (0 : Fin 2) Matrix.PosDef.one demo_noise demo_lyapunov 1 threeExposures threeExposures_schedule y _ hy
    fun _ _ => by norm_num

/-- one exposure -/
noncomputable def oneExposure : Arr Coord := ⟨1, fun _ => .exposure 0 1 0⟩

theorem oneExposure_schedule : Schedule 0 oneExposure := by
  refine ⟨fun n _ => ?_, fun n _ => ?_, fun a ha b hb hab _ => ?_⟩
  · show (0 : ℝ) ≤ 1
    norm_num
  · exact ⟨le_rfl, le_rfl⟩
  · have ha : a < 1 := ha
    have hb : b < 1 := hb
    omega

/-- **C86 refuted for the integrated version with another row.** A kernel of the user for a process constant in time, of variance 1, observed
with amplitude 2: the likelihood of one exposure is not that of the averaged process, whose variance is 4. -/
theorem C86_integrated_row_refuted : ∃ (F P : Matrix (Fin 1) (Fin 1) ℝ) (h : Matrix (Fin 1) (Fin 1) ℝ) (y R : Arr ℝ),
    P.PosDef ∧ F * P + P * Fᵀ + (0 : Matrix (Fin 1) (Fin 1) ℝ) * (0 : Matrix (Fin 1) (Fin 1) ℝ) * (0 : Matrix (Fin 1) (Fin 1) ℝ)ᵀ = 0 ∧
    y.len = 1 ∧ (∀ i < 1, 0 < R.get i) ∧
    (integratedDefault "I" 0 (userKernel "K" F P (0 : Matrix (Fin 1) (Fin 1) ℝ) (0 : Matrix (Fin 1) (Fin 1) ℝ) fun _ => h)
      (0 : Fin 1)).integratedLogProbability oneExposure y R ≠
      ((Spec.gaussLogDensity (Spec.noisyGram (fun i j : Fin oneExposure.len =>
        exposureCov (Spec.sdeCov F P h) (oneExposure.get i) (oneExposure.get j)) fun i => R.get i) (fun i => y.get i) : ℝ) : EReal) := by
  have hL : (0 : Matrix (Fin 1) (Fin 1) ℝ) * 1 + 1 * (0 : Matrix (Fin 1) (Fin 1) ℝ)ᵀ +
      (0 : Matrix (Fin 1) (Fin 1) ℝ) * (0 : Matrix (Fin 1) (Fin 1) ℝ) * (0 : Matrix (Fin 1) (Fin 1) ℝ)ᵀ = 0 := by simp
  refine ⟨0, 1, !![2], ⟨1, fun _ => 0⟩, ⟨1, fun _ => 1⟩, Matrix.PosDef.one, hL, rfl, fun _ _ => one_pos, ?_⟩
  rw [C86_integrated_ignores_row "K" "I" (0 : Fin 1) 0 (fun _ => !![2]) fun _ => Matrix.of fun _ a => if a = 0 then 1 else 0,
    C86_integrated "K" "I" (0 : Fin 1) Matrix.PosDef.one Matrix.PosSemidef.zero hL 0 oneExposure oneExposure_schedule ⟨1, fun _ => 0⟩
      ⟨1, fun _ => 1⟩ rfl fun _ _ => one_pos]
  have c1 : Spec.sdeCov (0 : Matrix (Fin 1) (Fin 1) ℝ) 1 (Matrix.of fun _ a => if a = 0 then 1 else 0) = fun _ => 1 := by
    funext r
    simp [Spec.sdeCov, Matrix.mul_apply]
  have c2 : Spec.sdeCov (0 : Matrix (Fin 1) (Fin 1) ℝ) 1 !![2] = fun _ => 4 := by
    funext r
    simp [Spec.sdeCov, Matrix.mul_apply]
    norm_num
  rw [c1, c2]
  simp only [exposureCov_const]
  intro h
  have h := EReal.coe_eq_coe_iff.1 h
  have key : ∀ a : ℝ, Spec.gaussLogDensity (Spec.noisyGram (fun _ _ : Fin 1 => a) fun _ => 1) (fun _ => 0) =
      - (1 / 2) * Real.log (a + 1) - 1 / 2 * Real.log (2 * Real.pi) := fun a => by
    unfold Spec.gaussLogDensity Spec.noisyGram
    rw [Matrix.det_fin_one]
    simp [dotProduct, Matrix.mulVec]
  have h' : Spec.gaussLogDensity (Spec.noisyGram (fun _ _ : Fin 1 => (1 : ℝ)) fun _ => 1) (fun _ => 0) =
      Spec.gaussLogDensity (Spec.noisyGram (fun _ _ : Fin 1 => (4 : ℝ)) fun _ => 1) (fun _ => 0) := h
  rw [key, key] at h'
  have hl := (fun x y z h => by linarith : ∀ x y z : ℝ, -(1 / 2) * x - z = -(1 / 2) * y - z → x = y) _ _ _ h'
  have := Real.log_injOn_pos (Set.mem_Ioi.2 (by norm_num : (0 : ℝ) < 1 + 1)) (Set.mem_Ioi.2 (by norm_num : (0 : ℝ) < 4 + 1)) hl
  norm_num at this

/-- the derivative of the sum of a Matérn-3/2 and a Matérn-5/2 kernel -/
example : ∃ c c', (Kern.sum (.matern32 2 1 "a") (.matern52 3 1 "b")).model.HasCov c ∧ Spec.DerivativeCov c c' ∧
    Spec.ExactFor (SSM.observing "D" (Kern.sum (.matern32 2 1 "a") (.matern52 3 1 "b")).model
      fun _ => (Kern.sum (.matern32 2 1 "a") (.matern52 3 1 "b")).model.derivativeRow) c' := by
  obtain ⟨c, c', h1, h2, h3, _⟩ := C87_derivative (.sum (.matern32 2 1 "a") (.matern52 3 1 "b")) (.sum (.matern32 two_pos one_ne_zero) (.matern52 three_pos one_ne_zero))
    ⟨trivial, trivial⟩ (((transitionError_iff true _).1 rfl).2 rfl) "D"
  exact ⟨c, c', h1, h2, h3⟩

/-- two data of the derivative of a Matérn-5/2 process at distance 1, with the kernel of the tutorial -/
example (y : Arr ℝ) : (matern52Derivative 1 1 1).logProbability (⟨2, fun i => (i : ℝ)⟩) y ⟨2, fun _ => 1⟩ =
    ((Spec.gaussLogDensity (Spec.noisyGram (fun i j : Fin 2 => Spec.covMatern52Deriv 1 1 |((i : ℕ) : ℝ) - ((j : ℕ) : ℝ)|) fun _ => 1)
      (fun i => y.get i) : ℝ) : EReal) :=
  ((C87_tutorial 1 1 one_pos one_ne_zero _).2.1.likelihood ⟨2, fun i => .time i⟩ y ⟨2, fun _ => 1⟩
    (fun i j hij _ => by simpa [Arr.map, Coord.sortable] using hij) (fun _ _ => one_pos) two_pos).1

end Verif
