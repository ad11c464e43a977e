import Verif.Props.C16_Filter
import Verif.Lemmas.Congr
import Verif.Lemmas.Run

/-!
# C18 causality, C19 linearity, C46 totality of the likelihood, C50 translation invariance, C51 interpolation
-/

namespace Verif
open Matrix

/-! ## C18 -/

/-- **C18, updated quantities.** The filtered state, the innovation and its variance at step `j` depend only on the
coordinates, data and noise up to and including step `j`. -/
theorem C18_filter_causal (k : SSM) (t t' y y' R R' : Arr ℝ) (j : ℕ) (ht : ∀ i ≤ j, t.get i = t'.get i)
    (hy : ∀ i ≤ j, y.get i = y'.get i) (hR : ∀ i ≤ j, R.get i = R'.get i) :
    (k.kalman t y R).get j = (k.kalman t' y' R').get j :=
  kf_congr rfl rfl (fun i hi => by rw [ht i hi.le, ht (i + 1) hi]) (fun i hi => by rw [ht i hi.le, ht (i + 1) hi])
    (fun i hi => by rw [ht i hi]) hR hy

/-- **C18, predictions.** The predicted state at step `j` does not even depend on the datum and noise at step `j`. -/
theorem C18_prediction_causal (k : SSM) (t t' y y' R R' : Arr ℝ) (j : ℕ) (ht : ∀ i ≤ j, t.get i = t'.get i)
    (hy : ∀ i < j, y.get i = y'.get i) (hR : ∀ i < j, R.get i = R'.get i) :
    ((k.kalman t y R).get j).mPred = ((k.kalman t' y' R').get j).mPred ∧
    ((k.kalman t y R).get j).PPred = ((k.kalman t' y' R').get j).PPred :=
  kf_pred_congr rfl rfl (fun i hi => by rw [ht i hi.le, ht (i + 1) hi]) (fun i hi => by rw [ht i hi.le, ht (i + 1) hi])
    (fun i hi => by rw [ht i hi.le]) hR hy

/-- `a[:j]` -/
def Arr.upTo {α : Type*} (a : Arr α) (j : ℕ) : Arr α := ⟨j, a.get⟩

/-- **C18, likelihood.** The likelihood of the first `j` points is the partial sum of the full run's terms. -/
theorem C18_prefix_likelihood (k : SSM) (t y R : Arr ℝ) (j : ℕ)
    (hS : ∀ i < j, 0 < ((k.kalman t y R).get i).S 0 0) :
    k.logProbability (t.upTo j) (y.upTo j) (R.upTo j) =
      ((-(1 / 2) * ∑ i ∈ Finset.range j, ((((k.kalman t y R).get i).v 0) ^ 2 / ((k.kalman t y R).get i).S 0 0 +
        Real.log (((k.kalman t y R).get i).S 0 0) + Real.log (2 * Real.pi)) : ℝ) : EReal) := by
  have hc : ∀ i, (k.kalman (t.upTo j) (y.upTo j) (R.upTo j)).get i = (k.kalman t y R).get i := fun i =>
    C18_filter_causal k _ _ _ _ _ _ i (fun _ _ => rfl) (fun _ _ => rfl) (fun _ _ => rfl)
  have e := computeLogProb_of_pos ((k.kalman (t.upTo j) (y.upTo j) (R.upTo j)).map FilterOut.v)
    ((k.kalman (t.upTo j) (y.upTo j) (R.upTo j)).map FilterOut.S) (fun i hi => by
      show 0 < ((k.kalman (t.upTo j) (y.upTo j) (R.upTo j)).get i).S 0 0
      rw [hc]; exact hS i hi)
  refine e.trans ?_
  congr 2
  refine Finset.sum_congr rfl fun i hi => ?_
  have h := hS i (Finset.mem_range.1 hi)
  show (((k.kalman (t.upTo j) (y.upTo j) (R.upTo j)).get i).v 0 / Real.sqrt (((k.kalman (t.upTo j) (y.upTo j) (R.upTo j)).get i).S 0 0)) ^ 2 +
    2 * Real.log (Real.sqrt (((k.kalman (t.upTo j) (y.upTo j) (R.upTo j)).get i).S 0 0)) + 1 * Real.log (2 * Real.pi) = _
  rw [hc]
  generalize (k.kalman t y R).get i = o at h ⊢
  rw [div_pow, Real.sq_sqrt h.le, Real.log_sqrt h.le]
  ring

/-! ## C19 -/

section linear
variable {n : Type} [Fintype n] [DecidableEq n]

theorem kf_run (A Q : ℝ → ℝ → Matrix n n ℝ) (H : ℝ → Matrix (Fin 1) n ℝ) (R t y : Arr ℝ) (P0 : Matrix n n ℝ) :
    Run (A 0 0 * P0 * (A 0 0)ᵀ + Q 0 0) (fun k => A 0 (t.get (k + 1) - t.get k)) (fun k => Q 0 (t.get (k + 1) - t.get k))
      (fun _ => none) (fun k => H (t.get k)) R.get y.get (kalmanFilter A Q H R t y 0 P0).get where
  zero_m := by rw [kf_zero_m, mulVec_zero]
  zero_P := kf_zero_P A Q H R t y 0 P0
  succ_m := kf_succ_m A Q H R t y 0 P0
  succ_P := kf_succ_P A Q H R t y 0 P0
  upd := kf_upd A Q H R t y 0 P0

theorem rts_back (A : ℝ → ℝ → Matrix n n ℝ) (t : Arr ℝ) (kf : Arr (FilterOut n)) (hl : kf.len = t.len) :
    Back t.len (fun k => A 0 (t.get (k + 1) - t.get k)) (fun _ => none) kf.get (rtsSmoother A t kf).get where
  last_m := by rw [rts_last, ← hl]; rfl
  last_P := by rw [rts_last, ← hl]; rfl
  step_m := fun k hk => by rw [rts_step A t kf k hk]; rfl
  step_P := fun k hk => by rw [rts_step A t kf k hk]; rfl

/-- the branches of a prediction -/
theorem predict_branches (A Q : ℝ → ℝ → Matrix n n ℝ) (P : Matrix n n ℝ) (t : Arr ℝ) (kf : Arr (FilterOut n))
    (sm : Arr (StateMP n)) (x : ℝ) (j : ℕ) (hj : searchsortedRight t x = j) : ssPredictPoint A Q P t kf sm x =
    if j = 0 then
      ⟨0 + (solve (kf.get 0).PPredᵀ (P * (A 0 (t.get 0 - x))ᵀ)ᵀ)ᵀ *ᵥ ((sm.get 0).m - (kf.get 0).mPred),
       P + (solve (kf.get 0).PPredᵀ (P * (A 0 (t.get 0 - x))ᵀ)ᵀ)ᵀ * ((sm.get 0).P - (kf.get 0).PPred) *
        ((solve (kf.get 0).PPredᵀ (P * (A 0 (t.get 0 - x))ᵀ)ᵀ)ᵀ)ᵀ⟩
    else if t.len ≤ j then
      ⟨A 0 (x - t.get (t.len - 1)) *ᵥ (kf.get (t.len - 1)).m,
       A 0 (x - t.get (t.len - 1)) * (kf.get (t.len - 1)).P * (A 0 (x - t.get (t.len - 1)))ᵀ + Q 0 (x - t.get (t.len - 1))⟩
    else
      ⟨A 0 (x - t.get (j - 1)) *ᵥ (kf.get (j - 1)).m +
        (solve (kf.get j).PPredᵀ ((A 0 (x - t.get (j - 1)) * (kf.get (j - 1)).P * (A 0 (x - t.get (j - 1)))ᵀ + Q 0 (x - t.get (j - 1))) *
          (A 0 (t.get j - x))ᵀ)ᵀ)ᵀ *ᵥ ((sm.get j).m - (kf.get j).mPred),
       (A 0 (x - t.get (j - 1)) * (kf.get (j - 1)).P * (A 0 (x - t.get (j - 1)))ᵀ + Q 0 (x - t.get (j - 1))) +
        (solve (kf.get j).PPredᵀ ((A 0 (x - t.get (j - 1)) * (kf.get (j - 1)).P * (A 0 (x - t.get (j - 1)))ᵀ + Q 0 (x - t.get (j - 1))) *
          (A 0 (t.get j - x))ᵀ)ᵀ)ᵀ * ((sm.get j).P - (kf.get j).PPred) *
        ((solve (kf.get j).PPredᵀ ((A 0 (x - t.get (j - 1)) * (kf.get (j - 1)).P * (A 0 (x - t.get (j - 1)))ᵀ + Q 0 (x - t.get (j - 1))) *
          (A 0 (t.get j - x))ᵀ)ᵀ)ᵀ)ᵀ⟩ := by
  subst hj
  rfl

theorem predict_linear (A Q : ℝ → ℝ → Matrix n n ℝ) (P : Matrix n n ℝ) (t : Arr ℝ) (kf kf' kf'' : Arr (FilterOut n))
    (sm sm' sm'' : Arr (StateMP n)) (x a b : ℝ) (hN : 0 < t.len)
    (hmp : ∀ j, (kf''.get j).mPred = a • (kf.get j).mPred + b • (kf'.get j).mPred)
    (hm : ∀ j, (kf''.get j).m = a • (kf.get j).m + b • (kf'.get j).m)
    (hp : ∀ j, (kf''.get j).PPred = (kf.get j).PPred) (hp' : ∀ j, (kf''.get j).PPred = (kf'.get j).PPred)
    (hf : ∀ j, (kf''.get j).P = (kf.get j).P) (hf' : ∀ j, (kf''.get j).P = (kf'.get j).P)
    (hs : ∀ j < t.len, (sm''.get j).m = a • (sm.get j).m + b • (sm'.get j).m)
    (hsp : ∀ j < t.len, (sm''.get j).P = (sm.get j).P) (hsp' : ∀ j < t.len, (sm''.get j).P = (sm'.get j).P) :
    (ssPredictPoint A Q P t kf'' sm'' x).m = a • (ssPredictPoint A Q P t kf sm x).m + b • (ssPredictPoint A Q P t kf' sm' x).m ∧
    (ssPredictPoint A Q P t kf'' sm'' x).P = (ssPredictPoint A Q P t kf sm x).P ∧
    (ssPredictPoint A Q P t kf sm x).P = (ssPredictPoint A Q P t kf' sm' x).P := by
  rw [predict_branches A Q P t kf'' sm'' x _ rfl, predict_branches A Q P t kf' sm' x _ rfl, predict_branches A Q P t kf sm x _ rfl]
  have hle : searchsortedRight t x ≤ t.len := searchsorted_le x
  generalize searchsortedRight t x = j at hle
  by_cases h0 : j = 0
  · simp only [if_pos h0]
    rw [hs 0 hN, ← hsp 0 hN, ← hsp' 0 hN, hmp 0, ← hp 0, ← hp' 0]
    refine ⟨?_, rfl, rfl⟩
    rw [← gain_linear, smul_zero, smul_zero, add_zero]
  · by_cases h1 : t.len ≤ j
    · simp only [if_neg h0, if_pos h1]
      rw [hm, ← hf, ← hf', mulVec_add, mulVec_smul, mulVec_smul]
      exact ⟨rfl, rfl, rfl⟩
    · simp only [if_neg h0, if_neg h1]
      rw [hs j (not_le.1 h1), ← hsp j (not_le.1 h1), ← hsp' j (not_le.1 h1), hmp j, ← hp j, ← hp' j, hm, ← hf, ← hf']
      refine ⟨?_, rfl, rfl⟩
      rw [mulVec_add, mulVec_smul, mulVec_smul, gain_linear]

end linear

/-- the predicted state at one test point -/
noncomputable def SSM.predictPoint (k : SSM) (t y R : Arr ℝ) (x : ℝ) : StateMP k.n :=
  ssPredictPoint k.At k.Qt k.Pinf t (k.kalman t y R) (k.condition t y R).2 x

theorem predictAt_get (k : SSM) (X : Arr Coord) (y R : Arr ℝ) (Xtest : Arr Coord) (m : ℕ) : (k.predictAt X y R Xtest).get m =
    ((k.obsModel (Xtest.get m) none *ᵥ (k.predictPoint (X.map Coord.sortable) y R (Xtest.get m).sortable).m) 0,
     (k.obsModel (Xtest.get m) none * (k.predictPoint (X.map Coord.sortable) y R (Xtest.get m).sortable).P *
      (k.obsModel (Xtest.get m) none)ᵀ) 0 0) := rfl

/-- the smoothed states of three runs with `y'' = a y + b y'` -/
theorem condition_linear (k : SSM) (t y y' y'' R : Arr ℝ) (a b : ℝ) (h : ∀ i, y''.get i = a * y.get i + b * y'.get i)
    (j : ℕ) (hj : j < t.len) :
    ((k.condition t y'' R).2.get j).m = a • ((k.condition t y R).2.get j).m + b • ((k.condition t y' R).2.get j).m ∧
    ((k.condition t y'' R).2.get j).P = ((k.condition t y R).2.get j).P ∧
    ((k.condition t y'' R).2.get j).P = ((k.condition t y' R).2.get j).P := by
  have r := kf_run k.At k.Qt k.Ht R t y k.Pinf
  have r' := kf_run k.At k.Qt k.Ht R t y' k.Pinf
  have r'' := kf_run k.At k.Qt k.Ht R t y'' k.Pinf
  have s := rts_back k.At t (k.kalman t y R) rfl
  have s' := rts_back k.At t (k.kalman t y' R) rfl
  have s'' := rts_back k.At t (k.kalman t y'' R) rfl
  exact ⟨Back.linear r r' r'' s s' s'' h hj, Back.cov_indep r'' r s'' s hj, Back.cov_indep r'' r' s'' s' hj⟩

/-- **C19, conditioning.** The conditioned means are linear in the data, the conditioned variances do not depend on them.
(No hypothesis on the kernel is needed.) -/
theorem C19_condition_linear (k : SSM) (X : Arr Coord) (y y' y'' R : Arr ℝ) (a b : ℝ)
    (h : ∀ i, y''.get i = a * y.get i + b * y'.get i) (i : ℕ) (hi : i < X.len) :
    ((k.conditionedAtData X y'' R).get i).1 = a * ((k.conditionedAtData X y R).get i).1 + b * ((k.conditionedAtData X y' R).get i).1 ∧
    ((k.conditionedAtData X y'' R).get i).2 = ((k.conditionedAtData X y R).get i).2 ∧
    ((k.conditionedAtData X y R).get i).2 = ((k.conditionedAtData X y' R).get i).2 := by
  rw [conditionedAtData_get k X y R hi, conditionedAtData_get k X y' R hi, conditionedAtData_get k X y'' R hi]
  obtain ⟨h1, h2, h3⟩ := condition_linear k (X.map Coord.sortable) y y' y'' R a b h i hi
  rw [h1, ← h2, ← h3, mulVec_add, mulVec_smul, mulVec_smul]
  exact ⟨rfl, rfl, rfl⟩

/-- **C19, prediction.** The same for predictions at any coordinates. -/
theorem C19_predict_linear (k : SSM) (X : Arr Coord) (y y' y'' R : Arr ℝ) (Xtest : Arr Coord) (a b : ℝ)
    (h : ∀ i, y''.get i = a * y.get i + b * y'.get i) (hN : 0 < X.len) (m : ℕ) :
    ((k.predictAt X y'' R Xtest).get m).1 = a * ((k.predictAt X y R Xtest).get m).1 + b * ((k.predictAt X y' R Xtest).get m).1 ∧
    ((k.predictAt X y'' R Xtest).get m).2 = ((k.predictAt X y R Xtest).get m).2 ∧
    ((k.predictAt X y R Xtest).get m).2 = ((k.predictAt X y' R Xtest).get m).2 := by
  have r := kf_run k.At k.Qt k.Ht R (X.map Coord.sortable) y k.Pinf
  have r' := kf_run k.At k.Qt k.Ht R (X.map Coord.sortable) y' k.Pinf
  have r'' := kf_run k.At k.Qt k.Ht R (X.map Coord.sortable) y'' k.Pinf
  have hc := condition_linear k (X.map Coord.sortable) y y' y'' R a b h
  obtain ⟨h1, h2, h3⟩ := predict_linear k.At k.Qt k.Pinf (X.map Coord.sortable) (k.kalman (X.map Coord.sortable) y R)
    (k.kalman (X.map Coord.sortable) y' R) (k.kalman (X.map Coord.sortable) y'' R)
    (k.condition (X.map Coord.sortable) y R).2 (k.condition (X.map Coord.sortable) y' R).2 (k.condition (X.map Coord.sortable) y'' R).2
    (Xtest.get m).sortable a b hN (fun j => (r.mean_linear r' r'' h j).1) (fun j => (r.mean_linear r' r'' h j).2)
    (fun j => (r''.cov_indep r j).1) (fun j => (r''.cov_indep r' j).1) (fun j => (r''.cov_indep r j).2.1)
    (fun j => (r''.cov_indep r' j).2.1) (fun j hj => (hc j hj).1) (fun j hj => (hc j hj).2.1) (fun j hj => (hc j hj).2.2)
  rw [predictAt_get, predictAt_get, predictAt_get]
  unfold SSM.predictPoint
  rw [h1, h2, h3, mulVec_add, mulVec_smul, mulVec_smul]
  exact ⟨rfl, rfl, rfl⟩

/-! ## C46 -/

/-- **C46.** `log_probability` never returns `+inf` or NaN: it is a finite number when all innovation variances are positive, and
`-inf` otherwise. -/
theorem C46_total (k : SSM) (t y R : Arr ℝ) :
    ((∀ i < t.len, 0 < ((k.kalman t y R).get i).S 0 0) ∧ ∃ x : ℝ, k.logProbability t y R = x) ∨
    ((∃ i < t.len, ((k.kalman t y R).get i).S 0 0 ≤ 0) ∧ k.logProbability t y R = ⊥) := by
  by_cases h : ∀ i < t.len, 0 < ((k.kalman t y R).get i).S 0 0
  · exact Or.inl ⟨h, _, computeLogProb_of_pos ((k.kalman t y R).map FilterOut.v) ((k.kalman t y R).map FilterOut.S) h⟩
  · refine Or.inr ⟨by push Not at h; exact h, ?_⟩
    exact computeLogProb_of_not_pos ((k.kalman t y R).map FilterOut.v) ((k.kalman t y R).map FilterOut.S) h

/-- **C46**, for the shipped kernels: sorted coordinates and positive noise always give a finite value. -/
theorem C46_finite (k : SSM) (hk : BuiltIn k) (X : Arr Coord) (y R : Arr ℝ) (hX : Sorted (X.map Coord.sortable))
    (hR : ∀ i < X.len, 0 < R.get i) : ∃ x : ℝ, k.logProbability (X.map Coord.sortable) y R = x :=
  ⟨_, C01_likelihood_exact_builtin k hk X y R hX hR⟩

/-- the first innovation variance of `Exp(scale=1)` -/
theorem exp_first_S (t y R : Arr ℝ) : (((expKernel 1 1).kalman t y R).get 0).S 0 0 = 1 + R.get 0 := by
  have e : (((expKernel 1 1).kalman t y R).get 0).S 0 0 =
      ((expKernel 1 1).Ht (t.get 0) * (((expKernel 1 1).kalman t y R).get 0).PPred * ((expKernel 1 1).Ht (t.get 0))ᵀ) 0 0 + R.get 0 := rfl
  have hr := expKernel_regular 1 1 "Exp" one_pos one_ne_zero
  have eP : (((expKernel 1 1).kalman t y R).get 0).PPred = (expKernel 1 1).Pinf := by
    show ((kalmanFilter (expKernel 1 1).At (expKernel 1 1).Qt (expKernel 1 1).Ht _ _ _ 0 (expKernel 1 1).Pinf).get 0).PPred = _
    rw [kf_zero_P, hr.A_zero, hr.Q_eq 0 le_rfl, hr.A_zero]
    simp
  have eH : (expKernel 1 1).Ht (t.get 0) = (!![1] : Matrix (Fin 1) (Fin 1) ℝ) :=
    defaultObs_none "Exp" (fun _ => (!![1] : Matrix (Fin 1) (Fin 1) ℝ)) (.time (t.get 0))
  have e4 : (expKernel 1 1).Pinf = (!![1 ^ 2] : Matrix (Fin 1) (Fin 1) ℝ) := by
    show (1 : ℝ) ^ 2 • (!![1] : Matrix (Fin 1) (Fin 1) ℝ) = _
    norm_num
  have e3 : ((!![1] : Matrix (Fin 1) (Fin 1) ℝ) * (!![1 ^ 2] : Matrix (Fin 1) (Fin 1) ℝ) *
      (!![1] : Matrix (Fin 1) (Fin 1) ℝ)ᵀ) 0 0 = 1 := by
    simp only [tr1, mul1]; norm_num
  rw [e, eP, eH, e4]
  exact congrArg (· + R.get 0) e3

/-- the branch `-inf` occurs: a negative noise variance -/
theorem C46_bottom_occurs : (expKernel 1 1).logProbability ⟨1, fun _ => 0⟩ ⟨1, fun _ => 0⟩ ⟨1, fun _ => -2⟩ = ⊥ := by
  rcases C46_total (expKernel 1 1) ⟨1, fun _ => 0⟩ ⟨1, fun _ => 0⟩ ⟨1, fun _ => -2⟩ with ⟨h, _⟩ | ⟨_, h⟩
  · exfalso
    have h0 := h 0 (by norm_num)
    rw [exp_first_S] at h0
    norm_num at h0
  · exact h

/-! ## C50 -/

/-- shift a coordinate in time -/
def Coord.shift (c : ℝ) : Coord → Coord
  | .time t => .time (t + c)
  | .exposure t delta inst => .exposure (t + c) delta inst

theorem Coord.shift_sortable (c : ℝ) (X : Coord) : (X.shift c).sortable = X.sortable + c := by
  cases X <;> rfl

theorem searchsorted_shift {t t' : Arr ℝ} (c x : ℝ) (hl : t.len = t'.len) (h : ∀ i < t.len, t'.get i = t.get i + c) :
    searchsortedRight t' (x + c) = searchsortedRight t x := by
  unfold searchsortedRight
  rw [← hl]
  congr 1
  refine List.filter_congr fun i hi => ?_
  rw [h i (List.mem_range.1 hi)]
  simp

section shift
variable {k : SSM} (hH : ∀ X : Coord, k.obsModel X none = k.obsModel (.time 0) none) (c : ℝ) (X : Arr Coord) (y R : Arr ℝ)
include hH

theorem shift_kalman (j : ℕ) : (k.kalman ((X.map (Coord.shift c)).map Coord.sortable) y R).get j =
    (k.kalman (X.map Coord.sortable) y R).get j := by
  have e : ∀ i, ((X.map (Coord.shift c)).map Coord.sortable).get i = (X.map Coord.sortable).get i + c := fun i =>
    Coord.shift_sortable c (X.get i)
  refine kf_congr rfl rfl (fun i _ => ?_) (fun i _ => ?_) (fun i _ => ?_) (fun _ _ => rfl) (fun _ _ => rfl)
  · rw [e, e]; congr 1; ring
  · rw [e, e]; congr 1; ring
  · exact (hH (.time _)).trans (hH (.time _)).symm

theorem shift_smooth {j : ℕ} (hj : j < X.len) : (k.condition ((X.map (Coord.shift c)).map Coord.sortable) y R).2.get j =
    (k.condition (X.map Coord.sortable) y R).2.get j := by
  have e : ∀ i, ((X.map (Coord.shift c)).map Coord.sortable).get i = (X.map Coord.sortable).get i + c := fun i =>
    Coord.shift_sortable c (X.get i)
  have hkf := shift_kalman hH c X y R
  unfold SSM.condition SSM.rts
  dsimp only
  generalize hk1 : k.kalman ((X.map (Coord.shift c)).map Coord.sortable) y R = kf1 at hkf ⊢
  generalize hk2 : k.kalman (X.map Coord.sortable) y R = kf2 at hkf ⊢
  have l1 : kf1.len = X.len := by rw [← hk1]; rfl
  have l2 : kf2.len = X.len := by rw [← hk2]; rfl
  clear hk1 hk2
  generalize hlt1 : (X.map (Coord.shift c)).map Coord.sortable = t1 at e ⊢
  generalize hlt2 : X.map Coord.sortable = t2 at e ⊢
  have lt1 : t1.len = X.len := by rw [← hlt1]; rfl
  have lt2 : t2.len = X.len := by rw [← hlt2]; rfl
  refine rts_congr (A := k.At) (A' := k.At) (lt1.trans lt2.symm) (l1.trans lt1.symm) (l2.trans lt2.symm) (fun i _ => hkf i)
    (fun i _ => ?_) (lt1 ▸ hj)
  rw [e, e, add_sub_add_right_eq_sub]

theorem shift_predict (hN : 0 < X.len) (x : ℝ) :
    k.predictPoint ((X.map (Coord.shift c)).map Coord.sortable) y R (x + c) = k.predictPoint (X.map Coord.sortable) y R x := by
  have e : ∀ i, ((X.map (Coord.shift c)).map Coord.sortable).get i = (X.map Coord.sortable).get i + c := fun i =>
    Coord.shift_sortable c (X.get i)
  have hs : searchsortedRight ((X.map (Coord.shift c)).map Coord.sortable) (x + c) = searchsortedRight (X.map Coord.sortable) x :=
    searchsorted_shift c x rfl (fun i _ => e i)
  have hkf := shift_kalman hH c X y R
  have hsm : ∀ j < X.len, _ := fun j hj => shift_smooth hH c X y R (j := j) hj
  have hlen : ((X.map (Coord.shift c)).map Coord.sortable).len = X.len := rfl
  have hlen' : (X.map Coord.sortable).len = X.len := rfl
  unfold SSM.predictPoint
  rw [predict_branches _ _ _ _ _ _ _ _ hs, predict_branches _ _ _ _ _ _ x _ rfl, hlen, hlen']
  generalize searchsortedRight (X.map Coord.sortable) x = j
  generalize k.kalman ((X.map (Coord.shift c)).map Coord.sortable) y R = kf1 at hkf ⊢
  generalize k.kalman (X.map Coord.sortable) y R = kf2 at hkf ⊢
  generalize (k.condition ((X.map (Coord.shift c)).map Coord.sortable) y R).2 = sm1 at hsm ⊢
  generalize (k.condition (X.map Coord.sortable) y R).2 = sm2 at hsm ⊢
  generalize (X.map (Coord.shift c)).map Coord.sortable = t1 at e ⊢
  generalize X.map Coord.sortable = t2 at e ⊢
  by_cases h0 : j = 0
  · simp only [if_pos h0]
    rw [hkf, hsm 0 hN, e, add_sub_add_right_eq_sub]
  · by_cases h1 : X.len ≤ j
    · simp only [if_neg h0, if_pos h1]
      rw [hkf, e, add_sub_add_right_eq_sub]
    · simp only [if_neg h0, if_neg h1]
      rw [hkf, hkf, hsm j (not_le.1 h1), e, e, add_sub_add_right_eq_sub, add_sub_add_right_eq_sub]

end shift

theorem Combos.obs_const {k : SSM} (hk : Combos (Leaf SHO.Any) k) (X : Coord) : k.obsModel X none = k.obsModel (.time 0) none := by
  obtain ⟨G, hG⟩ := hk.covModel
  rw [hG.H_none, hG.H_none, hG.H_const X]

theorem kalman_len (k : SSM) (t y R : Arr ℝ) : (k.kalman t y R).len = t.len := rfl

theorem logProbability_def (k : SSM) (t y R : Arr ℝ) : k.logProbability t y R =
    computeLogProb ((k.kalman t y R).map FilterOut.v) ((k.kalman t y R).map FilterOut.S) := rfl

/-- **C50.** Shifting all coordinates by a constant changes neither the likelihood, nor the conditioned means and variances, nor
the predictions at shifted test coordinates. -/
theorem C50_time_translation (k : SSM) (hk : Combos (Leaf SHO.Any) k) (c : ℝ) (X : Arr Coord) (y R : Arr ℝ)
    (Xtest : Arr Coord) :
    k.logProbability ((X.map (Coord.shift c)).map Coord.sortable) y R = k.logProbability (X.map Coord.sortable) y R ∧
    (∀ i < X.len, (k.conditionedAtData (X.map (Coord.shift c)) y R).get i = (k.conditionedAtData X y R).get i) ∧
    (0 < X.len → ∀ m, (k.predictAt (X.map (Coord.shift c)) y R (Xtest.map (Coord.shift c))).get m =
      (k.predictAt X y R Xtest).get m) := by
  have hH := hk.obs_const
  refine ⟨?_, fun i hi => ?_, fun hN m => ?_⟩
  · rw [logProbability_def, logProbability_def]
    have hkf := shift_kalman hH c X y R
    have hl : (k.kalman ((X.map (Coord.shift c)).map Coord.sortable) y R).len = (k.kalman (X.map Coord.sortable) y R).len := by
      rw [kalman_len, kalman_len]; rfl
    generalize k.kalman ((X.map (Coord.shift c)).map Coord.sortable) y R = kf1 at hkf hl ⊢
    generalize k.kalman (X.map Coord.sortable) y R = kf2 at hkf hl ⊢
    exact computeLogProb_congr hl (fun i _ => congrArg FilterOut.v (hkf i)) (fun i _ => congrArg FilterOut.S (hkf i))
  · rw [conditionedAtData_get k X y R hi, conditionedAtData_get k (X.map (Coord.shift c)) y R hi, shift_smooth hH c X y R hi,
      hH ((X.map (Coord.shift c)).get i), hH (X.get i)]
  · have h := shift_predict hH c X y R hN (Xtest.get m).sortable
    rw [← Coord.shift_sortable] at h
    rw [predictAt_get, predictAt_get]
    have e : (Xtest.map (Coord.shift c)).get m = Coord.shift c (Xtest.get m) := rfl
    rw [e, h, hH (Coord.shift c (Xtest.get m)), hH (Xtest.get m)]

/-! ## C51 -/

section interp
variable {n : Type} [Fintype n] [DecidableEq n] {H : Matrix (Fin 1) n ℝ} {y : ℝ} {m : n → ℝ} {P : Matrix n n ℝ}

theorem update_exact (hS : (H * P * Hᵀ) 0 0 ≠ 0) (hs : Pᵀ = P) :
    (H *ᵥ (kalmanUpdate H 0 y m P).m) 0 = y ∧ H * (kalmanUpdate H 0 y m P).P = 0 := by
  have hS' : (H * P * Hᵀ) 0 0 + 0 ≠ 0 := by rwa [add_zero]
  have hg : ∀ a, gain H 0 y m P a 0 * (H * P * Hᵀ) 0 0 = (P * Hᵀ) a 0 := fun a => by
    have := gain_apply H 0 y m P a hS'
    rwa [add_zero] at this
  have hHg : (H * gain H 0 y m P) 0 0 = 1 := by
    have e : (H * gain H 0 y m P) 0 0 * (H * P * Hᵀ) 0 0 = (H * P * Hᵀ) 0 0 := by
      rw [Matrix.mul_apply, Finset.sum_mul]
      conv_rhs => rw [Matrix.mul_assoc, Matrix.mul_apply]
      exact Finset.sum_congr rfl fun a _ => by rw [mul_assoc, hg]
    exact mul_right_cancel₀ hS (by rw [e, one_mul])
  constructor
  · rw [update_m]
    have : (H *ᵥ fun a => m a + gain H 0 y m P a 0 * (y - (H *ᵥ m) 0)) 0 = (H *ᵥ m) 0 + (H * gain H 0 y m P) 0 0 * (y - (H *ᵥ m) 0) := by
      simp only [mulVec, dotProduct, Matrix.mul_apply, mul_add, Finset.sum_add_distrib, Finset.sum_mul, mul_assoc]
    rw [this, hHg]
    ring
  · ext i b
    rw [Subsingleton.elim i 0, Matrix.mul_apply]
    have eP : ∀ a, (kalmanUpdate H 0 y m P).P a b = P a b - gain H 0 y m P a 0 * (H * P * Hᵀ) 0 0 * gain H 0 y m P b 0 := fun a => by
      rw [update_P, add_zero]
    simp only [eP, mul_sub, Finset.sum_sub_distrib, Matrix.zero_apply]
    generalize hs0 : (H * P * Hᵀ) 0 0 = s at hg
    have e1 : ∑ a, H 0 a * (gain H 0 y m P a 0 * s * gain H 0 y m P b 0) =
        (H * gain H 0 y m P) 0 0 * (gain H 0 y m P b 0 * s) := by
      rw [Matrix.mul_apply, Finset.sum_mul]
      exact Finset.sum_congr rfl fun a _ => by ring
    rw [e1, hHg, one_mul, hg, Matrix.mul_apply, sub_eq_zero]
    refine Finset.sum_congr rfl fun a _ => ?_
    rw [transpose_apply, mul_comm]
    congr 1
    conv_lhs => rw [← hs, transpose_apply]

end interp

/-- **C51.** Where a datum is noise-free, the conditioned mean is the datum and the conditioned variance is zero, in every run
without a division by zero. -/
theorem C51_interpolation (k : SSM) (hk : k.Proper) (X : Arr Coord) (y R : Arr ℝ) (hX : Sorted (X.map Coord.sortable))
    (hR : ∀ i < X.len, 0 ≤ R.get i) (hS : ∀ i < X.len, ((k.kalman (X.map Coord.sortable) y R).get i).S 0 0 ≠ 0)
    (i : ℕ) (hi : i < X.len) (h0 : R.get i = 0) : (k.conditionedAtData X y R).get i = (y.get i, 0) := by
  rw [conditionedAtData_get k X y R hi]
  have hcov := (hk.covRec (t := X.map Coord.sortable) hX hR hS).psd hi
  have eH : k.obsModel (X.get i) none = k.Ht ((X.map Coord.sortable).get i) := by
    rw [hk.H_const]; exact (hk.H_const _).symm
  rw [eH]
  set kf := k.kalman (X.map Coord.sortable) y R with hkf
  have hup : kf.get i = kalmanUpdate (k.Ht ((X.map Coord.sortable).get i)) 0 (y.get i) (kf.get i).mPred (kf.get i).PPred := by
    rw [← h0]; exact kf_upd k.At k.Qt k.Ht R (X.map Coord.sortable) y 0 k.Pinf i
  set H := k.Ht ((X.map Coord.sortable).get i)
  have hSi : (H * (kf.get i).PPred * Hᵀ) 0 0 ≠ 0 := by
    have := hS i hi
    have e : (kf.get i).S 0 0 = (H * (kf.get i).PPred * Hᵀ) 0 0 + R.get i := rfl
    rwa [e, h0, add_zero] at this
  obtain ⟨hm, hP⟩ := update_exact (y := y.get i) (m := (kf.get i).mPred) hSi (psd_symm hcov.1)
  rw [← hup] at hm hP
  have hb := rts_back k.At (X.map Coord.sortable) kf rfl
  by_cases hl : i + 1 < X.len
  · have hG : ∀ (D Pn : Matrix k.n k.n ℝ), H * (solve Pnᵀ ((kf.get i).P * D)ᵀ)ᵀ = 0 := by
      intro D Pn
      unfold solve
      rw [transpose_mul, transpose_transpose, ← Matrix.mul_assoc, ← Matrix.mul_assoc, hP, Matrix.zero_mul, Matrix.zero_mul]
    have e1 : ((k.condition (X.map Coord.sortable) y R).2.get i).m = _ := hb.step_m i hl
    have e2 : ((k.condition (X.map Coord.sortable) y R).2.get i).P = _ := hb.step_P i hl
    rw [e1, e2]
    have b1 : (Run.base (fun _ => none) kf.get i).m = (kf.get i).m := rfl
    have b2 : (Run.base (fun _ => none) kf.get i).P = (kf.get i).P := rfl
    rw [b1, b2, mulVec_add, Pi.add_apply, hm, mulVec_mulVec, hG, Matrix.mul_add, hP, ← Matrix.mul_assoc, ← Matrix.mul_assoc, hG]
    simp
  · have hl' : i = X.len - 1 := by omega
    have e1 : ((k.condition (X.map Coord.sortable) y R).2.get i).m = (kf.get i).m := by rw [hl']; exact hb.last_m
    have e2 : ((k.condition (X.map Coord.sortable) y R).2.get i).P = (kf.get i).P := by rw [hl']; exact hb.last_P
    rw [e1, e2, hm, hP]
    simp

section examples
example := C18_filter_causal (expKernel 1 1) ⟨2, fun i => i⟩ ⟨3, fun i => if i = 2 then 7 else i⟩ exY exY exR exR 1
  (fun i hi => by simp only; rw [if_neg (by omega)]) (fun _ _ => rfl) (fun _ _ => rfl)
example := C18_prefix_likelihood _ (exX.map Coord.sortable) exY exR 2
  (fun i hi => ex_builtin.regular.S_pos (y := exY) exX_sorted (by norm_num [exX]) exR_pos
    (by show i < 3; omega))
example := C19_condition_linear (expKernel 1 1) exX exY exR ⟨3, fun i => 2 * exY.get i + 3 * exR.get i⟩ exR 2 3 (fun _ => rfl) 1
  (by norm_num [exX])
example := C50_time_translation _ ex_builtin.leafCombos 5 exX exY exR exX
example := C46_finite _ ex_builtin exX exY exR exX_sorted exR_pos
/-- one noise-free datum among three -/
example := C51_interpolation (expKernel 1 1) (expKernel_regular 1 1 "Exp" one_pos one_ne_zero).toProper ⟨1, fun _ => .time 4⟩
  ⟨1, fun _ => 3⟩ ⟨1, fun _ => 0⟩ (fun _ _ _ _ => le_refl _) (fun _ _ => le_refl _)
  (fun i hi => by
    obtain rfl : i = 0 := Nat.lt_one_iff.1 hi
    rw [exp_first_S]; norm_num) 0 Nat.one_pos rfl
end examples

end Verif
