import Verif.Model.GPCore
import Verif.Lemmas.LogProb
import Verif.Spec.Dense
import Verif.Spec.BuiltIn
import Verif.Lemmas.ExactSSM
import Verif.Lemmas.KernelMatern

/-!
# C01 - C05: the state-space computations are exact Gaussian-process regression

`Spec.gaussLogDensity`, `Spec.postMean`, `Spec.postVar` are the dense textbook formulas; the covariances they are fed
with are the values `kernel(X_i, X_j)` of the kernel itself (`SSM.evaluate`).
-/

namespace Verif
open Matrix

/-- every built-in kernel (any nesting of sums and products) describes a regular stationary process -/
theorem BuiltIn.regular {k : SSM} (h : BuiltIn k) : k.Regular := by
  induction h with
  | exp hs hσ => exact expKernel_regular _ _ _ hs hσ
  | matern32 hs hσ => exact matern32_regular _ _ _ hs hσ
  | matern52 hs hσ => exact matern52_regular _ _ _ hs hσ
  | matern hd hs hσ => exact maternGeneric_regular hd hs hσ
  | cosine _ hσ => exact cosine_regular _ _ _ hσ
  | expSineSquared _ _ hσ => exact expSineSquared_regular _ _ _ _ _ hσ
  | sho hw hq hd hσ => exact SHO.regular _ hw hq hd hσ
  | sum _ _ h1 h2 => exact h1.sum h2
  | prod _ _ h1 h2 => exact h1.prod h2

/-- covariance of the noisy data according to the kernel function itself -/
noncomputable def dataGram (k : SSM) (X : Arr Coord) (R : Arr ℝ) : Matrix (Fin X.len) (Fin X.len) ℝ :=
  Spec.noisyGram (fun i j : Fin X.len => k.evaluate (X.get i) (X.get j)) (fun i => R.get i)

/-! ## C01 -/

/-- **C01.** `log_probability(y)` is the dense Gaussian log density, for every consistent kernel, every sorted
coordinate array (repeats allowed, any length including 0) and every noise for which the innovation variances are
positive. -/
theorem C01_likelihood_exact (k : SSM) (hk : k.Proper) (X : Arr Coord) (y R : Arr ℝ)
    (hX : Sorted (X.map Coord.sortable))
    (hS : ∀ i < X.len, 0 < ((k.kalman (X.map Coord.sortable) y R).get i).S 0 0) :
    k.logProbability (X.map Coord.sortable) y R =
      ((Spec.gaussLogDensity (dataGram k X R) (fun i => y.get i) : ℝ) : EReal) := by
  have hlp : k.logProbability (X.map Coord.sortable) y R = ((-(1 / 2) * ∑ i : Fin X.len,
      ((((k.kalman (X.map Coord.sortable) y R).get i).v 0 /
        Real.sqrt (((k.kalman (X.map Coord.sortable) y R).get i).S 0 0)) ^ 2 +
      2 * Real.log (Real.sqrt (((k.kalman (X.map Coord.sortable) y R).get i).S 0 0)) +
      1 * Real.log (2 * Real.pi)) : ℝ) : EReal) := by
    exact computeLogProb_eq ((k.kalman (X.map Coord.sortable) y R).map FilterOut.v)
      ((k.kalman (X.map Coord.sortable) y R).map FilterOut.S) hS
  rw [hlp]
  congr 1
  rcases Nat.eq_zero_or_pos X.len with h0 | hN
  · have : IsEmpty (Fin X.len) := by rw [h0]; infer_instance
    simp [Spec.gaussLogDensity]
  · obtain ⟨h1, h2⟩ := hk.gram_det (y := y) (R := R) hX hN (fun i hi => (hS i hi).ne')
    exact (logDensity_of_innovations (fun i : Fin X.len => hS i i.2) h1 h2).symm

/-- **C01**, for the kernels that can be built from the shipped classes and any positive noise. -/
theorem C01_likelihood_exact_builtin (k : SSM) (hk : BuiltIn k) (X : Arr Coord) (y R : Arr ℝ)
    (hX : Sorted (X.map Coord.sortable)) (hR : ∀ i < X.len, 0 < R.get i) :
    k.logProbability (X.map Coord.sortable) y R =
      ((Spec.gaussLogDensity (dataGram k X R) (fun i => y.get i) : ℝ) : EReal) := by
  refine C01_likelihood_exact k hk.regular.toProper X y R hX fun i hi => ?_
  exact hk.regular.S_pos hX (by omega) hR hi

/-! ## C02, C03 -/

theorem conditionedAtData_get (k : SSM) (X : Arr Coord) (y R : Arr ℝ) {i : ℕ} (hi : i < X.len) :
    (k.conditionedAtData X y R).get i =
      ((k.obsModel (X.get i) none *ᵥ ((k.condition (X.map Coord.sortable) y R).2.get i).m) 0,
       (k.obsModel (X.get i) none * ((k.condition (X.map Coord.sortable) y R).2.get i).P *
        (k.obsModel (X.get i) none)ᵀ) 0 0) := by
  have h1 : ∀ j < X.len, (nonzeroSize X.len (fun _ => (1 : ℕ) == 1) X.len).get j = j := fun j hj =>
    nonzeroSize_all _ _ (fun _ => rfl) hj
  have h2 : (argsort ((Arr.arange X.len).take (nonzeroSize X.len (fun _ => (1 : ℕ) == 1) X.len))).get i = i := by
    refine argsort_sorted _ (fun a b hab hb => ?_) hi
    have hb' : b < X.len := hb
    show (nonzeroSize X.len _ X.len).get a ≤ (nonzeroSize X.len _ X.len).get b
    rw [h1 a (by omega), h1 b hb']
    exact hab
  have h3 : ((nonzeroSize X.len (fun _ => (1 : ℕ) == 1) X.len).take
      (argsort ((Arr.arange X.len).take (nonzeroSize X.len (fun _ => (1 : ℕ) == 1) X.len)))).get i = i := by
    show (nonzeroSize X.len _ X.len).get _ = i
    rw [h2, h1 i hi]
  have h4 : (k.conditionedAtData X y R).get i =
      (fun j => ((k.obsModel (X.get i) none *ᵥ ((k.condition (X.map Coord.sortable) y R).2.get j).m) 0,
       (k.obsModel (X.get i) none * ((k.condition (X.map Coord.sortable) y R).2.get j).P *
        (k.obsModel (X.get i) none)ᵀ) 0 0)) (((nonzeroSize X.len (fun _ => (1 : ℕ) == 1) X.len).take
      (argsort ((Arr.arange X.len).take (nonzeroSize X.len (fun _ => (1 : ℕ) == 1) X.len)))).get i) := rfl
  rw [h4, h3]

/-- **C02.** The conditioned mean at data point `i` is the dense posterior mean `K_i (K+D)⁻¹ y`. -/
theorem C02_conditioned_mean_exact (k : SSM) (hk : k.Regular) (X : Arr Coord) (y R : Arr ℝ)
    (hX : Sorted (X.map Coord.sortable)) (hR : ∀ i < X.len, 0 < R.get i) (i : ℕ) (hi : i < X.len) :
    ((k.conditionedAtData X y R).get i).1 =
      Spec.postMean (dataGram k X R) (fun j => y.get j) (fun j => k.evaluate (X.get i) (X.get j)) := by
  have hN : 0 < X.len := by omega
  rw [conditionedAtData_get k X y R hi]
  exact (hk.smoothed_dense hX hN (fun i hi => (hk.S_pos hX hN hR hi).ne')
    (fun i hi => hk.P_unit hX hN hR hi) hi).1

/-- **C03.** The conditioned variance at data point `i` is the dense posterior variance. -/
theorem C03_conditioned_variance_exact (k : SSM) (hk : k.Regular) (X : Arr Coord) (y R : Arr ℝ)
    (hX : Sorted (X.map Coord.sortable)) (hR : ∀ i < X.len, 0 < R.get i) (i : ℕ) (hi : i < X.len) :
    ((k.conditionedAtData X y R).get i).2 =
      Spec.postVar (dataGram k X R) (k.evaluate (X.get i) (X.get i)) (fun j => k.evaluate (X.get i) (X.get j)) := by
  have hN : 0 < X.len := by omega
  rw [conditionedAtData_get k X y R hi]
  exact (hk.smoothed_dense hX hN (fun i hi => (hk.S_pos hX hN hR hi).ne')
    (fun i hi => hk.P_unit hX hN hR hi) hi).2

/-- **C02/C03** without requiring positive noise or a non-degenerate prior: it is enough that no innovation variance
vanishes and that the predicted covariances at the second and later data points are invertible. -/
theorem C02_C03_conditioned_exact_general (k : SSM) (hk : k.Proper) (X : Arr Coord) (y R : Arr ℝ)
    (hX : Sorted (X.map Coord.sortable))
    (hS : ∀ i < X.len, ((k.kalman (X.map Coord.sortable) y R).get i).S 0 0 ≠ 0)
    (hP : ∀ i, i + 1 < X.len → IsUnit ((k.kalman (X.map Coord.sortable) y R).get (i + 1)).PPred.det)
    (i : ℕ) (hi : i < X.len) :
    ((k.conditionedAtData X y R).get i) =
      (Spec.postMean (dataGram k X R) (fun j => y.get j) (fun j => k.evaluate (X.get i) (X.get j)),
       Spec.postVar (dataGram k X R) (k.evaluate (X.get i) (X.get i)) (fun j => k.evaluate (X.get i) (X.get j))) := by
  rw [conditionedAtData_get k X y R hi]
  have h := hk.smoothed_dense hX (by omega) hS hP hi
  exact Prod.ext h.1 h.2

/-! ## C04 -/

/-- **C04.** Prediction at any test coordinate (before, between, at, or after the data) is exact regression. -/
theorem C04_prediction_exact (k : SSM) (hk : k.Regular) (X : Arr Coord) (y R : Arr ℝ) (Xtest : Arr Coord)
    (hX : Sorted (X.map Coord.sortable)) (hN : 0 < X.len) (hR : ∀ i < X.len, 0 < R.get i)
    (m : ℕ) :
    (k.predictAt X y R Xtest).get m =
      (Spec.postMean (dataGram k X R) (fun j => y.get j) (fun j => k.evaluate (Xtest.get m) (X.get j)),
       Spec.postVar (dataGram k X R) (k.evaluate (Xtest.get m) (Xtest.get m))
        (fun j => k.evaluate (Xtest.get m) (X.get j))) := by
  have h := hk.predicted_dense (y := y) (R := R) hX hN (fun i hi => (hk.S_pos hX hN hR hi).ne')
    (fun i hi => hk.P_unit hX hN hR hi) (Xtest.get m)
  exact Prod.ext h.1 h.2

/-! ## C05 -/

/-- the kernel function depends on a coordinate only through its time -/
theorem SSM.Proper.evaluate_congr {k : SSM} (hk : k.Proper) {X1 X1' X2 X2' : Coord} (h1 : X1.sortable = X1'.sortable)
    (h2 : X2.sortable = X2'.sortable) : k.evaluate X1 X2 = k.evaluate X1' X2' := by
  rw [hk.evaluate_eq 0, hk.evaluate_eq 0, hk.H_const X1, hk.H_const X2, hk.H_const X1', hk.H_const X2', h1, h2]

/-- **C05.** Predicting at a coordinate whose time is a data time gives the conditioned mean and variance there
(repeated times, first and last point included). -/
theorem C05_predict_at_data (k : SSM) (hk : k.Regular) (X : Arr Coord) (y R : Arr ℝ) (Xtest : Arr Coord)
    (hX : Sorted (X.map Coord.sortable)) (hR : ∀ i < X.len, 0 < R.get i) (i : ℕ) (hi : i < X.len) (m : ℕ)
    (hm : (Xtest.get m).sortable = (X.get i).sortable) :
    (k.predictAt X y R Xtest).get m = (k.conditionedAtData X y R).get i := by
  rw [C04_prediction_exact k hk X y R Xtest hX (by omega) hR m]
  have e1 : ∀ j, k.evaluate (Xtest.get m) (X.get j) = k.evaluate (X.get i) (X.get j) := fun j =>
    hk.evaluate_congr hm rfl
  have e2 : k.evaluate (Xtest.get m) (Xtest.get m) = k.evaluate (X.get i) (X.get i) := hk.evaluate_congr hm hm
  simp only [e1, e2]
  exact Prod.ext (C02_conditioned_mean_exact k hk X y R hX hR i hi).symm
    (C03_conditioned_variance_exact k hk X y R hX hR i hi).symm

/-! ## Concrete instances of the hypotheses -/

section examples
/-- three sorted times with a repeat -/
noncomputable def exX : Arr Coord := ⟨3, fun i => .time (if i = 0 then 0 else 1)⟩
noncomputable def exY : Arr ℝ := ⟨3, fun i => i⟩
noncomputable def exR : Arr ℝ := ⟨3, fun i => 1 + i⟩
theorem exX_sorted : Sorted (exX.map Coord.sortable) := by
  intro i j hij _
  simp only [exX, Arr.map, Coord.sortable]
  split_ifs <;> norm_num
  omega
theorem exR_pos : ∀ i < exX.len, 0 < exR.get i := fun i _ => by simp only [exR]; positivity
/-- `Matern32(scale=2) * Cosine(scale=3) + Exp(scale=1)` -/
theorem ex_builtin : BuiltIn (((matern32 2 1).prod (cosine 3 2)).sum (expKernel 1 1)) :=
  .sum (.prod (.matern32 (by norm_num) (by norm_num)) (.cosine (by norm_num) (by norm_num))) (.exp (by norm_num) (by norm_num))

example := C01_likelihood_exact_builtin _ ex_builtin exX exY exR exX_sorted exR_pos
example := C01_likelihood_exact _ ex_builtin.regular.toProper exX exY exR exX_sorted
  (fun i hi => ex_builtin.regular.S_pos exX_sorted (by norm_num [exX]) exR_pos hi)
example := C02_conditioned_mean_exact _ ex_builtin.regular exX exY exR exX_sorted exR_pos 2 (by norm_num [exX])
example := C03_conditioned_variance_exact _ ex_builtin.regular exX exY exR exX_sorted exR_pos 1 (by norm_num [exX])
example := C02_C03_conditioned_exact_general _ ex_builtin.regular.toProper exX exY exR exX_sorted
  (fun i hi => (ex_builtin.regular.S_pos exX_sorted (by norm_num [exX]) exR_pos hi).ne')
  (fun i hi => ex_builtin.regular.P_unit exX_sorted (by norm_num [exX]) exR_pos hi) 2 (by norm_num [exX])
example := C04_prediction_exact _ ex_builtin.regular exX exY exR ⟨1, fun _ => .time 0.5⟩ exX_sorted
  (by norm_num [exX]) exR_pos 0
example := C05_predict_at_data _ ex_builtin.regular exX exY exR exX exX_sorted exR_pos 1 (by norm_num [exX]) 2
  (by norm_num [exX, Coord.sortable])
end examples

end Verif
