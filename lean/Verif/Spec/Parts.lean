import Verif.Spec.Probability

/-!
# Measurements of a sum of independent processes (specification)
-/

namespace Verif.Spec
open MeasureTheory ProbabilityTheory

variable {Ω : Type*} [MeasurableSpace Ω]

/-- `Y i` are measurements, at the times `t`, of the sum of the independent Gaussian processes `f l` with covariance functions `κ l`, with
independent normal errors of variances `R`; the processes are seen at the times in `T` -/
structure SumMeasured (P : Measure Ω) {ι : Type*} [Fintype ι] (κ : ι → ℝ → ℝ → ℝ) (T : Set ℝ) (f : ι → ℝ → Ω → ℝ) (t R : Arr ℝ)
    (Y : Fin t.len → Ω → ℝ) : Prop where
  gaussian : ∀ l, IsGaussianProcess (fun s : T => f l s) P
  mean : ∀ l, ∀ s ∈ T, P[f l s] = 0
  cov : ∀ l, ∀ s ∈ T, ∀ s' ∈ T, cov[f l s, f l s'; P] = κ l s s'
  parts_independent : iIndepFun (fun l ω (s : T) => f l s ω) P
  times : ∀ i < t.len, t.get i ∈ T
  error_law : ∀ i : Fin t.len, HasLaw (fun ω => Y i ω - ∑ l, f l (t.get i) ω) (gaussianReal 0 (R.get i).toNNReal) P
  errors_independent : iIndepFun (fun (i : Fin t.len) ω => Y i ω - ∑ l, f l (t.get i) ω) P
  independent : IndepFun (fun ω l (s : T) => f l s ω) (fun ω (i : Fin t.len) => Y i ω - ∑ l, f l (t.get i) ω) P

end Verif.Spec
