import Verif.Spec.Exposure
import Mathlib.Probability.Distributions.Gaussian.IsGaussianProcess.Def
import Mathlib.Probability.Distributions.Gaussian.Real
import Mathlib.Probability.Moments.Covariance
import Mathlib.Probability.Independence.Basic
import Mathlib.Probability.Kernel.CondDistrib

/-!
# The random experiment behind Gaussian-process regression (specification)

A Gaussian process seen at instants or averaged over exposures, and measurements of it with independent Gaussian noise. Nothing here
refers to state-space models or to matrices.
-/

namespace Verif.Spec
open MeasureTheory ProbabilityTheory

variable {Ω : Type*} [MeasurableSpace Ω]

/-- `f` is a stationary Gaussian process with mean zero, covariance function `κ |s - t|` and continuous paths -/
structure GaussianPaths (P : Measure Ω) (κ : ℝ → ℝ) (f : ℝ → Ω → ℝ) : Prop where
  gaussian : IsGaussianProcess f P
  mean : ∀ s, P[f s] = 0
  cov : ∀ s t, cov[f s, f t; P] = κ |s - t|
  continuous : ∀ ω, Continuous fun s => f s ω

/-- `g c`, for the coordinates `c` in `T`, are the values (at an instant) and averages (over an exposure) of a Gaussian process with mean
zero and covariance function `κ`, as far as their joint distribution goes -/
structure Latent (P : Measure Ω) (κ : ℝ → ℝ) (T : Set Coord) (g : Coord → Ω → ℝ) : Prop where
  gaussian : IsGaussianProcess (fun c : T => g c) P
  mean : ∀ c ∈ T, P[g c] = 0
  cov : ∀ c ∈ T, ∀ d ∈ T, cov[g c, g d; P] = exposureCov κ c d

/-- `Y i` are measurements of `g` at the coordinates `X`, with independent Gaussian errors of variances `R` -/
structure Measured (P : Measure Ω) (κ : ℝ → ℝ) (T : Set Coord) (g : Coord → Ω → ℝ) (X : Arr Coord) (R : Arr ℝ)
    (Y : Fin X.len → Ω → ℝ) : Prop where
  latent : Latent P κ T g
  coords : ∀ i < X.len, X.get i ∈ T
  error_law : ∀ i : Fin X.len, HasLaw (fun ω => Y i ω - g (X.get i) ω) (gaussianReal 0 (R.get i).toNNReal) P
  errors_independent : iIndepFun (fun (i : Fin X.len) ω => Y i ω - g (X.get i) ω) P
  independent : IndepFun (fun ω (c : T) => g c ω) (fun ω (i : Fin X.len) => Y i ω - g (X.get i) ω) P

/-- given the data `Y`, the variable `F` is normal with mean `m Y` and variance `v`; so intervals of `z` standard deviations around `m Y`
contain it as often as they contain a standard normal variable, and `m` is the estimate of `F` with the least mean square error, `v` -/
structure IsPosterior (P : Measure Ω) [IsFiniteMeasure P] (F : Ω → ℝ) {ι : Type*} [Fintype ι] (Y : ι → Ω → ℝ) (m : (ι → ℝ) → ℝ) (v : ℝ) : Prop where
  nonneg : 0 ≤ v
  conditional : condDistrib F (fun ω i => Y i ω) P =ᵐ[P.map fun ω i => Y i ω] fun y => gaussianReal (m y) v.toNNReal
  coverage : 0 < v → ∀ z, P {ω | |F ω - m fun i => Y i ω| ≤ z * √v} = gaussianReal 0 1 (Set.Icc (-z) z)
  error : P[fun ω => (F ω - m fun i => Y i ω) ^ 2] = v
  optimal : ∀ a : (ι → ℝ) → ℝ, Measurable a → MemLp (fun ω => a fun i => Y i ω) 2 P → v ≤ P[fun ω => (F ω - a fun i => Y i ω) ^ 2]

end Verif.Spec
