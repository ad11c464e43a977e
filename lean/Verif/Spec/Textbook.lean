import Verif.Spec.Cov
import Verif.Spec.Dense
import Verif.Spec.ValidKern
import Mathlib.MeasureTheory.Integral.IntervalIntegral.Basic

/-!
# Textbook regression (specification)

What a user who knows Gaussian processes expects from `GaussianProcess(kernel, t, diag=diag)`, in terms of the kernel expression as written
and of nothing else in the model.
-/

namespace Verif.Spec
open Matrix

/-- noise variance of datum `i`: an entry of the array, the scalar, or the square root of the machine precision by default -/
noncomputable def noiseVar (diag : Option (ℝ ⊕ Arr ℝ)) (i : ℕ) : ℝ :=
  match diag with
  | none => Real.sqrt (2 ^ (-52 : ℤ))
  | some (.inl r) => r
  | some (.inr a) => a.get i

/-- cosine coefficient `j` of `exp(-Γ sin²(θ/2))`, with the Bessel series cut off after fifty terms:
`(2 - δ_j0) exp(-Γ/2) Σ_{k<50} (Γ/4)^(2k+j) / (k! (k+j)!)` -/
noncomputable def periodicCoeff (gamma : ℝ) (j : ℕ) : ℝ :=
  (if j = 0 then 1 else 2) * Real.exp (-(gamma / 2)) *
    ∑ k ∈ Finset.range 50, (gamma / 4) ^ (2 * k + j) / ((k.factorial : ℝ) * ((k + j).factorial : ℝ))

/-- the covariance function of a kernel expression -/
inductive Textbook : Kern → (ℝ → ℝ) → Prop
  | exp {scale sigma : ℝ} {name : String} (hs : 0 < scale) (hσ : sigma ≠ 0) : Textbook (.exp scale sigma name) (covExp scale sigma)
  | matern32 {scale sigma : ℝ} {name : String} (hs : 0 < scale) (hσ : sigma ≠ 0) :
      Textbook (.matern32 scale sigma name) (covMatern32 scale sigma)
  | matern52 {scale sigma : ℝ} {name : String} (hs : 0 < scale) (hσ : sigma ≠ 0) :
      Textbook (.matern52 scale sigma name) (covMatern52 scale sigma)
  | cosine {scale sigma : ℝ} {name : String} (hs : 0 < scale) (hσ : sigma ≠ 0) : Textbook (.cosine scale sigma name) (covCosine scale sigma)
  | sho {omega quality sigma : ℝ} {name : String} (hw : 0 < omega) (hq : 0 < quality)
      (hd : quality = 1 / 2 ∨ (quality < 1 / 2 ∧ ¬ SHO.isCritical quality)) (hσ : sigma ≠ 0) :
      Textbook (.sho omega quality sigma name) (covSHO omega quality sigma)
  | expSineSquared {period gamma sigma : ℝ} {order : ℕ} {name : String} (hp : 0 < period) (hg : 0 < gamma) (hσ : sigma ≠ 0) (ho : 0 < order) :
      Textbook (.expSineSquared period gamma sigma order name)
        (fun r => sigma ^ 2 * ∑ j ∈ Finset.range order, periodicCoeff gamma j * Real.cos (2 * Real.pi * j * r / period))
  | sum {k1 k2 : Kern} {κ1 κ2 : ℝ → ℝ} (h1 : Textbook k1 κ1) (h2 : Textbook k2 κ2) : Textbook (.sum k1 k2) fun r => κ1 r + κ2 r
  | prod {k1 k2 : Kern} {κ1 κ2 : ℝ → ℝ} (h1 : Textbook k1 κ1) (h2 : Textbook k2 κ2) : Textbook (.prod k1 k2) fun r => κ1 r * κ2 r

/-- covariance matrix of the data: `κ(|t_i - t_j|) + δ_ij R_i` -/
noncomputable def dataMatrix (κ : ℝ → ℝ) (t : Arr ℝ) (diag : Option (ℝ ⊕ Arr ℝ)) : Matrix (Fin t.len) (Fin t.len) ℝ :=
  Matrix.of fun i j => κ |t.get i - t.get j| + if i = j then noiseVar diag i else 0

/-- covariance matrix of exposure averages: `1/(δ_i δ_j) ∫∫ κ(|u - v|) du dv + δ_ij R_i`, both integrals over the exposures -/
noncomputable def exposureMatrix (κ : ℝ → ℝ) (t d : Arr ℝ) (diag : Option (ℝ ⊕ Arr ℝ)) : Matrix (Fin t.len) (Fin t.len) ℝ :=
  Matrix.of fun i j => 1 / (d.get i * d.get j) * (∫ u in (t.get i - d.get i / 2)..(t.get i + d.get i / 2),
    ∫ v in (t.get j - d.get j / 2)..(t.get j + d.get j / 2), κ |u - v|) + if i = j then noiseVar diag i else 0

/-- covariance of the process at time `s` with the exposure averages -/
noncomputable def exposureVector (κ : ℝ → ℝ) (t d : Arr ℝ) (s : ℝ) : Fin t.len → ℝ :=
  fun j => 1 / d.get j * ∫ v in (t.get j - d.get j / 2)..(t.get j + d.get j / 2), κ |s - v|

/-- exposures of positive length on instruments `0, ..., m`, not overlapping on the same instrument, with distinct start times -/
structure Exposures (m : ℕ) (t d : Arr ℝ) (inst : Arr ℤ) : Prop where
  positive : ∀ n < t.len, 0 < d.get n
  instruments : ∀ n < t.len, 0 ≤ inst.get n ∧ inst.get n ≤ m
  disjoint : ∀ a < t.len, ∀ b < t.len, a ≠ b → inst.get a = inst.get b →
    t.get a + d.get a / 2 ≤ t.get b - d.get b / 2 ∨ t.get b + d.get b / 2 ≤ t.get a - d.get a / 2
  distinct : ∀ a < t.len, ∀ b < t.len, a ≠ b → t.get a - d.get a / 2 ≠ t.get b - d.get b / 2

end Verif.Spec
