import Mathlib.Analysis.SpecialFunctions.Exp
import Mathlib.Analysis.SpecialFunctions.Trigonometric.Basic
import Mathlib.Analysis.SpecialFunctions.Sqrt
import Mathlib.Data.Nat.Factorial.Basic

/-!
# Textbook covariance functions (specification)

As functions of the lag `r = |t1 - t2|`. Nothing here refers to state-space models.
-/

namespace Verif.Spec

/-- `σ² exp(-r/ℓ)` -/
noncomputable def covExp (ell sigma r : ℝ) : ℝ := sigma ^ 2 * Real.exp (-r / ell)

/-- `σ² (1 + f r) exp(-f r)`, `f = √3/ℓ` -/
noncomputable def covMatern32 (ell sigma r : ℝ) : ℝ :=
  sigma ^ 2 * (1 + Real.sqrt 3 / ell * r) * Real.exp (-(Real.sqrt 3 / ell * r))

/-- `σ² (1 + f r + f² r²/3) exp(-f r)`, `f = √5/ℓ` -/
noncomputable def covMatern52 (ell sigma r : ℝ) : ℝ :=
  sigma ^ 2 * (1 + Real.sqrt 5 / ell * r + (Real.sqrt 5 / ell) ^ 2 * r ^ 2 / 3) * Real.exp (-(Real.sqrt 5 / ell * r))

/-- `σ² cos(2π r/ℓ)` -/
noncomputable def covCosine (ell sigma r : ℝ) : ℝ := sigma ^ 2 * Real.cos (2 * Real.pi * r / ell)

/-- The Matérn covariance of smoothness `p + 1/2` with `λ = √(2p+1)/ℓ`:
`σ² exp(-λr) p!/(2p)! Σ_i (p+i)!/(i!(p-i)!) (2λr)^(p-i)` -/
noncomputable def covMatern (p : ℕ) (ell sigma r : ℝ) : ℝ :=
  let lam := Real.sqrt (2 * p + 1) / ell
  sigma ^ 2 * Real.exp (-(lam * r)) * ((p.factorial : ℝ) / ((2 * p).factorial : ℝ)) *
    ∑ i ∈ Finset.range (p + 1), ((p + i).factorial : ℝ) / ((i.factorial : ℝ) * ((p - i).factorial : ℝ)) *
      (2 * lam * r) ^ (p - i)

/-- The damped oscillator covariance of quality `q = 1/2`, `q < 1/2`, `q > 1/2`; `η = √|1 - 1/(4q²)|`. -/
noncomputable def covSHO (w q sigma r : ℝ) : ℝ :=
  let eta := Real.sqrt |1 - 1 / (4 * q ^ 2)|
  sigma ^ 2 * Real.exp (-(w * r / (2 * q))) *
    (if q = 1 / 2 then 1 + w * r
     else if q < 1 / 2 then Real.cosh (eta * w * r) + 1 / (2 * eta * q) * Real.sinh (eta * w * r)
     else Real.cos (eta * w * r) + 1 / (2 * eta * q) * Real.sin (eta * w * r))

/-- The periodic covariance `σ² exp(-Γ sin²(π r/P))`. -/
noncomputable def covExpSineSquared (period gamma sigma r : ℝ) : ℝ :=
  sigma ^ 2 * Real.exp (-gamma * Real.sin (Real.pi * (r / period)) ^ 2)

/-- The `SHO` covariance for `Q > 1/2` as printed in the class documentation (`kernels/base.py:566-576`), with cosine and
sine exchanged. -/
noncomputable def covSHOdocUnder (w q sigma r : ℝ) : ℝ :=
  let eta := Real.sqrt |1 - 1 / (4 * q ^ 2)|
  sigma ^ 2 * Real.exp (-(w * r / (2 * q))) *
    (1 / (2 * eta * q) * Real.cos (eta * w * r) + Real.sin (eta * w * r))

end Verif.Spec
