import Verif.Model.Kernel
import Mathlib.Analysis.SpecialFunctions.Exp
import Mathlib.Analysis.SpecialFunctions.Trigonometric.Basic
import Mathlib.Analysis.SpecialFunctions.Sqrt
import Mathlib.LinearAlgebra.Matrix.Notation
import Mathlib.Data.Nat.Factorial.Basic
import Mathlib.Data.Nat.Choose.Basic

/-!
# The kernels of `/repo/src/smolgp/kernels/base.py`

Each kernel is the record of the outputs of its methods, formula by formula.
`Constant` is not here: its `transition_matrix` raises (`Model/GP.lean`).
-/

namespace Verif
open Matrix

/-- `dt = coord_to_sortable(X2) - coord_to_sortable(X1)` -/
def dtOf (X1 X2 : Coord) : ℝ := X2.sortable - X1.sortable

namespace Exp
/-- `Exp.transition_matrix` (`kernels/base.py:787-792`) for array-valued `dt` -/
noncomputable def A (scale dt : ℝ) : Matrix (Fin 1) (Fin 1) ℝ := !![Real.exp (-dt / scale)]
/-- `Exp.process_noise` (`kernels/base.py:794-800`); `self.lam = 1 / self.scale` -/
noncomputable def Q (scale sigma dt : ℝ) : Matrix (Fin 1) (Fin 1) ℝ :=
  let lam := 1 / scale
  !![sigma ^ 2 * (1 - Real.exp (-2 * dt * lam))]
end Exp

/-- `Exp` (`kernels/base.py:732-800`) -/
noncomputable def expKernel (scale sigma : ℝ) (name : String := "Exp") : SSM where
  name := name
  n := Fin 1
  p := Fin 1
  F := !![-(1 / scale)]
  Pinf := sigma ^ 2 • !![1]
  L := !![1]
  Qc := !![2 * (1 / scale) * sigma ^ 2]
  obsMatrix _ := !![1]
  obsModel := defaultObsModel name (fun _ => !![1])
  A X1 X2 := Exp.A scale (dtOf X1 X2)
  Q X1 X2 := Exp.Q scale sigma (dtOf X1 X2)
  reset _ := 1

namespace Matern32
/-- `self.lam = jnp.sqrt(3) / self.scale` (`kernels/base.py:833`) -/
noncomputable def lam (scale : ℝ) : ℝ := Real.sqrt 3 / scale
/-- `Matern32.design_matrix` (`kernels/base.py:835-838`) -/
def F (lam : ℝ) : Matrix (Fin 2) (Fin 2) ℝ := !![0, 1; -(lam ^ 2), -2 * lam]
/-- `Matern32.stationary_covariance` (`kernels/base.py:840-842`) -/
def Pinf (lam sigma : ℝ) : Matrix (Fin 2) (Fin 2) ℝ := sigma ^ 2 • !![1, 0; 0, lam ^ 2]
/-- `Matern32.transition_matrix` (`kernels/base.py:858-866`) -/
noncomputable def A (lam dt : ℝ) : Matrix (Fin 2) (Fin 2) ℝ :=
  Real.exp (-lam * dt) • !![1 + lam * dt, dt; -(lam ^ 2) * dt, 1 - lam * dt]
/-- `Matern32.process_noise` (`kernels/base.py:868-884`); `expm1(x) = exp(x) - 1` -/
noncomputable def Q (lam sigma dt : ℝ) : Matrix (Fin 2) (Fin 2) ℝ :=
  let arg := 2 * lam * dt
  let d2l3 := 2 * dt ^ 2 * lam ^ 3
  let exp := Real.exp (-arg)
  let expm1 := Real.exp (-arg) - 1
  sigma ^ 2 • !![-expm1 - arg * (lam * dt + 1) * exp, d2l3 * exp;
                 d2l3 * exp, lam ^ 2 * (-expm1 - arg * (lam * dt - 1) * exp)]
end Matern32

/-- `Matern32` (`kernels/base.py:803-884`) -/
noncomputable def matern32 (scale sigma : ℝ) (name : String := "Matern32") : SSM where
  name := name
  n := Fin 2
  p := Fin 1
  F := Matern32.F (Matern32.lam scale)
  Pinf := Matern32.Pinf (Matern32.lam scale) sigma
  L := !![0; 1]
  Qc := !![4 * (Matern32.lam scale) ^ 3 * sigma ^ 2]
  obsMatrix _ := !![1, 0]
  obsModel := defaultObsModel name (fun _ => !![1, 0])
  A X1 X2 := Matern32.A (Matern32.lam scale) (dtOf X1 X2)
  Q X1 X2 := Matern32.Q (Matern32.lam scale) sigma (dtOf X1 X2)
  reset _ := 1

namespace Matern52
/-- `self.lam = jnp.sqrt(5) / self.scale` (`kernels/base.py:918`) -/
noncomputable def lam (scale : ℝ) : ℝ := Real.sqrt 5 / scale
/-- `Matern52.design_matrix` (`kernels/base.py:920-924`) -/
def F (lam : ℝ) : Matrix (Fin 3) (Fin 3) ℝ :=
  let lam2 := lam ^ 2
  let lam3 := lam2 * lam
  !![0, 1, 0; 0, 0, 1; -lam3, -3 * lam2, -3 * lam]
/-- `Matern52.stationary_covariance` (`kernels/base.py:926-932`) -/
noncomputable def Pinf (lam sigma : ℝ) : Matrix (Fin 3) (Fin 3) ℝ :=
  let lam2 := lam ^ 2
  let lam2o3 := lam2 / 3
  sigma ^ 2 • !![1, 0, -lam2o3; 0, lam2o3, 0; -lam2o3, 0, lam2 ^ 2]
/-- `Matern52.transition_matrix` (`kernels/base.py:948-972`) -/
noncomputable def A (lam dt : ℝ) : Matrix (Fin 3) (Fin 3) ℝ :=
  let lam2 := lam ^ 2
  let d2 := dt ^ 2
  let a11 := 0.5 * lam2 * d2 + lam * dt + 1
  let a12 := dt * (lam * dt + 1)
  let a13 := 0.5 * d2
  let a21 := -0.5 * lam * lam2 * d2
  let a22 := -lam2 * d2 + lam * dt + 1
  let a23 := 0.5 * dt * (2 - lam * dt)
  let a31 := 0.5 * lam2 * lam * dt * (lam * dt - 2)
  let a32 := lam2 * dt * (lam * dt - 3)
  let a33 := 0.5 * lam2 * d2 - 2 * lam * dt + 1
  Real.exp (-lam * dt) • !![a11, a12, a13; a21, a22, a23; a31, a32, a33]
/-- `Matern52.process_noise` (`kernels/base.py:974-1006`) -/
noncomputable def Q (lam sigma dt : ℝ) : Matrix (Fin 3) (Fin 3) ℝ :=
  let dtl := dt * lam
  let l2 := lam ^ 2
  let dt2 := dt ^ 2
  let l4 := lam ^ 4
  let dt4 := dt ^ 4
  let l5 := lam ^ 5
  let dt2l5 := dt2 * l5
  let arg := -2 * dtl
  let exp := Real.exp arg
  let expm1 := Real.exp arg - 1
  let Q11 := -3 * expm1 - 2 * dtl * exp * (3 + dtl * (3 + dtl * (2 + dtl)))
  let Q12 := 2 * exp * dt4 * l5
  let Q13 := -l2 * (-expm1 + 2 * dtl * exp * (-1 + dtl * (-1 + dtl * (-2 + dtl))))
  let Q21 := Q12
  let Q22 := l2 * (-expm1 - 2 * dtl * exp * (1 + dtl * (1 - dtl) ^ 2))
  let Q23 := 2 * exp * dt2l5 * (-2 + dtl) ^ 2
  let Q31 := Q13
  let Q32 := Q23
  let Q33 := l4 * (-3 * expm1 - 2 * dtl * exp * (-5 + dtl * (11 + dtl * (-6 + dtl))))
  (sigma ^ 2 / 3) • !![Q11, Q12, Q13; Q21, Q22, Q23; Q31, Q32, Q33]
end Matern52

/-- `Matern52` (`kernels/base.py:887-1006`) -/
noncomputable def matern52 (scale sigma : ℝ) (name : String := "Matern52") : SSM where
  name := name
  n := Fin 3
  p := Fin 1
  F := Matern52.F (Matern52.lam scale)
  Pinf := Matern52.Pinf (Matern52.lam scale) sigma
  L := !![0; 0; 1]
  Qc := !![16 * (Matern52.lam scale) ^ 5 * sigma ^ 2 / 3]
  obsMatrix _ := !![1, 0, 0]
  obsModel := defaultObsModel name (fun _ => !![1, 0, 0])
  A X1 X2 := Matern52.A (Matern52.lam scale) (dtOf X1 X2)
  Q X1 X2 := Matern52.Q (Matern52.lam scale) sigma (dtOf X1 X2)
  reset _ := 1

namespace SHO
/-- `self.eta = sqrt(abs(1 - 1 / (4 * quality**2)))` (`kernels/base.py:608`) -/
noncomputable def eta (q : ℝ) : ℝ := Real.sqrt |1 - 1 / (4 * q ^ 2)|
/-- `jnp.allclose(q, 0.5)` with default tolerances `rtol=1e-5, atol=1e-8` -/
def isCritical (q : ℝ) : Prop := |q - 0.5| ≤ 1e-8 + 1e-5 * |(0.5 : ℝ)|
/-- `SHO.design_matrix` (`kernels/base.py:610-614`) -/
noncomputable def F (w q : ℝ) : Matrix (Fin 2) (Fin 2) ℝ := !![0, 1; -(w ^ 2), -w / q]
/-- `SHO.stationary_covariance` (`kernels/base.py:616-618`) -/
def Pinf (w sigma : ℝ) : Matrix (Fin 2) (Fin 2) ℝ := sigma ^ 2 • !![1, 0; 0, w ^ 2]
/-- `critical` (`kernels/base.py:643-646`) -/
noncomputable def Acrit (w dt : ℝ) : Matrix (Fin 2) (Fin 2) ℝ :=
  Real.exp (-w * dt) • !![1 + w * dt, dt; -(w ^ 2) * dt, 1 - w * dt]
/-- `underdamped` (`kernels/base.py:648-655`) -/
noncomputable def Aunder (w q dt : ℝ) : Matrix (Fin 2) (Fin 2) ℝ :=
  let n := eta q
  let f := 2 * n * q
  let x := n * w * dt
  let sin := Real.sin x
  let cos := Real.cos x
  Real.exp (-0.5 * w * dt / q) • !![cos + sin / f, sin / (w * n); -w * sin / n, cos - sin / f]
/-- `overdamped` (`kernels/base.py:657-664`) -/
noncomputable def Aover (w q dt : ℝ) : Matrix (Fin 2) (Fin 2) ℝ :=
  let n := eta q
  let f := 2 * n * q
  let x := n * w * dt
  let sinh := Real.sinh x
  let cosh := Real.cosh x
  Real.exp (-0.5 * w * dt / q) • !![cosh + sinh / f, sinh / (w * n); -w * sinh / n, cosh - sinh / f]
open Classical in
/-- `SHO.transition_matrix` (`kernels/base.py:634-671`) -/
noncomputable def A (w q dt : ℝ) : Matrix (Fin 2) (Fin 2) ℝ :=
  if isCritical q then Acrit w dt else if q > 0.5 then Aunder w q dt else Aover w q dt
/-- `critical` branch of `process_noise` (`kernels/base.py:682-690`) -/
noncomputable def Qcrit (w sigma dt : ℝ) : Matrix (Fin 2) (Fin 2) ℝ :=
  let arg := 2 * w * dt
  let argexp := arg * Real.exp (-arg)
  let expm1 := Real.exp (-arg) - 1
  let wdt := w * dt
  let Q11 := -expm1 - argexp * (1 + wdt)
  let Q12 := w * wdt * argexp
  let Q22 := w ^ 2 * (-expm1 - argexp * (-1 + wdt))
  sigma ^ 2 • !![Q11, Q12; Q12, Q22]
/-- `underdamped` branch of `process_noise` (`kernels/base.py:692-707`), before the final
`jnp.where(abs(Q) < 1e-14, 0, Q)` -/
noncomputable def QunderExact (w q sigma dt : ℝ) : Matrix (Fin 2) (Fin 2) ℝ :=
  let n := eta q
  let f := 2 * n * q
  let q2 := q ^ 2
  let n2 := n ^ 2
  let w2 := w ^ 2
  let a := w * dt / q
  let x := n * w * dt
  let sin := Real.sin x
  let sin2 := Real.sin (2 * x)
  let sinsq := sin ^ 2
  let exp := Real.exp (-a)
  let expm1 := Real.exp (-a) - 1
  let Q11 := -expm1 - (sin2 / f + sinsq / (2 * n2 * q2)) * exp
  let Q12 := exp * (w * sinsq / (n2 * q))
  let Q22 := w2 * (-expm1 + exp * (sin2 / f - sinsq / (2 * n2 * q2)))
  sigma ^ 2 • !![Q11, Q12; Q12, Q22]
/-- `jnp.where(jnp.abs(Q) < 1e-14, 0, Q)` (`kernels/base.py:708-710`) -/
noncomputable def truncate (M : Matrix (Fin 2) (Fin 2) ℝ) : Matrix (Fin 2) (Fin 2) ℝ :=
  Matrix.of fun i j => if |M i j| < 1e-14 then 0 else M i j
/-- `overdamped` branch of `process_noise` (`kernels/base.py:712-727`) -/
noncomputable def Qover (w q sigma dt : ℝ) : Matrix (Fin 2) (Fin 2) ℝ :=
  let n := eta q
  let f := 2 * n * q
  let q2 := q ^ 2
  let n2 := n ^ 2
  let w2 := w ^ 2
  let a := w * dt / q
  let x := n * w * dt
  let sinh := Real.sinh x
  let sinh2 := Real.sinh (2 * x)
  let sinhsq := sinh ^ 2
  let exp := Real.exp (-a)
  let expm1 := Real.exp (-a) - 1
  let Q11 := -expm1 - (sinh2 / f + sinhsq / (2 * n2 * q2)) * exp
  let Q12 := exp * (w * sinhsq / (n2 * q))
  let Q22 := w2 * (-expm1 + exp * (sinh2 / f - sinhsq / (2 * n2 * q2)))
  sigma ^ 2 • !![Q11, Q12; Q12, Q22]
open Classical in
/-- `SHO.process_noise` (`kernels/base.py:673-729`) -/
noncomputable def Q (w q sigma dt : ℝ) : Matrix (Fin 2) (Fin 2) ℝ :=
  if isCritical q then Qcrit w sigma dt
  else if q > 0.5 then truncate (QunderExact w q sigma dt) else Qover w q sigma dt
end SHO

/-- `SHO` (`kernels/base.py:557-729`) -/
noncomputable def sho (omega quality sigma : ℝ) (name : String := "SHO") : SSM where
  name := name
  n := Fin 2
  p := Fin 1
  F := SHO.F omega quality
  Pinf := SHO.Pinf omega sigma
  L := !![0; 1]
  Qc := !![2 * omega ^ 3 * sigma ^ 2 / quality]
  obsMatrix _ := !![1, 0]
  obsModel := defaultObsModel name (fun _ => !![1, 0])
  A X1 X2 := SHO.A omega quality (dtOf X1 X2)
  Q X1 X2 := SHO.Q omega quality sigma (dtOf X1 X2)
  reset _ := 1

/-- `jnp.array([[cos, -sin], [sin, cos]])` -/
noncomputable def rotation (x : ℝ) : Matrix (Fin 2) (Fin 2) ℝ :=
  !![Real.cos x, -Real.sin x; Real.sin x, Real.cos x]

/-- `Cosine` (`kernels/base.py:1009-1071`); `self.omega = 2 * jnp.pi / self.scale` -/
noncomputable def cosine (scale sigma : ℝ) (name : String := "Cosine") : SSM where
  name := name
  n := Fin 2
  p := Fin 1
  F := !![0, -(2 * Real.pi / scale); 2 * Real.pi / scale, 0]
  Pinf := sigma ^ 2 • 1
  L := !![0; 1]
  Qc := !![0]
  obsMatrix _ := !![1, 0]
  obsModel := defaultObsModel name (fun _ => !![1, 0])
  A X1 X2 := rotation (2 * Real.pi / scale * dtOf X1 X2)
  Q _ _ := 0
  reset _ := 1

namespace ExpSineSquared
/-- `PeriodicTerm.Ij` (`kernels/base.py:1226-1235`): the first `terms = 50` terms of the Taylor series of the
modified Bessel function `I_j(x)`; `gammaln(k+1) = log(k!)`. (For `x > 0`; `exp(log_terms)` is the term.) -/
noncomputable def Ij (j : ℕ) (x : ℝ) (terms : ℕ := 50) : ℝ :=
  ∑ k ∈ Finset.range terms,
    Real.exp (-Real.log (k.factorial) - Real.log ((k + j).factorial) + (2 * k + j) * Real.log (x / 2))
/-- the coefficient `qj2` of `PeriodicTerm.stationary_covariance` (`kernels/base.py:1204-1210`) -/
noncomputable def qj2 (j : ℕ) (scale : ℝ) : ℝ :=
  (if j = 0 then 1 else 2) * Ij j (1 / scale) / Real.exp (1 / scale)
end ExpSineSquared

/-- `ExpSineSquared.PeriodicTerm` (`kernels/base.py:1178-1253`); `omega` is `omega_0`, `scale` is `ell^2`. -/
noncomputable def periodicTerm (j : ℕ) (omega scale : ℝ) : SSM where
  name := "PeriodicTerm_" ++ toString j
  n := Fin 2
  p := Fin 2
  F := !![0, -(omega * j); omega * j, 0]
  Pinf := ExpSineSquared.qj2 j scale • 1
  L := 1
  Qc := 0
  obsMatrix _ := !![1, 0]
  obsModel := defaultObsModel ("PeriodicTerm_" ++ toString j) (fun _ => !![1, 0])
  A X1 X2 := rotation (j * omega * dtOf X1 X2)
  Q _ _ := 0
  reset _ := 1

namespace ExpSineSquared
/-- the loop `for j in range(1, order): kernel += PeriodicTerm(j, ..)` (`kernels/base.py:1158-1162`) -/
noncomputable def sumTerms (omega scale : ℝ) : ℕ → SSM
  | 0 => periodicTerm 0 omega scale
  | j + 1 => SSM.sum (sumTerms omega scale j) (periodicTerm (j + 1) omega scale)
/-- the default order (`kernels/base.py:1145-1161`): `ell = sqrt(scale)` -/
noncomputable def autoOrder (gamma : ℝ) : ℕ :=
  let ell := Real.sqrt (2 / gamma)
  if ell ≥ 1 then 4 else if ell ≥ 0.5 then 6 else if ell ≥ 0.25 then 8 else 16
/-- `ExpSineSquared.error_bound` (`kernels/base.py:1171-1179`); `self.scale = 2 / gamma`, `J = self.order` -/
noncomputable def errorBound (gamma : ℝ) (order : ℕ) : ℝ := Real.exp (1 - 2 / gamma) / ((order + 1).factorial : ℝ)
end ExpSineSquared

/-- `ExpSineSquared` (`kernels/base.py:1094-1253`): a `Wrapper` around the sum of `order` periodic terms
(`order ≥ 1`), with `stationary_covariance` multiplied by `sigma^2` and everything else forwarded. -/
noncomputable def expSineSquared (period gamma sigma : ℝ) (order : ℕ) (name : String := "ExpSineSquared") : SSM :=
  let inner := ExpSineSquared.sumTerms (2 * Real.pi / period) (2 / gamma) (order - 1)
  { SSM.wrapper name inner with Pinf := sigma ^ 2 • inner.Pinf }

namespace Matern
/-- `Matern.design_matrix` (`kernels/base.py:1321-1330`): ones on the superdiagonal, then the last row is
overwritten with `-binom(d,i) lam^(d-i)`. -/
noncomputable def F (d : ℕ) (lam : ℝ) : Matrix (Fin d) (Fin d) ℝ := Matrix.of fun i j =>
  if (i : ℕ) = d - 1 then
    -((d.factorial : ℝ) / (((j : ℕ).factorial : ℝ) * ((d - j).factorial : ℝ))) * lam ^ (d - (j : ℕ))
  else if (j : ℕ) = i + 1 then 1 else 0
/-- `Matern.noise_effect_matrix` (`kernels/base.py:1339-1343`) -/
def L (d : ℕ) : Matrix (Fin d) (Fin 1) ℝ := Matrix.of fun i _ => if (i : ℕ) = d - 1 then 1 else 0
/-- `Matern.noise` (`kernels/base.py:1345-1354`) -/
noncomputable def Qc (d : ℕ) (lam sigma : ℝ) : Matrix (Fin 1) (Fin 1) ℝ :=
  !![sigma ^ 2 * ((d - 1).factorial : ℝ) ^ 2 / ((2 * d - 2).factorial : ℝ) * (2 * lam) ^ (2 * d - 1)]
/-- `Matern.observation_matrix` (`kernels/base.py:1332-1337`) -/
def H (d : ℕ) : Matrix (Fin 1) (Fin d) ℝ := Matrix.of fun _ j => if (j : ℕ) = 0 then 1 else 0
end Matern

open Classical in
/-- `scipy.linalg.solve_continuous_lyapunov(a, q)`: the solution `x` of `a x + x aᵀ = q`
(an arbitrary one if there are several, `0` if there is none). -/
noncomputable def solveLyapunov {n : Type} [Fintype n] (a q : Matrix n n ℝ) : Matrix n n ℝ :=
  if h : ∃ x : Matrix n n ℝ, a * x + x * aᵀ = q then h.choose else 0

/-- the generic `Matern` (`kernels/base.py:1256-1370`) of smoothness `nu = d - 1/2`;
`self.lam = sqrt(2 nu) / scale`; `transition_matrix` and `process_noise` are the defaults; the `name`
argument is ignored (`name` is overwritten by `f"Matern{2 nu:.0f}2"`). -/
noncomputable def maternGeneric (d : ℕ) (scale sigma : ℝ) : SSM :=
  let nu : ℝ := d - 1 / 2
  let lam := Real.sqrt (2 * nu) / scale
  let F := Matern.F d lam
  let Pinf := solveLyapunov F (-(Matern.L d * Matern.Qc d lam sigma * (Matern.L d)ᵀ))
  let name := "Matern" ++ toString (2 * d - 1) ++ "2"
  { name := name
    n := Fin d
    p := Fin 1
    F := F
    Pinf := Pinf
    L := Matern.L d
    Qc := Matern.Qc d lam sigma
    obsMatrix := fun _ => Matern.H d
    obsModel := defaultObsModel name (fun _ => Matern.H d)
    A := defaultTransition F
    Q := defaultProcessNoise Pinf (defaultTransition F)
    reset := fun _ => 1 }

end Verif
