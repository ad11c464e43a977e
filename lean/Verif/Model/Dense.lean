import Verif.Model.GP
import Mathlib.Analysis.SpecialFunctions.Trigonometric.Basic
import Mathlib.Analysis.SpecialFunctions.Sqrt

/-!
# The dense kernels (`kernels/dense.py`)

`SHOKernel` and `IntegratedSHOKernel`. Divisions are checked: `none` stands for the `nan` or infinity which a division by
zero produces (so `new` gives `none` where the Python object exists with a `nan` attribute). `jnp.where(c, a, b)` takes the value of the selected branch, so a `nan` in the other branch does not matter.
-/

namespace Verif

/-- a division whose result is a number -/
noncomputable def div? (x y : ℝ) : Option ℝ := if y = 0 then none else some (x / y)

/-- the attributes of `IntegratedSHOKernel`; `SHOKernel` has those up to `sig` (`kernels/dense.py:67-73, 158-172`) -/
structure DenseSHO where
  S : ℝ
  w : ℝ
  Q : ℝ
  rho : ℝ
  tau : ℝ
  sig : ℝ
  eta : ℝ
  a : ℝ

namespace DenseSHO

/-- the last two lines of `__init__` (`kernels/dense.py:227-228`) -/
noncomputable def finish (S w Q rho tau sig : ℝ) : Option DenseSHO := do
  let eta := Real.sqrt |1 - 1 / (4 * Q ^ 2)|
  let a ← div? 1 (2 * Q * eta)
  some ⟨S, w, Q, rho, tau, sig, eta, a⟩

/-- `__init__` (`kernels/dense.py:75-124, 174-228`): `(S, w, Q)` if all three are given, else `(rho, tau, sig)` if all three are
given, else `ValueError` -/
noncomputable def new (S w Q rho tau sig : Option ℝ) : Except PyErr (Option DenseSHO) :=
  match S, w, Q with
  | some S, some w, some Q => .ok do
    let rho ← div? (2 * Real.pi) w
    let tau ← div? (2 * Q) w
    finish S w Q rho tau (Real.sqrt (S * w * Q))
  | _, _, _ => match rho, tau, sig with
    | some rho, some tau, some sig => .ok do
      let w ← div? (2 * Real.pi) rho
      let Q := tau * w / 2
      let S ← div? (sig ^ 2) (w * Q)
      finish S w Q rho tau sig
    | _, _, _ => .error .valueError

variable (k : DenseSHO)

/-- `latent_process` (`kernels/dense.py:257-264`), and `SHOKernel.evaluate` after unpacking (`kernels/dense.py:141-149`) -/
noncomputable def latent (Delta : ℝ) : Option ℝ := do
  let c ← div? 1 (2 * k.eta * k.Q)
  let e ← div? (-Delta) k.tau
  some (k.sig ^ 2 * Real.exp e * (Real.cos (k.eta * k.w * Delta) + c * Real.sin (k.eta * k.w * Delta)))

/-- `I0` (`kernels/dense.py:279-283`) -/
noncomputable def I0 (y : ℝ) : ℝ := Real.exp (-k.a * y) * ((1 - k.a ^ 2) * Real.sin y - 2 * k.a * Real.cos y)

/-- `f1` (`kernels/dense.py:288-295`) -/
noncomputable def f1 (y : ℝ) : Option ℝ :=
  div? (Real.exp (-k.a * y) * (1 - k.a ^ 2) * (Real.cos y + k.a * Real.sin y)) (k.eta * k.w * (1 + k.a ^ 2))

/-- `I1` (`kernels/dense.py:285-297`) -/
noncomputable def I1 (lower upper : ℝ) : Option ℝ := do
  let u ← k.f1 upper
  let l ← k.f1 lower
  some (u - l)

/-- `f2` (`kernels/dense.py:302-307`) -/
noncomputable def f2 (y : ℝ) : Option ℝ :=
  div? (-2 * k.a * Real.exp (-k.a * y) * (Real.sin y - k.a * Real.cos y)) (k.eta * k.w * (1 + k.a ^ 2))

/-- `I2` (`kernels/dense.py:299-309`) -/
noncomputable def I2 (lower upper : ℝ) : Option ℝ := do
  let u ← k.f2 upper
  let l ← k.f2 lower
  some (u - l)

/-- `integrated_separate` (`kernels/dense.py:311-327`) -/
noncomputable def separate (Delta delta1 delta2 : ℝ) : Option ℝ := do
  let y1 := k.eta * k.w * ((delta1 + delta2) / 2 + Delta)
  let y2 := k.eta * k.w * ((delta1 + delta2) / 2 + Delta - delta1)
  let y3 := k.eta * k.w * ((delta1 - delta2) / 2 + Delta)
  let y4 := k.eta * k.w * ((delta1 - delta2) / 2 + Delta - delta1)
  let pre ← div? (k.S * k.Q) (delta1 * delta2 * k.eta * (1 + k.a ^ 2))
  let i1 ← k.I1 y1 y2
  let i2 ← k.I2 y1 y2
  let i3 ← k.I1 y3 y4
  let i4 ← k.I2 y3 y4
  some (pre * (i1 - i2 - i3 + i4))

/-- `integrated_overlap` (`kernels/dense.py:329-341`) -/
noncomputable def overlap (delta : ℝ) : Option ℝ := do
  let y1 := k.eta * k.w * delta
  let pre ← div? (2 * k.S * k.Q) (delta * delta * k.eta * (1 + k.a ^ 2))
  let i1 ← k.I1 y1 0
  let i2 ← k.I2 y1 0
  some (pre * (i1 - i2 + 2 * k.a * delta))

/-- `integrated_single` (`kernels/dense.py:343-355`) -/
noncomputable def single (Delta delta : ℝ) : Option ℝ := do
  let y1 := k.eta * k.w * (delta / 2 + Delta)
  let y2 := k.eta * k.w * (Delta - delta / 2)
  let pre ← div? (-(k.S * k.Q)) (delta * k.eta)
  let p ← div? pre (1 + k.a ^ 2)
  some (p * (k.I0 y2 - k.I0 y1))

/-- `calc_integral` (`kernels/dense.py:404-413`) -/
noncomputable def singleSplit (p3 delta : ℝ) : Option ℝ := do
  let l ← k.single (p3 / 2) p3
  let r ← k.single ((delta - p3) / 2) (delta - p3)
  div? (l * p3 + r * (delta - p3)) delta

open Classical in
/-- `full_single_integral` (`kernels/dense.py:357-418`); `result` is built by successive `jnp.where`, each branch guarded by
`notothers` -/
noncomputable def fullSingle (Delta delta : ℝ) : Option ℝ :=
  let p2 := delta
  let p3 := delta / 2 + Delta
  let timescale := 2 * Real.pi / k.w
  let useLatent : Prop := |delta / timescale| < 1e-4
  let case1 : Prop := p2 ≤ p3
  let case2 : Prop := p3 < p2
  if case2 ∧ ¬ useLatent ∧ ¬ case1 then k.singleSplit p3 delta
  else if case1 ∧ ¬ useLatent then k.single Delta delta
  else if useLatent then k.latent Delta
  else some 0

open Classical in
/-- `calc_case3` (`kernels/dense.py:495-545`) -/
noncomputable def calcCase3 (p1 p2 p3 p4 delta1 delta2 : ℝ) : Option ℝ := do
  let d11 := p3 - p1
  let d21 := p4 - p3
  let s1 ← k.separate ((p3 + d21 / 2) - (p1 + d11 / 2)) d11 d21
  let i := s1 * (d11 * d21)
  let d12 := p2 - p3
  let d22 := p4 - p2
  let i ← (if p2 = p3 then some i else do
    let s2 ← k.separate ((p2 + d22 / 2) - (p3 + d12 / 2)) d12 d22
    some (i + s2 * (d12 * d22)))
  let d := p2 - p3
  let i ← (if p2 = p3 then some i else do
    let o ← k.overlap d
    some (i + o * d ^ 2))
  div? i (delta1 * delta2)

open Classical in
/-- `calc_case4` (`kernels/dense.py:557-600`) -/
noncomputable def calcCase4 (p1 p2 p3 p4 delta1 delta2 : ℝ) : Option ℝ := do
  let o ← k.overlap delta2
  let i := o * delta2 ^ 2
  let d11 := p3 - p1
  let d21 := p4 - p3
  let i ← (if p1 = p3 then some i else do
    let s1 ← k.separate ((p3 + d21 / 2) - (p1 + d11 / 2)) d11 d21
    some (i + s1 * (d11 * d21)))
  let d12 := p2 - p4
  let d22 := p4 - p3
  let i ← (if p2 = p4 then some i else do
    let s2 ← k.separate ((p4 + d12 / 2) - (p3 + d22 / 2)) d12 d22
    some (i + s2 * (d12 * d22)))
  div? i (delta1 * delta2)

open Classical in
/-- the body of `IntegratedSHOKernel.evaluate` after unpacking (`kernels/dense.py:430-606`): the successive `jnp.where`s,
the last one first; `notothers` accumulates the negations of the earlier cases -/
noncomputable def integrated (t1 delta1' t2 delta2' : ℝ) : Option ℝ :=
  let Delta := |t1 - t2|
  let delta1 := max delta1' delta2'
  let delta2 := min delta1' delta2'
  let p1 : ℝ := 0
  let p2 := delta1
  let p3 := (delta1 - delta2) / 2 + Delta
  let p4 := p3 + delta2
  let timescale := 2 * Real.pi / k.w
  let useLatent : Prop := |delta1 / timescale| < 1e-8
  let case0 : Prop := |delta2 / timescale| < 1e-8
  let case1 : Prop := Delta = 0 ∧ delta1 = delta2
  let case2 : Prop := Delta ≥ (delta1 + delta2) / 2
  let lap : Prop := Delta < (delta1 + delta2) / 2
  let case3 : Prop := lap ∧ p4 > p2
  let case4 : Prop := lap ∧ p4 ≤ p2
  if case4 ∧ ¬ useLatent ∧ ¬ case0 ∧ ¬ case1 ∧ ¬ case2 ∧ ¬ case3 then k.calcCase4 p1 p2 p3 p4 delta1 delta2
  else if case3 ∧ ¬ useLatent ∧ ¬ case0 ∧ ¬ case1 ∧ ¬ case2 then k.calcCase3 p1 p2 p3 p4 delta1 delta2
  else if case2 ∧ ¬ useLatent ∧ ¬ case0 ∧ ¬ case1 then k.separate Delta delta1 delta2
  else if case1 ∧ ¬ useLatent ∧ ¬ case0 then k.overlap delta1
  else if case0 ∧ ¬ useLatent then k.fullSingle Delta delta1
  else if useLatent then k.latent Delta
  else some 0

end DenseSHO

/-- a coordinate as `kernels/dense.py` accepts it: a number, a pair, or a triple -/
inductive DenseCoord
  | time (t : ℝ)
  | pair (t second : ℝ)
  | triple (t delta : ℝ) (inst : ℤ)

/-- `unpack_coordinates` (`kernels/dense.py:31-63`): times and exposures of the two coordinates. The length of `X1` decides;
the second entry of a pair is taken to be an instrument, and the exposure is then zero. Unpacking an `X2` of another length
raises. -/
def unpackCoordinates : DenseCoord → DenseCoord → Except PyErr ((ℝ × ℝ) × (ℝ × ℝ))
  | .time t1, .time t2 => .ok ((t1, 0), (t2, 0))
  | .time _, _ => .error .typeError
  | .pair t1 _, .pair t2 _ => .ok ((t1, 0), (t2, 0))
  | .pair _ _, .time _ => .error .typeError
  | .pair _ _, .triple _ _ _ => .error .valueError
  | .triple t1 d1 _, .triple t2 d2 _ => .ok ((t1, d1), (t2, d2))
  | .triple _ _ _, .time _ => .error .typeError
  | .triple _ _ _, .pair _ _ => .error .valueError

/-- `SHOKernel.evaluate` (`kernels/dense.py:126-149`) -/
noncomputable def DenseSHO.shoEvaluate (k : DenseSHO) (X1 X2 : DenseCoord) : Except PyErr (Option ℝ) := do
  let ((t1, _), (t2, _)) ← unpackCoordinates X1 X2
  return k.latent |t1 - t2|

/-- `IntegratedSHOKernel.evaluate` (`kernels/dense.py:420-606`) -/
noncomputable def DenseSHO.evaluate (k : DenseSHO) (X1 X2 : DenseCoord) : Except PyErr (Option ℝ) := do
  let ((t1, d1), (t2, d2)) ← unpackCoordinates X1 X2
  return k.integrated t1 d1 t2 d2

/-- kernel expressions of tinygp: `Sum` and `Product` (dense or quasiseparable) of other kernels -/
inductive DenseTree (α : Type)
  | leaf (k : α)
  | sum (a b : DenseTree α)
  | prod (a b : DenseTree α)

/-- `extract_leaf_kernels(kernel, all)` (`kernels/dense.py:20-29`); the recursive calls do not pass `all` on -/
def DenseTree.extractLeafKernels {α : Type} (all : Bool := false) : DenseTree α → List (DenseTree α)
  | .sum a b => a.extractLeafKernels ++ b.extractLeafKernels
  | .prod a b => if all then a.extractLeafKernels ++ b.extractLeafKernels else [.prod a b]
  | k => [k]

end Verif
