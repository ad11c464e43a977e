import Verif.Model.GP

/-!
# Arithmetic of kernel objects (`/repo/src/smolgp/kernels/base.py:173-208`)
-/

namespace Verif

/-- what may stand on the other side of `+` or `*`: a `StateSpaceModel`, a kernel of another kind (tinygp's), a scalar, or an array with several
entries -/
inductive Operand
  | kernel (k : Kern)
  | foreign
  | scalar (c : ℝ)
  | array

namespace Kern

/-- the constructor of the dataclass `Scale` (`kernels/base.py:75, 442, 476-479`): fields `name`, `kernel` and `scale`, none of which has a default -/
def scaleInit (name : Option String) (kernel : Option Kern) (scale : Option ℝ) : Except PyErr Kern :=
  match name, kernel, scale with
  | some s, some k, some c => .ok (.scale s k c)
  | _, _, _ => .error .typeError

/-- `StateSpaceModel.__add__` (`kernels/base.py:173-178`) -/
def add (k : Kern) : Operand → Except PyErr Kern
  | .kernel k' => .ok (.sum k k')
  | _ => .error .valueError

/-- `StateSpaceModel.__radd__` (`kernels/base.py:180-188`); the truth value of `other == 0` is undefined for an array, a `ValueError` -/
noncomputable def radd (k : Kern) : Operand → Except PyErr Kern
  | .scalar c => if c = 0 then .ok k else .error .valueError
  | .kernel k' => .ok (.sum k' k)
  | _ => .error .valueError

/-- `StateSpaceModel.__mul__` (`kernels/base.py:190-198`) -/
def mul (k : Kern) : Operand → Except PyErr Kern
  | .kernel k' => .ok (.prod k k')
  | .foreign | .array => .error .valueError
  | .scalar c => scaleInit none (some k) (some c)

/-- `StateSpaceModel.__rmul__` (`kernels/base.py:200-208`) -/
def rmul (k : Kern) : Operand → Except PyErr Kern
  | .kernel k' => .ok (.prod k' k)
  | .foreign | .array => .error .valueError
  | .scalar c => scaleInit none (some k) (some c)

end Kern

/-- Python's `a + b`, at least one of them a `StateSpaceModel`: `__add__` of the left operand, else `__radd__` of the right one (numbers and arrays do not
know how to add a kernel; sums of other kernels are not modelled and raise here) -/
noncomputable def pyAdd : Operand → Operand → Except PyErr Operand
  | .kernel a, b => Operand.kernel <$> a.add b
  | a, .kernel b => Operand.kernel <$> b.radd a
  | _, _ => .error .typeError

/-- Python's `a * b`, likewise -/
def pyMul : Operand → Operand → Except PyErr Operand
  | .kernel a, b => Operand.kernel <$> a.mul b
  | a, .kernel b => Operand.kernel <$> b.rmul a
  | _, _ => .error .typeError

/-- Python's `sum(items)`: from the left, starting with `0` -/
noncomputable def pySum (items : List Operand) : Except PyErr Operand := items.foldlM pyAdd (.scalar 0)

/-- Python's `math.prod(items)`: from the left, starting with `1` -/
noncomputable def pyProd (items : List Operand) : Except PyErr Operand := items.foldlM pyMul (.scalar 1)

/-- `functools.reduce(operator.mul, k, items)`: the product of kernels without the factor `1` -/
def pyReduceMul (k : Kern) (items : List Operand) : Except PyErr Operand := items.foldlM pyMul (.kernel k)

end Verif
