import Mathlib.Data.Nat.Log
import Mathlib.Data.Set.Card

/-!
# The cost of a calculation with one binary operation (specification)

A calculation combines numbered inputs. Its depth is the time it takes if all combinations whose arguments are known are done at once. The work of a
family of calculations is the number of different combinations that occur in it.
-/

namespace Verif.Spec

inductive Calc
  | input (i : ℕ)
  | combine (l r : Calc)

namespace Calc

/-- the result, for given inputs and a given operation -/
def eval {α : Type*} (f : α → α → α) (e : ℕ → α) : Calc → α
  | input i => e i
  | combine l r => f (l.eval f e) (r.eval f e)

/-- the number of combinations that have to be done one after the other -/
def depth : Calc → ℕ
  | input _ => 0
  | combine l r => max l.depth r.depth + 1

/-- the inputs from left to right -/
def inputs : Calc → List ℕ
  | input i => [i]
  | combine l r => l.inputs ++ r.inputs

/-- the combinations occurring in a calculation -/
def steps : Calc → Set Calc
  | input _ => ∅
  | combine l r => insert (combine l r) (l.steps ∪ r.steps)

end Calc

/-- the different combinations occurring in the calculations `c 0, ..., c (N - 1)` -/
noncomputable def work (N : ℕ) (c : ℕ → Calc) : ℕ∞ := (⋃ j ∈ Set.Iio N, (c j).steps).encard

end Verif.Spec
