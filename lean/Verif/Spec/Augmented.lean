import Verif.Model.Integrated
import Verif.Spec.Discrete

/-!
# The augmented model with resets (specification)

The state just before each event is propagated by `A` over the gap to the next event, after having been reset if the event is the
start of an exposure.
-/

namespace Verif
open Matrix

namespace StateCoords
variable (sc : StateCoords)

/-- time from event `j` to the next one (0 at the last event) -/
def gap (j : ℕ) : ℝ := sc.t.get (min (j + 1) (sc.t.len - 1)) - sc.t.get (min j (sc.t.len - 1))

variable {n : Type*} [Fintype n] [DecidableEq n]

/-- what event `j` does to the state: a reset at an exposure start, nothing at an exposure end -/
def jump (reset : ℤ → Matrix n n ℝ) (j : ℕ) : Matrix n n ℝ :=
  if sc.stateid.get j = 0 then reset (sc.instid.get (sc.obsid.get j)) else 1

/-- transition from just before event `j` to just before event `j + 1` -/
def transition (A : ℝ → ℝ → Matrix n n ℝ) (reset : ℤ → Matrix n n ℝ) (j : ℕ) : Matrix n n ℝ := A 0 (sc.gap j) * sc.jump reset j

/-- noise accumulated from event `j` to event `j + 1` -/
def noise (Q : ℝ → ℝ → Matrix n n ℝ) (j : ℕ) : Matrix n n ℝ := Q 0 (sc.gap j)

end StateCoords

/-- covariance of the augmented states just before events `i` and `j` of the exposures `X` -/
noncomputable def SSM.eventCov (k : SSM) (X : Arr Coord) (i j : ℕ) : Matrix k.n k.n ℝ :=
  Spec.stateCov ((stateCoords X).transition k.At k.reset) ((stateCoords X).noise k.Qt)
    (k.At 0 0 * k.Pinf * (k.At 0 0)ᵀ + k.Qt 0 0) i j

end Verif
