import Verif.Model.Kalman
import Mathlib.Analysis.Matrix.PosDef

/-!
# What it means for a kernel object to describe a stationary Gaussian process

`SSM.Proper k` collects the facts about the *outputs* of a kernel's methods (`transition_matrix`,
`process_noise`, `stationary_covariance`, `observation_model`) under which filtering is meaningful. Every
shipped kernel is shown to satisfy (or to violate) it in `Props/Kernels*.lean`.
-/

namespace Verif
open Matrix

/-- Consistent stationary model. -/
structure SSM.Proper (k : SSM) : Prop where
  /-- the transition matrix depends on the time difference only -/
  shift_A : ∀ X1 X2 : Coord, k.A X1 X2 = k.At 0 (X2.sortable - X1.sortable)
  A_zero : k.At 0 0 = 1
  /-- semigroup -/
  A_add : ∀ s t, 0 ≤ s → 0 ≤ t → k.At 0 (s + t) = k.At 0 t * k.At 0 s
  /-- process noise keeps the stationary covariance stationary -/
  Q_eq : ∀ s, 0 ≤ s → k.Qt 0 s = k.Pinf - k.At 0 s * k.Pinf * (k.At 0 s)ᵀ
  Q_psd : ∀ s, 0 ≤ s → (k.Qt 0 s).PosSemidef
  P_psd : k.Pinf.PosSemidef
  /-- the observation row does not depend on the coordinate -/
  H_const : ∀ X : Coord, k.obsModel X none = k.obsModel (.time 0) none

/-- Proper, with non-degenerate states. -/
structure SSM.Regular (k : SSM) : Prop extends SSM.Proper k where
  P_pd : k.Pinf.PosDef
  A_unit : ∀ s, 0 ≤ s → IsUnit (k.At 0 s).det

end Verif
