import Verif.Model.Integrated
import Mathlib.MeasureTheory.Integral.IntervalIntegral.Basic

/-!
# Exposure-averaged measurements (specification)
-/

namespace Verif

/-- the average of `f` over the exposure of a coordinate, or the value at its time if the exposure has no length -/
noncomputable def Coord.average (X : Coord) (f : ℝ → ℝ) : ℝ :=
  if 0 < X.delta then (1 / X.delta) * ∫ u in (X.sortable - X.delta / 2)..(X.sortable + X.delta / 2), f u else f X.sortable

/-- covariance of two exposure averages of a process whose covariance function is `κ |u - v|` -/
noncomputable def exposureCov (κ : ℝ → ℝ) (X Y : Coord) : ℝ := X.average fun u => Y.average fun v => κ |u - v|

/-- an exposure schedule for instruments `0, ..., m`: exposures of the same instrument do not overlap (they may touch) -/
structure Schedule (m : ℕ) (X : Arr Coord) : Prop where
  delta_nonneg : ∀ n < X.len, 0 ≤ (X.get n).delta
  inst : ∀ n < X.len, 0 ≤ (X.get n).inst ∧ (X.get n).inst ≤ m
  disjoint : ∀ a < X.len, ∀ b < X.len, a ≠ b → (X.get a).inst = (X.get b).inst →
    (X.get a).sortable + (X.get a).delta / 2 ≤ (X.get b).sortable - (X.get b).delta / 2 ∨
    (X.get b).sortable + (X.get b).delta / 2 ≤ (X.get a).sortable - (X.get a).delta / 2

end Verif
