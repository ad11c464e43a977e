import Verif.Model.Kernels

/-!
# The expressions a user can build

`SumProd leaf k`: `k` is obtained from kernels satisfying `leaf` by `+` and `*`, in any nesting. `Combos leaf k`: the
same, and multiplication by a non-negative scalar is allowed too.
`Leaf ok k`: `k` is one of the exported kernel classes with valid parameters (any amplitude, also zero), and the quality
factor of an `SHO` satisfies `ok`.
-/

namespace Verif
open Matrix

inductive SumProd (leaf : SSM → Prop) : SSM → Prop
  | leaf {k : SSM} (h : leaf k) : SumProd leaf k
  | sum {k1 k2 : SSM} (h1 : SumProd leaf k1) (h2 : SumProd leaf k2) : SumProd leaf (k1.sum k2)
  | prod {k1 k2 : SSM} (h1 : SumProd leaf k1) (h2 : SumProd leaf k2) : SumProd leaf (k1.prod k2)

inductive Combos (leaf : SSM → Prop) : SSM → Prop
  | leaf {k : SSM} (h : leaf k) : Combos leaf k
  | sum {k1 k2 : SSM} (h1 : Combos leaf k1) (h2 : Combos leaf k2) : Combos leaf (k1.sum k2)
  | prod {k1 k2 : SSM} (h1 : Combos leaf k1) (h2 : Combos leaf k2) : Combos leaf (k1.prod k2)
  | scale {k : SSM} {name : String} {c : ℝ} (hc : 0 ≤ c) (h : Combos leaf k) : Combos leaf (k.scale name c)

inductive Leaf (shoOk : ℝ → Prop) : SSM → Prop
  | exp {scale sigma : ℝ} {name : String} (hs : 0 < scale) : Leaf shoOk (expKernel scale sigma name)
  | matern32 {scale sigma : ℝ} {name : String} (hs : 0 < scale) : Leaf shoOk (matern32 scale sigma name)
  | matern52 {scale sigma : ℝ} {name : String} (hs : 0 < scale) : Leaf shoOk (matern52 scale sigma name)
  | matern {d : ℕ} {scale sigma : ℝ} (hd : 0 < d) (hs : 0 < scale) : Leaf shoOk (maternGeneric d scale sigma)
  | cosine {scale sigma : ℝ} {name : String} (hs : 0 < scale) : Leaf shoOk (cosine scale sigma name)
  | expSineSquared {period gamma sigma : ℝ} {order : ℕ} {name : String} (hp : 0 < period) (hg : 0 < gamma) :
      Leaf shoOk (expSineSquared period gamma sigma order name)
  | sho {omega quality sigma : ℝ} {name : String} (hw : 0 < omega) (hq : 0 < quality) (ok : shoOk quality) :
      Leaf shoOk (sho omega quality sigma name)

/-- any quality factor -/
def SHO.Any (_ : ℝ) : Prop := True

/-- the damping regime in which the closed forms are the exact ones: `quality = 1/2`, or `quality` outside the
`jnp.allclose` window -/
def SHO.Genuine (q : ℝ) : Prop := q = 1 / 2 ∨ ¬ SHO.isCritical q

/-- not in the branch `quality > 0.5`, in which the code sets small entries of the process noise to zero -/
def SHO.NotUnderdamped (q : ℝ) : Prop := SHO.isCritical q ∨ q ≤ 1 / 2

/-- The transition matrix is the matrix exponential of the design matrix times the elapsed time. -/
def SSM.TransitionIsExp (k : SSM) : Prop :=
  ∀ X1 X2 : Coord, k.A X1 X2 = NormedSpace.exp ((X2.sortable - X1.sortable) • k.F)

/-- Transitions compose, over any three times in any order, and the transition over no time is the identity. -/
structure SSM.TransitionComposes (k : SSM) : Prop where
  refl : ∀ X1 X2 : Coord, X1.sortable = X2.sortable → k.A X1 X2 = 1
  comp : ∀ X1 X2 X3 : Coord, k.A X1 X3 = k.A X2 X3 * k.A X1 X2

/-- The process noise is exactly what keeps the stationary covariance stationary. -/
def SSM.NoiseIsStationary (k : SSM) : Prop :=
  ∀ X1 X2 : Coord, k.Q X1 X2 = k.Pinf - k.A X1 X2 * k.Pinf * (k.A X1 X2)ᵀ

/-- The stationary covariance solves the Lyapunov equation `F P + P Fᵀ + L Qc Lᵀ = 0`. -/
def SSM.Lyapunov (k : SSM) : Prop :=
  k.F * k.Pinf + k.Pinf * k.Fᵀ + k.L * k.Qc * k.Lᵀ = 0

end Verif
