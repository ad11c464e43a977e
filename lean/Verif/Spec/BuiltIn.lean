import Verif.Model.Kernels
import Verif.Spec.Proper
import Verif.Spec.Shipped

/-!
# The kernels a user can build from the shipped classes

`BuiltIn k`: `k` is `Exp`, `Matern32`, `Matern52`, the generic `Matern`, `Cosine`, `ExpSineSquared`, or an `SHO` that is overdamped or
treated as critically damped (quality at most 1/2 or within `jnp.allclose` of it), with positive length scale (frequency, quality) and non-zero amplitude, or a sum or
product of such kernels, in any nesting. (The underdamped `SHO` cuts small entries of its process noise off; it is
treated separately.)
-/

namespace Verif

inductive BuiltIn : SSM → Prop
  | exp {scale sigma : ℝ} {name : String} (hs : 0 < scale) (hσ : sigma ≠ 0) : BuiltIn (expKernel scale sigma name)
  | matern32 {scale sigma : ℝ} {name : String} (hs : 0 < scale) (hσ : sigma ≠ 0) : BuiltIn (matern32 scale sigma name)
  | matern52 {scale sigma : ℝ} {name : String} (hs : 0 < scale) (hσ : sigma ≠ 0) : BuiltIn (matern52 scale sigma name)
  | matern {d : ℕ} {scale sigma : ℝ} (hd : 0 < d) (hs : 0 < scale) (hσ : sigma ≠ 0) :
      BuiltIn (maternGeneric d scale sigma)
  | cosine {scale sigma : ℝ} {name : String} (hs : 0 < scale) (hσ : sigma ≠ 0) : BuiltIn (cosine scale sigma name)
  | expSineSquared {period gamma sigma : ℝ} {order : ℕ} {name : String} (hp : 0 < period)
      (hg : 0 < gamma) (hσ : sigma ≠ 0) :
      BuiltIn (expSineSquared period gamma sigma order name)
  | sho {omega quality sigma : ℝ} {name : String} (hw : 0 < omega) (hq : 0 < quality)
      (hd : SHO.NotUnderdamped quality) (hσ : sigma ≠ 0) :
      BuiltIn (sho omega quality sigma name)
  | sum {k1 k2 : SSM} (h1 : BuiltIn k1) (h2 : BuiltIn k2) : BuiltIn (k1.sum k2)
  | prod {k1 k2 : SSM} (h1 : BuiltIn k1) (h2 : BuiltIn k2) : BuiltIn (k1.prod k2)

end Verif
