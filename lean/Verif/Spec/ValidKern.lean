import Verif.Model.GP
import Verif.Spec.BuiltIn

/-!
# Kernel objects with valid parameters
-/

namespace Verif

/-- Sums and products of `Exp`, `Matern32`, `Matern52`, `Cosine`, `ExpSineSquared` and `SHO` which is overdamped or treated as
critically damped, with positive scales and non-zero amplitudes. -/
inductive Kern.Valid : Kern → Prop
  | exp {scale sigma : ℝ} {name : String} (hs : 0 < scale) (hσ : sigma ≠ 0) : Valid (.exp scale sigma name)
  | matern32 {scale sigma : ℝ} {name : String} (hs : 0 < scale) (hσ : sigma ≠ 0) : Valid (.matern32 scale sigma name)
  | matern52 {scale sigma : ℝ} {name : String} (hs : 0 < scale) (hσ : sigma ≠ 0) : Valid (.matern52 scale sigma name)
  | cosine {scale sigma : ℝ} {name : String} (hs : 0 < scale) (hσ : sigma ≠ 0) : Valid (.cosine scale sigma name)
  | expSineSquared {period gamma sigma : ℝ} {order : ℕ} {name : String} (hp : 0 < period) (hg : 0 < gamma) (hσ : sigma ≠ 0) :
      Valid (.expSineSquared period gamma sigma order name)
  | sho {omega quality sigma : ℝ} {name : String} (hw : 0 < omega) (hq : 0 < quality)
      (hd : SHO.NotUnderdamped quality) (hσ : sigma ≠ 0) : Valid (.sho omega quality sigma name)
  | sum {a b : Kern} (ha : Valid a) (hb : Valid b) : Valid (.sum a b)
  | prod {a b : Kern} (ha : Valid a) (hb : Valid b) : Valid (.prod a b)

/-- no `SHO` in the expression has a quality that `jnp.allclose` takes for 1/2 without being 1/2 -/
def Kern.Genuine : Kern → Prop
  | .sho _ quality _ _ => SHO.Genuine quality
  | .sum a b => a.Genuine ∧ b.Genuine
  | .prod a b => a.Genuine ∧ b.Genuine
  | _ => True

theorem Kern.Valid.builtIn {k : Kern} (h : k.Valid) : BuiltIn k.model := by
  induction h with
  | exp hs hσ => exact .exp hs hσ
  | matern32 hs hσ => exact .matern32 hs hσ
  | matern52 hs hσ => exact .matern52 hs hσ
  | cosine hs hσ => exact .cosine hs hσ
  | expSineSquared hp hg hσ => exact .expSineSquared hp hg hσ
  | sho hw hq hd hσ => exact .sho hw hq hd hσ
  | sum _ _ ha hb => exact .sum ha hb
  | prod _ _ ha hb => exact .prod ha hb

theorem Kern.Valid.unpacks {k : Kern} (h : k.Valid) : k.unpacksCoordinate = false := by
  induction h with
  | sum _ _ h1 h2 => simp only [Kern.unpacksCoordinate, h1, h2, Bool.or_self]
  | prod _ _ h1 h2 => simp only [Kern.unpacksCoordinate, h1, h2, Bool.or_self]
  | _ => rfl

theorem Kern.Valid.obsError {k : Kern} (h : k.Valid) (X : XArg) : k.obsError X = none := by
  have := h.unpacks
  cases X <;> simp [Kern.obsError, this]

end Verif
