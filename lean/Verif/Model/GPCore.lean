import Verif.Model.Kalman
import Mathlib.Analysis.SpecialFunctions.Log.Basic
import Mathlib.Analysis.SpecialFunctions.Trigonometric.Basic
import Mathlib.Analysis.SpecialFunctions.Sqrt
import Mathlib.Data.EReal.Basic

/-!
# Likelihood and projection routines of `/repo/src/smolgp/gp.py`
-/

namespace Verif
open Matrix

/-- a number which may be NaN (`none`) -/
abbrev Flt := Option ℝ

/-- `jnp.linalg.cholesky` of a 1×1 matrix: `sqrt s` for `s > 0`, NaN otherwise -/
noncomputable def cholesky1 (S : Matrix (Fin 1) (Fin 1) ℝ) : Flt :=
  open Classical in if 0 < S 0 0 then some (Real.sqrt (S 0 0)) else none

/-- `jnp.sum` over the leading axis: NaN as soon as one entry is NaN -/
noncomputable def nanSum (f : ℕ → Flt) : ℕ → Flt
  | 0 => some 0
  | n + 1 => (nanSum f n).bind fun a => (f n).map fun b => a + b

/-- one summand `quad + logdetS + d log(2 pi)` of `_compute_log_prob` (`gp.py:752-757`, `d = 1`): triangular solve by the
1×1 Cholesky factor `L` (positive whenever it is not NaN) -/
noncomputable def logProbTerm (v : Fin 1 → ℝ) (S : Matrix (Fin 1) (Fin 1) ℝ) : Flt :=
  (cholesky1 S).map fun L => (v 0 / L) ^ 2 + 2 * Real.log L + 1 * Real.log (2 * Real.pi)

/-- `jnp.where(jnp.isfinite(x), x, -jnp.inf)` (`gp.py:760`) -/
noncomputable def whereFinite (x : Flt) : EReal := x.elim ⊥ fun x => (x : EReal)

/-- `GaussianProcess._compute_log_prob` (`gp.py:737-762`) for the scalar observations all solvers
produce. -/
noncomputable def computeLogProb (v : Arr (Fin 1 → ℝ)) (S : Arr (Matrix (Fin 1) (Fin 1) ℝ)) : EReal :=
  whereFinite ((nanSum (fun k => logProbTerm (v.get k) (S.get k)) v.len).map fun s => -(1 / 2) * s)

/-- `GaussianProcess.log_probability` (`gp.py:430-443`) with `StateSpaceSolver`. -/
noncomputable def SSM.logProbability (k : SSM) (t y R : Arr ℝ) : EReal :=
  let kf := k.kalman t y R
  computeLogProb (kf.map (·.v)) (kf.map (·.S))

/-- `ConditionedStates.project_at_data` (`gp.py:136-156`): select the exposure-end states, sort them
by observation id, and project each smoothed state with the observation model at the data coordinate.
(The final `.squeeze()` is accounted for in `Model/GP.lean`.) -/
noncomputable def projectAtData {n : Type} [Fintype n] (obs : Coord → Matrix (Fin 1) n ℝ)
    (X : Arr Coord) (obsid stateid : Arr ℕ) (sm : Arr (StateMP n)) : Arr (ℝ × ℝ) :=
  let N := X.len
  let endsIdx := nonzeroSize stateid.len (fun i => stateid.get i == 1) N
  let sort := argsort (obsid.take endsIdx)
  let idx := endsIdx.take sort
  let sel := sm.take idx
  X.map₂ (fun x s => ((obs x *ᵥ s.m) 0, (obs x * s.P * (obs x)ᵀ) 0 0)) sel

/-- `GaussianProcess.condition(y)` with `StateSpaceSolver` (`gp.py:445-576`), `X_test=None`: the means and
variances stored in the conditioned GP. `instid`, `obsid`, `stateid` are the defaults of `gp.py:519-523`. -/
noncomputable def SSM.conditionedAtData (k : SSM) (X : Arr Coord) (y R : Arr ℝ) : Arr (ℝ × ℝ) :=
  let t := X.map Coord.sortable
  let c := k.condition t y R
  projectAtData (fun x => k.obsModel x none) X (Arr.arange t.len) ⟨t.len, fun _ => 1⟩ c.2

/-- `condGP.predict(X_test, return_var=True)` with `StateSpaceSolver` (`gp.py:655-686`). -/
noncomputable def SSM.predictAt (k : SSM) (X : Arr Coord) (y R : Arr ℝ) (Xtest : Arr Coord) :
    Arr (ℝ × ℝ) :=
  let t := X.map Coord.sortable
  let states := k.predict t y R (Xtest.map Coord.sortable)
  Xtest.map₂ (fun x s => ((k.obsModel x none *ᵥ s.m) 0,
    (k.obsModel x none * s.P * (k.obsModel x none)ᵀ) 0 0)) states

end Verif
