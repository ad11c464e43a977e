import Verif.Model.GP

/-!
# The innovations of the filter

`solver.Kalman(y, return_v_S=True)` returns, besides the states, the innovations `v` and their variances `S`, from which `log_probability` is
computed (`gp.py:442-443`). All solvers return them for one scalar datum per state, so `v[i]` has one entry and `S[i]` is 1 by 1.
-/

namespace Verif

/-- `v`, `S` of `solver.Kalman(y, return_v_S=True)`: `solvers/kalman.py:35-38`, `solvers/parallel/kalman.py:37-38`, one entry per datum in
the order of the data; `solvers/integrated/kalman.py:121-126`, `solvers/integrated/parallel/kalman.py:80-81, 314-353`, one entry per
exposure in the order of the exposure ends among the states. -/
noncomputable def SSM.innovations (k : SSM) (kind : SolverKind) (X : Arr Coord) (y R : Arr ℝ) : Arr (ℝ × ℝ) :=
  match kind with
  | .stateSpace => (k.kalman (X.map Coord.sortable) y R).map fun o => (o.v 0, o.S 0 0)
  | .parallel => (k.parallelKalman X y R).map fun o => (o.v 0, o.S 0 0)
  | .integrated => ((k.integratedKalman X y R).map fun o => (o.v 0, o.S 0 0)).take (endsIdx (stateCoords X) y.len)
  | .parallelIntegrated => ((k.parIntKalman X y R).map fun o => (o.v 0, o.S 0 0)).take (endsIdx (stateCoords X) y.len)

/-- `_, _, _, _, v, S = gp.solver.Kalman(y, return_v_S=True)` (`gp.py:442`) -/
noncomputable def GP.innovations (gp : GP) (y : Arr ℝ) : Except PyErr (Arr (ℝ × ℝ)) :=
  match gp.runError with
  | some e => .error e
  | none => .ok (gp.kernel.model.innovations gp.solver.kind gp.solver.X.coords y gp.solver.noise)

end Verif
