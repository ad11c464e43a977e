import Verif.Model.Kernels
import Verif.Model.Parallel
import Verif.Model.Integrated

/-!
# Kernel objects and the `GaussianProcess` interface (`/repo/src/smolgp/gp.py`)

Python exceptions are values (`Except PyErr`). Kernel classes are a syntax tree `Kern`; `Kern.model` gives the matrices of
`Model/Kernels.lean` and `Model/Integrated.lean`.
-/

namespace Verif
open Matrix

/-- the exceptions which the modelled code raises -/
inductive PyErr
  | assertionError | valueError | typeError | keyError | attributeError | indexError | zeroDivisionError | notImplementedError
  deriving DecidableEq

/-- Kernel objects: the classes exported by `smolgp.kernels` (`kernels/__init__.py:22-50`) with their constructor arguments.
`m + 1` is `num_insts`; `order` is the resolved order of `ExpSineSquared`. -/
inductive Kern
  | constant (sigma : ℝ) (name : String)
  | sho (omega quality sigma : ℝ) (name : String)
  | exp (scale sigma : ℝ) (name : String)
  | matern32 (scale sigma : ℝ) (name : String)
  | matern52 (scale sigma : ℝ) (name : String)
  | cosine (scale sigma : ℝ) (name : String)
  | expSineSquared (period gamma sigma : ℝ) (order : ℕ) (name : String)
  | integratedSHO (omega quality sigma : ℝ) (m : ℕ) (name : String)
  | integratedExp (scale sigma : ℝ) (m : ℕ) (name : String)
  | integratedMatern32 (scale sigma : ℝ) (m : ℕ) (name : String)
  | integratedMatern52 (scale sigma : ℝ) (m : ℕ) (name : String)
  | integratedCosine (scale sigma : ℝ) (m : ℕ) (name : String)
  | scale (name : String) (kernel : Kern) (factor : ℝ)
  | sum (kernel1 kernel2 : Kern)
  | prod (kernel1 kernel2 : Kern)

/-- `Constant` (`kernels/base.py:502-554`), with the identity which `transition_matrix` is meant to return (the call raises, see
`Kern.transitionError`) -/
def constantKernel (sigma : ℝ) (name : String := "Constant") : SSM where
  name := name
  n := Fin 1
  p := Fin 1
  F := !![0]
  Pinf := !![sigma ^ 2]
  L := !![1]
  Qc := !![0]
  obsMatrix _ := !![1]
  obsModel := defaultObsModel name fun _ => !![1]
  A _ _ := 1
  Q _ _ := !![0]
  reset _ := 1

namespace Kern

/-- `kernel.name`; `Sum` and `Product` compose it (`kernels/base.py:265, 351`) -/
def name : Kern → String
  | constant _ s | sho _ _ _ s | exp _ _ s | matern32 _ _ s | matern52 _ _ s | cosine _ _ s | expSineSquared _ _ _ _ s => s
  | integratedSHO _ _ _ _ s | integratedExp _ _ _ s | integratedMatern32 _ _ _ s | integratedMatern52 _ _ _ s => s
  | integratedCosine _ _ _ s | scale s _ _ => s
  | sum a b => "Sum(" ++ a.name ++ ", " ++ b.name ++ ")"
  | prod a b => "Product(" ++ a.name ++ ", " ++ b.name ++ ")"

/-- the state space matrices of a kernel object -/
noncomputable def model : Kern → SSM
  | constant sigma s => constantKernel sigma s
  | sho omega quality sigma s => Verif.sho omega quality sigma s
  | exp l sigma s => expKernel l sigma s
  | matern32 l sigma s => Verif.matern32 l sigma s
  | matern52 l sigma s => Verif.matern52 l sigma s
  | cosine l sigma s => Verif.cosine l sigma s
  | expSineSquared p g sigma order s => Verif.expSineSquared p g sigma order s
  | integratedSHO omega quality sigma m s => Verif.integratedSHO omega quality sigma m s
  | integratedExp l sigma m s => Verif.integratedExp l sigma m s
  | integratedMatern32 l sigma m s => Verif.integratedMatern32 l sigma m s
  | integratedMatern52 l sigma m s => Verif.integratedMatern52 l sigma m s
  | integratedCosine l sigma m s => Verif.integratedCosine l sigma m s
  | scale s k c => SSM.scale s k.model c
  | sum a b => a.model.sum b.model
  | prod a b => a.model.prod b.model

/-- `isinstance(k, IntegratedStateSpaceModel)` -/
def isIntegrated : Kern → Bool
  | integratedSHO .. | integratedExp .. | integratedMatern32 .. | integratedMatern52 .. | integratedCosine .. => true
  | _ => false

/-- `extract_leaf_kernels(kernel, all)` (`kernels/base.py:32-47`) -/
def extractLeafKernels (all : Bool := false) : Kern → List Kern
  | sum a b => a.extractLeafKernels all ++ b.extractLeafKernels all
  | prod a b => if all then a.extractLeafKernels all ++ b.extractLeafKernels all else [prod a b]
  | k => [k]

/-- `dataclasses.replace(k, name=s)` for the classes that are not `Sum` or `Product`; the constructors recompute the remaining
fields from the same arguments (`**kwargs` swallows the derived ones) -/
def replaceName (s : String) : Kern → Kern
  | constant sigma _ => constant sigma s
  | sho omega quality sigma _ => sho omega quality sigma s
  | exp l sigma _ => exp l sigma s
  | matern32 l sigma _ => matern32 l sigma s
  | matern52 l sigma _ => matern52 l sigma s
  | cosine l sigma _ => cosine l sigma s
  | expSineSquared p g sigma order _ => expSineSquared p g sigma order s
  | integratedSHO omega quality sigma m _ => integratedSHO omega quality sigma m s
  | integratedExp l sigma m _ => integratedExp l sigma m s
  | integratedMatern32 l sigma m _ => integratedMatern32 l sigma m s
  | integratedMatern52 l sigma m _ => integratedMatern52 l sigma m s
  | integratedCosine l sigma m _ => integratedCosine l sigma m s
  | scale _ k c => scale s k c
  | sum a b => sum a b
  | prod a b => prod a b

/-- the leaf branch of `_rename` (`gp.py:61-69`); `names` are the names of the extracted leaves (`counts` is their multiplicity),
`used` the running counters. Looking up a name that is not among them is a `KeyError`. -/
def renameLeaf (names : List String) (k : Kern) (used : String → ℕ) : Except PyErr (Kern × (String → ℕ)) :=
  if names.count k.name = 0 then .error .keyError
  else if names.count k.name > 1 then
    .ok (k.replaceName (k.name ++ "_" ++ toString (used k.name)), Function.update used k.name (used k.name + 1))
  else .ok (k, used)

/-- `_rename` (`gp.py:52-69`) -/
def rename (names : List String) : Kern → (String → ℕ) → Except PyErr (Kern × (String → ℕ))
  | sum a b, used =>
    match a.rename names used with
    | .error e => .error e
    | .ok (a', used) =>
      match b.rename names used with
      | .error e => .error e
      | .ok (b', used) => .ok (sum a' b', used)
  | prod a b, used =>
    match a.rename names used with
    | .error e => .error e
    | .ok (a', used) =>
      match b.rename names used with
      | .error e => .error e
      | .ok (b', used) => .ok (prod a' b', used)
  | k, used => renameLeaf names k used

/-- the names of the components, `[k.name for k in extract_leaf_kernels(kernel)]` -/
def componentNames (k : Kern) : List String := k.extractLeafKernels.map name

/-- `assign_unique_kernel_names` (`gp.py:34-71`) -/
def assignUniqueNames (k : Kern) : Except PyErr Kern :=
  if k.componentNames.Nodup then .ok k
  else (k.rename k.componentNames fun _ => 1).map Prod.fst

/-- What `transition_matrix` raises, called with traced arguments (`pyScalars = false`) or with Python numbers (`true`): `Constant`
refers to a missing attribute (`kernels/base.py:549`), `Exp` indexes a Python number (`kernels/base.py:792`), everything else forwards
to its parts. -/
def transitionError (pyScalars : Bool) : Kern → Option PyErr
  | constant .. => some .attributeError
  | exp .. | integratedExp .. => if pyScalars then some .typeError else none
  | scale _ k _ => k.transitionError pyScalars
  | sum a b | prod a b => (a.transitionError pyScalars).orElse fun _ => b.transitionError pyScalars
  | _ => none

/-- does `observation_matrix` unpack a tuple into three (`kernels/integrated.py:131-133`)? `Sum`, `Product` and `Wrapper` hand the coordinate
to their parts (`kernels/base.py:309-316, 402-406, 463-464`). -/
def unpacksCoordinate : Kern → Bool
  | integratedSHO .. | integratedExp .. | integratedMatern32 .. | integratedMatern52 .. | integratedCosine .. => true
  | scale _ k _ => k.unpacksCoordinate
  | sum a b | prod a b => a.unpacksCoordinate || b.unpacksCoordinate
  | _ => false

end Kern

/-- the coordinate argument `X`: an array of times or a tuple of arrays -/
inductive XArg
  | times (t : Arr ℝ)
  | pair (t delta : Arr ℝ)
  | triple (t delta : Arr ℝ) (inst : Arr ℤ)

namespace XArg

/-- `isinstance(X, tuple) and len(X) > 1` -/
def isTuple : XArg → Bool
  | times _ => false
  | _ => true

/-- the leading dimension -/
def len : XArg → ℕ
  | times t => t.len
  | pair t _ => t.len
  | triple t _ _ => t.len

/-- the coordinates one by one, as `jax.vmap` passes them; instantaneous kernels only read the first entry of a pair -/
def coords : XArg → Arr Coord
  | times t => t.map .time
  | pair t _ => t.map .time
  | triple t d i => ⟨t.len, fun n => .exposure (t.get n) (d.get n) (i.get n)⟩

/-- same tree structure, as `jax.tree_util.tree_map` demands -/
def sameTree : XArg → XArg → Bool
  | times _, times _ | pair .., pair .. | triple .., triple .. => true
  | _, _ => false

end XArg

/-- what `kernel.observation_model` raises, mapped over coordinates in this format -/
def Kern.obsError (k : Kern) : XArg → Option PyErr
  | .pair .. => if k.unpacksCoordinate then some .valueError else none
  | _ => none

/-- the four solver classes -/
inductive SolverKind
  | stateSpace | parallel | integrated | parallelIntegrated
  deriving DecidableEq

namespace SolverKind

/-- `isinstance(self.solver, (IntegratedStateSpaceSolver, ParallelIntegratedStateSpaceSolver))` -/
def isIntegrated : SolverKind → Bool
  | integrated | parallelIntegrated => true
  | _ => false

/-- the constructors: the integrated ones unpack `X` into three (`solvers/integrated/solver.py:55`,
`solvers/integrated/parallel/solver.py:56`), the others store it. An array of three times unpacks into scalars, whose `len` fails. -/
def construct (kind : SolverKind) (X : XArg) : Except PyErr Unit :=
  if kind.isIntegrated then
    match X with
    | .triple .. => .ok ()
    | .pair .. => .error .valueError
    | .times t => if t.len = 3 then .error .typeError else .error .valueError
  else .ok ()

/-- do the filter and smoother call `transition_matrix(0, 0)` with Python numbers? (`solvers/parallel/kalman.py:61`,
`solvers/integrated/parallel/kalman.py:126`) -/
def callsWithPyScalars : SolverKind → Bool
  | parallel | parallelIntegrated => true
  | _ => false

/-- the default of the `return_v_S` argument of `condition` -/
def defaultReturnVS : SolverKind → Bool
  | parallelIntegrated => true
  | _ => false

/-- how many arrays `self.Kalman(y, return_v_S=...)` returns inside `condition`: the parallel solver always asks for six
(`solvers/parallel/solver.py:65`) -/
def kalmanReturns (kind : SolverKind) (returnVS : Bool) : ℕ :=
  match kind with
  | parallel => 6
  | _ => if returnVS then 6 else 4

end SolverKind

/-- `(state_coords, conditioned_states, v_S)`, the result of `solver.condition` -/
structure Conditioned (n : Type) where
  t : Arr ℝ
  obsid : Arr ℕ
  stateid : Arr ℕ
  filt : Arr (FilterOut n)
  smooth : Arr (StateMP n)

/-- The conditioned states of each solver, with the labels which `gp.py:511-523` gives to the states of the solvers that are not
integrated. -/
noncomputable def SSM.states (k : SSM) (kind : SolverKind) (X : Arr Coord) (y R : Arr ℝ) : Conditioned k.n :=
  match kind with
  | .stateSpace =>
    let t := X.map Coord.sortable
    let c := k.condition t y R
    ⟨t, Arr.arange t.len, ⟨t.len, fun _ => 1⟩, c.1, c.2⟩
  | .parallel =>
    let t := X.map Coord.sortable
    let c := k.parallelCondition X y R
    ⟨t, Arr.arange t.len, ⟨t.len, fun _ => 1⟩, c.1, c.2⟩
  | .integrated =>
    let sc := stateCoords X
    let c := k.integratedCondition X y R
    ⟨sc.t, sc.obsid, sc.stateid, c.1, c.2⟩
  | .parallelIntegrated =>
    let sc := stateCoords X
    let c := k.parallelIntegratedCondition X y R
    ⟨sc.t, sc.obsid, sc.stateid, c.1, c.2⟩

/-- `_compute_log_prob(v, S)` of the `v`, `S` returned by each solver's `Kalman` -/
noncomputable def SSM.logProb (k : SSM) (kind : SolverKind) (X : Arr Coord) (y R : Arr ℝ) : EReal :=
  match kind with
  | .stateSpace => k.logProbability (X.map Coord.sortable) y R
  | .parallel => k.parallelLogProbability X y R
  | .integrated => k.integratedLogProbability X y R
  | .parallelIntegrated => k.parallelIntegratedLogProbability X y R

/-- the states of `solver.predict(X_test, states)`, projected with given rows (`gp.py:655-686`; `PredictedStates.project_mean`,
`project_variance`, `gp.py:186-210`) -/
noncomputable def SSM.projectTest (k : SSM) (c : Conditioned k.n) (obs : Coord → Matrix (Fin 1) k.n ℝ) (Xtest : Arr Coord) :
    Arr (ℝ × ℝ) :=
  let states := (Xtest.map Coord.sortable).map (ssPredictPoint k.At k.Qt k.Pinf c.t c.filt c.smooth)
  Xtest.map₂ (fun x s => ((obs x *ᵥ s.m) 0, (obs x * s.P * (obs x)ᵀ) 0 0)) states

/-- `ConditionedStates.project_at_data(observation_model)` -/
noncomputable def SSM.projectData (k : SSM) (c : Conditioned k.n) (obs : Coord → Matrix (Fin 1) k.n ℝ) (X : Arr Coord) : Arr (ℝ × ℝ) :=
  projectAtData obs X c.obsid c.stateid c.smooth

/-- `H_comp` (`gp.py:222-226, 799-803`): the sum of the rows of the named components -/
def SSM.componentRow (k : SSM) : List String → Coord → Matrix (Fin 1) k.n ℝ
  | [], _ => 0
  | [c], X => k.obsModel X (some c)
  | c :: cs, X => k.obsModel X (some c) + k.componentRow cs X

/-- a solver object. It holds the kernel it was built from, which differs from the kernel of the GP in component names only; the
solvers never ask for a component, so the model lets them use the kernel of the GP (see `Lemmas/Names.lean`). -/
structure Solver where
  kind : SolverKind
  X : XArg
  noise : Arr ℝ

/-- A `GaussianProcess` object (`gp.py:270-404`). `states` holds the data `y` from which the stored `ConditionedStates` were computed
by the solver; the states themselves are recomputed. -/
structure GP where
  kernel : Kern
  X : XArg
  meanFunction : Coord → ℝ
  mean : Arr ℝ
  var : Option (Arr ℝ)
  noise : Arr ℝ
  solver : Solver
  states : Option (Arr ℝ)

/-- an array with no, one or two dimensions; after `squeeze()` an array with one entry has none -/
inductive Squeezed
  | scalar (x : ℝ)
  | vector (a : Arr ℝ)
  | matrix

/-- `.squeeze()` of an array of shape `(N, 1)` -/
def squeeze (a : Arr ℝ) : Squeezed := if a.len = 1 then .scalar (a.get 0) else .vector a

namespace GP

/-- the entries of `diag` (`gp.py:368-370`): an array, a scalar, or `sqrt(eps)` of double precision by default (`gp.py:879-884`) -/
noncomputable def noiseOf (N : ℕ) : Option (ℝ ⊕ Arr ℝ) → Arr ℝ
  | none => ⟨N, fun _ => Real.sqrt (2 ^ (-52 : ℤ))⟩
  | some (.inl r) => ⟨N, fun _ => r⟩
  | some (.inr a) => a

/-- does the kernel have an integrated component (`gp.py:330-331`)? -/
def needsIntegrated (k : Kern) : Bool := k.extractLeafKernels.any Kern.isIntegrated

/-- the automatic choice of solver (`gp.py:375-383`); every modelled kernel is a `StateSpaceModel` -/
def chooseSolver (k : Kern) : SolverKind := if needsIntegrated k then .integrated else .stateSpace

/-- `GaussianProcess(kernel, X, diag=..., mean=..., solver=..., use_unique_names=...)` (`gp.py:306-404`) for a new GP -/
noncomputable def new (kernel : Kern) (X : XArg) (diag : Option (ℝ ⊕ Arr ℝ) := none) (mean : Option (Coord → ℝ) := none)
    (solver : Option SolverKind := none) (useUniqueNames : Bool := true) : Except PyErr GP := do
  let k ← (if useUniqueNames then kernel.assignUniqueNames else .ok kernel : Except PyErr Kern)
  if needsIntegrated k && !X.isTuple then .error .assertionError
  let meanFunction := mean.getD fun _ => 0
  let noise := noiseOf X.len diag
  let kind := solver.getD (chooseSolver k)
  kind.construct X
  return { kernel := k, X := X, meanFunction := meanFunction, mean := X.coords.map meanFunction, var := none, noise := noise,
           solver := ⟨kind, X, noise⟩, states := none }

/-- `GaussianProcess(kernel=self.kernel, X=X_test, noise=self.noise, solver=self.solver, mean_value=mu, variance_value=var,
states=states)` (`gp.py:561-571`): the constructor call in `condition`. The mean function is the default. A mean without dimension has no
`shape[0]`, one with two dimensions is rejected (`gp.py:355-364`); the variance is stored unchecked. -/
def newConditioned (gp : GP) (X : XArg) (mu : Squeezed) (var : Arr ℝ) (states : Arr ℝ) : Except PyErr GP := do
  let k ← gp.kernel.assignUniqueNames
  if needsIntegrated k && !X.isTuple then .error .assertionError
  match mu with
  | .vector mu =>
    return { kernel := k, X := X, meanFunction := fun _ => 0, mean := mu, var := some var, noise := gp.noise, solver := gp.solver,
             states := some states }
  | .matrix => .error .valueError
  | .scalar _ => .error .indexError

/-- The first result of `solver.condition`, as `t_states, instid, obsid, stateid = state_coords` unpacks it in `solver.predict`
(`solvers/solver.py:114`, `solvers/parallel/solver.py:115`, `solvers/integrated/solver.py:158`): the solvers that are not integrated return
the array of times. If that has four entries, it unpacks into four numbers, of which `len` fails. -/
def unpackStateCoords (gp : GP) : Except PyErr Unit :=
  if gp.solver.kind.isIntegrated then .ok ()
  else if gp.solver.X.len = 4 then .error .typeError
  else .error .valueError

/-- what running the filter (or the prediction) of this GP raises -/
def runError (gp : GP) : Option PyErr := gp.kernel.transitionError gp.solver.kind.callsWithPyScalars

/-- `GaussianProcess.log_probability` (`gp.py:430-443`) -/
noncomputable def logProbability (gp : GP) (y : Arr ℝ) : Except PyErr EReal :=
  match gp.runError with
  | some e => .error e
  | none => .ok (gp.kernel.model.logProb gp.solver.kind gp.solver.X.coords y gp.solver.noise)

/-- `solver.condition(y, return_v_S=...)` (`solvers/*/solver.py`) -/
noncomputable def solverCondition (gp : GP) (y : Arr ℝ) (returnVS : Bool) : Except PyErr (Conditioned gp.kernel.model.n) :=
  match gp.runError with
  | some e => .error e
  | none =>
    if gp.solver.kind.kalmanReturns returnVS = (if returnVS then 6 else 4) then
      .ok (gp.kernel.model.states gp.solver.kind gp.solver.X.coords y gp.solver.noise)
    else .error .valueError

/-- `ConditionedStates.project_at_data` followed by `squeeze` -/
noncomputable def projectAtData (gp : GP) (y : Arr ℝ) (obs : Coord → Matrix (Fin 1) gp.kernel.model.n ℝ) : Arr (ℝ × ℝ) :=
  gp.kernel.model.projectData (gp.kernel.model.states gp.solver.kind gp.solver.X.coords y gp.solver.noise) obs gp.X.coords

/-- `GaussianProcess.condition(y, X_test)` (`gp.py:445-576`). With test coordinates the raw result of `solver.condition` is handed to
`solver.predict`; its result is the array of state means, with one row per test coordinate. -/
noncomputable def condition (gp : GP) (y : Arr ℝ) (Xtest : Option XArg := none) : Except PyErr (EReal × GP) := do
  if let some Xt := Xtest then
    if !gp.X.sameTree Xt then .error .valueError
  let _ ← gp.solverCondition y true
  let lp := gp.kernel.model.logProb gp.solver.kind gp.solver.X.coords y gp.solver.noise
  match Xtest with
  | some Xt =>
    gp.unpackStateCoords
    let gp' ← gp.newConditioned Xt .matrix ⟨0, fun _ => 0⟩ y
    return (lp, gp')
  | none =>
    if let some e := gp.kernel.obsError gp.X then .error e
    let r := gp.projectAtData y fun x => gp.kernel.model.obsModel x none
    let gp' ← gp.newConditioned gp.X (squeeze (r.map Prod.fst)) (r.map Prod.snd) y
    return (lp, gp')

/-- the branch of `predict` on a conditioned GP (`gp.py:637-689`) without `return_full_state`; `kernel` is the name of a component.
The parallel solver indexes `X` and `X_test` themselves (`solvers/parallel/solver.py:148, 187`), which fails for tuples. -/
noncomputable def predictConditioned (gp : GP) (y : Arr ℝ) (Xtest : Option XArg) (component : Option String) :
    Except PyErr (Arr ℝ × Arr ℝ) :=
  match Xtest, component with
  | none, none => .ok (gp.mean, gp.var.getD ⟨0, fun _ => 0⟩)
  | none, some c =>
    match gp.kernel.obsError gp.X with
    | some e => .error e
    | none =>
      let r := gp.projectAtData y fun x => gp.kernel.model.obsModel x (some c)
      .ok (r.map Prod.fst, r.map Prod.snd)
  | some Xt, c =>
    match gp.runError with
    | some e => .error e
    | none =>
      if gp.solver.kind = .parallel ∧ (gp.solver.X.isTuple ∨ Xt.isTuple) then .error .typeError
      else if let some e := gp.kernel.obsError Xt then .error e
      else
        let k := gp.kernel.model
        let r := k.projectTest (k.states gp.solver.kind gp.solver.X.coords y gp.solver.noise) (fun x => k.obsModel x c) Xt.coords
        .ok (r.map Prod.fst, r.map Prod.snd)

/-- `GaussianProcess.predict(X_test, y, kernel=..., return_var=True)` (`gp.py:578-689`) -/
noncomputable def predict (gp : GP) (Xtest : Option XArg := none) (y : Option (Arr ℝ) := none) (component : Option String := none) :
    Except PyErr (Arr ℝ × Arr ℝ) :=
  match gp.states with
  | some y0 => gp.predictConditioned y0 Xtest component
  | none =>
    match y with
    | none => .error .assertionError
    | some y => do
      let (_, cond) ← gp.condition y
      match cond.states with
      | some y0 => cond.predictConditioned y0 Xtest component
      | none => .error .assertionError

/-- `GaussianProcess.get_component_mean(component, return_var=True)` (`gp.py:764-814`); a single name is a list of one -/
noncomputable def getComponentMean (gp : GP) (component : List String) : Except PyErr (Arr (ℝ × ℝ)) :=
  match gp.states with
  | none => .error .valueError
  | some y =>
    if component = [] then .error .indexError
    else if let some e := gp.kernel.obsError gp.X then .error e
    else .ok (gp.projectAtData y (gp.kernel.model.componentRow component))

/-- `GaussianProcess.get_all_component_means(return_var=True)` (`gp.py:816-852`): a dictionary by component name -/
noncomputable def getAllComponentMeans (gp : GP) : Except PyErr (List (String × Arr (ℝ × ℝ))) :=
  match gp.states with
  | none => .error .valueError
  | some y =>
    if let some e := gp.kernel.obsError gp.X then .error e
    else .ok (gp.kernel.componentNames.dedup.map fun c => (c, gp.projectAtData y (gp.kernel.model.componentRow [c])))

/-- `gp.predict(X_test, return_full_state=True)` on a conditioned GP (`gp.py:655-668`): the `mean` and `cov` of the returned
`PredictedStates`, for each test coordinate -/
noncomputable def predictFullState (gp : GP) (Xtest : XArg) : Except PyErr (Arr (StateMP gp.kernel.model.n)) :=
  match gp.states with
  | none => .error .assertionError
  | some y =>
    match gp.runError with
    | some e => .error e
    | none =>
      if gp.solver.kind = .parallel ∧ (gp.solver.X.isTuple ∨ Xtest.isTuple) then .error .typeError
      else
        let k := gp.kernel.model
        let c := k.states gp.solver.kind gp.solver.X.coords y gp.solver.noise
        .ok ((Xtest.coords.map Coord.sortable).map (ssPredictPoint k.At k.Qt k.Pinf c.t c.filt c.smooth))

/-- `gp.predict(X_test, observation_model=h, return_var=True)` on a conditioned GP (`gp.py:649-687`). `h` is the user's function; of a
pair `(t, texp)` the model hands it the time only. -/
noncomputable def predictWith (gp : GP) (Xtest : XArg) (h : Coord → Matrix (Fin 1) gp.kernel.model.n ℝ) : Except PyErr (Arr ℝ × Arr ℝ) :=
  (gp.predictFullState Xtest).map fun s =>
    let r := Xtest.coords.map₂ (fun x s => ((h x *ᵥ s.m) 0, (h x * s.P * (h x)ᵀ) 0 0)) s
    (r.map Prod.fst, r.map Prod.snd)

/-- `gp.predict(X_test, kernel=..., observation_model=..., return_var=True)` on a conditioned GP (`gp.py:637-689`), with both optional
arguments: `observation_model` is looked at only for new test coordinates, and there only if no component is asked for. -/
noncomputable def predictArgs (gp : GP) (Xtest : Option XArg) (component : Option String)
    (h : Option (Coord → Matrix (Fin 1) gp.kernel.model.n ℝ)) : Except PyErr (Arr ℝ × Arr ℝ) :=
  match Xtest, component, h with
  | some Xt, none, some h => gp.predictWith Xt h
  | Xtest, component, _ => gp.predict Xtest none component

/-- `gp.loc` (`gp.py:406-412`) -/
def loc (gp : GP) : Arr ℝ := gp.mean

/-- `gp.variance` (`gp.py:414-420`); `none` is Python's `None` -/
def variance (gp : GP) : Option (Arr ℝ) := gp.var

/-- `gp.covariance` (`gp.py:422-428`) -/
def covariance (_ : GP) : Except PyErr (Arr (Arr ℝ)) := .error .notImplementedError

/-- `gp.sample(key, shape)` (`gp.py:692-709, 717-723`) -/
def sample (_ : GP) (_key : ℕ) (_shape : Option (List ℕ)) : Except PyErr (Arr ℝ) := .error .notImplementedError

/-- `gp.condition(y, kernel=k)` (`gp.py:445-576`) with `c` the name of `k`: the stored mean and variance are those of the component -/
noncomputable def conditionOn (gp : GP) (y : Arr ℝ) (c : String) : Except PyErr (EReal × GP) := do
  let _ ← gp.solverCondition y true
  let lp := gp.kernel.model.logProb gp.solver.kind gp.solver.X.coords y gp.solver.noise
  if let some e := gp.kernel.obsError gp.X then .error e
  let r := gp.projectAtData y fun x => gp.kernel.model.obsModel x (some c)
  let gp' ← gp.newConditioned gp.X (squeeze (r.map Prod.fst)) (r.map Prod.snd) y
  return (lp, gp')

/-- `gp.predict(X_test, return_full_state=True).get_component(component, return_var=True)` (`gp.py:212-240, 663-668`) on a
conditioned GP -/
noncomputable def predictedComponent (gp : GP) (Xtest : XArg) (component : List String) : Except PyErr (Arr (ℝ × ℝ)) :=
  match gp.states with
  | none => .error .assertionError
  | some y =>
    match gp.runError with
    | some e => .error e
    | none =>
      if gp.solver.kind = .parallel ∧ (gp.solver.X.isTuple ∨ Xtest.isTuple) then .error .typeError
      else if component = [] then .error .indexError
      else if let some e := gp.kernel.obsError Xtest then .error e
      else
        let k := gp.kernel.model
        .ok (k.projectTest (k.states gp.solver.kind gp.solver.X.coords y gp.solver.noise) (k.componentRow component) Xtest.coords)

/-- `gp.predict(X_test, return_full_state=True).get_all_components(return_var=True)` (`gp.py:242-257`) on a conditioned GP -/
noncomputable def predictedComponents (gp : GP) (Xtest : XArg) : Except PyErr (List (String × Arr (ℝ × ℝ))) :=
  gp.kernel.componentNames.dedup.mapM fun c => (gp.predictedComponent Xtest [c]).map fun r => (c, r)

end GP
end Verif
