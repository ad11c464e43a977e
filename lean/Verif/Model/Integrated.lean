import Verif.Model.Parallel
import Verif.Model.Kernels
import Verif.Model.VanLoan

/-!
# Integrated kernels and solvers

`/repo/src/smolgp/kernels/integrated.py`, `/repo/src/smolgp/solvers/integrated/`.
-/

namespace Verif
open Matrix

/-- the exposure time of a coordinate (`delta` of `t, delta, instid = X`); a bare time has none -/
def Coord.delta : Coord → ℝ
  | .time _ => 0
  | .exposure _ d _ => d

/-- the instrument index of a coordinate -/
def Coord.inst : Coord → ℤ
  | .time _ => 0
  | .exposure _ _ i => i

/-- exposure start, `ts = tmid - delta / 2` (`solvers/integrated/solver.py:56`) -/
noncomputable def Coord.start (X : Coord) : ℝ := X.sortable - X.delta / 2
/-- exposure end, `te = tmid + delta / 2` (`solvers/integrated/solver.py:57`) -/
noncomputable def Coord.stop (X : Coord) : ℝ := X.sortable + X.delta / 2

/-- The slot written by `dynamic_update_slice(_, _, (d + instid,))` for `instid ≥ 0` and `m + 1` instruments: XLA clamps the index
so that the slice fits. (Negative `instid` would address the base state; not modelled, theorems assume `0 ≤ instid`.) -/
def slot (m : ℕ) (i : ℤ) : Fin (m + 1) := ⟨min i.toNat m, by omega⟩

/-- `IntegratedStateSpaceModel` (`kernels/integrated.py:44-247`) with `num_insts = m + 1`, given the blocks returned by
`integrated_transition_matrix(t1, t2)` (`phibar`) and by `integrated_process_noise(X1, X2)` (`q12`, `q22`; `Qaug21 = Qaug12.T`).
`first` is state index `0` of the base model. -/
noncomputable def integratedSSM (name : String) (m : ℕ) (base : SSM) (first : base.n) (phibar : ℝ → ℝ → Matrix base.n base.n ℝ)
    (q12 : ℝ → ℝ → base.n → ℝ) (q22 : ℝ → ℝ → ℝ) : SSM where
  name := name
  n := base.n ⊕ Fin (m + 1)
  p := base.p
  F := Matrix.fromBlocks base.F 0 (Matrix.of fun _ j => if j = first then 1 else 0) 0
  Pinf := Matrix.fromBlocks base.Pinf 0 0 1
  L := Matrix.fromRows base.L 0
  Qc := base.Qc
  obsMatrix := obs
  obsModel := defaultObsModel name obs
  A X1 X2 := Matrix.fromBlocks (base.A (.time X1.sortable) (.time X2.sortable)) 0
    (Matrix.of fun _ j => phibar X1.sortable X2.sortable first j) 1
  Q X1 X2 := Matrix.fromBlocks (base.Q (.time 0) (.time (X2.sortable - X1.sortable)))
    (Matrix.of fun a _ => q12 X1.sortable X2.sortable a) (Matrix.of fun _ a => q12 X1.sortable X2.sortable a)
    (Matrix.of fun _ _ => q22 X1.sortable X2.sortable)
  reset i := Matrix.diagonal (Sum.elim (fun _ => 1) fun j => if j = slot m i then 0 else 1)
where
  /-- `observation_matrix` (`kernels/integrated.py:96-134`) -/
  obs : Coord → Matrix (Fin 1) (base.n ⊕ Fin (m + 1)) ℝ := fun X => Matrix.of fun _ =>
    match X with
    | .exposure _ delta i =>
      if delta > 0 then Sum.elim (fun _ => 0) fun j => if j = slot m i then 1 / delta else 0
      else Sum.elim (fun a => if a = first then 1 else 0) fun _ => 0
    | .time _ => Sum.elim (fun a => if a = first then 1 else 0) fun _ => 0

/-- default `integrated_transition_matrix` (`kernels/integrated.py:146-158`) -/
noncomputable def defaultPhibar (base : SSM) (t1 t2 : ℝ) : Matrix base.n base.n ℝ := PhibarFromVanLoan base.F (t2 - t1)

/-- default `integrated_process_noise` (`kernels/integrated.py:174-203`): `Qaug12 = M[:, :1]` -/
noncomputable def defaultQ12 (base : SSM) (first : base.n) (t1 t2 : ℝ) : base.n → ℝ := fun a =>
  let b := vanLoan base.F base.L base.Qc (t2 - t1)
  (b.F3ᵀ * b.H2) a first

/-- default `integrated_process_noise` (`kernels/integrated.py:174-203`): `Qaug22 = W[:1, :1]` -/
noncomputable def defaultQ22 (base : SSM) (first : base.n) (t1 t2 : ℝ) : ℝ :=
  let b := vanLoan base.F base.L base.Qc (t2 - t1)
  let F3TK1 := b.F3ᵀ * b.K1
  (F3TK1 + F3TK1ᵀ) first first

/-- a base model wrapped by `IntegratedStateSpaceModel` with the inherited (Van Loan) methods -/
noncomputable def integratedDefault (name : String) (m : ℕ) (base : SSM) (first : base.n) : SSM :=
  integratedSSM name m base first (defaultPhibar base) (defaultQ12 base first) (defaultQ22 base first)

/-- `IntegratedExp` (`kernels/integrated.py:428-446`) -/
noncomputable def integratedExp (scale sigma : ℝ) (m : ℕ) (name : String := "IntegratedExp") : SSM :=
  integratedDefault name m (expKernel scale sigma) (0 : Fin 1)
/-- `IntegratedMatern32` (`kernels/integrated.py:449-467`) -/
noncomputable def integratedMatern32 (scale sigma : ℝ) (m : ℕ) (name : String := "IntegratedMatern32") : SSM :=
  integratedDefault name m (matern32 scale sigma) (0 : Fin 2)
/-- `IntegratedMatern52` (`kernels/integrated.py:470-488`) -/
noncomputable def integratedMatern52 (scale sigma : ℝ) (m : ℕ) (name : String := "IntegratedMatern52") : SSM :=
  integratedDefault name m (matern52 scale sigma) (0 : Fin 3)
/-- `IntegratedCosine` (`kernels/integrated.py:491-509`) -/
noncomputable def integratedCosine (scale sigma : ℝ) (m : ℕ) (name : String := "IntegratedCosine") : SSM :=
  integratedDefault name m (cosine scale sigma) (0 : Fin 2)

namespace IntegratedSHO
/-- `underdamped` of `integrated_transition_matrix` (`kernels/integrated.py:297-342`) -/
noncomputable def phibarUnder (w q dt : ℝ) : Matrix (Fin 2) (Fin 2) ℝ :=
  let n := SHO.eta q
  let a := -0.5 * w / q
  let b := n * w
  let a2plusb2 := a ^ 2 + b ^ 2
  let A := 1 / (2 * n * q)
  let B := 1 / (n * w)
  let C := -w / n
  let arg := b * dt
  let exp := Real.exp (a * dt)
  let sin := Real.sin arg
  let cos := Real.cos arg
  let Ic := a * cos + b * sin
  let Is := a * sin - b * cos
  let Phibar11 := exp * (Ic + A * Is) - (a - A * b)
  let Phibar12 := B * (Is * exp + b)
  let Phibar21 := C * (Is * exp + b)
  let Phibar22 := exp * (Ic - A * Is) - (a + A * b)
  (1 / a2plusb2) • !![Phibar11, Phibar12; Phibar21, Phibar22]

open Classical in
/-- `IntegratedSHO.integrated_transition_matrix` (`kernels/integrated.py:294-359`) -/
noncomputable def phibar (w q : ℝ) (t1 t2 : ℝ) : Matrix (Fin 2) (Fin 2) ℝ :=
  if SHO.isCritical q then PhibarFromVanLoan (SHO.F w q) (t2 - t1)
  else if q > 0.5 then phibarUnder w q (t2 - t1) else PhibarFromVanLoan (SHO.F w q) (t2 - t1)

/-- `iQ12_1` and `iQ12_2` (`kernels/integrated.py:378-395`), before scaling and truncation -/
noncomputable def iQ12 (w q dt : ℝ) : Fin 2 → ℝ :=
  let n := SHO.eta q
  let a := -0.5 * w / q
  let b := n * w
  let A := 1 / (2 * n * q)
  let x := a * dt
  let arg := b * dt
  let exp := Real.exp x
  let exp2 := Real.exp (2 * x)
  let exp2m1 := Real.exp (2 * x) - 1
  let sin := Real.sin arg
  let cos := Real.cos arg
  let sinsq := (Real.sin arg) ^ 2
  let sin2 := Real.sin (2 * arg)
  let A2 := A ^ 2
  ![(exp * (cos + A * sin) - 1) ^ 2 / (q * w), A * exp * (4 * sin - exp * sin2) - 2 * A2 * exp2 * sinsq + exp2m1]

/-- `iQ22` (`kernels/integrated.py:397-402`), before the maximum, scaling and truncation -/
noncomputable def iQ22 (w q dt : ℝ) : ℝ :=
  let n := SHO.eta q
  let a := -0.5 * w / q
  let b := n * w
  let A := 1 / (2 * n * q)
  let x := a * dt
  let arg := b * dt
  let w2 := w ^ 2
  let q2 := q ^ 2
  let q4 := q2 ^ 2
  let exp := Real.exp x
  let exp2 := Real.exp (2 * x)
  let sin := Real.sin arg
  let cos := Real.cos arg
  let sin2 := Real.sin (2 * arg)
  let cos2 := Real.cos (2 * arg)
  let A2 := A ^ 2
  let part1 := 8 * q * w * dt + 4 * q2 - 12
  let part2 := A2 * exp2 * (cos2 - 16 * q4)
  let part3_1 := 16 * exp * (cos + (1 - 2 * q2) * A * sin)
  let part3_2 := exp2 * ((1 - 3 * A2) / A * sin2 - 3 * cos2)
  let part3 := part3_1 + part3_2
  1 / (4 * q2 * w2) * (part1 + part2 + part3)

/-- `jnp.where(jnp.abs(x) < 1e-14, 0, x)` (`kernels/integrated.py:407-408`) -/
noncomputable def trunc (x : ℝ) : ℝ := if |x| < 1e-14 then 0 else x

open Classical in
/-- `IntegratedSHO.integrated_process_noise` (`kernels/integrated.py:361-421`), `Qaug12` -/
noncomputable def q12 (w q sigma : ℝ) (t1 t2 : ℝ) : Fin 2 → ℝ := fun a =>
  if ¬ SHO.isCritical q ∧ q > 0.5 then trunc (sigma ^ 2 * iQ12 w q (t2 - t1) a)
  else defaultQ12 (sho w q sigma) (0 : Fin 2) 0 (t2 - t1) a

open Classical in
/-- `IntegratedSHO.integrated_process_noise` (`kernels/integrated.py:361-421`), `Qaug22` -/
noncomputable def q22 (w q sigma : ℝ) (t1 t2 : ℝ) : ℝ :=
  if ¬ SHO.isCritical q ∧ q > 0.5 then trunc (sigma ^ 2 * max (iQ22 w q (t2 - t1)) 0)
  else defaultQ22 (sho w q sigma) (0 : Fin 2) 0 (t2 - t1)
end IntegratedSHO

/-- `IntegratedSHO` (`kernels/integrated.py:250-421`) -/
noncomputable def integratedSHO (omega quality sigma : ℝ) (m : ℕ) (name : String := "IntegratedSHO") : SSM :=
  integratedSSM name m (sho omega quality sigma) (0 : Fin 2) (IntegratedSHO.phibar omega quality)
    (IntegratedSHO.q12 omega quality sigma) (IntegratedSHO.q22 omega quality sigma)

/-- `state_coords = (t_states, instid, obsid, stateid)` of `IntegratedStateSpaceSolver` -/
structure StateCoords where
  t : Arr ℝ
  instid : Arr ℤ
  obsid : Arr ℕ
  stateid : Arr ℕ

/-- the unsorted event times: evens are exposure starts, odds are exposure ends (`solvers/integrated/solver.py:56-64`) -/
noncomputable def eventTimes (X : Arr Coord) : Arr ℝ :=
  ⟨2 * X.len, fun i => if i % 2 = 0 then (X.get (i / 2)).start else (X.get (i / 2)).stop⟩

/-- `jnp.tile(jnp.array([0, 1]), len(tmid))` (`solvers/integrated/solver.py:65`) -/
def eventKinds (X : Arr Coord) : Arr ℕ := ⟨2 * X.len, fun i => i % 2⟩

/-- `sortidx = jnp.lexsort((-stateid, t_states))` (`solvers/integrated/solver.py:68`) -/
noncomputable def eventOrder (X : Arr Coord) : Arr ℕ :=
  lexsort ((eventKinds X).map fun s : ℕ => -(s : ℤ)) (eventTimes X)

/-- `IntegratedStateSpaceSolver.__init__` (`solvers/integrated/solver.py:28-76`) -/
noncomputable def stateCoords (X : Arr Coord) : StateCoords :=
  let sortidx := eventOrder X
  { t := (eventTimes X).take sortidx
    instid := X.map Coord.inst
    obsid := ((Arr.arange X.len).repeat2).take sortidx
    stateid := (eventKinds X).take sortidx }

section
variable {n : Type} [Fintype n] [DecidableEq n]

/-- `step` of `integrated_kalman_filter` (`solvers/integrated/kalman.py:68-112`); `H` is `jax.vmap(H_aug)(X)`. -/
noncomputable def integratedKalmanStep (A Q : ℝ → ℝ → Matrix n n ℝ) (H : Arr (Matrix (Fin 1) n ℝ)) (reset : ℤ → Matrix n n ℝ)
    (R y : Arr ℝ) (sc : StateCoords) (carry : (n → ℝ) × Matrix n n ℝ) (k : ℕ) : ((n → ℝ) × Matrix n n ℝ) × FilterOut n :=
  let mPrev := carry.1
  let PPrev := carry.2
  let Δ := if k > 0 then sc.t.get k - sc.t.get (k - 1) else 0
  let i := sc.obsid.get k
  let Aprev := A 0 Δ
  let Qprev := Q 0 Δ
  let mPred := Aprev *ᵥ mPrev
  let PPred := Aprev * PPrev * Aprevᵀ + Qprev
  let out : FilterOut n :=
    if sc.stateid.get k = 0 then
      let Reset := reset (sc.instid.get i)
      { m := Reset *ᵥ mPred
        P := Reset * PPred * Resetᵀ
        mPred := mPred
        PPred := PPred
        v := 0
        S := 0 }
    else kalmanUpdate (H.get i) (R.get i) (y.get i) mPred PPred
  ((out.m, out.P), out)

/-- `integrated_kalman_filter` (`solvers/integrated/kalman.py:54-126`): the state arrays (the selection of `v` and `S` is
`selectEnds`). -/
noncomputable def integratedKalmanFilter (A Q : ℝ → ℝ → Matrix n n ℝ) (H : Arr (Matrix (Fin 1) n ℝ)) (reset : ℤ → Matrix n n ℝ)
    (R y : Arr ℝ) (sc : StateCoords) (m0 : n → ℝ) (P0 : Matrix n n ℝ) : Arr (FilterOut n) :=
  (scan (integratedKalmanStep A Q H reset R y sc) (m0, P0) (Arr.arange sc.t.len)).2

/-- `ends_idx = jnp.nonzero(stateid == 1, size=y.shape[0])[0]` (`solvers/integrated/kalman.py:122`) -/
def endsIdx (sc : StateCoords) (N : ℕ) : Arr ℕ := nonzeroSize sc.stateid.len (fun i => sc.stateid.get i == 1) N

/-- `step` of `integrated_rts_smoother` (`solvers/integrated/rts.py:53-96`) -/
noncomputable def integratedRtsStep (A : ℝ → ℝ → Matrix n n ℝ) (reset : ℤ → Matrix n n ℝ) (sc : StateCoords) (kf : Arr (FilterOut n))
    (carry : StateMP n) (k : ℕ) : StateMP n × StateMP n :=
  let m_k := (kf.get k).m
  let P_k := (kf.get k).P
  let mPredNext := (kf.get (k + 1)).mPred
  let PPredNext := (kf.get (k + 1)).PPred
  let Δ := sc.t.get (k + 1) - sc.t.get k
  let A_k := A 0 Δ
  let out : StateMP n :=
    if sc.stateid.get k = 0 then
      let mPre := (kf.get k).mPred
      let PPre := (kf.get k).PPred
      let Reset := reset (sc.instid.get (sc.obsid.get k))
      let AR := A_k * Reset
      let G := (solve PPredNextᵀ (PPre * ARᵀ)ᵀ)ᵀ
      { m := mPre + G *ᵥ (carry.m - mPredNext)
        P := PPre + G * (carry.P - PPredNext) * Gᵀ }
    else
      let G := (solve PPredNextᵀ (P_k * A_kᵀ)ᵀ)ᵀ
      { m := m_k + G *ᵥ (carry.m - mPredNext)
        P := P_k + G * (carry.P - PPredNext) * Gᵀ }
  (out, out)

/-- `integrated_rts_smoother` (`solvers/integrated/rts.py:33-110`) -/
noncomputable def integratedRtsSmoother (A : ℝ → ℝ → Matrix n n ℝ) (reset : ℤ → Matrix n n ℝ) (sc : StateCoords)
    (kf : Arr (FilterOut n)) : Arr (StateMP n) :=
  let final : StateMP n := ⟨kf.last.m, kf.last.P⟩
  let out := (scan (integratedRtsStep A reset sc kf) final (Arr.arangeDown sc.t.len)).2
  Arr.append (Arr.rev out) (Arr.single final)

end

/-- `IntegratedStateSpaceSolver.Kalman` (`solvers/integrated/solver.py:82-95`, `solvers/integrated/kalman.py:7-52`) -/
noncomputable def SSM.integratedKalman (k : SSM) (X : Arr Coord) (y R : Arr ℝ) : Arr (FilterOut k.n) :=
  integratedKalmanFilter k.At k.Qt (X.map fun x => k.obsModel x none) k.reset R y (stateCoords X) 0 k.Pinf

/-- `GaussianProcess.log_probability` (`gp.py:430-443`) with `IntegratedStateSpaceSolver`: `v`, `S` at the exposure ends
(`solvers/integrated/kalman.py:121-126`). -/
noncomputable def SSM.integratedLogProbability (k : SSM) (X : Arr Coord) (y R : Arr ℝ) : EReal :=
  let kf := k.integratedKalman X y R
  let ends := endsIdx (stateCoords X) y.len
  computeLogProb ((kf.map (·.v)).take ends) ((kf.map (·.S)).take ends)

/-- `IntegratedStateSpaceSolver.condition` (`solvers/integrated/solver.py:104-128`) -/
noncomputable def SSM.integratedCondition (k : SSM) (X : Arr Coord) (y R : Arr ℝ) : Arr (FilterOut k.n) × Arr (StateMP k.n) :=
  let kf := k.integratedKalman X y R
  (kf, integratedRtsSmoother k.At k.reset (stateCoords X) kf)

/-- `GaussianProcess.condition(y)` (`gp.py:445-576`, `X_test=None`) with `IntegratedStateSpaceSolver`. -/
noncomputable def SSM.integratedConditionedAtData (k : SSM) (X : Arr Coord) (y R : Arr ℝ) : Arr (ℝ × ℝ) :=
  let sc := stateCoords X
  projectAtData (fun x => k.obsModel x none) X sc.obsid sc.stateid (k.integratedCondition X y R).2

/-- `condGP.predict(X_test, return_var=True)` (`gp.py:655-686`) with `IntegratedStateSpaceSolver.predict`
(`solvers/integrated/solver.py:130-266`), which is the routine of `StateSpaceSolver.predict` with the event times in place of the
data times. -/
noncomputable def SSM.integratedPredictAt (k : SSM) (X : Arr Coord) (y R : Arr ℝ) (Xtest : Arr Coord) : Arr (ℝ × ℝ) :=
  let c := k.integratedCondition X y R
  let states := (Xtest.map Coord.sortable).map (ssPredictPoint k.At k.Qt k.Pinf (stateCoords X).t c.1 c.2)
  Xtest.map₂ (fun x s => ((k.obsModel x none *ᵥ s.m) 0,
    (k.obsModel x none * s.P * (k.obsModel x none)ᵀ) 0 0)) states

section
variable {n : Type} [Fintype n] [DecidableEq n]

/-- `to_end_params` (`solvers/integrated/parallel/kalman.py:147-177`): the formulas of `KElem.measure`, with `C` symmetrised and `J`
solved from `Hk @ Phi_dt`. -/
noncomputable def KElem.endElem (Phi Q : Matrix n n ℝ) (H : Matrix (Fin 1) n ℝ) (y r : ℝ) : KElem n :=
  let S : Matrix (Fin 1) (Fin 1) ℝ := Matrix.of fun i j => (H * Q * Hᵀ) i j + r
  let K := (solve Sᵀ (Q * Hᵀ)ᵀ)ᵀ
  let factor := 1 - K * H
  let C := factor * Q
  let a := Phiᵀ * Hᵀ
  { A := factor * Phi
    b := K *ᵥ (fun _ => y)
    C := (0.5 : ℝ) • (C + Cᵀ)
    eta := a *ᵥ solveVec S (fun _ => y)
    J := a * solve S (H * Phi) }

/-- `make_associative_params` (`solvers/integrated/parallel/kalman.py:86-222`); `inst` is the per-state instrument array `_instid`
(`solvers/integrated/parallel/solver.py:75-77`), `H` is `jax.vmap(H_aug)(X)`. -/
noncomputable def parIntParams (Phi Q : ℝ → ℝ → Matrix n n ℝ) (H : Arr (Matrix (Fin 1) n ℝ)) (reset : ℤ → Matrix n n ℝ) (R y : Arr ℝ)
    (sc : StateCoords) (inst : Arr ℤ) (m0 : n → ℝ) (P0 : Matrix n n ℝ) : Arr (KElem n) :=
  let tDelta := sc.t.diff
  let transition := reset (inst.get 0) * Phi 0 0
  let first : KElem n := ⟨reset (inst.get 0), transition *ᵥ m0, transition * P0 * transitionᵀ, 0, 0⟩
  Arr.append (Arr.single first)
    ⟨tDelta.len, fun i =>
      let PhiDt := Phi 0 (tDelta.get i)
      let QDt := Q 0 (tDelta.get i)
      let Reset := reset (inst.tail.get i)
      let o := sc.obsid.tail.get i
      if sc.stateid.tail.get i = 0 then ⟨Reset * PhiDt, 0, Reset * QDt * Resetᵀ, 0, 0⟩
      else KElem.endElem PhiDt QDt (H.get o) (y.get o) (R.get o)⟩

/-- `ParallelIntegratedKalmanFilter` (`solvers/integrated/parallel/kalman.py:7-83`) with `_calc_kf_predictions` (275-312): filtered
and predicted states. `v` and `S` are filled in by `_calc_vS` (314-353) for the end states only; here they are computed at every
state with the observation of that state, and selected at the ends by `parallelIntegratedLogProbability`. -/
noncomputable def parIntKalmanFilter (Phi Q : ℝ → ℝ → Matrix n n ℝ) (H : Arr (Matrix (Fin 1) n ℝ)) (reset : ℤ → Matrix n n ℝ)
    (R y : Arr ℝ) (sc : StateCoords) (inst : Arr ℤ) (m0 : n → ℝ) (P0 : Matrix n n ℝ) : Arr (FilterOut n) :=
  let s := associativeScan KElem.combine (parIntParams Phi Q H reset R y sc inst m0 P0)
  let b := s.map KElem.b
  let C := s.map KElem.C
  let tDelta := sc.t.diff
  let PhiAll := Arr.append (Arr.single (Phi 0 0)) (tDelta.map fun d => Phi 0 d)
  let QAll := Arr.append (Arr.single (Q 0 0)) (tDelta.map fun d => Q 0 d)
  let mPrev := Arr.append (Arr.single m0) b.init
  let PPrev := Arr.append (Arr.single P0) C.init
  ⟨b.len, fun k =>
    let mPred := PhiAll.get k *ᵥ mPrev.get k
    let PPred := PhiAll.get k * PPrev.get k * (PhiAll.get k)ᵀ + QAll.get k
    let o := sc.obsid.get k
    { m := b.get k
      P := C.get k
      mPred := mPred
      PPred := PPred
      v := fun i => y.get o - (H.get o *ᵥ mPred) i
      S := Matrix.of fun i j => (H.get o * PPred * (H.get o)ᵀ) i j + R.get o }⟩

/-- `ParallelIntegratedRTSSmoother` (`solvers/integrated/parallel/rts.py:7-50, 53-171`) -/
noncomputable def parIntRtsSmoother (Phi Q : ℝ → ℝ → Matrix n n ℝ) (reset : ℤ → Matrix n n ℝ) (sc : StateCoords) (inst : Arr ℤ)
    (kf : Arr (FilterOut n)) : Arr (StateMP n) :=
  let tDelta := sc.t.diff
  let elems : Arr (BElem n) := Arr.append
    ⟨tDelta.len, fun i =>
      let PhiDt := Phi 0 (tDelta.get i)
      let QDt := Q 0 (tDelta.get i)
      let Reset := reset (inst.init.get i)
      if sc.stateid.init.get i = 0 then BElem.generic (PhiDt * Reset) QDt (kf.get i).mPred (kf.get i).PPred
      else BElem.generic PhiDt QDt (kf.get i).m (kf.get i).P⟩
    (Arr.single (BElem.last kf.last.m kf.last.P))
  (associativeScan BElem.combine elems true).map fun e => ⟨e.g, e.L⟩

end

/-- `_instid = jnp.repeat(instid, repeats=2)[sortidx]` (`solvers/integrated/parallel/solver.py:75`) -/
noncomputable def perStateInst (X : Arr Coord) : Arr ℤ := ((X.map Coord.inst).repeat2).take (eventOrder X)

/-- `ParallelIntegratedStateSpaceSolver.Kalman` (`solvers/integrated/parallel/solver.py:83-96`) -/
noncomputable def SSM.parIntKalman (k : SSM) (X : Arr Coord) (y R : Arr ℝ) : Arr (FilterOut k.n) :=
  parIntKalmanFilter k.At k.Qt (X.map fun x => k.obsModel x none) k.reset R y (stateCoords X) (perStateInst X) 0 k.Pinf

/-- `GaussianProcess.log_probability` with `ParallelIntegratedStateSpaceSolver` -/
noncomputable def SSM.parallelIntegratedLogProbability (k : SSM) (X : Arr Coord) (y R : Arr ℝ) : EReal :=
  let kf := k.parIntKalman X y R
  let ends := endsIdx (stateCoords X) y.len
  computeLogProb ((kf.map (·.v)).take ends) ((kf.map (·.S)).take ends)

/-- `ParallelIntegratedStateSpaceSolver.condition` (`solvers/integrated/parallel/solver.py:109-134`) -/
noncomputable def SSM.parallelIntegratedCondition (k : SSM) (X : Arr Coord) (y R : Arr ℝ) : Arr (FilterOut k.n) × Arr (StateMP k.n) :=
  let kf := k.parIntKalman X y R
  (kf, parIntRtsSmoother k.At k.Qt k.reset (stateCoords X) (perStateInst X) kf)

/-- `GaussianProcess.condition(y)` with `ParallelIntegratedStateSpaceSolver` -/
noncomputable def SSM.parallelIntegratedConditionedAtData (k : SSM) (X : Arr Coord) (y R : Arr ℝ) : Arr (ℝ × ℝ) :=
  let sc := stateCoords X
  projectAtData (fun x => k.obsModel x none) X sc.obsid sc.stateid (k.parallelIntegratedCondition X y R).2

/-- `condGP.predict(X_test)` with `ParallelIntegratedStateSpaceSolver.predict` (`solvers/integrated/parallel/solver.py:136-285`), the same
routine as in the other solvers. -/
noncomputable def SSM.parallelIntegratedPredictAt (k : SSM) (X : Arr Coord) (y R : Arr ℝ) (Xtest : Arr Coord) : Arr (ℝ × ℝ) :=
  let c := k.parallelIntegratedCondition X y R
  let states := (Xtest.map Coord.sortable).map (ssPredictPoint k.At k.Qt k.Pinf (stateCoords X).t c.1 c.2)
  Xtest.map₂ (fun x s => ((k.obsModel x none *ᵥ s.m) 0,
    (k.obsModel x none * s.P * (k.obsModel x none)ᵀ) 0 0)) states

end Verif
