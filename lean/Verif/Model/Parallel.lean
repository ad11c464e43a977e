import Verif.Model.GPCore

/-!
# The parallel solver (`/repo/src/smolgp/solvers/parallel/*.py`)

`jnp.squeeze` of a vector of length at least two does nothing. For kernels with a one-dimensional state it removes the state axis and
the following matrix products fail; see `Model/GP.lean` for that branch. The definitions below are the values computed when
nothing fails.
-/

namespace Verif
open Matrix

section
variable {n : Type} [Fintype n] [DecidableEq n]

/-- `(A, b, C, eta, J)`, one element of the filtering scan -/
structure KElem (n : Type) where
  A : Matrix n n ℝ
  b : n → ℝ
  C : Matrix n n ℝ
  eta : n → ℝ
  J : Matrix n n ℝ

/-- `make_first_params` (`solvers/parallel/kalman.py:52-76`). -/
noncomputable def KElem.first (Phi : ℝ → ℝ → Matrix n n ℝ) (H : ℝ → Matrix (Fin 1) n ℝ) (m0 : n → ℝ) (P0 : Matrix n n ℝ)
    (y0 r0 : ℝ) : KElem n :=
  let Phi0 := Phi 0 0
  let H0 := H 0
  let m := Phi0 *ᵥ m0
  let P := Phi0 * P0 * Phi0ᵀ
  let S : Matrix (Fin 1) (Fin 1) ℝ := Matrix.of fun i j => (H0 * P * H0ᵀ) i j + r0
  let K := (solve Sᵀ (P * H0ᵀ)ᵀ)ᵀ
  let M := Phi0ᵀ * H0ᵀ
  { A := 0
    b := m + K *ᵥ (fun i => y0 - (H0 *ᵥ m) i)
    C := P - K * S * Kᵀ
    eta := M *ᵥ solveVec S (fun _ => y0)
    J := M * solve S Mᵀ }

/-- `make_generic_params` (`solvers/parallel/kalman.py:76-99`) for given `Phi_dt`, `Q_dt`, `Hk`. -/
noncomputable def KElem.measure (Phi Q : Matrix n n ℝ) (H : Matrix (Fin 1) n ℝ) (y r : ℝ) : KElem n :=
  let S : Matrix (Fin 1) (Fin 1) ℝ := Matrix.of fun i j => (H * Q * Hᵀ) i j + r
  let K := (solve Sᵀ (Q * Hᵀ)ᵀ)ᵀ
  let M := Phiᵀ * Hᵀ
  { A := (1 - K * H) * Phi
    b := K *ᵥ (fun _ => y)
    C := (1 - K * H) * Q
    eta := M *ᵥ solveVec S (fun _ => y)
    J := M * solve S Mᵀ }

/-- `_combine_per_pair` (`solvers/parallel/kalman.py:124-148`; the integrated copy,
`solvers/integrated/parallel/kalman.py:226-249`, is identical). -/
noncomputable def KElem.combine (l r : KElem n) : KElem n :=
  let D := 1 + l.C * r.J
  let E := 1 + r.J * l.C
  let Cij := r.A * solve D l.C * r.Aᵀ + r.C
  let Jij := l.Aᵀ * solve E r.J * l.A + l.J
  { A := r.A * solve D l.A
    b := r.A *ᵥ solveVec D (l.b + l.C *ᵥ r.eta) + r.b
    C := (0.5 : ℝ) • (Cij + Cijᵀ)
    eta := l.Aᵀ *ᵥ solveVec E (r.eta - r.J *ᵥ l.b) + l.eta
    J := (0.5 : ℝ) • (Jij + Jijᵀ) }

/-- `make_associative_params` (`solvers/parallel/kalman.py:44-120`). -/
noncomputable def parallelParams (Phi Q : ℝ → ℝ → Matrix n n ℝ) (H : ℝ → Matrix (Fin 1) n ℝ) (R t y : Arr ℝ) (m0 : n → ℝ)
    (P0 : Matrix n n ℝ) : Arr (KElem n) :=
  let tDelta := t.diff
  Arr.append (Arr.single (KElem.first Phi H m0 P0 (y.get 0) (R.get 0)))
    ⟨tDelta.len, fun i => KElem.measure (Phi 0 (tDelta.get i)) (Q 0 (tDelta.get i)) (H (tDelta.get i)) (y.tail.get i) (R.tail.get i)⟩

/-- `parallel_kalman_filter` (`solvers/parallel/kalman.py:151-168`). -/
noncomputable def parallelKalmanScan (p : Arr (KElem n)) : Arr (KElem n) := associativeScan KElem.combine p

/-- `postprocess` (`solvers/parallel/kalman.py:171-229`); `HX` is `jax.vmap(H)(X)`. -/
noncomputable def parallelPost (Phi Q : ℝ → ℝ → Matrix n n ℝ) (HX : Arr (Matrix (Fin 1) n ℝ)) (R t y : Arr ℝ)
    (b : Arr (n → ℝ)) (C : Arr (Matrix n n ℝ)) (m0 : n → ℝ) (P0 : Matrix n n ℝ) : Arr (FilterOut n) :=
  let tDelta := t.diff
  let PhiAll := Arr.append (Arr.single (1 : Matrix n n ℝ)) (tDelta.map fun d => Phi 0 d)
  let QAll := Arr.append (Arr.single (0 : Matrix n n ℝ)) (tDelta.map fun d => Q 0 d)
  let mPrev := Arr.append (Arr.single m0) b.init
  let PPrev := Arr.append (Arr.single P0) C.init
  ⟨b.len, fun k =>
    let mPred := PhiAll.get k *ᵥ mPrev.get k
    let PPred := PhiAll.get k * PPrev.get k * (PhiAll.get k)ᵀ + QAll.get k
    { m := b.get k
      P := C.get k
      mPred := mPred
      PPred := PPred
      v := fun i => y.get k - (HX.get k *ᵥ mPred) i
      S := Matrix.of fun i j => (HX.get k * PPred * (HX.get k)ᵀ) i j + R.get k }⟩

/-- `ParallelKalmanFilter` (`solvers/parallel/kalman.py:7-41`). -/
noncomputable def parallelKalmanFilter (Phi Q : ℝ → ℝ → Matrix n n ℝ) (H : ℝ → Matrix (Fin 1) n ℝ) (HX : Arr (Matrix (Fin 1) n ℝ))
    (R t y : Arr ℝ) (m0 : n → ℝ) (P0 : Matrix n n ℝ) : Arr (FilterOut n) :=
  let s := parallelKalmanScan (parallelParams Phi Q H R t y m0 P0)
  parallelPost Phi Q HX R t y (s.map KElem.b) (s.map KElem.C) m0 P0

/-- `(E, g, L)`, one element of the smoothing scan -/
structure BElem (n : Type) where
  E : Matrix n n ℝ
  g : n → ℝ
  L : Matrix n n ℝ

/-- `make_last_params` (`solvers/parallel/rts.py:40-41`) -/
def BElem.last (mu : n → ℝ) (P : Matrix n n ℝ) : BElem n := ⟨0, mu, P⟩

/-- `make_generic_params` (`solvers/parallel/rts.py:43-55`) for given `Phi_dt`, `Q_dt`; also
`solvers/integrated/parallel/rts.py:96-103`. -/
noncomputable def BElem.generic (Phi Q : Matrix n n ℝ) (mu : n → ℝ) (P : Matrix n n ℝ) : BElem n :=
  let A := Phi * P * Phiᵀ + Q
  let b := P * Phiᵀ
  let E := (solve Aᵀ bᵀ)ᵀ
  { E := E
    g := mu - E *ᵥ (Phi *ᵥ mu)
    L := P - E * Phi * P }

/-- `_combine_per_pair` (`solvers/parallel/rts.py:78-87`; `solvers/integrated/parallel/rts.py:137-146` is identical) -/
def BElem.combine (l r : BElem n) : BElem n :=
  { E := r.E * l.E
    g := r.E *ᵥ l.g + r.g
    L := r.E * l.L * r.Eᵀ + r.L }

/-- `make_associative_params` (`solvers/parallel/rts.py:34-75`). -/
noncomputable def parallelRtsParams (Phi Q : ℝ → ℝ → Matrix n n ℝ) (t : Arr ℝ) (mu : Arr (n → ℝ)) (P : Arr (Matrix n n ℝ)) :
    Arr (BElem n) :=
  let tDelta := t.diff
  Arr.append ⟨tDelta.len, fun i => BElem.generic (Phi 0 (tDelta.get i)) (Q 0 (tDelta.get i)) (mu.init.get i) (P.init.get i)⟩
    (Arr.single (BElem.last mu.last P.last))

/-- `ParallelRTSSmoother` (`solvers/parallel/rts.py:7-31, 90-105`); the solver keeps `g` and `L` (`solvers/parallel/solver.py:77`). -/
noncomputable def parallelRtsSmoother (Phi Q : ℝ → ℝ → Matrix n n ℝ) (t : Arr ℝ) (mu : Arr (n → ℝ)) (P : Arr (Matrix n n ℝ)) :
    Arr (StateMP n) :=
  (associativeScan BElem.combine (parallelRtsParams Phi Q t mu P) true).map fun e => ⟨e.g, e.L⟩

end

/-- `ParallelStateSpaceSolver.Kalman` (`solvers/parallel/solver.py:48-52`); `t = coord_to_sortable(X)`. -/
noncomputable def SSM.parallelKalman (k : SSM) (X : Arr Coord) (y R : Arr ℝ) : Arr (FilterOut k.n) :=
  parallelKalmanFilter k.At k.Qt k.Ht (X.map fun x => k.obsModel x none) R (X.map Coord.sortable) y 0 k.Pinf

/-- `ParallelStateSpaceSolver.condition` (`solvers/parallel/solver.py:58-86`): predicted/filtered and smoothed states. -/
noncomputable def SSM.parallelCondition (k : SSM) (X : Arr Coord) (y R : Arr ℝ) : Arr (FilterOut k.n) × Arr (StateMP k.n) :=
  let kf := k.parallelKalman X y R
  (kf, parallelRtsSmoother k.At k.Qt (X.map Coord.sortable) (kf.map (·.m)) (kf.map (·.P)))

/-- `GaussianProcess.log_probability` with `ParallelStateSpaceSolver`. -/
noncomputable def SSM.parallelLogProbability (k : SSM) (X : Arr Coord) (y R : Arr ℝ) : EReal :=
  let kf := k.parallelKalman X y R
  computeLogProb (kf.map (·.v)) (kf.map (·.S))

/-- `GaussianProcess.condition(y)` with `ParallelStateSpaceSolver` (`gp.py:445-576`, `X_test=None`). -/
noncomputable def SSM.parallelConditionedAtData (k : SSM) (X : Arr Coord) (y R : Arr ℝ) : Arr (ℝ × ℝ) :=
  projectAtData (fun x => k.obsModel x none) X (Arr.arange X.len) ⟨X.len, fun _ => 1⟩ (k.parallelCondition X y R).2

/-- `condGP.predict(X_test)` with `ParallelStateSpaceSolver` (`gp.py:655-686`, `solvers/parallel/solver.py:88-257`). The code
subtracts `self.X[k]` and `X_test[k]` themselves; for the plain time arrays this solver is given they are the times, and the routine
is the one of `StateSpaceSolver.predict` line by line. -/
noncomputable def SSM.parallelPredictAt (k : SSM) (X : Arr Coord) (y R : Arr ℝ) (Xtest : Arr Coord) : Arr (ℝ × ℝ) :=
  let t := X.map Coord.sortable
  let c := k.parallelCondition X y R
  let states := (Xtest.map Coord.sortable).map (ssPredictPoint k.At k.Qt k.Pinf t c.1 c.2)
  Xtest.map₂ (fun x s => ((k.obsModel x none *ᵥ s.m) 0,
    (k.obsModel x none * s.P * (k.obsModel x none)ᵀ) 0 0)) states

end Verif
