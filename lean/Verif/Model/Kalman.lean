import Verif.Model.Kernel

/-!
# Sequential Kalman filter (`/repo/src/smolgp/solvers/kalman.py`)
-/

namespace Verif
open Matrix

/-- `jnp.linalg.solve(a, b)` for matrices, in exact arithmetic. Theorems guard `a` invertible. -/
noncomputable def solve {n m : Type*} [Fintype n] [DecidableEq n] (a : Matrix n n ℝ)
    (b : Matrix n m ℝ) : Matrix n m ℝ := a⁻¹ * b

/-- `jnp.linalg.solve(a, b)` for a vector right-hand side. -/
noncomputable def solveVec {n : Type*} [Fintype n] [DecidableEq n] (a : Matrix n n ℝ)
    (b : n → ℝ) : n → ℝ := a⁻¹ *ᵥ b

/-- The per-step outputs `(m_k, P_k, m_pred, P_pred, v_k, S_k)` of the filter. -/
structure FilterOut (n : Type) where
  m : n → ℝ
  P : Matrix n n ℝ
  mPred : n → ℝ
  PPred : Matrix n n ℝ
  v : Fin 1 → ℝ
  S : Matrix (Fin 1) (Fin 1) ℝ

section
variable {n : Type} [Fintype n] [DecidableEq n]

/-- The measurement update, `solvers/kalman.py:89-102` (also `solvers/integrated/kalman.py:85-93`):
`y_pred = H @ m_pred; v = y - y_pred; S = H @ P_pred @ H.T + R; K = solve(S.T, (P_pred @ H.T).T).T;
m = m_pred + K @ v; P = P_pred - K @ S @ K.T`. Scalars `y[k]`, `R[k]` broadcast. -/
noncomputable def kalmanUpdate (H : Matrix (Fin 1) n ℝ) (R y : ℝ) (mPred : n → ℝ)
    (PPred : Matrix n n ℝ) : FilterOut n :=
  let yPred := H *ᵥ mPred
  let v : Fin 1 → ℝ := fun i => y - yPred i
  let S : Matrix (Fin 1) (Fin 1) ℝ := Matrix.of fun i j => (H * PPred * Hᵀ) i j + R
  let K := (solve Sᵀ (PPred * Hᵀ)ᵀ)ᵀ
  { m := mPred + K *ᵥ v
    P := PPred - K * S * Kᵀ
    mPred := mPred
    PPred := PPred
    v := v
    S := S }

/-- `step` of `kalman_filter` (`solvers/kalman.py:57-104`). -/
noncomputable def kalmanStep (A Q : ℝ → ℝ → Matrix n n ℝ) (H : ℝ → Matrix (Fin 1) n ℝ)
    (R t y : Arr ℝ) (carry : (n → ℝ) × Matrix n n ℝ) (k : ℕ) :
    ((n → ℝ) × Matrix n n ℝ) × FilterOut n :=
  let mPrev := carry.1
  let PPrev := carry.2
  let Δ := if k > 0 then t.get k - t.get (k - 1) else 0
  let Aprev := A 0 Δ
  let Qprev := Q 0 Δ
  let mPred := Aprev *ᵥ mPrev
  let PPred := Aprev * PPrev * Aprevᵀ + Qprev
  let out := kalmanUpdate (H (t.get k)) (R.get k) (y.get k) mPred PPred
  ((out.m, out.P), out)

/-- `kalman_filter` (`solvers/kalman.py:42-112`). -/
noncomputable def kalmanFilter (A Q : ℝ → ℝ → Matrix n n ℝ) (H : ℝ → Matrix (Fin 1) n ℝ)
    (R t y : Arr ℝ) (m0 : n → ℝ) (P0 : Matrix n n ℝ) : Arr (FilterOut n) :=
  (scan (kalmanStep A Q H R t y) (m0, P0) (Arr.arange t.len)).2

/-- A smoothed (or predicted) state: mean and covariance. -/
structure StateMP (n : Type) where
  m : n → ℝ
  P : Matrix n n ℝ

/-- `step` of `rts_smoother` (`solvers/rts.py:37-72`). -/
noncomputable def rtsStep (A : ℝ → ℝ → Matrix n n ℝ) (t : Arr ℝ) (kf : Arr (FilterOut n))
    (carry : StateMP n) (k : ℕ) : StateMP n × StateMP n :=
  let m_k := (kf.get k).m
  let P_k := (kf.get k).P
  let mPredNext := (kf.get (k + 1)).mPred
  let PPredNext := (kf.get (k + 1)).PPred
  let Δ := t.get (k + 1) - t.get k
  let A_k := A 0 Δ
  let G := (solve PPredNextᵀ (P_k * A_kᵀ)ᵀ)ᵀ
  let out : StateMP n :=
    { m := m_k + G *ᵥ (carry.m - mPredNext)
      P := P_k + G * (carry.P - PPredNext) * Gᵀ }
  (out, out)

/-- `rts_smoother` (`solvers/rts.py:26-86`): scan backwards from `N-2` to `0`, reverse, append the
final filtered state. -/
noncomputable def rtsSmoother (A : ℝ → ℝ → Matrix n n ℝ) (t : Arr ℝ) (kf : Arr (FilterOut n)) :
    Arr (StateMP n) :=
  let final : StateMP n := ⟨kf.last.m, kf.last.P⟩
  let out := (scan (rtsStep A t kf) final (Arr.arangeDown t.len)).2
  Arr.append (Arr.rev out) (Arr.single final)

/-- `StateSpaceSolver.predict` for one test point (`solvers/solver.py:96-232`); `A`, `Q` are
`kernel.transition_matrix` and `kernel.process_noise`, `Pinf` is `kernel.stationary_covariance()`. -/
noncomputable def ssPredictPoint (A Q : ℝ → ℝ → Matrix n n ℝ) (Pinf : Matrix n n ℝ)
    (t : Arr ℝ) (kf : Arr (FilterOut n)) (sm : Arr (StateMP n)) (tTest : ℝ) : StateMP n :=
  let K := t.len
  let m0 : n → ℝ := 0
  let kNext := searchsortedRight t tTest
  -- `kalman(k_prev, ktest)`
  let kalman (kPrev : ℕ) : StateMP n :=
    let dt := tTest - t.get kPrev
    let Astar := A 0 dt
    let Qstar := Q 0 dt
    { m := Astar *ᵥ (kf.get kPrev).m
      P := Astar * (kf.get kPrev).P * Astarᵀ + Qstar }
  -- `smooth(k_next, ktest, m_star_pred, P_star_pred)`
  let smooth (kNext : ℕ) (pred : StateMP n) : StateMP n :=
    let dt := t.get kNext - tTest
    let A_k := A 0 dt
    let G := (solve (kf.get kNext).PPredᵀ (pred.P * A_kᵀ)ᵀ)ᵀ
    { m := pred.m + G *ᵥ ((sm.get kNext).m - (kf.get kNext).mPred)
      P := pred.P + G * ((sm.get kNext).P - (kf.get kNext).PPred) * Gᵀ }
  -- `cases = past * 0 + during * 1 + future * 2`, `lax.switch`
  if kNext = 0 then smooth 0 ⟨m0, Pinf⟩
  else if K ≤ kNext then kalman (K - 1)
  else smooth kNext (kalman (kNext - 1))

end

/-- The kernel's `transition_matrix` called with plain scalars, as all solvers do. -/
def SSM.At (k : SSM) (t1 t2 : ℝ) : Matrix k.n k.n ℝ := k.A (.time t1) (.time t2)
/-- The kernel's `process_noise` called with plain scalars. -/
def SSM.Qt (k : SSM) (t1 t2 : ℝ) : Matrix k.n k.n ℝ := k.Q (.time t1) (.time t2)
/-- The kernel's `observation_model` called with a plain scalar and no component. -/
def SSM.Ht (k : SSM) (t : ℝ) : Matrix (Fin 1) k.n ℝ := k.obsModel (.time t) none

/-- `KalmanFilter` (`solvers/kalman.py:8-39`) as called by `StateSpaceSolver.Kalman`
(`solvers/solver.py:54-58`), which passes `self.t_states`. -/
noncomputable def SSM.kalman (k : SSM) (t y R : Arr ℝ) : Arr (FilterOut k.n) :=
  kalmanFilter k.At k.Qt k.Ht R t y 0 k.Pinf

/-- `RTSSmoother` (`solvers/rts.py:7-23`) as called by `StateSpaceSolver.RTS`. -/
noncomputable def SSM.rts (k : SSM) (t : Arr ℝ) (kf : Arr (FilterOut k.n)) : Arr (StateMP k.n) :=
  rtsSmoother k.At t kf

/-- `StateSpaceSolver.condition` (`solvers/solver.py:64-94`): predicted/filtered and smoothed states. -/
noncomputable def SSM.condition (k : SSM) (t y R : Arr ℝ) :
    Arr (FilterOut k.n) × Arr (StateMP k.n) :=
  let kf := k.kalman t y R
  (kf, k.rts t kf)

/-- `StateSpaceSolver.predict` (`solvers/solver.py:96-232`): vmap of the single-point routine. -/
noncomputable def SSM.predict (k : SSM) (t y R : Arr ℝ) (tTest : Arr ℝ) : Arr (StateMP k.n) :=
  let c := k.condition t y R
  tTest.map (ssPredictPoint k.At k.Qt k.Pinf t c.1 c.2)

end Verif
