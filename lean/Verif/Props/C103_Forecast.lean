import Verif.Props.C101_ParallelAny
import Verif.Props.C89_Innovations

/-!
# C103: forecasts and likelihood fit together for every kernel

C75 shows this where the solver is exact. Here the kernel is any tree without exposure integration, exact or not, the earlier data are in
any order, and the noise has any sign: the further measurement only has to come last.
-/

namespace Verif
open Matrix Kern Spec

/-- The data `X'`, `R'`, `y'` are the data `X`, `R`, `y` followed by one more, which is not earlier than any of them. -/
structure Spec.LaterDatum (X : Arr Coord) (R y : Arr ℝ) (X' : Arr Coord) (R' y' : Arr ℝ) : Prop where
  len : X'.len = X.len + 1
  time : ∀ i < X.len, (X'.get i).sortable = (X.get i).sortable
  noise : ∀ i < X.len, R'.get i = R.get i
  value : ∀ i < X.len, y'.get i = y.get i
  late : ∀ i < X.len, (X.get i).sortable ≤ (X'.get X.len).sortable

section core
variable {k : SSM} {X X' : Arr Coord} {R R' y y' : Arr ℝ}

theorem searchsorted_all {t : Arr ℝ} {x : ℝ} (h : ∀ i < t.len, t.get i ≤ x) : searchsortedRight t x = t.len := by
  unfold searchsortedRight
  rw [List.filter_eq_self.2 fun i hi => by simpa using h i (List.mem_range.1 hi), List.length_range]

/-- the filter of the longer data agrees with that of the shorter ones, as far as these go -/
theorem Spec.LaterDatum.filter (h : LaterDatum X R y X' R' y') {i : ℕ} (hi : i < X.len) :
    (k.kalman (X'.map Coord.sortable) y' R').get i = (k.kalman (X.map Coord.sortable) y R).get i :=
  C18_filter_causal k _ _ _ _ _ _ i (fun j hj => h.time j (by omega)) (fun j hj => h.value j (by omega)) (fun j hj => h.noise j (by omega))

/-- the state predicted at the time of the further datum is the one the filter predicts for it -/
theorem Spec.LaterDatum.predict (h : LaterDatum X R y X' R' y') (hN : 0 < X.len) (sm : Arr (StateMP k.n)) :
    ssPredictPoint k.At k.Qt k.Pinf (X.map Coord.sortable) (k.kalman (X.map Coord.sortable) y R) sm (X'.get X.len).sortable =
      ⟨((k.kalman (X'.map Coord.sortable) y' R').get X.len).mPred, ((k.kalman (X'.map Coord.sortable) y' R').get X.len).PPred⟩ := by
  rw [predict_branches _ _ _ _ _ _ _ X.len (searchsorted_all (t := X.map Coord.sortable) h.late), if_neg (by omega),
    if_pos (show (X.map Coord.sortable).len ≤ X.len from le_rfl)]
  have r := kf_run k.At k.Qt k.Ht R' (X'.map Coord.sortable) y' k.Pinf
  obtain ⟨N, hNe⟩ : ∃ N, X.len = N + 1 := ⟨X.len - 1, by omega⟩
  have h1 := r.succ_m N
  have h2 := r.succ_P N
  have hf := h.filter (k := k) (i := N) (by omega)
  have ht := h.time N (by omega)
  change ((k.kalman (X'.map Coord.sortable) y' R').get (N + 1)).mPred = k.At 0 ((X'.get (N + 1)).sortable - (X'.get N).sortable) *ᵥ
    ((k.kalman (X'.map Coord.sortable) y' R').get N).m at h1
  change ((k.kalman (X'.map Coord.sortable) y' R').get (N + 1)).PPred = k.At 0 ((X'.get (N + 1)).sortable - (X'.get N).sortable) *
    ((k.kalman (X'.map Coord.sortable) y' R').get N).P * (k.At 0 ((X'.get (N + 1)).sortable - (X'.get N).sortable))ᵀ +
    k.Qt 0 ((X'.get (N + 1)).sortable - (X'.get N).sortable) at h2
  rw [hf, ht] at h1 h2
  rw [show (X.map Coord.sortable).len = N + 1 from hNe, hNe, h1, h2]
  rfl

/-- the log likelihood with one more datum -/
theorem Spec.LaterDatum.logProb (h : LaterDatum X R y X' R' y') :
    k.logProbability (X'.map Coord.sortable) y' R' =
      if 0 < ((k.kalman (X'.map Coord.sortable) y' R').get X.len).S 0 0 then
        k.logProbability (X.map Coord.sortable) y R +
          ((normalLogDensity (((k.kalman (X'.map Coord.sortable) y' R').get X.len).S 0 0)
            (((k.kalman (X'.map Coord.sortable) y' R').get X.len).v 0) : ℝ) : EReal)
      else ⊥ := by
  set kf' := k.kalman (X'.map Coord.sortable) y' R' with hkf'
  set kf := k.kalman (X.map Coord.sortable) y R with hkf
  have hl' : (kf'.map FilterOut.v).len = X.len + 1 := h.len
  have hl : (kf.map FilterOut.v).len = X.len := rfl
  have e : ∀ i < X.len, kf'.get i = kf.get i := fun i hi => h.filter hi
  show computeLogProb (kf'.map FilterOut.v) (kf'.map FilterOut.S) = if 0 < (kf'.get X.len).S 0 0 then
    computeLogProb (kf.map FilterOut.v) (kf.map FilterOut.S) + _ else ⊥
  by_cases hpos : 0 < (kf'.get X.len).S 0 0
  · rw [if_pos hpos]
    by_cases hall : ∀ i < X.len, 0 < (kf.get i).S 0 0
    · have hall' : ∀ i < (kf'.map FilterOut.v).len, 0 < ((kf'.map FilterOut.S).get i) 0 0 := by
        intro i hi
        rw [hl'] at hi
        show 0 < (kf'.get i).S 0 0
        rcases Nat.lt_succ_iff_lt_or_eq.1 hi with hi | rfl
        · rw [e i hi]; exact hall i hi
        · exact hpos
      rw [computeLogProb_of_pos _ _ hall', computeLogProb_of_pos _ _ hall, hl', hl, Finset.sum_range_succ, ← EReal.coe_add]
      have hs : ∀ i ∈ Finset.range X.len,
          (((kf'.map FilterOut.v).get i) 0 / √(((kf'.map FilterOut.S).get i) 0 0)) ^ 2 +
            2 * Real.log √(((kf'.map FilterOut.S).get i) 0 0) + 1 * Real.log (2 * Real.pi) =
          (((kf.map FilterOut.v).get i) 0 / √(((kf.map FilterOut.S).get i) 0 0)) ^ 2 +
            2 * Real.log √(((kf.map FilterOut.S).get i) 0 0) + 1 * Real.log (2 * Real.pi) := fun i hi => by
        show ((kf'.get i).v 0 / √((kf'.get i).S 0 0)) ^ 2 + 2 * Real.log √((kf'.get i).S 0 0) + _ = _
        rw [e i (Finset.mem_range.1 hi)]
        rfl
      rw [Finset.sum_congr rfl hs, mul_add, ← normalLogDensity_cholesky hpos]
      rfl
    · rw [computeLogProb_of_not_pos (kf.map FilterOut.v) (kf.map FilterOut.S) hall, EReal.bot_add]
      refine computeLogProb_of_not_pos _ _ fun hall' => hall fun i hi => ?_
      have := hall' i (by rw [hl']; omega)
      change 0 < (kf'.get i).S 0 0 at this
      rwa [e i hi] at this
  · rw [if_neg hpos]
    exact computeLogProb_of_not_pos _ _ fun hall' => hpos (hall' X.len (by rw [hl']; omega))

/-- the measured combination of the state, before and after the measurement -/
theorem update_row {n : Type} [Fintype n] [DecidableEq n] {H : Matrix (Fin 1) n ℝ} {R y : ℝ} {m : n → ℝ} {P : Matrix n n ℝ}
    (hS : (H * P * Hᵀ) 0 0 + R ≠ 0) :
    (H *ᵥ (kalmanUpdate H R y m P).m) 0 = (H *ᵥ m) 0 + (H * P * Hᵀ) 0 0 / ((H * P * Hᵀ) 0 0 + R) * (y - (H *ᵥ m) 0) ∧
      (H * (kalmanUpdate H R y m P).P * Hᵀ) 0 0 = (H * P * Hᵀ) 0 0 * R / ((H * P * Hᵀ) 0 0 + R) := by
  have hK : (H * gain H R y m P) 0 0 = (H * P * Hᵀ) 0 0 / ((H * P * Hᵀ) 0 0 + R) := by
    have h1 : (H * gain H R y m P) 0 0 * ((H * P * Hᵀ) 0 0 + R) = (H * (P * Hᵀ)) 0 0 := by
      generalize hs : (H * P * Hᵀ) 0 0 + R = s at hS ⊢
      rw [Matrix.mul_apply, Finset.sum_mul, Matrix.mul_apply]
      refine Finset.sum_congr rfl fun a _ => ?_
      rw [mul_assoc, ← hs, gain_apply H R y m P a (hs ▸ hS)]
    rw [eq_div_iff hS, h1, Matrix.mul_assoc]
  constructor
  · have e : (kalmanUpdate H R y m P).m = m + gain H R y m P *ᵥ fun _ => y - (H *ᵥ m) 0 := by
      rw [update_m]
      funext a
      simp [mulVec, dotProduct]
    rw [e, mulVec_add, mulVec_mulVec, Pi.add_apply, ← hK]
    simp [mulVec, dotProduct]
  · have e : (kalmanUpdate H R y m P).P = P - gain H R y m P * (kalmanUpdate H R y m P).S * (gain H R y m P)ᵀ := rfl
    have e2 : H * (P - gain H R y m P * (kalmanUpdate H R y m P).S * (gain H R y m P)ᵀ) * Hᵀ =
        H * P * Hᵀ - (H * gain H R y m P) * (kalmanUpdate H R y m P).S * (H * gain H R y m P)ᵀ := by
      rw [Matrix.mul_sub, Matrix.sub_mul, transpose_mul]
      simp only [Matrix.mul_assoc]
    have e3 : ((H * gain H R y m P) * (kalmanUpdate H R y m P).S * (H * gain H R y m P)ᵀ) 0 0 =
        (H * gain H R y m P) 0 0 * (kalmanUpdate H R y m P).S 0 0 * (H * gain H R y m P) 0 0 := by
      rw [Matrix.mul_apply, Fin.sum_univ_one, Matrix.mul_apply, Fin.sum_univ_one, Matrix.transpose_apply]
    rw [e, e2, Matrix.sub_apply, e3, hK, update_S]
    field_simp
    ring

end core

section interface
variable {kernel : Kern} {X X' : XArg} {diag diag' : Option (ℝ ⊕ Arr ℝ)} {mean mean' : Option (Coord → ℝ)} {u u' : Bool}
  {gp gp' g g' : GP} {y y' : Arr ℝ} {lp lp' : EReal}

/-- what `predict` returns at the time of the further datum -/
theorem forecast_facts (hk : kernel.Instant) (hnew : GP.new kernel X diag mean (some .stateSpace) u = .ok gp) (hN : 0 < X.coords.len)
    (hd : LaterDatum X.coords (GP.noiseOf X.len diag) y X'.coords (GP.noiseOf X'.len diag') y') (hc : gp.condition y = .ok (lp, g))
    {Xt : XArg} {r : Arr ℝ × Arr ℝ} (hp : g.predict (some Xt) = .ok r) {n : ℕ}
    (hn : (Xt.coords.get n).sortable = (X'.coords.get X.coords.len).sortable) : g.kernel.SameButNames kernel ∧ g.kernel.model.Rest ∧
      lp = g.kernel.model.logProbability (X.coords.map Coord.sortable) y (GP.noiseOf X.len diag) ∧
      r.1.get n = (g.kernel.model.Ht 0 *ᵥ
        ((g.kernel.model.kalman (X'.coords.map Coord.sortable) y' (GP.noiseOf X'.len diag')).get X.coords.len).mPred) 0 ∧
      r.2.get n = (g.kernel.model.Ht 0 *
        ((g.kernel.model.kalman (X'.coords.map Coord.sortable) y' (GP.noiseOf X'.len diag')).get X.coords.len).PPred *
        (g.kernel.model.Ht 0)ᵀ) 0 0 := by
  obtain ⟨-, hs0, -, -, -, -, -, hs1, -⟩ := GP.new_ok hnew
  obtain ⟨-, hl, -, hs2, -, -, -, -, -, hso, hst, -⟩ := GP.condition_ok hc
  have hs := hs2.trans hs0
  have hrest := hk.rest.strip hs.strip
  refine ⟨hs, hrest, ?_, ?_⟩
  · rw [hl, logProb_of_same hs0, ← logProb_of_same hs, hs1]
    rfl
  · have hrow : g.kernel.model.obsModel (Xt.coords.get n) none = g.kernel.model.Ht 0 := hrest.row _
    have h := hd.predict (k := g.kernel.model) hN (g.kernel.model.condition (X.coords.map Coord.sortable) y (GP.noiseOf X.len diag)).2
    have h2 : (g.kernel.model.projectTest (g.kernel.model.states .stateSpace X.coords y (GP.noiseOf X.len diag))
          (fun x => g.kernel.model.obsModel x none) Xt.coords).get n =
        ((g.kernel.model.Ht 0 *ᵥ
            ((g.kernel.model.kalman (X'.coords.map Coord.sortable) y' (GP.noiseOf X'.len diag')).get X.coords.len).mPred) 0,
          (g.kernel.model.Ht 0 *
            ((g.kernel.model.kalman (X'.coords.map Coord.sortable) y' (GP.noiseOf X'.len diag')).get X.coords.len).PPred *
            (g.kernel.model.Ht 0)ᵀ) 0 0) := by
      rw [projectTest_point, hrow, hn]
      exact congrArg (fun s : StateMP g.kernel.model.n => ((g.kernel.model.Ht 0 *ᵥ s.m) 0,
        (g.kernel.model.Ht 0 * s.P * (g.kernel.model.Ht 0)ᵀ) 0 0)) h
    rw [GP.predict_rows hst hp, hso, hs1]
    exact ⟨congrArg Prod.fst h2, congrArg Prod.snd h2⟩

/-- **C103, likelihood.** With a further measurement at or after the last one, `log_probability` changes by the log density of the
measurement in the forecast: mean and variance returned by `predict`, the latter plus the noise variance. If that variance is not
positive, the result is minus infinity. -/
theorem C103_predictive_density (hk : kernel.Instant) (hnew : GP.new kernel X diag mean (some .stateSpace) u = .ok gp)
    (hnew' : GP.new kernel X' diag' mean' (some .stateSpace) u' = .ok gp') (hN : 0 < X.coords.len)
    (hd : LaterDatum X.coords (GP.noiseOf X.len diag) y X'.coords (GP.noiseOf X'.len diag') y') (hc : gp.condition y = .ok (lp, g))
    {Xt : XArg} {r : Arr ℝ × Arr ℝ} (hp : g.predict (some Xt) = .ok r) {n : ℕ}
    (hn : (Xt.coords.get n).sortable = (X'.coords.get X.coords.len).sortable) (hl' : gp'.logProbability y' = .ok lp') :
    lp' = if 0 < r.2.get n + (GP.noiseOf X'.len diag').get X.coords.len then
        lp + ((normalLogDensity (r.2.get n + (GP.noiseOf X'.len diag').get X.coords.len) (y'.get X.coords.len - r.1.get n) : ℝ) : EReal)
      else ⊥ := by
  obtain ⟨hs, hrest, e, h1, h2⟩ := forecast_facts hk hnew hN hd hc hp hn
  obtain ⟨-, hs0', -, -, -, -, -, hs1', -⟩ := GP.new_ok hnew'
  have e' : lp' = g.kernel.model.logProbability (X'.coords.map Coord.sortable) y' (GP.noiseOf X'.len diag') := by
    unfold GP.logProbability at hl'
    split at hl'
    · cases hl'
    · injection hl' with hl'
      rw [← hl', logProb_of_same hs0', ← logProb_of_same hs, hs1']
      rfl
  have hH : g.kernel.model.Ht ((X'.coords.map Coord.sortable).get X.coords.len) = g.kernel.model.Ht 0 := hrest.row _
  have hupd := (kf_run g.kernel.model.At g.kernel.model.Qt g.kernel.model.Ht (GP.noiseOf X'.len diag') (X'.coords.map Coord.sortable) y'
    g.kernel.model.Pinf).upd X.coords.len
  change (g.kernel.model.kalman (X'.coords.map Coord.sortable) y' (GP.noiseOf X'.len diag')).get X.coords.len = kalmanUpdate _ _ _
    ((g.kernel.model.kalman (X'.coords.map Coord.sortable) y' (GP.noiseOf X'.len diag')).get X.coords.len).mPred
    ((g.kernel.model.kalman (X'.coords.map Coord.sortable) y' (GP.noiseOf X'.len diag')).get X.coords.len).PPred at hupd
  rw [hH] at hupd
  have hS : ((g.kernel.model.kalman (X'.coords.map Coord.sortable) y' (GP.noiseOf X'.len diag')).get X.coords.len).S 0 0 =
      r.2.get n + (GP.noiseOf X'.len diag').get X.coords.len := by
    rw [h2, hupd]
    rfl
  have hv : ((g.kernel.model.kalman (X'.coords.map Coord.sortable) y' (GP.noiseOf X'.len diag')).get X.coords.len).v 0 =
      y'.get X.coords.len - r.1.get n := by
    rw [h1, hupd]
    rfl
  rw [e', e, hd.logProb, hS, hv]

/-- **C103, conditioning.** `condition` with the further measurement returns, at it, the forecast updated by Bayes' rule. -/
theorem C103_update (hk : kernel.Instant) (hnew : GP.new kernel X diag mean (some .stateSpace) u = .ok gp)
    (hnew' : GP.new kernel X' diag' mean' (some .stateSpace) u' = .ok gp') (hN : 0 < X.coords.len)
    (hd : LaterDatum X.coords (GP.noiseOf X.len diag) y X'.coords (GP.noiseOf X'.len diag') y') (hc : gp.condition y = .ok (lp, g))
    {Xt : XArg} {r : Arr ℝ × Arr ℝ} (hp : g.predict (some Xt) = .ok r) {n : ℕ}
    (hn : (Xt.coords.get n).sortable = (X'.coords.get X.coords.len).sortable)
    (h0 : r.2.get n + (GP.noiseOf X'.len diag').get X.coords.len ≠ 0) (hc' : gp'.condition y' = .ok (lp', g')) :
    g'.mean.get X.coords.len = r.1.get n + r.2.get n / (r.2.get n + (GP.noiseOf X'.len diag').get X.coords.len) *
      (y'.get X.coords.len - r.1.get n) ∧ ∃ var, g'.var = some var ∧ var.get X.coords.len =
        r.2.get n * (GP.noiseOf X'.len diag').get X.coords.len / (r.2.get n + (GP.noiseOf X'.len diag').get X.coords.len) := by
  obtain ⟨hs, hrest, e, h1, h2⟩ := forecast_facts hk hnew hN hd hc hp hn
  obtain ⟨-, -, -, -, -, -, hm', hv', -⟩ := GP.condition_ok hc'
  set k := g.kernel.model with hkd
  set R' := GP.noiseOf X'.len diag' with hR'
  set N := X.coords.len with hNd
  have hN' : N < X'.coords.len := by rw [hd.len]; exact Nat.lt_succ_self _
  have hH : k.Ht ((X'.coords.map Coord.sortable).get N) = k.Ht 0 := hrest.row _
  have hupd := (kf_run k.At k.Qt k.Ht R' (X'.coords.map Coord.sortable) y' k.Pinf).upd N
  change (k.kalman (X'.coords.map Coord.sortable) y' R').get N = kalmanUpdate (k.Ht ((X'.coords.map Coord.sortable).get N)) (R'.get N)
    (y'.get N) ((k.kalman (X'.coords.map Coord.sortable) y' R').get N).mPred ((k.kalman (X'.coords.map Coord.sortable) y' R').get N).PPred at hupd
  rw [hH] at hupd
  have hlast : (k.condition (X'.coords.map Coord.sortable) y' R').2.get N =
      ⟨((k.kalman (X'.coords.map Coord.sortable) y' R').get N).m, ((k.kalman (X'.coords.map Coord.sortable) y' R').get N).P⟩ := by
    have := rts_last (A := k.At) (t := X'.coords.map Coord.sortable) (kf := k.kalman (X'.coords.map Coord.sortable) y' R')
    have e1 : (X'.coords.map Coord.sortable).len - 1 = N := by
      show X'.coords.len - 1 = N
      rw [hd.len]; rfl
    have e2 : (k.kalman (X'.coords.map Coord.sortable) y' R').last = (k.kalman (X'.coords.map Coord.sortable) y' R').get N :=
      congrArg (k.kalman (X'.coords.map Coord.sortable) y' R').get e1
    rw [e1, e2] at this
    exact this
  have key : (gp'.atData y').get N =
      ((k.Ht 0 *ᵥ ((k.kalman (X'.coords.map Coord.sortable) y' R').get N).m) 0,
        (k.Ht 0 * ((k.kalman (X'.coords.map Coord.sortable) y' R').get N).P * (k.Ht 0)ᵀ) 0 0) := by
    rw [atData_of_new hnew', ← SSM.strip_projectData, ← hs.strip, SSM.strip_projectData]
    refine (projectData_get k X'.coords y' R' (fun x => k.obsModel x none) hN').trans ?_
    rw [hlast, show k.obsModel (X'.coords.get N) none = k.Ht 0 from hrest.row _]
  rw [h2] at h0
  obtain ⟨f1, f2⟩ := update_row (y := y'.get N) (m := ((k.kalman (X'.coords.map Coord.sortable) y' R').get N).mPred) h0
  rw [← hupd, ← h1, ← h2] at f1
  rw [← hupd, ← h2] at f2
  refine ⟨?_, _, hv', ?_⟩
  · rw [hm']
    exact (congrArg Prod.fst key).trans f1
  · exact (congrArg Prod.snd key).trans f2

end interface

/-- an oscillator of amplitude below the cut-off, for which the solver is not exact (C28), data in any order, and a later measurement -/
example (t y' : Arr ℝ) (ht : 1 < t.len) (x r : ℝ) (hx : ∀ i < t.len, t.get i ≤ x) : ∃ gp gp' lp lp' g mu var,
    GP.new (.sho 1 1 1e-8 "osc") (.times t) (some (.inl r)) none (some .stateSpace) true = .ok gp ∧
    GP.new (.sho 1 1 1e-8 "osc") (.times ⟨t.len + 1, fun i => if i < t.len then t.get i else x⟩) (some (.inl r)) none (some .stateSpace) true =
      .ok gp' ∧ gp.condition ⟨t.len, y'.get⟩ = .ok (lp, g) ∧ g.predict (some (.times ⟨1, fun _ => x⟩)) = .ok (mu, var) ∧
    gp'.logProbability y' = .ok lp' ∧
    lp' = if 0 < var.get 0 + r then lp + ((normalLogDensity (var.get 0 + r) (y'.get t.len - mu.get 0) : ℝ) : EReal) else ⊥ := by
  have hc : ¬ SHO.isCritical 1 := by unfold SHO.isCritical; norm_num [abs_of_pos]
  have hk : (Kern.sho 1 1 1e-8 "osc").AnyDamping := .sho one_pos (by norm_num) hc (by norm_num)
  have hi : (Kern.sho 1 1 1e-8 "osc").Instant := fun h => by cases h with | here h => cases h
  have hn : (Kern.sho 1 1 1e-8 "osc").componentNames.Nodup := by simp [Kern.componentNames, Kern.extractLeafKernels, Kern.name]
  obtain ⟨gp, hnew, hcd⟩ := C97_succeeds hk (solver := some .stateSpace) (.inl (.inr rfl)) hn t (some (.inl r)) none
  obtain ⟨gp', hnew', -⟩ := C97_succeeds hk (solver := some .stateSpace) (.inl (.inr rfl)) hn
    ⟨t.len + 1, fun i => if i < t.len then t.get i else x⟩ (some (.inl r)) none
  obtain ⟨⟨lp, g⟩, hcond⟩ := hcd (by omega) ⟨t.len, y'.get⟩
  obtain ⟨mu, var, hp⟩ : ∃ mu var, g.predict (some (.times ⟨1, fun _ => x⟩)) = .ok (mu, var) := by
    obtain ⟨-, hs0, -, -, -, -, -, hs', -⟩ := GP.new_ok hnew
    obtain ⟨hrun, -, -, hs, -, -, -, -, -, hsol', hst, -⟩ := GP.condition_ok hcond
    have hrun' : g.runError = none := by
      rw [← hrun]
      unfold GP.runError
      rw [hsol', hs.transitionError]
    rw [hs'] at hsol'
    have hkind' : ¬ (g.solver.kind = .parallel ∧ (g.solver.X.isTuple = true ∨ (XArg.times ⟨1, fun _ => x⟩).isTuple = true)) := by
      rw [hsol']; rintro ⟨-, h | h⟩ <;> cases h
    have ho : g.kernel.obsError (.times ⟨1, fun _ => x⟩) = none := by rw [(hs.trans hs0).obsError]; exact hk.obsError _
    unfold GP.predict
    simp only [hst, GP.predictConditioned, hrun', if_neg hkind', ho]
    exact ⟨_, _, rfl⟩
  have e' := logProbability_of_new hnew' y' rfl
  have hd : LaterDatum (XArg.times t).coords (GP.noiseOf (XArg.times t).len (some (.inl r))) ⟨t.len, y'.get⟩
      (XArg.times ⟨t.len + 1, fun i => if i < t.len then t.get i else x⟩).coords
      (GP.noiseOf (XArg.times ⟨t.len + 1, fun i => if i < t.len then t.get i else x⟩).len (some (.inl r))) y' :=
    { len := rfl
      time := fun i hi => if_pos hi
      noise := fun _ _ => rfl
      value := fun _ _ => rfl
      late := fun i hi => (hx i hi).trans_eq (if_neg (lt_irrefl t.len)).symm }
  exact ⟨gp, gp', lp, _, g, mu, var, hnew, hnew', hcond, hp, e', C103_predictive_density hi hnew hnew' (by show 0 < t.len; omega) hd hcond hp
    (n := 0) (if_neg (lt_irrefl t.len)).symm e'⟩

end Verif
