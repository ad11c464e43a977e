import Verif.Lemmas.IntExact
import Verif.Lemmas.Congr
import Verif.Model.Integrated

/-!
# Runs of the integrated filters and smoothers that read the same things
-/

set_option linter.unusedSectionVars false

namespace Verif
open Matrix

/-- the first `i` outputs of the JAX scan read only the first `n` inputs -/
theorem assocScanGet_congr {α : Type*} (f : α → α → α) : ∀ (n : ℕ) (e e' : ℕ → α), (∀ i < n, e i = e' i) →
    ∀ i < n, assocScanGet f n e i = assocScanGet f n e' i := by
  intro n
  induction n using Nat.strong_induction_on with
  | _ n ih =>
    intro e e' h i hi
    rw [assocScanGet.eq_1 f n e, assocScanGet.eq_1 f n e']
    by_cases hn : n < 2
    · rw [dif_pos hn, dif_pos hn]; exact h i hi
    · rw [dif_neg hn, dif_neg hn]
      have ho := ih (n / 2) (by omega) (fun i => f (e (2 * i)) (e (2 * i + 1))) (fun i => f (e' (2 * i)) (e' (2 * i + 1)))
        (fun i hi => by rw [h _ (by omega), h _ (by omega)])
      simp only
      split_ifs with h1 h2
      · exact h 0 (by omega)
      · rw [ho _ (by omega), h _ (by omega)]
      · exact ho _ (by omega)

section
variable {n : Type} [Fintype n] [DecidableEq n]

/-- what the parallel filter puts together from a scanned element and a prediction -/
noncomputable def parOut (h : Matrix (Fin 1) n ℝ) (r y : ℝ) (e : KElem n) (mPred : n → ℝ) (PPred : Matrix n n ℝ) : FilterOut n where
  m := e.b
  P := e.C
  mPred := mPred
  PPred := PPred
  v := fun i => y - (h *ᵥ mPred) i
  S := Matrix.of fun i j => (h * PPred * hᵀ) i j + r

variable (A Q : ℝ → ℝ → Matrix n n ℝ) (H : Arr (Matrix (Fin 1) n ℝ)) (reset : ℤ → Matrix n n ℝ) (R y : Arr ℝ) (sc : StateCoords)
  (inst : Arr ℤ) (m0 : n → ℝ) (P0 : Matrix n n ℝ)

theorem parOut_zero : (parIntKalmanFilter A Q H reset R y sc inst m0 P0).get 0 =
    parOut (H.get (sc.obsid.get 0)) (R.get (sc.obsid.get 0)) (y.get (sc.obsid.get 0))
      ((associativeScan KElem.combine (parIntParams A Q H reset R y sc inst m0 P0)).get 0) (A 0 0 *ᵥ m0)
      (A 0 0 * P0 * (A 0 0)ᵀ + Q 0 0) := by
  unfold parIntKalmanFilter
  generalize associativeScan KElem.combine (parIntParams A Q H reset R y sc inst m0 P0) = s
  rfl

theorem parOut_succ (j : ℕ) : (parIntKalmanFilter A Q H reset R y sc inst m0 P0).get (j + 1) =
    parOut (H.get (sc.obsid.get (j + 1))) (R.get (sc.obsid.get (j + 1))) (y.get (sc.obsid.get (j + 1)))
      ((associativeScan KElem.combine (parIntParams A Q H reset R y sc inst m0 P0)).get (j + 1))
      (A 0 (sc.t.get (j + 1) - sc.t.get j) *ᵥ
        ((associativeScan KElem.combine (parIntParams A Q H reset R y sc inst m0 P0)).get j).b)
      (A 0 (sc.t.get (j + 1) - sc.t.get j) *
        ((associativeScan KElem.combine (parIntParams A Q H reset R y sc inst m0 P0)).get j).C *
        (A 0 (sc.t.get (j + 1) - sc.t.get j))ᵀ + Q 0 (sc.t.get (j + 1) - sc.t.get j)) := by
  unfold parIntKalmanFilter
  generalize associativeScan KElem.combine (parIntParams A Q H reset R y sc inst m0 P0) = s
  rfl

end

section
variable {n : Type} [Fintype n] [DecidableEq n]

/-- two event sequences which look the same to a solver in their first `K` events -/
structure SameEvents (K : ℕ) (sc sc' : StateCoords) (H H' : Arr (Matrix (Fin 1) n ℝ)) (R R' y y' : Arr ℝ) : Prop where
  t : ∀ i < K, sc.t.get i = sc'.t.get i
  kind : ∀ i < K, sc.stateid.get i = sc'.stateid.get i
  inst : ∀ i < K, sc.instid.get (sc.obsid.get i) = sc'.instid.get (sc'.obsid.get i)
  H : ∀ i < K, H.get (sc.obsid.get i) = H'.get (sc'.obsid.get i)
  R : ∀ i < K, R.get (sc.obsid.get i) = R'.get (sc'.obsid.get i)
  y : ∀ i < K, y.get (sc.obsid.get i) = y'.get (sc'.obsid.get i)

variable {K : ℕ} {sc sc' : StateCoords} {H H' : Arr (Matrix (Fin 1) n ℝ)} {R R' y y' : Arr ℝ} (h : SameEvents K sc sc' H H' R R' y y')
  {A Q : ℝ → ℝ → Matrix n n ℝ} {reset : ℤ → Matrix n n ℝ} {m0 : n → ℝ} {P0 : Matrix n n ℝ}
include h

theorem SameEvents.filter_of_pred {j : ℕ} (hj : j < K)
    (hm : ((integratedKalmanFilter A Q H reset R y sc m0 P0).get j).mPred =
      ((integratedKalmanFilter A Q H' reset R' y' sc' m0 P0).get j).mPred)
    (hP : ((integratedKalmanFilter A Q H reset R y sc m0 P0).get j).PPred =
      ((integratedKalmanFilter A Q H' reset R' y' sc' m0 P0).get j).PPred) :
    (integratedKalmanFilter A Q H reset R y sc m0 P0).get j = (integratedKalmanFilter A Q H' reset R' y' sc' m0 P0).get j := by
  rw [ikf_get A Q H, ikf_get A Q H', hm, hP, h.kind j hj, h.inst j hj, h.H j hj, h.R j hj, h.y j hj]

theorem SameEvents.filter {j : ℕ} (hj : j < K) :
    (integratedKalmanFilter A Q H reset R y sc m0 P0).get j = (integratedKalmanFilter A Q H' reset R' y' sc' m0 P0).get j := by
  induction j with
  | zero =>
    refine h.filter_of_pred hj ?_ ?_
    · rw [ikf_zero_m, ikf_zero_m]
    · rw [ikf_zero_P, ikf_zero_P]
  | succ j ih =>
    have e := ih (by omega)
    refine h.filter_of_pred hj ?_ ?_
    · rw [ikf_succ_m, ikf_succ_m, e, h.t _ hj, h.t j (by omega)]
    · rw [ikf_succ_P, ikf_succ_P, e, h.t _ hj, h.t j (by omega)]

theorem SameEvents.smoother {kf kf' : Arr (FilterOut n)} (hl : sc.t.len = K) (hl' : sc'.t.len = K) (hkl : kf.len = K)
    (hkl' : kf'.len = K) (hkf : ∀ i < K, kf.get i = kf'.get i) {j : ℕ} (hj : j < K) :
    (integratedRtsSmoother A reset sc kf).get j = (integratedRtsSmoother A reset sc' kf').get j := by
  obtain ⟨d, rfl⟩ : ∃ d, j = K - 1 - d := ⟨K - 1 - j, by omega⟩
  induction d with
  | zero =>
    have e1 := irts_last A reset sc kf
    have e2 := irts_last A reset sc' kf'
    rw [hl] at e1
    rw [hl'] at e2
    rw [Nat.sub_zero, e1, e2]
    have : kf.last = kf'.last := by
      unfold Arr.last
      rw [hkl, hkl']
      exact hkf _ (by omega)
    rw [this]
  | succ d ih =>
    by_cases hd : K - 1 - d = 0
    · have : K - 1 - (d + 1) = K - 1 - d := by omega
      rw [this]; exact ih (by omega)
    · have hk1 : K - 1 - (d + 1) + 1 = K - 1 - d := by omega
      set k := K - 1 - (d + 1) with hkdef
      have ih' := ih (by omega)
      rw [← hk1] at ih'
      rw [irts_step A reset sc kf k (by omega), irts_step A reset sc' kf' k (by omega), ih']
      unfold integratedRtsStep
      simp only [hkf k (by omega), hkf (k + 1) (by omega), h.t k (by omega), h.t (k + 1) (by omega), h.kind k (by omega),
        h.inst k (by omega)]

theorem SameEvents.parParams {inst inst' : Arr ℤ} (hi : ∀ j < K, inst.get j = inst'.get j) {j : ℕ} (hj : j < K) :
    (parIntParams A Q H reset R y sc inst m0 P0).get j = (parIntParams A Q H' reset R' y' sc' inst' m0 P0).get j := by
  cases j with
  | zero =>
    show KElem.mk (reset (inst.get 0)) _ _ _ _ = KElem.mk (reset (inst'.get 0)) _ _ _ _
    rw [hi 0 hj]
  | succ j =>
    show (if sc.stateid.get (j + 1) = 0 then
        ⟨reset (inst.get (j + 1)) * A 0 (sc.t.get (j + 1) - sc.t.get j), 0,
          reset (inst.get (j + 1)) * Q 0 (sc.t.get (j + 1) - sc.t.get j) * (reset (inst.get (j + 1)))ᵀ, 0, 0⟩
      else KElem.endElem (A 0 (sc.t.get (j + 1) - sc.t.get j)) (Q 0 (sc.t.get (j + 1) - sc.t.get j)) (H.get (sc.obsid.get (j + 1)))
        (y.get (sc.obsid.get (j + 1))) (R.get (sc.obsid.get (j + 1)))) =
      (if sc'.stateid.get (j + 1) = 0 then
        ⟨reset (inst'.get (j + 1)) * A 0 (sc'.t.get (j + 1) - sc'.t.get j), 0,
          reset (inst'.get (j + 1)) * Q 0 (sc'.t.get (j + 1) - sc'.t.get j) * (reset (inst'.get (j + 1)))ᵀ, 0, 0⟩
      else KElem.endElem (A 0 (sc'.t.get (j + 1) - sc'.t.get j)) (Q 0 (sc'.t.get (j + 1) - sc'.t.get j)) (H'.get (sc'.obsid.get (j + 1)))
        (y'.get (sc'.obsid.get (j + 1))) (R'.get (sc'.obsid.get (j + 1))))
    rw [hi _ hj, h.kind _ hj, h.t _ hj, h.t j (by omega), h.H _ hj, h.y _ hj, h.R _ hj]

theorem SameEvents.parFilter {inst inst' : Arr ℤ} (hi : ∀ j < K, inst.get j = inst'.get j) (hl : sc.t.len = K) (hl' : sc'.t.len = K)
    {j : ℕ} (hj : j < K) :
    (parIntKalmanFilter A Q H reset R y sc inst m0 P0).get j = (parIntKalmanFilter A Q H' reset R' y' sc' inst' m0 P0).get j := by
  have hp := fun j (hj : j < K) => h.parParams (A := A) (Q := Q) (reset := reset) (m0 := m0) (P0 := P0) hi hj
  have hlp : (parIntParams A Q H reset R y sc inst m0 P0).len = K := by show 1 + (sc.t.len - 1) = _; omega
  have hlp' : (parIntParams A Q H' reset R' y' sc' inst' m0 P0).len = K := by show 1 + (sc'.t.len - 1) = _; omega
  have hs : ∀ j < K, (associativeScan KElem.combine (parIntParams A Q H reset R y sc inst m0 P0)).get j =
      (associativeScan KElem.combine (parIntParams A Q H' reset R' y' sc' inst' m0 P0)).get j := by
    intro j hj
    show assocScanGet _ (parIntParams A Q H reset R y sc inst m0 P0).len (parIntParams A Q H reset R y sc inst m0 P0).get j =
      assocScanGet _ (parIntParams A Q H' reset R' y' sc' inst' m0 P0).len (parIntParams A Q H' reset R' y' sc' inst' m0 P0).get j
    rw [hlp, hlp']
    exact assocScanGet_congr _ _ _ _ hp _ hj
  cases j with
  | zero => rw [parOut_zero A Q H, parOut_zero A Q H', hs 0 hj, h.H _ hj, h.R _ hj, h.y _ hj]
  | succ j =>
    rw [parOut_succ A Q H, parOut_succ A Q H', hs _ hj, hs j (by omega), h.H _ hj, h.R _ hj, h.y _ hj, h.t _ hj, h.t j (by omega)]

theorem SameEvents.parSmoother {inst inst' : Arr ℤ} (hi : ∀ j < K, inst.get j = inst'.get j) {kf kf' : Arr (FilterOut n)}
    (hl : sc.t.len = K) (hl' : sc'.t.len = K) (hkl : kf.len = K)
    (hkl' : kf'.len = K) (hkf : ∀ i < K, kf.get i = kf'.get i) {j : ℕ} (hj : j < K) :
    (parIntRtsSmoother A Q reset sc inst kf).get j = (parIntRtsSmoother A Q reset sc' inst' kf').get j := by
  unfold parIntRtsSmoother
  have key : ∀ e e' : Arr (BElem n), e.len = K → e'.len = K → (∀ i < K, e.get i = e'.get i) →
      ((associativeScan BElem.combine e true).map fun e => (⟨e.g, e.L⟩ : StateMP n)).get j =
      ((associativeScan BElem.combine e' true).map fun e => (⟨e.g, e.L⟩ : StateMP n)).get j := by
    intro e e' he he' hee
    have hs : (associativeScan BElem.combine e true).get j = (associativeScan BElem.combine e' true).get j := by
      show assocScanGet _ e.len (Arr.rev e).get (e.len - 1 - j) = assocScanGet _ e'.len (Arr.rev e').get (e'.len - 1 - j)
      rw [he, he']
      refine assocScanGet_congr _ _ _ _ (fun i hi => ?_) _ (by omega)
      show e.get (e.len - 1 - i) = e'.get (e'.len - 1 - i)
      rw [he, he']
      exact hee _ (by omega)
    exact congrArg (fun e : BElem n => (⟨e.g, e.L⟩ : StateMP n)) hs
  refine key _ _ ?_ ?_ ?_
  · show (sc.t.len - 1) + 1 = K; omega
  · show (sc'.t.len - 1) + 1 = K; omega
  · intro i hik
    by_cases hi1 : i < K - 1
    · rw [Arr.append_get_lt _ _ (by show i < sc.t.len - 1; omega), Arr.append_get_lt _ _ (by show i < sc'.t.len - 1; omega)]
      show (if sc.stateid.get i = 0 then BElem.generic (A 0 (sc.t.get (i + 1) - sc.t.get i) * reset (inst.get i))
          (Q 0 (sc.t.get (i + 1) - sc.t.get i)) (kf.get i).mPred (kf.get i).PPred
        else BElem.generic (A 0 (sc.t.get (i + 1) - sc.t.get i)) (Q 0 (sc.t.get (i + 1) - sc.t.get i)) (kf.get i).m (kf.get i).P) =
        (if sc'.stateid.get i = 0 then BElem.generic (A 0 (sc'.t.get (i + 1) - sc'.t.get i) * reset (inst'.get i))
          (Q 0 (sc'.t.get (i + 1) - sc'.t.get i)) (kf'.get i).mPred (kf'.get i).PPred
        else BElem.generic (A 0 (sc'.t.get (i + 1) - sc'.t.get i)) (Q 0 (sc'.t.get (i + 1) - sc'.t.get i)) (kf'.get i).m (kf'.get i).P)
      rw [h.kind i hik, h.t i hik, h.t (i + 1) (by omega), hi i hik, hkf i hik]
    · rw [Arr.append_get_ge _ _ (by show sc.t.len - 1 ≤ i; omega), Arr.append_get_ge _ _ (by show sc'.t.len - 1 ≤ i; omega)]
      show BElem.last (kf.get (kf.len - 1)).m (kf.get (kf.len - 1)).P = BElem.last (kf'.get (kf'.len - 1)).m (kf'.get (kf'.len - 1)).P
      rw [hkl, hkl', hkf _ (by omega)]

end

end Verif
