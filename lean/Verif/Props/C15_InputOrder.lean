import Verif.Lemmas.IntCongr
import Verif.Props.C12_ParallelIntegrated
import Mathlib.Data.Finset.Sort

/-!
# C15: the order in which exposures are listed does not matter

For any kernel at all: the solvers process the events in time order, and the results are put back in the order of the input.
-/

set_option linter.unusedSectionVars false

namespace Verif
open Matrix Spec

/-- the measurements of `(X', y', R')` are those of `(X, y, R)`, listed in another order: number `n` of the one is number `σ n` of the
other -/
structure Relisted (σ : ℕ → ℕ) (X X' : Arr Coord) (y y' R R' : Arr ℝ) : Prop where
  len : X'.len = X.len
  ylen : y'.len = y.len
  lt : ∀ n < X.len, σ n < X.len
  inj : ∀ a < X.len, ∀ b < X.len, σ a = σ b → a = b
  coord : ∀ n < X.len, X'.get n = X.get (σ n)
  datum : ∀ n < X.len, y'.get n = y.get (σ n)
  noise : ∀ n < X.len, R'.get n = R.get (σ n)

/-- no two exposures start at the same time and no two end at the same time (an end may coincide with a start) -/
structure DistinctEvents (X : Arr Coord) : Prop where
  start : ∀ a < X.len, ∀ b < X.len, (X.get a).sortable - (X.get a).delta / 2 = (X.get b).sortable - (X.get b).delta / 2 → a = b
  stop : ∀ a < X.len, ∀ b < X.len, (X.get a).sortable + (X.get a).delta / 2 = (X.get b).sortable + (X.get b).delta / 2 → a = b

/-- time first, ends before starts -/
noncomputable def eventKey (X : Arr Coord) (e : ℕ) : ℝ ×ₗ ℤ := toLex ((eventTimes X).get e, -((e % 2 : ℕ) : ℤ))

theorem DistinctEvents.key {X : Arr Coord} (h : DistinctEvents X) {a b : ℕ} (ha : a < 2 * X.len) (hb : b < 2 * X.len)
    (hab : eventKey X a = eventKey X b) : a = b := by
  have h1 := congrArg (fun z => (ofLex z).1) hab
  have h2 := congrArg (fun z => (ofLex z).2) hab
  simp only [eventKey, ofLex_toLex] at h1 h2
  have h2' : a % 2 = b % 2 := by omega
  rcases Nat.mod_two_eq_zero_or_one a with h0 | h0
  · obtain ⟨c, rfl⟩ : ∃ c, a = 2 * c := ⟨a / 2, by omega⟩
    obtain ⟨d, rfl⟩ : ∃ d, b = 2 * d := ⟨b / 2, by omega⟩
    rw [eventTimes_start, eventTimes_start] at h1
    rw [h.start c (by omega) d (by omega) h1]
  · obtain ⟨c, rfl⟩ : ∃ c, a = 2 * c + 1 := ⟨a / 2, by omega⟩
    obtain ⟨d, rfl⟩ : ∃ d, b = 2 * d + 1 := ⟨b / 2, by omega⟩
    rw [eventTimes_stop, eventTimes_stop] at h1
    rw [h.stop c (by omega) d (by omega) h1]

section
variable {σ : ℕ → ℕ} {X X' : Arr Coord} {y y' R R' : Arr ℝ} (h : Relisted σ X X' y y' R R') (hd : DistinctEvents X)
include h

/-- the event of `X` which an event of `X'` is -/
theorem Relisted.key {e : ℕ} (he : e < 2 * X.len) : eventKey X' e = eventKey X (2 * σ (e / 2) + e % 2) := by
  have hm : (2 * σ (e / 2) + e % 2) % 2 = e % 2 := by omega
  have hd : (2 * σ (e / 2) + e % 2) / 2 = σ (e / 2) := by omega
  unfold eventKey
  rw [hm]
  congr 2
  unfold eventTimes
  simp only [hm, hd]
  rw [h.coord _ (by omega)]

include hd

theorem Relisted.ev {k : ℕ} (hk : k < 2 * X.len) : ev X k = 2 * σ (ev X' k / 2) + ev X' k % 2 := by
  have hlt : ∀ k < 2 * X.len, Verif.ev X' k < 2 * X.len := fun k hk => by
    have := ev_lt (X := X') (k := k) (by rw [h.len]; exact hk)
    rwa [h.len] at this
  have hlt' : ∀ k < 2 * X.len, 2 * σ (Verif.ev X' k / 2) + Verif.ev X' k % 2 < 2 * X.len := fun k hk => by
    have := h.lt (Verif.ev X' k / 2) (by have := hlt k hk; omega)
    omega
  have mono : ∀ (Y : Arr Coord) (f : ℕ → ℕ), Y.len = X.len → (∀ k < 2 * X.len, eventKey Y (Verif.ev Y k) = eventKey X (f k)) →
      (∀ k < 2 * X.len, f k < 2 * X.len) →
      (∀ i < 2 * X.len, ∀ j < 2 * X.len, f i = f j → i = j) → StrictMono fun k : Fin (2 * X.len) => eventKey X (f k) := by
    intro Y f hY hkey hf hinj i j hij
    have hij' : (i : ℕ) < j := hij
    have hle : eventKey X (f i) ≤ eventKey X (f j) := by
      rw [← hkey i i.2, ← hkey j j.2]
      unfold eventKey
      rw [Prod.Lex.toLex_le_toLex]
      rcases ev_sorted (X := Y) hij' (by rw [hY]; exact j.2) with h1 | ⟨h1, h2⟩
      · exact Or.inl h1
      · exact Or.inr ⟨h1, by show -((Verif.ev Y i % 2 : ℕ) : ℤ) ≤ -((Verif.ev Y j % 2 : ℕ) : ℤ); omega⟩
    refine lt_of_le_of_ne hle fun he => ?_
    have := hinj _ i.2 _ j.2 (hd.key (hf _ i.2) (hf _ j.2) he)
    omega
  have hinj' : ∀ i < 2 * X.len, ∀ j < 2 * X.len,
      2 * σ (Verif.ev X' i / 2) + Verif.ev X' i % 2 = 2 * σ (Verif.ev X' j / 2) + Verif.ev X' j % 2 → i = j := by
    intro i hi j hj hij
    have h1 := hlt i hi
    have h2 := hlt j hj
    have h3 := h.inj (Verif.ev X' i / 2) (by omega) (Verif.ev X' j / 2) (by omega) (by omega)
    exact ev_inj (X := X') (by rw [h.len]; exact hi) (by rw [h.len]; exact hj) (by omega)
  have m1 := mono X (Verif.ev X) rfl (fun _ _ => rfl) (fun _ hk => ev_lt hk) (fun i hi j hj hij => ev_inj hi hj hij)
  have m2 := mono X' (fun k => 2 * σ (Verif.ev X' k / 2) + Verif.ev X' k % 2) h.len (fun k hk => h.key (hlt k hk)) hlt' hinj'
  set s := Finset.univ.image fun k : Fin (2 * X.len) => eventKey X (Verif.ev X k) with hs
  have hc : s.card = 2 * X.len := by
    rw [hs, Finset.card_image_of_injective _ m1.injective, Finset.card_univ, Fintype.card_fin]
  have e1 := Finset.orderEmbOfFin_unique hc (fun x => Finset.mem_image.2 ⟨x, Finset.mem_univ _, rfl⟩) m1
  have e2 := Finset.orderEmbOfFin_unique hc (fun x => by
    obtain ⟨k, hk, he⟩ := ev_surj (X := X) (hlt' x x.2)
    exact Finset.mem_image.2 ⟨⟨k, hk⟩, Finset.mem_univ _, by rw [he]⟩) m2
  exact hd.key (ev_lt hk) (hlt' k hk) (congrFun (e1.trans e2.symm) ⟨k, hk⟩)

theorem Relisted.obsid {j : ℕ} (hj : j < 2 * X.len) :
    (stateCoords X).obsid.get j = σ ((stateCoords X').obsid.get j) ∧ (stateCoords X').obsid.get j < X.len ∧
    (stateCoords X).stateid.get j = (stateCoords X').stateid.get j := by
  have := h.ev hd hj
  have hlt := ev_lt (X := X') (k := j) (by rw [h.len]; exact hj)
  rw [h.len] at hlt
  rw [sc_obsid, sc_obsid, sc_stateid, sc_stateid]
  refine ⟨by omega, by omega, by omega⟩

theorem Relisted.same (k : SSM) : SameEvents (2 * X.len) (stateCoords X') (stateCoords X) (X'.map fun x => k.obsModel x none)
    (X.map fun x => k.obsModel x none) R' R y' y where
  t i hi := by
    rw [sc_t, sc_t, h.ev hd hi]
    have hlt := ev_lt (X := X') (k := i) (by rw [h.len]; exact hi)
    rw [h.len] at hlt
    exact congrArg (fun z => (ofLex z).1) (h.key hlt)
  kind i hi := ((h.obsid hd hi).2.2).symm
  inst i hi := by
    obtain ⟨h1, h2, -⟩ := h.obsid hd hi
    rw [sc_instid, sc_instid, h1, h.coord _ h2]
  H i hi := by
    obtain ⟨h1, h2, -⟩ := h.obsid hd hi
    show k.obsModel (X'.get _) none = k.obsModel (X.get _) none
    rw [h1, h.coord _ h2]
  R i hi := by
    obtain ⟨h1, h2, -⟩ := h.obsid hd hi
    rw [h1, h.noise _ h2]
  y i hi := by
    obtain ⟨h1, h2, -⟩ := h.obsid hd hi
    rw [h1, h.datum _ h2]

theorem Relisted.ends : endsIdx (stateCoords X') X'.len = endsIdx (stateCoords X) X.len := by
  unfold endsIdx
  rw [sc_stateid_len, sc_stateid_len, h.len]
  unfold nonzeroSize
  have : List.filter (fun i => (stateCoords X').stateid.get i == 1) (List.range (2 * X.len)) =
      List.filter (fun i => (stateCoords X).stateid.get i == 1) (List.range (2 * X.len)) :=
    List.filter_congr fun i hi => by rw [((h.obsid hd (List.mem_range.1 hi)).2.2)]
  rw [this]

theorem Relisted.endStep {n : ℕ} (hn : n < X.len) : endStep X' n = endStep X (σ n) := by
  have hn' : n < X'.len := by rw [h.len]; exact hn
  have h1 := endStep_lt hn'
  have h2 := ev_endStep hn'
  rw [h.len] at h1
  refine endStep_unique (h.lt n hn) h1 ?_
  rw [h.ev hd h1, h2]
  have : (2 * n + 1) / 2 = n := by omega
  rw [this]
  omega

end

theorem ssPredictPoint_congr_times {n : Type} [Fintype n] [DecidableEq n] (A Q : ℝ → ℝ → Matrix n n ℝ) (P : Matrix n n ℝ) (t t' : Arr ℝ)
    (kf kf' : Arr (FilterOut n)) (sm sm' : Arr (StateMP n)) (hN : 0 < t.len) (hl : t'.len = t.len) (ht : ∀ j < t.len, t'.get j = t.get j)
    (hf : ∀ j < t.len, kf'.get j = kf.get j) (hs : ∀ j < t.len, sm'.get j = sm.get j) (x : ℝ) :
    ssPredictPoint A Q P t' kf' sm' x = ssPredictPoint A Q P t kf sm x := by
  have e : searchsortedRight t' x = searchsortedRight t x := by
    unfold searchsortedRight
    rw [hl]
    exact congrArg List.length (List.filter_congr fun i hi => by rw [ht i (List.mem_range.1 hi)])
  rw [predict_branches A Q P t kf sm x _ rfl, predict_branches A Q P t' kf' sm' x _ rfl, e, hl]
  generalize searchsortedRight t x = j
  by_cases h0 : j = 0
  · rw [if_pos h0, if_pos h0, hf 0 hN, hs 0 hN, ht 0 hN]
  rw [if_neg h0, if_neg h0]
  by_cases h1 : t.len ≤ j
  · rw [if_pos h1, if_pos h1, hf (t.len - 1) (by omega), ht (t.len - 1) (by omega)]
  rw [if_neg h1, if_neg h1, hf (j - 1) (by omega), hf j (by omega), hs j (by omega), ht j (by omega), ht (j - 1) (by omega)]

section
variable {σ : ℕ → ℕ} {X X' : Arr Coord} {y y' R R' : Arr ℝ}

/-- **C15, likelihood.** Relisting the measurements (with their data and noise variances) does not change the log-likelihood; for every
kernel and every schedule with distinct event times. -/
theorem C15_likelihood (k : SSM) (h : Relisted σ X X' y y' R R') (hd : DistinctEvents X) (hy : y.len = X.len) :
    k.integratedLogProbability X' y' R' = k.integratedLogProbability X y R := by
  have hs := h.same hd k
  unfold SSM.integratedLogProbability
  have e := h.ends hd
  have hy' : y'.len = X'.len := by rw [h.ylen, hy, h.len]
  rw [hy, hy', e]
  have hg : ∀ i < X.len, (k.integratedKalman X' y' R').get ((endsIdx (stateCoords X) X.len).get i) =
      (k.integratedKalman X y R).get ((endsIdx (stateCoords X) X.len).get i) := fun i hi => hs.filter (endsIdx_spec hi).1
  refine computeLogProb_congr rfl (fun i hi => ?_) (fun i hi => ?_)
  · exact congrArg FilterOut.v (hg i hi)
  · exact congrArg FilterOut.S (hg i hi)

theorem Relisted.smoothed (k : SSM) (h : Relisted σ X X' y y' R R') (hd : DistinctEvents X) {j : ℕ} (hj : j < 2 * X.len) :
    (k.integratedCondition X' y' R').2.get j = (k.integratedCondition X y R).2.get j := by
  have hs := h.same hd k
  have l1 : (k.integratedKalman X' y' R').len = 2 * X.len := by
    have : (k.integratedKalman X' y' R').len = (stateCoords X').t.len := rfl
    rw [this, sc_len, h.len]
  have l2 : (k.integratedKalman X y R).len = 2 * X.len := by
    have : (k.integratedKalman X y R).len = (stateCoords X).t.len := rfl
    rw [this, sc_len]
  exact hs.smoother (by rw [sc_len, h.len]) sc_len l1 l2 (fun i hi => hs.filter hi) hj

/-- **C15, conditioned rows.** Row `n` of the relisted data set is row `σ n` of the original one. -/
theorem C15_conditioned (k : SSM) (h : Relisted σ X X' y y' R R') (hd : DistinctEvents X) (n : ℕ) (hn : n < X.len) :
    (k.integratedConditionedAtData X' y' R').get n = (k.integratedConditionedAtData X y R).get (σ n) := by
  have hn' : n < X'.len := by rw [h.len]; exact hn
  rw [C14_results_in_input_order k X' y' R' n _ hn' ((isEnd_iff hn').2 rfl),
    C14_results_in_input_order k X y R (σ n) _ (h.lt n hn) ((isEnd_iff (h.lt n hn)).2 rfl), h.endStep hd hn, h.coord n hn,
    h.smoothed k hd (endStep_lt (h.lt n hn))]

/-- **C15, predictions.** -/
theorem C15_predict (k : SSM) (h : Relisted σ X X' y y' R R') (hd : DistinctEvents X) (hN : 0 < X.len) (Xtest : Arr Coord) :
    (k.integratedPredictAt X' y' R' Xtest).Same (k.integratedPredictAt X y R Xtest) := by
  have hs := h.same hd k
  refine ⟨(integratedPredictAt_len k X' y' R' Xtest).trans (integratedPredictAt_len k X y R Xtest).symm, fun i _ => ?_⟩
  rw [integratedPredictAt_get k X' y' R' Xtest i _ rfl, integratedPredictAt_get k X y R Xtest i _ rfl,
    ssPredictPoint_congr_times _ _ _ (stateCoords X).t _ (k.integratedCondition X y R).1 _ (k.integratedCondition X y R).2 _
      (by rw [sc_len]; omega) (by rw [sc_len, sc_len, h.len]) ?_ ?_ ?_]
  · intro j hj
    exact hs.t j (by rw [← sc_len]; exact hj)
  · intro j hj
    exact hs.filter (by rw [← sc_len]; exact hj)
  · intro j hj
    exact h.smoothed k hd (by rw [← sc_len]; exact hj)

/-! ### the parallel solver -/

theorem Relisted.inst (h : Relisted σ X X' y y' R R') (hd : DistinctEvents X) (j : ℕ) (hj : j < 2 * X.len) :
    (perStateInst X').get j = (perStateInst X).get j := by
  rw [perStateInst_get, perStateInst_get]
  obtain ⟨h1, h2, -⟩ := h.obsid hd hj
  rw [sc_instid, sc_instid, h1, h.coord _ h2]

theorem Relisted.parFiltered (k : SSM) (h : Relisted σ X X' y y' R R') (hd : DistinctEvents X) {j : ℕ} (hj : j < 2 * X.len) :
    (k.parIntKalman X' y' R').get j = (k.parIntKalman X y R).get j :=
  (h.same hd k).parFilter (h.inst hd) (by rw [sc_len, h.len]) sc_len hj

theorem parIntKalman_len (k : SSM) (X : Arr Coord) (y R : Arr ℝ) (hN : 0 < X.len) : (k.parIntKalman X y R).len = 2 * X.len := by
  have := parIntParams_len k.At k.Qt (X.map fun x => k.obsModel x none) k.reset R y (stateCoords X) (perStateInst X) 0 k.Pinf
    (by rw [sc_len]; omega)
  rw [sc_len] at this
  exact this

theorem Relisted.parSmoothed (k : SSM) (h : Relisted σ X X' y y' R R') (hd : DistinctEvents X) {j : ℕ} (hj : j < 2 * X.len) :
    (k.parallelIntegratedCondition X' y' R').2.get j = (k.parallelIntegratedCondition X y R).2.get j := by
  have l1 := parIntKalman_len k X' y' R' (by rw [h.len]; omega)
  rw [h.len] at l1
  exact (h.same hd k).parSmoother (h.inst hd) (by rw [sc_len, h.len]) sc_len l1 (parIntKalman_len k X y R (by omega))
    (fun i hi => h.parFiltered k hd hi) hj

/-- **C15, the parallel integrated solver.** -/
theorem C15_parallel (k : SSM) (h : Relisted σ X X' y y' R R') (hd : DistinctEvents X) (hN : 0 < X.len) (hy : y.len = X.len) :
    k.parallelIntegratedLogProbability X' y' R' = k.parallelIntegratedLogProbability X y R ∧
    (∀ n < X.len, (k.parallelIntegratedConditionedAtData X' y' R').get n = (k.parallelIntegratedConditionedAtData X y R).get (σ n)) ∧
    ∀ Xtest, (k.parallelIntegratedPredictAt X' y' R' Xtest).Same (k.parallelIntegratedPredictAt X y R Xtest) := by
  refine ⟨?_, fun n hn => ?_, fun Xtest => ?_⟩
  · unfold SSM.parallelIntegratedLogProbability
    have e := h.ends hd
    have hy' : y'.len = X'.len := by rw [h.ylen, hy, h.len]
    rw [hy, hy', e]
    have hg : ∀ i < X.len, (k.parIntKalman X' y' R').get ((endsIdx (stateCoords X) X.len).get i) =
        (k.parIntKalman X y R).get ((endsIdx (stateCoords X) X.len).get i) := fun i hi => h.parFiltered k hd (endsIdx_spec hi).1
    refine computeLogProb_congr rfl (fun i hi => ?_) (fun i hi => ?_)
    · exact congrArg FilterOut.v (hg i hi)
    · exact congrArg FilterOut.S (hg i hi)
  · have hn' : n < X'.len := by rw [h.len]; exact hn
    rw [C14_parallel_results_in_input_order k X' y' R' n _ hn' ((isEnd_iff hn').2 rfl),
      C14_parallel_results_in_input_order k X y R (σ n) _ (h.lt n hn) ((isEnd_iff (h.lt n hn)).2 rfl), h.endStep hd hn, h.coord n hn,
      h.parSmoothed k hd (endStep_lt (h.lt n hn))]
  · refine ⟨(parallelIntegratedPredictAt_len k X' y' R' Xtest).trans (parallelIntegratedPredictAt_len k X y R Xtest).symm, fun i _ => ?_⟩
    rw [parallelIntegratedPredictAt_get k X' y' R' Xtest i _ rfl, parallelIntegratedPredictAt_get k X y R Xtest i _ rfl,
      ssPredictPoint_congr_times _ _ _ (stateCoords X).t _ (k.parallelIntegratedCondition X y R).1 _ (k.parallelIntegratedCondition X y R).2 _
        (by rw [sc_len]; omega) (by rw [sc_len, sc_len, h.len]) ?_ ?_ ?_]
    · intro j hj
      exact (h.same hd k).t j (by rw [← sc_len]; exact hj)
    · intro j hj
      exact h.parFiltered k hd (by rw [← sc_len]; exact hj)
    · intro j hj
      exact h.parSmoothed k hd (by rw [← sc_len]; exact hj)

end

/-! ### simultaneous events

When several exposures start (or end) together the order of those events follows the listing, and so do the states in between; for sums
of the shipped integrated kernels the likelihood nevertheless does not change. -/

theorem gaussLogDensity_relabel {ι ι' : Type*} [Fintype ι] [DecidableEq ι] [Fintype ι'] [DecidableEq ι'] (e : ι' ≃ ι) (K : Matrix ι ι ℝ)
    (y : ι → ℝ) : gaussLogDensity (K.submatrix e e) (y ∘ e) = gaussLogDensity K y := by
  unfold gaussLogDensity
  rw [Matrix.det_submatrix_equiv_self, Fintype.card_congr e]
  congr 3
  rw [Matrix.inv_submatrix_equiv, Matrix.submatrix_mulVec_equiv, Function.comp_assoc, Equiv.self_comp_symm, Function.comp_id,
    comp_equiv_dotProduct_comp_equiv]

/-- a relabelling as a bijection -/
theorem Relisted.equiv {σ : ℕ → ℕ} {X X' : Arr Coord} {y y' R R' : Arr ℝ} (h : Relisted σ X X' y y' R R') :
    ∃ e : Fin X'.len ≃ Fin X.len, ∀ i, (e i : ℕ) = σ i := by
  have hl := h.len
  refine ⟨Equiv.ofBijective (fun i => ⟨σ i, h.lt i (by have := i.2; omega)⟩) ?_, fun i => rfl⟩
  refine (Fintype.bijective_iff_injective_and_card _).2 ⟨fun a b hab => Fin.ext (h.inj a (by omega) b (by omega) ?_), ?_⟩
  · exact congrArg Fin.val hab
  · rw [Fintype.card_fin, Fintype.card_fin, hl]

/-- **C15, likelihood, with ties.** -/
theorem C15_likelihood_ties {σ : ℕ → ℕ} {X X' : Arr Coord} {y y' R R' : Arr ℝ} (k : SSM) (κ : ℝ → ℝ) (m : ℕ)
    (hk : IntegratedSum (fun q => SHO.Genuine q ∧ SHO.NotUnderdamped q) m k κ) (hX : Schedule m X) (h : Relisted σ X X' y y' R R')
    (hy : y.len = X.len) (hR : ∀ i < X.len, 0 < R.get i) :
    k.integratedLogProbability X' y' R' = k.integratedLogProbability X y R := by
  have hl := h.len
  have hX' : Schedule m X' := by
    refine ⟨fun n hn => ?_, fun n hn => ?_, fun a ha b hb hab hi => ?_⟩
    · rw [hl] at hn; rw [h.coord n hn]; exact hX.delta_nonneg _ (h.lt n hn)
    · rw [hl] at hn; rw [h.coord n hn]; exact hX.inst _ (h.lt n hn)
    · rw [hl] at ha hb
      rw [h.coord a ha, h.coord b hb] at hi ⊢
      exact hX.disjoint _ (h.lt a ha) _ (h.lt b hb) (fun e => hab (h.inj a ha b hb e)) hi
  rw [C11_likelihood k κ m hk X hX y R hy hR, C11_likelihood k κ m hk X' hX' y' R' (by rw [h.ylen, hy, hl])
    (fun i hi => by rw [hl] at hi; rw [h.noise i hi]; exact hR _ (h.lt i hi))]
  obtain ⟨e, he⟩ := h.equiv
  rw [← gaussLogDensity_relabel e]
  congr 2
  · ext i j
    have hi : (i : ℕ) < X.len := by have := i.2; omega
    have hj : (j : ℕ) < X.len := by have := j.2; omega
    simp only [noisyGram, Matrix.of_apply, Matrix.submatrix_apply, he, h.coord _ hi, h.coord _ hj, h.noise _ hi, e.injective.eq_iff]
  · funext i
    have hi : (i : ℕ) < X.len := by have := i.2; omega
    simp only [Function.comp_apply, he, h.datum _ hi]

/-! ### an example: three overlapping exposures, listed backwards -/

/-- `threeExposures`, last first -/
noncomputable def threeBackwards : Arr Coord := ⟨3, fun n => threeExposures.get (2 - n)⟩

theorem threeExposures_events : DistinctEvents threeExposures := by
  have hl : threeExposures.len = 3 := rfl
  have e0 : threeExposures.get 0 = .exposure 0 2 0 := rfl
  have e1 : threeExposures.get 1 = .exposure (1/2) 2 1 := rfl
  have e2 : threeExposures.get 2 = .exposure 2 2 0 := rfl
  refine ⟨fun a ha b hb hab => ?_, fun a ha b hb hab => ?_⟩
  all_goals
    rw [hl] at ha hb
    by_contra hne
    interval_cases a <;> interval_cases b <;> first | exact hne rfl |
      (simp only [e0, e1, e2, Coord.delta, Coord.sortable] at hab; norm_num at hab)

theorem threeBackwards_relisted (y R : Arr ℝ) (hy : y.len = 3) :
    Relisted (fun n => 2 - n) threeExposures threeBackwards y ⟨3, fun n => y.get (2 - n)⟩ R ⟨3, fun n => R.get (2 - n)⟩ where
  len := rfl
  ylen := hy.symm
  lt n hn := by have : n < 3 := hn; show 2 - n < 3; omega
  inj a ha b hb hab := by have : a < 3 := ha; have : b < 3 := hb; omega
  coord _ _ := rfl
  datum _ _ := rfl
  noise _ _ := rfl

example (k : SSM) (y R : Arr ℝ) (hy : y.len = 3) :
    k.integratedLogProbability threeBackwards ⟨3, fun n => y.get (2 - n)⟩ ⟨3, fun n => R.get (2 - n)⟩ =
      k.integratedLogProbability threeExposures y R :=
  C15_likelihood k (threeBackwards_relisted y R hy) threeExposures_events hy

end Verif
