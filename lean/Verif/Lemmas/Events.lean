import Verif.Model.Integrated
import Verif.Lemmas.ArrLemmas
import Mathlib.Data.List.Nodup
import Mathlib.Data.List.Range
import Mathlib.Data.Fintype.Card
import Mathlib.Data.Fintype.EquivFin

/-! # The order of exposure events -/

namespace Verif

/-- the comparison used by `jnp.lexsort` -/
noncomputable def lexLe (minor : Arr ℤ) (major : Arr ℝ) (i j : ℕ) : Bool :=
  decide (major.get i < major.get j ∨ (major.get i = major.get j ∧ minor.get i ≤ minor.get j))

theorem lexsort_eq (minor : Arr ℤ) (major : Arr ℝ) :
    lexsort minor major = Arr.ofList 0 ((List.range major.len).mergeSort (lexLe minor major)) := rfl

theorem lexLe_trans (minor : Arr ℤ) (major : Arr ℝ) (a b c : ℕ) (h1 : lexLe minor major a b = true)
    (h2 : lexLe minor major b c = true) : lexLe minor major a c = true := by
  unfold lexLe at *
  simp only [decide_eq_true_eq] at *
  rcases h1 with h1 | ⟨h1, h1'⟩ <;> rcases h2 with h2 | ⟨h2, h2'⟩
  · exact .inl (h1.trans h2)
  · exact .inl (h2 ▸ h1)
  · exact .inl (h1 ▸ h2)
  · exact .inr ⟨h1.trans h2, h1'.trans h2'⟩

theorem lexLe_total (minor : Arr ℤ) (major : Arr ℝ) (a b : ℕ) :
    (lexLe minor major a b || lexLe minor major b a) = true := by
  unfold lexLe
  rw [Bool.or_eq_true, decide_eq_true_eq, decide_eq_true_eq]
  rcases lt_trichotomy (major.get a) (major.get b) with h | h | h
  · exact .inl (.inl h)
  · rcases le_total (minor.get a) (minor.get b) with h' | h'
    · exact .inl (.inr ⟨h, h'⟩)
    · exact .inr (.inr ⟨h.symm, h'⟩)
  · exact .inr (.inl h)

section sorted_list
variable {le : ℕ → ℕ → Bool} {K : ℕ}

/-- the sorted array of indices -/
def sortedArr (le : ℕ → ℕ → Bool) (K : ℕ) : Arr ℕ := Arr.ofList 0 ((List.range K).mergeSort le)

theorem sortedArr_len : (sortedArr le K).len = K := by
  simp [sortedArr, Arr.ofList]

theorem sortedArr_get {k : ℕ} (hk : k < K) :
    (sortedArr le K).get k = ((List.range K).mergeSort le)[k]'(by simpa using hk) := by
  simp [sortedArr, Arr.ofList, List.getD_eq_getElem?_getD, hk]

theorem sortedArr_lt {k : ℕ} (hk : k < K) : (sortedArr le K).get k < K := by
  rw [sortedArr_get hk]
  have : ((List.range K).mergeSort le)[k]'(by simpa using hk) ∈ (List.range K).mergeSort le := List.getElem_mem _
  rw [List.mem_mergeSort, List.mem_range] at this
  exact this

theorem sortedArr_inj {i j : ℕ} (hi : i < K) (hj : j < K) (h : (sortedArr le K).get i = (sortedArr le K).get j) : i = j := by
  rw [sortedArr_get hi, sortedArr_get hj] at h
  have hn : ((List.range K).mergeSort le).Nodup := (List.mergeSort_perm _ _).nodup_iff.2 List.nodup_range
  exact (hn.getElem_inj_iff).1 h

theorem sortedArr_surj {p : ℕ} (hp : p < K) : ∃ k < K, (sortedArr le K).get k = p := by
  have : p ∈ (List.range K).mergeSort le := List.mem_mergeSort.2 (List.mem_range.2 hp)
  obtain ⟨k, hk, h⟩ := List.getElem_of_mem this
  have hk' : k < K := by simpa using hk
  exact ⟨k, hk', by rw [sortedArr_get hk', h]⟩

theorem sortedArr_pairwise (ht : ∀ a b c, le a b = true → le b c = true → le a c = true) (htot : ∀ a b, (le a b || le b a) = true)
    {i j : ℕ} (hij : i < j) (hj : j < K) : le ((sortedArr le K).get i) ((sortedArr le K).get j) = true := by
  rw [sortedArr_get (hij.trans hj), sortedArr_get hj]
  exact List.pairwise_iff_getElem.1 (List.pairwise_mergeSort ht htot (List.range K)) i j _ _ hij

end sorted_list

/-- sorting a permutation of `0..N-1` puts `n` at position `n` -/
theorem argsort_perm (a : Arr ℕ) (hlt : ∀ i < a.len, a.get i < a.len)
    (hinj : ∀ i j, i < a.len → j < a.len → a.get i = a.get j → i = j) {n : ℕ} (hn : n < a.len) :
    a.get ((argsort a).get n) = n ∧ (argsort a).get n < a.len := by
  have hs : argsort a = sortedArr (fun i j => decide (a.get i ≤ a.get j)) a.len := rfl
  rw [hs]
  set le : ℕ → ℕ → Bool := fun i j => decide (a.get i ≤ a.get j) with hle
  have hmono : ∀ i j, i < j → j < a.len → a.get ((sortedArr le a.len).get i) < a.get ((sortedArr le a.len).get j) := by
    intro i j hij hj
    have h1 : le ((sortedArr le a.len).get i) ((sortedArr le a.len).get j) = true := by
      refine sortedArr_pairwise (fun a b c h1 h2 => ?_) (fun a b => ?_) hij hj
      · simp only [hle, decide_eq_true_eq] at *; exact h1.trans h2
      · simp only [hle, Bool.or_eq_true, decide_eq_true_eq]; exact le_total _ _
    simp only [hle, decide_eq_true_eq] at h1
    refine lt_of_le_of_ne h1 fun e => ?_
    have := sortedArr_inj (hij.trans hj) hj (hinj _ _ (sortedArr_lt (hij.trans hj)) (sortedArr_lt hj) e)
    omega
  have hge : ∀ i < a.len, i ≤ a.get ((sortedArr le a.len).get i) := by
    intro i
    induction i with
    | zero => intro _; omega
    | succ i ih =>
      intro hi
      have := hmono i (i + 1) (by omega) hi
      have := ih (by omega)
      omega
  have hle' : ∀ d < a.len, a.get ((sortedArr le a.len).get (a.len - 1 - d)) ≤ a.len - 1 - d := by
    intro d
    induction d with
    | zero =>
      intro _
      have := hlt _ (sortedArr_lt (le := le) (show a.len - 1 - 0 < a.len by omega))
      omega
    | succ d ih =>
      intro hd
      have h1 := hmono (a.len - 1 - (d + 1)) (a.len - 1 - d) (by omega) (by omega)
      have h2 := ih (by omega)
      omega
  refine ⟨le_antisymm ?_ (hge n hn), sortedArr_lt hn⟩
  have := hle' (a.len - 1 - n) (by omega)
  rwa [show a.len - 1 - (a.len - 1 - n) = n by omega] at this

section events
variable (X : Arr Coord)

/-- the event processed at step `k`: `2 n` is the start of exposure `n`, `2 n + 1` its end -/
noncomputable def ev (k : ℕ) : ℕ := (eventOrder X).get k

theorem eventOrder_eq : eventOrder X =
    sortedArr (lexLe ((eventKinds X).map fun s : ℕ => -(s : ℤ)) (eventTimes X)) (2 * X.len) := rfl

variable {X}
theorem ev_lt {k : ℕ} (hk : k < 2 * X.len) : ev X k < 2 * X.len := sortedArr_lt hk
theorem ev_inj {i j : ℕ} (hi : i < 2 * X.len) (hj : j < 2 * X.len) (h : ev X i = ev X j) : i = j := sortedArr_inj hi hj h
theorem ev_surj {p : ℕ} (hp : p < 2 * X.len) : ∃ k < 2 * X.len, ev X k = p := sortedArr_surj hp

theorem ev_sorted {i j : ℕ} (hij : i < j) (hj : j < 2 * X.len) :
    (eventTimes X).get (ev X i) < (eventTimes X).get (ev X j) ∨
      ((eventTimes X).get (ev X i) = (eventTimes X).get (ev X j) ∧ ev X j % 2 ≤ ev X i % 2) := by
  have := sortedArr_pairwise (lexLe_trans ((eventKinds X).map fun s : ℕ => -(s : ℤ)) (eventTimes X))
    (lexLe_total _ _) hij hj
  unfold lexLe at this
  rw [decide_eq_true_eq] at this
  refine this.imp id fun h => ⟨h.1, ?_⟩
  have h2 : -((ev X i % 2 : ℕ) : ℤ) ≤ -((ev X j % 2 : ℕ) : ℤ) := h.2
  omega

theorem sc_t (k : ℕ) : (stateCoords X).t.get k = (eventTimes X).get (ev X k) := rfl
theorem sc_obsid (k : ℕ) : (stateCoords X).obsid.get k = ev X k / 2 := rfl
theorem sc_stateid (k : ℕ) : (stateCoords X).stateid.get k = ev X k % 2 := rfl
theorem sc_instid (n : ℕ) : (stateCoords X).instid.get n = (X.get n).inst := rfl
theorem sc_len : (stateCoords X).t.len = 2 * X.len := sortedArr_len
theorem sc_stateid_len : (stateCoords X).stateid.len = 2 * X.len := sortedArr_len
theorem sc_obsid_len : (stateCoords X).obsid.len = 2 * X.len := sortedArr_len

theorem eventTimes_start (n : ℕ) : (eventTimes X).get (2 * n) = (X.get n).start := by
  simp [eventTimes]
theorem eventTimes_stop (n : ℕ) : (eventTimes X).get (2 * n + 1) = (X.get n).stop := by
  have h1 : (2 * n + 1) % 2 = 1 := by omega
  have h2 : (2 * n + 1) / 2 = n := by omega
  simp [eventTimes, h1, h2]

theorem sc_sorted : Sorted (stateCoords X).t := by
  intro i j hij hj
  rw [sc_len] at hj
  rcases Nat.lt_or_eq_of_le hij with h | h
  · rcases ev_sorted h hj with h' | h'
    · exact h'.le
    · exact h'.1.le
  · rw [h]

/-! ### ends -/

/-- the list of end steps, in processing order -/
noncomputable def endList (X : Arr Coord) : List ℕ :=
  (List.range (2 * X.len)).filter fun i => ev X i % 2 == 1

theorem endList_length : (endList X).length = X.len := by
  have h1 : (endList X).length = ((Finset.range (2 * X.len)).filter fun k => ev X k % 2 = 1).card := by
    have hn : (endList X).Nodup := List.nodup_range.filter _
    rw [← List.toFinset_card_of_nodup hn]
    congr 1
    ext k
    simp [endList]
  rw [h1]
  have h2 : ((Finset.range (2 * X.len)).filter fun k => ev X k % 2 = 1).card = (Finset.range X.len).card := by
    refine Finset.card_nbij (fun k => ev X k / 2) (fun k hk => ?_) (fun i hi j hj h => ?_) (fun n hn => ?_)
    · simp only [Finset.coe_filter, Finset.mem_range, Set.mem_ofPred_eq, Finset.coe_range, Set.mem_Iio] at hk ⊢
      have := ev_lt hk.1
      omega
    · simp only [Finset.coe_filter, Finset.mem_range, Set.mem_ofPred_eq] at hi hj
      refine ev_inj hi.1 hj.1 ?_
      simp only at h
      omega
    · simp only [Finset.coe_range, Set.mem_Iio] at hn
      obtain ⟨k, hk, h⟩ := ev_surj (X := X) (p := 2 * n + 1) (by omega)
      refine ⟨k, ?_, ?_⟩
      · simp only [Finset.coe_filter, Finset.mem_range, Set.mem_ofPred_eq]
        omega
      · simp only; omega
  rw [h2, Finset.card_range]

theorem endsIdx_get {i : ℕ} (hi : i < X.len) :
    (endsIdx (stateCoords X) X.len).get i = (endList X)[i]'(by rw [endList_length]; exact hi) := by
  have h : (endsIdx (stateCoords X) X.len).get i = (endList X).getD i 0 := by
    show ((List.range (stateCoords X).stateid.len).filter _).getD i 0 = _
    rw [sc_stateid_len]
    rfl
  rw [h, List.getD_eq_getElem?_getD, List.getElem?_eq_getElem (by rw [endList_length]; exact hi)]
  rfl

theorem endsIdx_spec {i : ℕ} (hi : i < X.len) :
    (endsIdx (stateCoords X) X.len).get i < 2 * X.len ∧ ev X ((endsIdx (stateCoords X) X.len).get i) % 2 = 1 := by
  rw [endsIdx_get hi]
  have h : (endList X)[i]'(by rw [endList_length]; exact hi) ∈ endList X := List.getElem_mem _
  generalize (endList X)[i]'(by rw [endList_length]; exact hi) = k at h ⊢
  simpa [endList] using h

theorem endsIdx_inj {i j : ℕ} (hi : i < X.len) (hj : j < X.len)
    (h : (endsIdx (stateCoords X) X.len).get i = (endsIdx (stateCoords X) X.len).get j) : i = j := by
  rw [endsIdx_get hi, endsIdx_get hj] at h
  exact ((List.nodup_range.filter _ : (endList X).Nodup).getElem_inj_iff).1 h

theorem endsIdx_lt_iff {i j : ℕ} (hij : i < j) (hj : j < X.len) :
    (endsIdx (stateCoords X) X.len).get i < (endsIdx (stateCoords X) X.len).get j := by
  rw [endsIdx_get (hij.trans hj), endsIdx_get hj]
  have : (endList X).Pairwise (· < ·) := List.pairwise_lt_range.filter _
  exact List.pairwise_iff_getElem.1 this i j _ _ hij

/-- the step at which exposure `n` ends -/
noncomputable def endStep (X : Arr Coord) (n : ℕ) : ℕ :=
  ((endsIdx (stateCoords X) X.len).take (argsort ((stateCoords X).obsid.take (endsIdx (stateCoords X) X.len)))).get n

theorem endStep_pos {n : ℕ} (hn : n < X.len) :
    ∃ i < X.len, endStep X n = (endsIdx (stateCoords X) X.len).get i ∧ ev X ((endsIdx (stateCoords X) X.len).get i) / 2 = n := by
  have h := argsort_perm ((stateCoords X).obsid.take (endsIdx (stateCoords X) X.len)) (fun i hi => ?_) (fun i j hi hj h => ?_)
    (n := n) hn
  · exact ⟨_, h.2, rfl, h.1⟩
  · have := endsIdx_spec (X := X) (i := i) hi
    have h2 := ev_lt this.1
    show ev X _ / 2 < X.len
    omega
  · have h1 := endsIdx_spec (X := X) (i := i) hi
    have h2 := endsIdx_spec (X := X) (i := j) hj
    have h3 : ev X ((endsIdx (stateCoords X) X.len).get i) / 2 = ev X ((endsIdx (stateCoords X) X.len).get j) / 2 := h
    exact endsIdx_inj hi hj (ev_inj h1.1 h2.1 (by omega))

theorem endStep_lt {n : ℕ} (hn : n < X.len) : endStep X n < 2 * X.len := by
  obtain ⟨i, hi, h, _⟩ := endStep_pos hn
  rw [h]; exact (endsIdx_spec hi).1

theorem ev_endStep {n : ℕ} (hn : n < X.len) : ev X (endStep X n) = 2 * n + 1 := by
  obtain ⟨i, hi, h, h'⟩ := endStep_pos hn
  have := (endsIdx_spec hi).2
  rw [h]; omega

theorem endStep_unique {n k : ℕ} (hn : n < X.len) (hk : k < 2 * X.len) (h : ev X k = 2 * n + 1) : k = endStep X n :=
  ev_inj hk (endStep_lt hn) (by rw [h, ev_endStep hn])

/-- the step at which exposure `n` starts -/
noncomputable def startStep (X : Arr Coord) (n : ℕ) : ℕ :=
  if h : n < X.len then (ev_surj (X := X) (p := 2 * n) (by omega)).choose else 0

theorem startStep_lt {n : ℕ} (hn : n < X.len) : startStep X n < 2 * X.len := by
  rw [startStep, dif_pos hn]
  exact (ev_surj (X := X) (p := 2 * n) (by omega)).choose_spec.1

theorem ev_startStep {n : ℕ} (hn : n < X.len) : ev X (startStep X n) = 2 * n := by
  rw [startStep, dif_pos hn]
  exact (ev_surj (X := X) (p := 2 * n) (by omega)).choose_spec.2

theorem start_before_end {n : ℕ} (hn : n < X.len) (hd : 0 < (X.get n).delta) : startStep X n < endStep X n := by
  by_contra h
  have hne : endStep X n ≠ startStep X n := fun e => by
    have h1 := ev_endStep hn
    have h2 := ev_startStep hn
    rw [e] at h1; omega
  have hlt : endStep X n < startStep X n := by omega
  have hle := sc_sorted (X := X) _ _ hlt.le (by rw [sc_len]; exact startStep_lt hn)
  rw [sc_t, sc_t, ev_endStep hn, ev_startStep hn, eventTimes_start, eventTimes_stop] at hle
  unfold Coord.start Coord.stop at hle
  linarith

/-- enumerating ends by exposure or by processing order -/
noncomputable def endPos (X : Arr Coord) (i : Fin X.len) : Fin X.len :=
  ⟨ev X ((endsIdx (stateCoords X) X.len).get i) / 2, by
    have h := endsIdx_spec i.2
    have := ev_lt h.1
    omega⟩

theorem endPos_spec (i : Fin X.len) : endStep X (endPos X i) = (endsIdx (stateCoords X) X.len).get i := by
  have h := endsIdx_spec i.2
  refine (endStep_unique (endPos X i).2 h.1 ?_).symm
  have := h.2
  show _ = 2 * (ev X ((endsIdx (stateCoords X) X.len).get i) / 2) + 1
  omega

theorem endPos_bij : Function.Bijective (endPos X) := by
  refine (Fintype.bijective_iff_injective_and_card _).2 ⟨fun i j h => ?_, rfl⟩
  have : endStep X (endPos X i) = endStep X (endPos X j) := by rw [h]
  rw [endPos_spec, endPos_spec] at this
  exact Fin.ext (endsIdx_inj i.2 j.2 this)

end events

end Verif
