import Verif.Lemmas.Parts
import Verif.Props.C59_States
import Verif.Props.C06_EndToEnd

/-!
# C95: what component predictions mean

The random experiment is that of `Spec/Parts.lean`: independent Gaussian processes, one for every component of the kernel, are added, and
the sum is measured with independent normal errors. What a conditioned GP returns for named components is the conditional distribution, given
the measurements, of the sum of the processes of these components.
-/

namespace Verif
open MeasureTheory ProbabilityTheory Matrix Kern Spec

theorem list_filter_sum {α : Type*} (L : List α) (p : α → Prop) [DecidablePred p] (g : α → ℝ) :
    ((L.filter fun a => p a).map g).sum = (L.map fun a => if p a then g a else 0).sum := by
  induction L with
  | nil => rfl
  | cons a L ih =>
    by_cases h : p a
    · rw [List.filter_cons_of_pos (by simpa using h), List.map_cons, List.sum_cons, List.map_cons, List.sum_cons, ih, if_pos h]
    · rw [List.filter_cons_of_neg (by simpa using h), List.map_cons, List.sum_cons, ih, if_neg h, zero_add]

theorem sum_leaves {α : Type*} (L : List α) (g : α → ℝ) : ∑ l : Fin L.length, g L[l] = (L.map g).sum := by
  rw [← List.ofFn_getElem_eq_map, List.sum_ofFn]
  rfl

/-- the kernel function of a kernel is the sum of those of its components -/
theorem evaluate_leaves (k : Kern) (X1 X2 : Coord) :
    k.model.evaluate X1 X2 = (k.extractLeafKernels.map fun a => a.model.evaluate X1 X2).sum := by
  induction k with
  | sum a b ha hb =>
    show (a.model.sum b.model).evaluate X1 X2 = _
    rw [C27_sum_evaluate, ha, hb]
    show _ = ((a.extractLeafKernels ++ b.extractLeafKernels).map _).sum
    rw [List.map_append, List.sum_append]
  | _ => exact (add_zero _).symm

theorem leaves_ne_nil (k : Kern) : k.extractLeafKernels ≠ [] := by
  induction k with
  | sum a b ha hb =>
    show a.extractLeafKernels ++ b.extractLeafKernels ≠ []
    simp [ha]
  | _ => exact List.cons_ne_nil _ _

section
variable {kernel : Kern} {t : Arr ℝ} {diag : Option (ℝ ⊕ Arr ℝ)} {mean : Option (Coord → ℝ)} {u : Bool} {solver : Option SolverKind} {gp gp' : GP}
  {y : Arr ℝ} {lp : EReal}

/-- `C40_predicted_component_partial` for the parallel solver too -/
theorem component_predicted (hv : kernel.Valid) (Xtest : XArg) (hsol : Instantaneous solver Xtest) (ht : Sorted t) (hN : 0 < t.len)
    (hR : ∀ i < t.len, 0 < (GP.noiseOf t.len diag).get i)
    (hnew : GP.new kernel (.times t) diag mean solver u = .ok gp) (hcond : gp.condition y = .ok (lp, gp'))
    (names : List String) (hne : names ≠ []) (hd : names.Nodup) (hc : ∀ c ∈ names, Clear gp'.kernel c) :
    ∃ r, gp'.predictedComponent Xtest names = .ok r ∧ r.len = Xtest.coords.len ∧ ∀ i, r.get i =
      (postMean (dataGram kernel.model (t.map .time) (GP.noiseOf t.len diag)) (fun j => y.get j)
        (fun j => gp'.kernel.partValue names (Xtest.coords.get i) (.time (t.get j))),
       postVar (dataGram kernel.model (t.map .time) (GP.noiseOf t.len diag))
        (gp'.kernel.partValue names (Xtest.coords.get i) (Xtest.coords.get i))
        (fun j => gp'.kernel.partValue names (Xtest.coords.get i) (.time (t.get j)))) := by
  obtain ⟨-, hs0, hX0, -, -, -, -, hsol0, -⟩ := GP.new_ok hnew
  obtain ⟨hrun, -, -, hs, hX, -, -, -, -, hsol', hst, -⟩ := GP.condition_ok hcond
  have hs' := hs.trans hs0
  have hv' : gp'.kernel.Valid := hs'.valid.2 hv
  have hrun' : gp'.runError = none := by
    rw [← hrun]
    unfold GP.runError
    rw [hsol', hs.transitionError]
  rw [hsol0] at hsol'
  have hreg := hv'.builtIn.regular
  have hX' : Sorted (((t.map Coord.time).map Coord.sortable) : Arr ℝ) := ht
  have hkind : ¬ (gp'.solver.kind = .parallel ∧ (gp'.solver.X.isTuple = true ∨ Xtest.isTuple = true)) := by
    rw [hsol']
    rcases hsol with h | ⟨-, h⟩
    · rw [sequential_kind hv h]; rintro ⟨h, -⟩; cases h
    · rw [h]; rintro ⟨-, h | h⟩ <;> cases h
  unfold GP.predictedComponent
  simp only [hst, hrun', if_neg hkind, if_neg hne, hv'.obsError]
  refine ⟨_, rfl, rfl, fun i => ?_⟩
  obtain ⟨h1, h2⟩ := hreg.toProper.predicted_row (y := y) (R := GP.noiseOf t.len diag) (X := t.map Coord.time) hX' hN
    (fun i hi' => (hreg.S_pos hX' hN hR hi').ne')
    (fun i hi' => hreg.P_unit hX' hN hR hi') (Xtest.coords.get i)
    (gp'.kernel.model.componentRow names (Xtest.coords.get i))
  obtain ⟨r1, r2⟩ := rows_of_components gp'.kernel hv' names hd hc (Xtest.coords.get i)
  rw [← dataGram_congr hs'.strip]
  have key : ∀ s : StateMP gp'.kernel.model.n, s = gp'.kernel.model.predictPoint t y (GP.noiseOf t.len diag) (Xtest.coords.get i).sortable →
      ((gp'.kernel.model.componentRow names (Xtest.coords.get i) *ᵥ s.m) 0,
        (gp'.kernel.model.componentRow names (Xtest.coords.get i) * s.P * (gp'.kernel.model.componentRow names (Xtest.coords.get i))ᵀ) 0 0) =
      (postMean (dataGram gp'.kernel.model (t.map .time) (GP.noiseOf t.len diag)) (fun j => y.get j)
        (fun j => gp'.kernel.partValue names (Xtest.coords.get i) (.time (t.get j))),
       postVar (dataGram gp'.kernel.model (t.map .time) (GP.noiseOf t.len diag))
        (gp'.kernel.partValue names (Xtest.coords.get i) (Xtest.coords.get i))
        (fun j => gp'.kernel.partValue names (Xtest.coords.get i) (.time (t.get j)))) := by
    rintro s rfl
    refine Prod.ext ?_ ?_
    · refine h1.trans ?_
      refine congrArg _ (funext fun j => ?_)
      exact r1 _
    · refine h2.trans ?_
      refine congrArg₂ _ r2 (funext fun j => ?_)
      exact r1 _
  rcases hsol with h | ⟨rfl, -⟩
  · rw [sequential_kind hv h] at hsol'
    simp only [hsol']
    exact key _ rfl
  · simp only [hsol']
    exact key _ (parallel_predict_state gp'.kernel.model hreg (t.map .time) y (GP.noiseOf t.len diag) ht hN hR (Xtest.coords.get i).sortable)

/-- `C40_component_partial` for the parallel solver too -/
theorem component_at_data_any (hv : kernel.Valid) (hsol : Sequential solver ∨ solver = some .parallel) (ht : Sorted t)
    (hR : ∀ i < t.len, 0 < (GP.noiseOf t.len diag).get i)
    (hnew : GP.new kernel (.times t) diag mean solver u = .ok gp) (hcond : gp.condition y = .ok (lp, gp'))
    (names : List String) (hne : names ≠ []) (hd : names.Nodup) (hc : ∀ c ∈ names, Clear gp'.kernel c) :
    ∃ r, gp'.getComponentMean names = .ok r ∧ r.len = t.len ∧ ∀ i < t.len, r.get i =
      (postMean (dataGram kernel.model (t.map .time) (GP.noiseOf t.len diag)) (fun j => y.get j)
        (fun j => gp'.kernel.partValue names (.time (t.get i)) (.time (t.get j))),
       postVar (dataGram kernel.model (t.map .time) (GP.noiseOf t.len diag))
        (gp'.kernel.partValue names (.time (t.get i)) (.time (t.get i)))
        (fun j => gp'.kernel.partValue names (.time (t.get i)) (.time (t.get j)))) := by
  obtain ⟨-, hs0, hX0, -, -, -, -, hsol0, -⟩ := GP.new_ok hnew
  obtain ⟨-, -, -, hs, hX, -, -, -, -, hsol', hst, -⟩ := GP.condition_ok hcond
  have hs' := hs.trans hs0
  have hv' : gp'.kernel.Valid := hs'.valid.2 hv
  rw [hX0] at hX
  rw [hsol0] at hsol'
  have hreg := hv'.builtIn.regular
  have hX' : Sorted (((t.map Coord.time).map Coord.sortable) : Arr ℝ) := ht
  unfold GP.getComponentMean
  simp only [hst, if_neg hne, GP.condition_obs' hcond]
  refine ⟨_, rfl, by show gp'.X.coords.len = _; rw [hX]; rfl, fun i hi => ?_⟩
  have hN : 0 < t.len := Nat.zero_lt_of_lt hi
  have e : (gp'.projectAtData y (gp'.kernel.model.componentRow names)).get i =
      ((gp'.kernel.model.componentRow names (.time (t.get i)) *ᵥ
          ((gp'.kernel.model.condition ((t.map Coord.time).map Coord.sortable) y (GP.noiseOf t.len diag)).2.get i).m) 0,
        (gp'.kernel.model.componentRow names (.time (t.get i)) *
          ((gp'.kernel.model.condition ((t.map Coord.time).map Coord.sortable) y (GP.noiseOf t.len diag)).2.get i).P *
          (gp'.kernel.model.componentRow names (.time (t.get i)))ᵀ) 0 0) := by
    unfold GP.projectAtData
    rw [hX, hsol']
    rcases hsol with h | rfl
    · rw [sequential_kind hv h]
      exact projectAtData_all _ (t.map Coord.time) _ hi
    · obtain ⟨hl, he⟩ := C07_parallel_smoother gp'.kernel.model hreg (t.map Coord.time) y (GP.noiseOf t.len diag) hX' hN hR
      have hl' : (gp'.kernel.model.condition ((t.map Coord.time).map Coord.sortable) y (GP.noiseOf t.len diag)).2.len = t.len := rts_len _ _ _ hN
      rw [hl, hl'] at he
      rw [← he i hi]
      exact projectAtData_all _ (t.map Coord.time) _ hi
  rw [e]
  obtain ⟨h1, h2⟩ := hreg.toProper.smoothed_row (y := y) (R := GP.noiseOf t.len diag) (X := t.map Coord.time) hX' hN
    (fun i hi' => (hreg.S_pos hX' hN hR hi').ne')
    (fun i hi' => hreg.P_unit hX' hN hR hi') (i := i) hi (gp'.kernel.model.componentRow names (.time (t.get i)))
  obtain ⟨r1, r2⟩ := rows_of_components gp'.kernel hv' names hd hc (.time (t.get i))
  rw [← dataGram_congr hs'.strip]
  refine Prod.ext ?_ ?_
  · refine h1.trans ?_
    refine congrArg _ (funext fun j => ?_)
    exact r1 _
  · refine h2.trans ?_
    refine congrArg₂ _ r2 (funext fun j => ?_)
    exact r1 _

/-- the covariance functions of the components of a kernel -/
noncomputable def Kern.componentCov (k : Kern) (l : Fin k.extractLeafKernels.length) (s s' : ℝ) : ℝ :=
  (k.extractLeafKernels[l]).model.evaluate (.time s) (.time s')

/-- the sum of the processes of the components with one of the given names -/
noncomputable def Kern.namedSum {Ω : Type*} (k : Kern) (f : Fin k.extractLeafKernels.length → ℝ → Ω → ℝ) (names : List String) (s : ℝ) (ω : Ω) : ℝ :=
  ∑ l with (k.extractLeafKernels[l]).name ∈ names, f l s ω

theorem partValue_eq (k : Kern) (names : List String) (s s' : ℝ) :
    k.partValue names (.time s) (.time s') = ∑ l with (k.extractLeafKernels[l]).name ∈ names, k.componentCov l s s' := by
  unfold Kern.partValue Kern.componentCov
  rw [Finset.sum_filter, list_filter_sum k.extractLeafKernels fun a => a.name ∈ names]
  exact (sum_leaves k.extractLeafKernels fun a => if a.name ∈ names then a.model.evaluate (.time s) (.time s') else 0).symm

theorem dataGram_leaves {k k' : Kern} (hs : k.SameButNames k') (t R : Arr ℝ) :
    noisyGram (fun i j : Fin t.len => ∑ l, k.componentCov l (t.get i) (t.get j)) (fun i => R.get i) = dataGram k'.model (t.map .time) R := by
  rw [← dataGram_congr hs.strip]
  unfold dataGram
  congr 1
  funext i j
  rw [evaluate_leaves]
  exact sum_leaves k.extractLeafKernels fun a => a.model.evaluate (.time (t.get i)) (.time (t.get j))

variable {Ω : Type*} [MeasurableSpace Ω] {P : Measure Ω} [IsFiniteMeasure P] {T : Set ℝ} {f : Fin gp.kernel.extractLeafKernels.length → ℝ → Ω → ℝ}
  {Y : Fin t.len → Ω → ℝ}

/-- the posterior of the named part -/
theorem parts_posterior (hv : kernel.Valid) (hR : ∀ i < t.len, 0 < (GP.noiseOf t.len diag).get i)
    (hnew : GP.new kernel (.times t) diag mean solver u = .ok gp)
    (hM : SumMeasured P gp.kernel.componentCov T f t (GP.noiseOf t.len diag) Y) (names : List String) {s : ℝ} (hs : s ∈ T) :
    IsPosterior P (gp.kernel.namedSum f names s) Y
      (fun y => postMean (dataGram kernel.model (t.map .time) (GP.noiseOf t.len diag)) y
        fun j => gp.kernel.partValue names (.time s) (.time (t.get j)))
      (postVar (dataGram kernel.model (t.map .time) (GP.noiseOf t.len diag)) (gp.kernel.partValue names (.time s) (.time s))
        fun j => gp.kernel.partValue names (.time s) (.time (t.get j))) := by
  obtain ⟨-, hs0, -⟩ := GP.new_ok hnew
  have : Nonempty (Fin gp.kernel.extractLeafKernels.length) := ⟨⟨0, List.length_pos_iff.2 (leaves_ne_nil _)⟩⟩
  have hK := dataGram_leaves hs0 t (GP.noiseOf t.len diag)
  have hpd : (dataGram kernel.model (t.map .time) (GP.noiseOf t.len diag)).PosDef := dataGram_pd hv.builtIn (t.map .time) _ hR
  have h := hM.posterior (fun i hi => (hR i hi).le) (by rw [hK]; exact hpd) (Finset.univ.filter fun l => (gp.kernel.extractLeafKernels[l]).name ∈ names) hs
  rw [hK] at h
  simp only [partValue_eq]
  exact h

/-- **C95, predictions.** After `condition(y)`, the named components predicted at a time have the mean and the variance of the conditional
distribution of the sum of their processes at that time, given the measurements of the sum of all processes. -/
theorem C95_predict (hv : kernel.Valid) (ts : Arr ℝ) (hsol : Instantaneous solver (.times ts)) (ht : Sorted t) (hN : 0 < t.len)
    (hR : ∀ i < t.len, 0 < (GP.noiseOf t.len diag).get i) (hnew : GP.new kernel (.times t) diag mean solver u = .ok gp)
    (hM : SumMeasured P gp.kernel.componentCov T f t (GP.noiseOf t.len diag) Y) (hnd : gp.kernel.componentNames.Nodup)
    (names : List String) (hne : names ≠ []) (hd : names.Nodup) (hc : ∀ c ∈ names, Clear gp.kernel c) {j : ℕ} (hT : ts.get j ∈ T) :
    ∃ (m : (Fin t.len → ℝ) → ℝ) (v : ℝ), IsPosterior P (gp.kernel.namedSum f names (ts.get j)) Y m v ∧
      ∀ (y : Arr ℝ) (lp : EReal) (gp' : GP), gp.condition y = .ok (lp, gp') →
        ∃ r, gp'.predictedComponent (.times ts) names = .ok r ∧ r.len = ts.len ∧ r.get j = (m fun i => y.get i, v) := by
  refine ⟨_, _, parts_posterior hv hR hnew hM names hT, fun y lp gp' hcond => ?_⟩
  have hk := C54_names_kept_partial gp gp' y lp hcond hnd
  obtain ⟨r, hr, hl, hg⟩ := component_predicted hv (.times ts) hsol ht hN hR hnew hcond names hne hd (by rw [hk]; exact hc)
  refine ⟨r, hr, hl, ?_⟩
  rw [hg j, hk]
  rfl

/-- **C95, at the data.** The same for `get_component_mean`. -/
theorem C95_at_data (hv : kernel.Valid) (hsol : Sequential solver ∨ solver = some .parallel) (ht : Sorted t)
    (hR : ∀ i < t.len, 0 < (GP.noiseOf t.len diag).get i) (hnew : GP.new kernel (.times t) diag mean solver u = .ok gp)
    (hM : SumMeasured P gp.kernel.componentCov T f t (GP.noiseOf t.len diag) Y) (hnd : gp.kernel.componentNames.Nodup)
    (names : List String) (hne : names ≠ []) (hd : names.Nodup) (hc : ∀ c ∈ names, Clear gp.kernel c) {j : ℕ} (hj : j < t.len) :
    ∃ (m : (Fin t.len → ℝ) → ℝ) (v : ℝ), IsPosterior P (gp.kernel.namedSum f names (t.get j)) Y m v ∧
      ∀ (y : Arr ℝ) (lp : EReal) (gp' : GP), gp.condition y = .ok (lp, gp') →
        ∃ r, gp'.getComponentMean names = .ok r ∧ r.len = t.len ∧ r.get j = (m fun i => y.get i, v) := by
  refine ⟨_, _, parts_posterior hv hR hnew hM names (hM.times j hj), fun y lp gp' hcond => ?_⟩
  have hk := C54_names_kept_partial gp gp' y lp hcond hnd
  obtain ⟨r, hr, hl, hg⟩ := component_at_data_any hv hsol ht hR hnew hcond names hne hd (by rw [hk]; exact hc)
  refine ⟨r, hr, hl, ?_⟩
  rw [hg j hj, hk]
  rfl

end

/-- **The experiments exist**, for every kernel, data times and noise, and any finite number of further times. -/
theorem C95_exists (k : Kern) (hv : k.Valid) (t R : Arr ℝ) (T : Finset ℝ) : ∃ (Ω : Type) (_ : MeasurableSpace Ω) (P : Measure Ω) (T' : Set ℝ)
    (f : Fin k.extractLeafKernels.length → ℝ → Ω → ℝ) (Y : Fin t.len → Ω → ℝ), IsProbabilityMeasure P ∧ (∀ s ∈ T, s ∈ T') ∧
      SumMeasured P k.componentCov T' f t R Y := by
  classical
  obtain ⟨Ω, hΩ, P, f, Y, hP, hM⟩ := exists_sumMeasured k.componentCov t R (T ∪ (Finset.range t.len).image t.get)
    (fun i hi => Finset.mem_union_right _ (Finset.mem_image_of_mem _ (Finset.mem_range.2 hi))) fun l => by
      have hl : (k.extractLeafKernels[l]).Valid := hv.component (List.getElem_mem _)
      set S := T ∪ (Finset.range t.len).image t.get
      have h := (C26_gram_psd _ hl.builtIn.leafCombos fun i : Fin (Fintype.card S) => Coord.time ((Fintype.equivFin S).symm i : S)).submatrix
        (Fintype.equivFin S)
      convert h using 1
      ext s s'
      simp [Kern.componentCov]
  exact ⟨Ω, hΩ, P, _, f, Y, hP, fun s hs => Finset.mem_coe.2 (Finset.mem_union_left _ hs), hM⟩

/-! ### Example -/

section examples

/-- a trend and an oscillation -/
noncomputable def trendAndWave : Kern := .sum (.matern32 1 1 "trend") (.cosine 1 1 "wave")

theorem trendAndWave_valid : trendAndWave.Valid := .sum (.matern32 one_pos one_ne_zero) (.cosine one_pos one_ne_zero)

theorem trendAndWave_sum {k : Kern} (hk : k = trendAndWave) {Ω : Type} [MeasurableSpace Ω] {P : Measure Ω}
    {T : Set ℝ} {f : Fin k.extractLeafKernels.length → ℝ → Ω → ℝ} {t R : Arr ℝ} {Y : Fin t.len → Ω → ℝ}
    (hM : SumMeasured P k.componentCov T f t R Y) {s : ℝ} (hs : s ∈ T) :
    Var[k.namedSum f ["trend"] s; P] = 1 ∧ Var[k.namedSum f ["wave"] s; P] = 1 ∧
      IndepFun (k.namedSum f ["trend"] s) (k.namedSum f ["wave"] s) P := by
  subst hk
  have hP := hM.isProbabilityMeasure (ι := Fin 2)
  have e0 : (Finset.univ.filter fun l : Fin 2 => (trendAndWave.extractLeafKernels[l]).name ∈ ["trend"]) = {0} := by
    ext l; fin_cases l <;> decide
  have e1 : (Finset.univ.filter fun l : Fin 2 => (trendAndWave.extractLeafKernels[l]).name ∈ ["wave"]) = {1} := by
    ext l; fin_cases l <;> decide
  let i0 : Fin trendAndWave.extractLeafKernels.length := (0 : Fin 2)
  let i1 : Fin trendAndWave.extractLeafKernels.length := (1 : Fin 2)
  have f0 : trendAndWave.namedSum f ["trend"] s = f i0 s := funext fun ω => (congrArg (fun S => ∑ l ∈ S, f l s ω) e0).trans (Finset.sum_singleton _ _)
  have f1 : trendAndWave.namedSum f ["wave"] s = f i1 s := funext fun ω => (congrArg (fun S => ∑ l ∈ S, f l s ω) e1).trans (Finset.sum_singleton _ _)
  have hv : ∀ l, Var[f l s; P] = trendAndWave.componentCov l s s := fun l => by
    rw [← covariance_self ((hM.gaussian l).hasGaussianLaw_eval ⟨s, hs⟩).aemeasurable, hM.cov l s hs s hs]
  rw [f0, f1, hv, hv]
  refine ⟨?_, ?_, ?_⟩
  · show (Verif.matern32 1 1 "trend").evaluate (.time s) (.time s) = 1
    rw [C24_matern32 1 1 "trend" one_pos]
    simp [covMatern32]
  · show (Verif.cosine 1 1 "wave").evaluate (.time s) (.time s) = 1
    rw [C24_cosine 1 1 "wave" one_pos]
    simp [covCosine]
  · exact (hM.parts_independent.indepFun (show i0 ≠ i1 from fun h => absurd (show (0 : Fin 2) = 1 from h) (by decide))).comp
      (measurable_pi_apply (⟨s, hs⟩ : T) : Measurable fun z : T → ℝ => z ⟨s, hs⟩)
      (measurable_pi_apply (⟨s, hs⟩ : T) : Measurable fun z : T → ℝ => z ⟨s, hs⟩)

/-- with the parallel solver: the predicted oscillation at time 5 is the conditional distribution of the second process -/
example : ∃ gp, GP.new trendAndWave (.times twoT) (some (.inl 1)) none (some .parallel) false = .ok gp ∧
    ∃ (Ω : Type) (_ : MeasurableSpace Ω) (P : Measure Ω) (_ : IsProbabilityMeasure P) (F G : Ω → ℝ) (Y : Fin 2 → Ω → ℝ)
      (m : (Fin 2 → ℝ) → ℝ) (v : ℝ), IsPosterior P G Y m v ∧ Var[F; P] = 1 ∧ Var[G; P] = 1 ∧ IndepFun F G P ∧
      ∀ y : Arr ℝ, ∃ lp gp' r, gp.condition y = .ok (lp, gp') ∧ gp'.predictedComponent (.times ⟨1, fun _ => 5⟩) ["wave"] = .ok r ∧
          r.get 0 = (m fun i => y.get i, v) := by
  obtain ⟨gp, hnew⟩ := (C06_constructor trendAndWave_valid twoT (some (.inl 1)) none).1
  have hk : gp.kernel = trendAndWave := (Except.ok.inj (GP.new_ok hnew).1).symm
  obtain ⟨Ω, hΩ, P, T', f, Y, hP, hT, hM⟩ := C95_exists gp.kernel (by rw [hk]; exact trendAndWave_valid) twoT (GP.noiseOf twoT.len (some (.inl 1))) {5}
  have h5 : (5 : ℝ) ∈ T' := hT 5 (Finset.mem_singleton_self _)
  have hnd : gp.kernel.componentNames.Nodup := by rw [hk]; decide
  obtain ⟨m, v, hpost, hpred⟩ := C95_predict trendAndWave_valid ⟨1, fun _ => 5⟩ (.inr ⟨rfl, rfl⟩) twoT_sorted (by decide) (fun _ _ => one_pos) hnew hM hnd
    ["wave"] (List.cons_ne_nil _ _) (List.nodup_singleton _) (fun c hc p hp hq => by
      rw [hk] at hp
      rcases List.mem_cons.1 hp with rfl | hp
      · cases hq
      · rcases List.mem_singleton.1 hp with rfl
        cases hq) (j := 0) h5
  obtain ⟨v0, v1, hi⟩ := trendAndWave_sum hk hM h5
  refine ⟨gp, hnew, Ω, hΩ, P, hP, gp.kernel.namedSum f ["trend"] 5, _, Y, m, v, hpost, v0, v1, hi, fun y => ?_⟩
  obtain ⟨⟨lp, gp'⟩, hc⟩ := (C07_condition_succeeds trendAndWave_valid (((transitionError_iff true _).1 rfl).2 rfl) hnew y).2 ⟨by show (2 : ℕ) ≠ 1; decide, _, by rw [hk]; rfl⟩
  obtain ⟨r, hr, -, e⟩ := hpred y lp gp' hc
  exact ⟨lp, gp', r, hc, hr, e⟩

end examples

end Verif
