import Verif.Lemmas.Components
import Verif.Props.C37_Names

/-!
# C39, C40: component means

`gp` is the GP before, `gp'` the GP after `condition(y)`.
-/

namespace Verif
open Matrix Kern

/-! ### C39 -/

theorem atData_of_condition {gp gp' : GP} {y : Arr ℝ} {lp : EReal} (h : gp.condition y = .ok (lp, gp')) :
    gp'.atData y = gp.atData y := by
  obtain ⟨-, -, -, hs, hX, -, -, -, -, hsol, -⟩ := GP.condition_ok h
  unfold GP.atData GP.projectAtData
  rw [← SSM.strip_projectData, hs.strip, hX, hsol, SSM.strip_projectData]

theorem noProducts_of_same {k k' : Kern} (hs : k.SameButNames k') (h : NoProducts k') : NoProducts k := by
  intro c hc hp
  have : c.unname ∈ (k'.extractLeafKernels).map Kern.unname := by
    rw [← hs.extract]; exact List.mem_map_of_mem hc
  obtain ⟨c', hc', e⟩ := List.mem_map.1 this
  exact h c' hc' ((isProd_unname c').1 (by rw [e]; exact (isProd_unname c).2 hp))

theorem projectData_mean_sum (k : SSM) (c : Conditioned k.n) (X : Arr Coord) (l : List String) (i : ℕ) :
    (l.map fun s => ((k.projectData c (k.componentRow [s]) X).get i).1).sum = ((k.projectData c (k.componentRow l) X).get i).1 := by
  have h : ∀ obs : Coord → Matrix (Fin 1) k.n ℝ, ∃ m : k.n → ℝ, ∃ x : Coord, ∀ obs : Coord → Matrix (Fin 1) k.n ℝ,
      ((k.projectData c obs X).get i).1 = (obs x *ᵥ m) 0 := fun _ => ⟨_, _, fun _ => rfl⟩
  obtain ⟨m, x, h⟩ := h fun _ => 0
  simp only [h]
  rw [componentRow_eq_sum, list_sum_mulVec, List.map_map]
  rfl

theorem projectTest_mean_sum (k : SSM) (c : Conditioned k.n) (X : Arr Coord) (l : List String) (i : ℕ) :
    (l.map fun s => ((k.projectTest c (k.componentRow [s]) X).get i).1).sum = ((k.projectTest c (k.componentRow l) X).get i).1 := by
  have h : ∀ obs : Coord → Matrix (Fin 1) k.n ℝ, ∃ m : k.n → ℝ, ∃ x : Coord, ∀ obs : Coord → Matrix (Fin 1) k.n ℝ,
      ((k.projectTest c obs X).get i).1 = (obs x *ᵥ m) 0 := fun _ => ⟨_, _, fun _ => rfl⟩
  obtain ⟨m, x, h⟩ := h fun _ => 0
  simp only [h]
  rw [componentRow_eq_sum, list_sum_mulVec, List.map_map]
  rfl

theorem allComponents_row (k : Kern) (h : NoProducts k) :
    k.model.componentRow k.componentNames.dedup = fun x => k.model.obsModel x none :=
  funext fun x => componentRow_all k h _ (List.nodup_dedup _) (fun _ hc => List.mem_dedup.2 hc) x

/-- **C39, partial** (data points): for a sum without products, whatever the names, the solver (also the integrated and parallel ones)
and the data, the means returned by `get_all_component_means()` add up to the conditioned mean. Missing: products, for which it is false
(`C39_product_lost`). -/
theorem C39_means_add_up_partial (gp gp' : GP) (y : Arr ℝ) (lp : EReal) (h : gp.condition y = .ok (lp, gp'))
    (hk : NoProducts gp.kernel) :
    ∃ d, gp'.getAllComponentMeans = .ok d ∧ d.map Prod.fst = gp'.kernel.componentNames.dedup ∧
      ∀ i, (d.map fun e => (e.2.get i).1).sum = gp'.mean.get i := by
  obtain ⟨-, -, -, hs, -, -, hm, -, -, -, hst, -⟩ := GP.condition_ok h
  have hk' := noProducts_of_same hs hk
  unfold GP.getAllComponentMeans
  simp only [hst, GP.condition_obs' h]
  refine ⟨_, rfl, ?_, fun i => ?_⟩
  · rw [List.map_map]; exact List.map_id _
  · rw [List.map_map, hm, ← atData_of_condition h]
    refine (projectData_mean_sum _ _ _ _ i).trans ?_
    rw [allComponents_row _ hk']
    rfl

/-- **C39, partial** (test points): the same for `predict(X_test, return_full_state=True).get_all_components()`. -/
theorem C39_predictions_add_up_partial (gp : GP) (y : Arr ℝ) (Xtest : XArg) (hst : gp.states = some y) (hk : NoProducts gp.kernel)
    (mu var : Arr ℝ) (hp : gp.predict (some Xtest) = .ok (mu, var)) :
    ∃ d, gp.predictedComponents Xtest = .ok d ∧ d.map Prod.fst = gp.kernel.componentNames.dedup ∧
      ∀ i, (d.map fun e => (e.2.get i).1).sum = mu.get i := by
  unfold GP.predict at hp
  rw [hst] at hp
  simp only [GP.predictConditioned] at hp
  split at hp
  · cases hp
  · rename_i hr
    split_ifs at hp with hpar
    cases ho : gp.kernel.obsError Xtest with
    | some e => rw [ho] at hp; cases hp
    | none =>
    rw [ho] at hp
    have hc : ∀ c, gp.predictedComponent Xtest [c] = .ok (gp.kernel.model.projectTest
        (gp.kernel.model.states gp.solver.kind gp.solver.X.coords y gp.solver.noise) (gp.kernel.model.componentRow [c]) Xtest.coords) := by
      intro c
      unfold GP.predictedComponent
      simp only [hst, hr, if_neg hpar, ho]
      rfl
    have hl : ∀ l : List String, (l.mapM fun c => (gp.predictedComponent Xtest [c]).map fun r => (c, r)) =
        .ok (l.map fun c => (c, gp.kernel.model.projectTest
        (gp.kernel.model.states gp.solver.kind gp.solver.X.coords y gp.solver.noise) (gp.kernel.model.componentRow [c]) Xtest.coords)) := by
      intro l
      simp only [hc]
      induction l with
      | nil => rfl
      | cons c l ih => rw [List.mapM_cons, ih]; rfl
    refine ⟨_, hl _, ?_, fun i => ?_⟩
    · rw [List.map_map]; exact List.map_id _
    · cases hp
      rw [List.map_map]
      refine (projectTest_mean_sum _ _ _ _ i).trans ?_
      rw [allComponents_row _ hk]
      rfl

/-! ### C40 -/

theorem projectData_get (k : SSM) (X : Arr Coord) (y R : Arr ℝ) (obs : Coord → Matrix (Fin 1) k.n ℝ) {i : ℕ} (hi : i < X.len) :
    (k.projectData (k.states .stateSpace X y R) obs X).get i =
      ((obs (X.get i) *ᵥ ((k.condition (X.map Coord.sortable) y R).2.get i).m) 0,
       (obs (X.get i) * ((k.condition (X.map Coord.sortable) y R).2.get i).P * (obs (X.get i))ᵀ) 0 0) := by
  have h1 : ∀ j < X.len, (nonzeroSize X.len (fun _ => (1 : ℕ) == 1) X.len).get j = j := fun j hj =>
    nonzeroSize_all _ _ (fun _ => rfl) hj
  have h2 : (argsort ((Arr.arange X.len).take (nonzeroSize X.len (fun _ => (1 : ℕ) == 1) X.len))).get i = i := by
    refine argsort_sorted _ (fun a b hab hb => ?_) hi
    have hb' : b < X.len := hb
    show (nonzeroSize X.len _ X.len).get a ≤ (nonzeroSize X.len _ X.len).get b
    rw [h1 a (by omega), h1 b hb']
    exact hab
  have h3 : ((nonzeroSize X.len (fun _ => (1 : ℕ) == 1) X.len).take
      (argsort ((Arr.arange X.len).take (nonzeroSize X.len (fun _ => (1 : ℕ) == 1) X.len)))).get i = i := by
    show (nonzeroSize X.len _ X.len).get _ = i
    rw [h2, h1 i hi]
  have h4 : (k.projectData (k.states .stateSpace X y R) obs X).get i =
      (fun j => ((obs (X.get i) *ᵥ ((k.condition (X.map Coord.sortable) y R).2.get j).m) 0,
       (obs (X.get i) * ((k.condition (X.map Coord.sortable) y R).2.get j).P * (obs (X.get i))ᵀ) 0 0))
        (((nonzeroSize X.len (fun _ => (1 : ℕ) == 1) X.len).take
      (argsort ((Arr.arange X.len).take (nonzeroSize X.len (fun _ => (1 : ℕ) == 1) X.len)))).get i) := rfl
  rw [h4, h3]

/-- the kernel function of the sum of the components with the given names -/
noncomputable def Kern.partValue (k : Kern) (names : List String) (X1 X2 : Coord) : ℝ :=
  ((k.extractLeafKernels.filter fun a => a.name ∈ names).map fun a => a.model.evaluate X1 X2).sum

theorem dataGram_congr {k k' : SSM} (h : k.strip = k'.strip) (X : Arr Coord) (R : Arr ℝ) : dataGram k X R = dataGram k' X R := by
  unfold dataGram
  simp only [SSM.evaluate_of_strip h]

/-- **C40, partial** (data points): requesting components by name from a conditioned GP gives the exact posterior mean and variance of the
sum of the components with these names (so zero for unknown names). Missing: names to which a product answers. -/
theorem C40_component_partial (kernel : Kern) (hv : kernel.Valid) (t : Arr ℝ) (ht : Sorted t) (diag : Option (ℝ ⊕ Arr ℝ))
    (mean : Option (Coord → ℝ)) (u : Bool) (gp gp' : GP) (y : Arr ℝ) (lp : EReal)
    (hR : ∀ i < t.len, 0 < (GP.noiseOf t.len diag).get i)
    (hnew : GP.new kernel (.times t) diag mean (some .stateSpace) u = .ok gp) (hcond : gp.condition y = .ok (lp, gp'))
    (names : List String) (hne : names ≠ []) (hd : names.Nodup) (hc : ∀ c ∈ names, Clear gp'.kernel c) :
    ∃ r, gp'.getComponentMean names = .ok r ∧ r.len = t.len ∧ ∀ i < t.len, r.get i =
      (Spec.postMean (dataGram kernel.model (t.map .time) (GP.noiseOf t.len diag)) (fun j => y.get j)
        (fun j => gp'.kernel.partValue names (.time (t.get i)) (.time (t.get j))),
       Spec.postVar (dataGram kernel.model (t.map .time) (GP.noiseOf t.len diag))
        (gp'.kernel.partValue names (.time (t.get i)) (.time (t.get i)))
        (fun j => gp'.kernel.partValue names (.time (t.get i)) (.time (t.get j)))) := by
  obtain ⟨-, hs0, hX0, -, -, -, -, hsol0, -⟩ := GP.new_ok hnew
  obtain ⟨-, -, -, hs, hX, -, -, -, -, hsol, hst, -⟩ := GP.condition_ok hcond
  have hs' := hs.trans hs0
  have hv' : gp'.kernel.Valid := hs'.valid.2 hv
  rw [hX0] at hX
  rw [hsol0] at hsol
  have hreg := hv'.builtIn.regular
  have hX' : Sorted (((t.map Coord.time).map Coord.sortable) : Arr ℝ) := ht
  unfold GP.getComponentMean
  simp only [hst, if_neg hne, GP.condition_obs' hcond]
  refine ⟨_, rfl, by show gp'.X.coords.len = _; rw [hX]; rfl, fun i hi => ?_⟩
  have e : (gp'.projectAtData y (gp'.kernel.model.componentRow names)).get i =
      (gp'.kernel.model.projectData (gp'.kernel.model.states .stateSpace (t.map Coord.time) y (GP.noiseOf t.len diag))
        (gp'.kernel.model.componentRow names) (t.map Coord.time)).get i := by
    unfold GP.projectAtData
    rw [hX, hsol]
    rfl
  rw [e, projectData_get _ _ _ _ _ (by exact hi)]
  obtain ⟨h1, h2⟩ := hreg.toProper.smoothed_row (y := y) (R := GP.noiseOf t.len diag) (X := t.map Coord.time) hX' (by exact Nat.zero_lt_of_lt hi)
    (fun i hi' => (hreg.S_pos hX' (by exact Nat.zero_lt_of_lt hi) hR hi').ne')
    (fun i hi' => hreg.P_unit hX' (by exact Nat.zero_lt_of_lt hi) hR hi') (by exact hi)
    (gp'.kernel.model.componentRow names (.time (t.get i)))
  obtain ⟨r1, r2⟩ := rows_of_components gp'.kernel hv' names hd hc (.time (t.get i))
  rw [← dataGram_congr hs'.strip]
  refine Prod.ext ?_ ?_
  · refine h1.trans ?_
    refine congrArg _ (funext fun j => ?_)
    exact r1 _
  · refine h2.trans ?_
    refine congrArg₂ _ r2 (funext fun j => ?_)
    exact r1 _

/-- **C40, partial** (test points): the same for `predict(X_test, return_full_state=True).get_component(names)`. -/
theorem C40_predicted_component_partial (kernel : Kern) (hv : kernel.Valid) (t : Arr ℝ) (ht : Sorted t) (diag : Option (ℝ ⊕ Arr ℝ))
    (mean : Option (Coord → ℝ)) (u : Bool) (gp gp' : GP) (y : Arr ℝ) (lp : EReal) (hN : 0 < t.len)
    (hR : ∀ i < t.len, 0 < (GP.noiseOf t.len diag).get i)
    (hnew : GP.new kernel (.times t) diag mean (some .stateSpace) u = .ok gp) (hcond : gp.condition y = .ok (lp, gp')) (Xtest : XArg)
    (names : List String) (hne : names ≠ []) (hd : names.Nodup) (hc : ∀ c ∈ names, Clear gp'.kernel c) :
    ∃ r, gp'.predictedComponent Xtest names = .ok r ∧ r.len = Xtest.coords.len ∧ ∀ i, r.get i =
      (Spec.postMean (dataGram kernel.model (t.map .time) (GP.noiseOf t.len diag)) (fun j => y.get j)
        (fun j => gp'.kernel.partValue names (Xtest.coords.get i) (.time (t.get j))),
       Spec.postVar (dataGram kernel.model (t.map .time) (GP.noiseOf t.len diag))
        (gp'.kernel.partValue names (Xtest.coords.get i) (Xtest.coords.get i))
        (fun j => gp'.kernel.partValue names (Xtest.coords.get i) (.time (t.get j)))) := by
  obtain ⟨-, hs0, hX0, -, -, -, -, hsol0, -⟩ := GP.new_ok hnew
  obtain ⟨hrun, -, -, hs, hX, -, -, -, -, hsol, hst, -⟩ := GP.condition_ok hcond
  have hs' := hs.trans hs0
  have hv' : gp'.kernel.Valid := hs'.valid.2 hv
  have hrun' : gp'.runError = none := by
    rw [← hrun]
    unfold GP.runError
    rw [hsol, hs.transitionError]
  rw [hsol0] at hsol
  have hreg := hv'.builtIn.regular
  have hX' : Sorted (((t.map Coord.time).map Coord.sortable) : Arr ℝ) := ht
  have hkind : ¬ (gp'.solver.kind = .parallel ∧ (gp'.solver.X.isTuple = true ∨ Xtest.isTuple = true)) := by
    rw [hsol]; rintro ⟨h, -⟩; cases h
  unfold GP.predictedComponent
  simp only [hst, hrun', if_neg hkind, if_neg hne, hv'.obsError]
  refine ⟨_, rfl, rfl, fun i => ?_⟩
  obtain ⟨h1, h2⟩ := hreg.toProper.predicted_row (y := y) (R := GP.noiseOf t.len diag) (X := t.map Coord.time) hX' hN
    (fun i hi' => (hreg.S_pos hX' hN hR hi').ne')
    (fun i hi' => hreg.P_unit hX' hN hR hi') (Xtest.coords.get i)
    (gp'.kernel.model.componentRow names (Xtest.coords.get i))
  obtain ⟨r1, r2⟩ := rows_of_components gp'.kernel hv' names hd hc (Xtest.coords.get i)
  rw [← dataGram_congr hs'.strip]
  rw [hsol]
  refine Prod.ext ?_ ?_
  · refine h1.trans ?_
    refine congrArg _ (funext fun j => ?_)
    exact r1 _
  · refine h2.trans ?_
    refine congrArg₂ _ r2 (funext fun j => ?_)
    exact r1 _

/-- **C40.** A name which nothing in the kernel has gives mean zero and variance zero, with every solver and every kernel. -/
theorem C40_unknown_name (gp₀ gp : GP) (y : Arr ℝ) (lp : EReal) (h : gp₀.condition y = .ok (lp, gp)) (c : String)
    (hc : ∀ a ∈ gp.kernel.extractLeafKernels true, a.name ≠ c) :
    ∃ r, gp.getComponentMean [c] = .ok r ∧ ∀ i, r.get i = (0, 0) := by
  obtain ⟨-, -, -, -, -, -, -, -, -, -, hst, -⟩ := GP.condition_ok h
  unfold GP.getComponentMean
  simp only [hst, if_neg (List.cons_ne_nil c []), GP.condition_obs' h]
  refine ⟨_, rfl, fun i => ?_⟩
  have e : gp.kernel.model.componentRow [c] = fun _ => 0 := funext fun x => obsModel_unknown gp.kernel x c hc
  rw [e]
  have h : ∃ s : StateMP gp.kernel.model.n, ((gp.projectAtData y fun _ => (0 : Matrix (Fin 1) gp.kernel.model.n ℝ))).get i =
      (((0 : Matrix (Fin 1) gp.kernel.model.n ℝ) *ᵥ s.m) 0,
        ((0 : Matrix (Fin 1) gp.kernel.model.n ℝ) * s.P * (0 : Matrix (Fin 1) gp.kernel.model.n ℝ)ᵀ) 0 0) := ⟨_, rfl⟩
  obtain ⟨s, hs⟩ := h
  rw [hs]
  simp

/-- **C40.** Naming no component raises, at the data and at test times, instead of answering zero. -/
theorem C40_no_name (gp₀ gp : GP) (y : Arr ℝ) (lp : EReal) (h : gp₀.condition y = .ok (lp, gp)) (Xtest : XArg) :
    (∀ r, gp.getComponentMean [] ≠ .ok r) ∧ ∀ r, gp.predictedComponent Xtest [] ≠ .ok r := by
  obtain ⟨-, -, -, -, -, -, -, -, -, -, hst, -⟩ := GP.condition_ok h
  constructor
  · intro r e
    unfold GP.getComponentMean at e
    simp only [hst] at e
    cases e
  · intro r e
    unfold GP.predictedComponent at e
    simp only [hst] at e
    split at e
    · cases e
    · split_ifs at e

/-- **C40.** The rows add: a list of names gives the sum of the means. -/
theorem C40_list_is_sum (gp₀ gp : GP) (y : Arr ℝ) (lp : EReal) (h : gp₀.condition y = .ok (lp, gp)) (names : List String) (hne : names ≠ []) :
    ∃ r : Arr (ℝ × ℝ), ∃ f : String → Arr (ℝ × ℝ), gp.getComponentMean names = .ok r ∧ (∀ c, gp.getComponentMean [c] = .ok (f c)) ∧
      ∀ i, (r.get i).1 = (names.map fun c => ((f c).get i).1).sum := by
  obtain ⟨-, -, -, -, -, -, -, -, -, -, hst, -⟩ := GP.condition_ok h
  refine ⟨gp.projectAtData y (gp.kernel.model.componentRow names), fun c => gp.projectAtData y (gp.kernel.model.componentRow [c]), ?_, ?_, ?_⟩
  · unfold GP.getComponentMean; simp only [hst, if_neg hne, GP.condition_obs' h]
  · intro c; unfold GP.getComponentMean; simp only [hst, if_neg (List.cons_ne_nil c []), GP.condition_obs' h]
  · intro i; exact (projectData_mean_sum _ _ _ _ i).symm

/-! ### The cases which fail -/

section examples

theorem postMean_of_solution {ι : Type*} [Fintype ι] [DecidableEq ι] {K : Matrix ι ι ℝ} (hK : IsUnit K.det) {x y : ι → ℝ}
    (h : K *ᵥ x = y) (c : ι → ℝ) : Spec.postMean K y c = c ⬝ᵥ x := by
  unfold Spec.postMean
  rw [← h, Matrix.mulVec_mulVec, Matrix.nonsing_inv_mul _ hK, Matrix.one_mulVec]

/-- two measurements of the value 1 at the same time, with unit noise -/
noncomputable def twoT : Arr ℝ := ⟨2, fun _ => 0⟩
noncomputable def twoY : Arr ℝ := ⟨2, fun _ => 1⟩

theorem twoT_sorted : Sorted twoT := fun _ _ _ _ => le_rfl

theorem two_postMean {k : SSM} {a : ℝ} (ha : k.evaluate (.time 0) (.time 0) = a) (hpos : 0 ≤ a) (b : ℝ) :
    Spec.postMean (dataGram k (twoT.map .time) (GP.noiseOf 2 (some (.inl 1)))) (fun j => twoY.get j) (fun _ => b) = 2 * b / (2 * a + 1) := by
  have hK : dataGram k (twoT.map .time) (GP.noiseOf 2 (some (.inl 1))) = (!![a + 1, a; a, a + 1] : Matrix (Fin 2) (Fin 2) ℝ) := by
    ext i j
    show k.evaluate (.time 0) (.time 0) + (if i = j then (1 : ℝ) else 0) = _
    rw [ha]
    revert i j
    show ∀ i j : Fin 2, a + (if i = j then (1 : ℝ) else 0) = _
    intro i j
    fin_cases i <;> fin_cases j <;> simp
  rw [hK]
  have hx := postMean_of_solution (K := (!![a + 1, a; a, a + 1] : Matrix (Fin 2) (Fin 2) ℝ)) (x := fun _ => 1 / (2 * a + 1)) (y := fun _ => 1)
    (by rw [Matrix.det_fin_two_of, isUnit_iff_ne_zero]; nlinarith)
    (by
      funext i
      have : 2 * a + 1 ≠ 0 := by positivity
      fin_cases i <;> simp [Matrix.mulVec, dotProduct, Fin.sum_univ_two] <;> field_simp <;> ring) (fun _ => b)
  refine Eq.trans hx ?_
  simp [dotProduct]
  ring

/-- the prior variance of `Matern32(scale=1, sigma=1)` -/
theorem matern32_one (s : String) : (matern32 1 1 s).evaluate (.time 0) (.time 0) = 1 := by
  rw [C24_matern32 _ _ _ one_pos]
  simp [Coord.sortable, Spec.covMatern32]

/-- `Matern32("A") * Matern32("B") + Matern32("C")` -/
noncomputable def prodPlus : Kern := .sum (.prod (.matern32 1 1 "A") (.matern32 1 1 "B")) (.matern32 1 1 "C")

theorem prodPlus_valid : prodPlus.Valid :=
  .sum (.prod (.matern32 one_pos one_ne_zero) (.matern32 one_pos one_ne_zero)) (.matern32 one_pos one_ne_zero)

theorem prodPlus_value : prodPlus.model.evaluate (.time 0) (.time 0) = 2 := by
  show (((matern32 1 1 "A").prod (matern32 1 1 "B")).sum (matern32 1 1 "C")).evaluate _ _ = 2
  rw [C27_sum_evaluate, C27_prod_evaluate, matern32_one, matern32_one, matern32_one]
  norm_num

end examples

end Verif
