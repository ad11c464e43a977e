import Verif.Model.Operators
import Verif.Props.C71_Textbook
import Verif.Props.C42_Interface

/-!
# C78: arithmetic of kernels; C28: `c * kernel`; C79: `sample` and `covariance`
-/

namespace Verif
open Matrix Kern Spec

theorem pySum_kernels (k : Kern) (ks : List Kern) : pySum ((k :: ks).map .kernel) = .ok (.kernel (ks.foldl .sum k)) := by
  have key : ∀ (ks : List Kern) (k : Kern), (ks.map Operand.kernel).foldlM pyAdd (.kernel k) = .ok (.kernel (ks.foldl .sum k)) := by
    intro ks
    induction ks with
    | nil => intro k; rfl
    | cons a ks ih => intro k; exact ih (.sum k a)
  have h0 : pyAdd (.scalar 0) (.kernel k) = .ok (.kernel k) := by simp [pyAdd, radd]
  show (pyAdd (.scalar 0) (.kernel k) >>= fun s => (ks.map Operand.kernel).foldlM pyAdd s) = _
  rw [h0]
  exact key ks k

theorem pyReduceMul_kernels (k : Kern) (ks : List Kern) : pyReduceMul k (ks.map .kernel) = .ok (.kernel (ks.foldl .prod k)) := by
  unfold pyReduceMul
  induction ks generalizing k with
  | nil => rfl
  | cons a ks ih => exact ih (.prod k a)

theorem foldl_sum_leaves (all : Bool) (k : Kern) (ks : List Kern) :
    (ks.foldl .sum k).extractLeafKernels all = (k :: ks).flatMap (·.extractLeafKernels all) := by
  induction ks generalizing k with
  | nil => simp
  | cons a ks ih => rw [List.foldl_cons, ih]; simp [extractLeafKernels]

theorem foldl_sum_textbook {k : Kern} {κ : ℝ → ℝ} {ks : List Kern} {κs : List (ℝ → ℝ)} (h : Textbook k κ) (hs : List.Forall₂ Textbook ks κs) :
    Textbook (ks.foldl .sum k) fun r => ((κ :: κs).map fun f => f r).sum := by
  induction hs generalizing k κ with
  | nil => simpa using h
  | @cons a f ks κs ha _ ih =>
    have := ih (h.sum ha)
    simpa [add_assoc] using this

theorem foldl_prod_textbook {k : Kern} {κ : ℝ → ℝ} {ks : List Kern} {κs : List (ℝ → ℝ)} (h : Textbook k κ) (hs : List.Forall₂ Textbook ks κs) :
    Textbook (ks.foldl .prod k) fun r => ((κ :: κs).map fun f => f r).prod := by
  induction hs generalizing k κ with
  | nil => simpa using h
  | @cons a f ks κs ha _ ih =>
    have := ih (h.prod ha)
    simpa [mul_assoc] using this

theorem foldl_sum_integrates {p : Prop} {m : ℕ} {k : Kern} {κ : ℝ → ℝ} {ks : List Kern} {κs : List (ℝ → ℝ)} (h : k.Integrates p m κ)
    (hs : List.Forall₂ (Kern.Integrates p m) ks κs) :
    (ks.foldl .sum k).Integrates p m fun r => ((κ :: κs).map fun f => f r).sum := by
  induction hs generalizing k κ with
  | nil => simpa using h
  | @cons a f ks κs ha _ ih =>
    have := ih (h.sum ha)
    simpa [add_assoc] using this

section
variable {k : Kern} {κ : ℝ → ℝ} {ks : List Kern} {κs : List (ℝ → ℝ)} {t d : Arr ℝ} {inst : Arr ℤ} {m : ℕ} {solver : Option SolverKind}
  {diag : Option (ℝ ⊕ Arr ℝ)} {mean : Option (Coord → ℝ)} {u : Bool}

/-- **C78, `sum`.** Python's `sum` of a list of kernels is a kernel; its components are those of the kernels, in order, and regression with it uses the
sum of the covariance functions. -/
theorem C78_sum (h : Textbook k κ) (hs : List.Forall₂ Textbook ks κs) :
    ∃ s, pySum ((k :: ks).map .kernel) = .ok (.kernel s) ∧ s.extractLeafKernels = (k :: ks).flatMap (·.extractLeafKernels) ∧
      ∀ (gp : GP) (y : Arr ℝ), GP.new s (.times t) diag mean solver u = .ok gp → SolverFor s solver → Sorted t → 0 < t.len →
        (∀ i < t.len, 0 < noiseVar diag i) → y.len = t.len →
        gp.logProbability y = .ok ((gaussLogDensity (dataMatrix (fun r => ((κ :: κs).map fun f => f r).sum) t diag) (fun i => y.get i) : ℝ) : EReal) := by
  refine ⟨_, pySum_kernels k ks, foldl_sum_leaves false k ks, fun gp y hnew hsol ht hN hR hy => ?_⟩
  rw [C71_log_probability (foldl_sum_textbook h hs) hsol hnew ht hN hR hy]
  unfold gaussLogDensity
  rw [Fintype.card_fin]

/-- **C78, products.** Multiplying a list of kernels with `*` one after the other gives a kernel; regression with it uses the product of the covariance
functions. -/
theorem C78_product (h : Textbook k κ) (hs : List.Forall₂ Textbook ks κs) :
    ∃ s, pyReduceMul k (ks.map .kernel) = .ok (.kernel s) ∧ s.extractLeafKernels true = (k :: ks).flatMap (·.extractLeafKernels true) ∧
      ∀ (gp : GP) (y : Arr ℝ), GP.new s (.times t) diag mean solver u = .ok gp → SolverFor s solver → Sorted t → 0 < t.len →
        (∀ i < t.len, 0 < noiseVar diag i) → y.len = t.len →
        gp.logProbability y = .ok ((gaussLogDensity (dataMatrix (fun r => ((κ :: κs).map fun f => f r).prod) t diag) (fun i => y.get i) : ℝ) : EReal) := by
  refine ⟨_, pyReduceMul_kernels k ks, ?_, fun gp y hnew hsol ht hN hR hy => ?_⟩
  · clear h hs
    induction ks generalizing k with
    | nil => simp
    | cons a ks ih => rw [List.foldl_cons, ih]; simp [extractLeafKernels]
  · rw [C71_log_probability (foldl_prod_textbook h hs) hsol hnew ht hN hR hy]
    unfold gaussLogDensity
    rw [Fintype.card_fin]

/-- **C78, `sum` of integrated kernels.** -/
theorem C78_sum_integrated (h : k.Integrates False m κ) (hs : List.Forall₂ (Kern.Integrates False m) ks κs) :
    ∃ s, pySum ((k :: ks).map .kernel) = .ok (.kernel s) ∧ s.extractLeafKernels = (k :: ks).flatMap (·.extractLeafKernels) ∧
      ∀ (gp : GP) (y : Arr ℝ), GP.new s (.triple t d inst) diag mean solver u = .ok gp →
        IntegratedSolver s (XArg.triple t d inst).coords solver → Exposures m t d inst → 0 < t.len →
        (∀ i < t.len, 0 < noiseVar diag i) → y.len = t.len →
        gp.logProbability y =
          .ok ((gaussLogDensity (exposureMatrix (fun r => ((κ :: κs).map fun f => f r).sum) t d diag) (fun i => y.get i) : ℝ) : EReal) := by
  refine ⟨_, pySum_kernels k ks, foldl_sum_leaves false k ks, fun gp y hnew hsol hX hN hR hy => ?_⟩
  rw [C71_exposures_log_probability (foldl_sum_integrates h hs) hsol hX hnew hN hR hy]
  unfold gaussLogDensity
  rw [Fintype.card_fin]

end

/-- **C78, other summands are refused**, on the right always, on the left unless zero. -/
theorem C78_only_kernels_add (k : Kern) (c : ℝ) :
    (∀ o, (∃ s, pyAdd (.kernel k) o = .ok s) ↔ ∃ k', o = .kernel k') ∧
    (pyAdd (.scalar c) (.kernel k) = .ok (.kernel k) ↔ c = 0) ∧ (c ≠ 0 → pyAdd (.scalar c) (.kernel k) = .error .valueError) := by
  refine ⟨fun o => ?_, ?_, fun hc => ?_⟩
  · cases o with
    | kernel k' => exact ⟨fun _ => ⟨k', rfl⟩, fun _ => ⟨_, rfl⟩⟩
    | _ => exact Iff.intro (fun h => by obtain ⟨_, h⟩ := h; cases h) (fun h => by obtain ⟨_, h⟩ := h; cases h)
  · by_cases hc : c = 0
    · simp [pyAdd, radd, hc]
    · refine ⟨fun h => ?_, fun h => (hc h).elim⟩
      simp [pyAdd, radd, hc] at h
  · simp only [pyAdd, radd, if_neg hc]
    rfl

/-- **C28, refuted**: a kernel cannot be multiplied by a scalar, from either side. -/
theorem C28_scalar_multiple_raises (k : Kern) (c : ℝ) :
    pyMul (.scalar c) (.kernel k) = .error .typeError ∧ pyMul (.kernel k) (.scalar c) = .error .typeError := ⟨rfl, rfl⟩

/-- **C78, refuted for `math.prod`**: it starts with the factor `1`, so that it raises for every list of kernels. -/
theorem C78_math_prod_raises (k : Kern) (ks : List Kern) : pyProd ((k :: ks).map .kernel) = .error .typeError := rfl

/-- **C78, `sum` refuses a list containing anything but kernels after the first.** -/
theorem C78_sum_mixed_raises (k : Kern) (l r : List Kern) (o : Operand) (ho : ∀ k', o ≠ .kernel k') :
    pySum ((k :: l).map .kernel ++ o :: r.map .kernel) = .error .valueError := by
  unfold pySum
  rw [List.foldlM_append]
  have := pySum_kernels k l
  unfold pySum at this
  rw [this]
  show (pyAdd _ o >>= _) = _
  cases o with
  | kernel k' => exact (ho k' rfl).elim
  | _ => rfl

/-- **C43.** Test coordinates of another kind than the data are noticed first. -/
theorem C43_format_checked (gp : GP) (y : Arr ℝ) (Xtest : XArg)
    (h : ¬ ((∃ t t', gp.X = .times t ∧ Xtest = .times t') ∨ (∃ t d t' d', gp.X = .pair t d ∧ Xtest = .pair t' d') ∨
      ∃ t d i t' d' i', gp.X = .triple t d i ∧ Xtest = .triple t' d' i')) :
    gp.condition y (some Xtest) = .error .valueError := by
  have e : gp.X.sameTree Xtest = false := by
    cases hX : gp.X <;> cases Xtest <;> first | rfl | (exfalso; apply h; simp [hX])
  unfold GP.condition
  simp only [bind, Except.bind]
  rw [e]
  rfl

/-- **C79, refuted**: neither samples nor the covariance matrix are available, before or after conditioning. -/
theorem C79_not_implemented (gp : GP) (key : ℕ) (shape : Option (List ℕ)) :
    gp.sample key shape = .error .notImplementedError ∧ gp.covariance = .error .notImplementedError := ⟨rfl, rfl⟩

/-- **C25, diagonal.** The variance computed for a single coordinate is the diagonal of the covariance matrix. -/
theorem C25_diagonal (k : SSM) (hk : Combos (Leaf SHO.Any) k) (X : Coord) : k.evaluateDiag X = k.evaluate X X := by
  obtain ⟨G, hG⟩ := hk.covModel
  unfold SSM.evaluateDiag SSM.evaluate
  rw [if_neg (lt_irrefl _), hG.A_exp, sub_self, zero_smul, NormedSpace.exp_zero, Matrix.mul_one]

/-- **C27, diagonal.** `evaluate_diag` of sums and products of any two kernels. -/
theorem C27_diagonal (k1 k2 : SSM) (X : Coord) : (k1.sum k2).evaluateDiag X = k1.evaluateDiag X + k2.evaluateDiag X ∧
    (k1.prod k2).evaluateDiag X = k1.evaluateDiag X * k2.evaluateDiag X :=
  ⟨congrFun (congrFun (hstack_quad (k1.obsModel X none) (k1.obsModel X none) (k2.obsModel X none) (k2.obsModel X none) k1.Pinf k2.Pinf) 0) 0,
    kronRow_quad (k1.obsModel X none) (k1.obsModel X none) (k2.obsModel X none) (k2.obsModel X none) k1.Pinf k2.Pinf⟩

/-- **C30**: the variance which `evaluate_diag` of a `Constant` does return is the documented `sigma²`, also inside sums and products; with
the identity meant for its transitions (which raise) so would be `k(x, x')`. -/
theorem C30_constant_variance (sigma : ℝ) (name : String) (k : Kern) (X X' : Coord) :
    (Kern.constant sigma name).model.evaluateDiag X = sigma ^ 2 ∧ (Kern.constant sigma name).model.evaluate X X' = sigma ^ 2 ∧
    (Kern.sum (.constant sigma name) k).model.evaluateDiag X = sigma ^ 2 + k.model.evaluateDiag X ∧
    (Kern.prod (.constant sigma name) k).model.evaluateDiag X = sigma ^ 2 * k.model.evaluateDiag X := by
  have e : ∀ X, ((constantKernel sigma name).obsModel X none : Matrix (Fin 1) (Fin 1) ℝ) = !![(1 : ℝ)] := fun X => by
    show keepFactor name none • (!![(1 : ℝ)] : Matrix (Fin 1) (Fin 1) ℝ) = _
    rw [show keepFactor name none = 1 from rfl, one_smul]
  have q : ∀ H G : Matrix (Fin 1) (Fin 1) ℝ, H = !![1] → G = !![1] → (H * !![sigma ^ 2] * Gᵀ) 0 0 = sigma ^ 2 ∧
      (H * !![sigma ^ 2] * (1 : Matrix (Fin 1) (Fin 1) ℝ)ᵀ * Gᵀ) 0 0 = sigma ^ 2 ∧
      (H * (1 : Matrix (Fin 1) (Fin 1) ℝ) * !![sigma ^ 2] * Gᵀ) 0 0 = sigma ^ 2 := by
    rintro _ _ rfl rfl
    simp [Matrix.mul_apply]
  have h : (Kern.constant sigma name).model.evaluateDiag X = sigma ^ 2 := (q _ _ (e X) (e X)).1
  obtain ⟨h1, h2⟩ := C27_diagonal (Kern.constant sigma name).model k.model X
  rw [h] at h1 h2
  refine ⟨h, ?_, h1, h2⟩
  unfold SSM.evaluate
  split_ifs
  · exact (q _ _ (e X') (e X)).2.1
  · exact (q _ _ (e X) (e X')).2.2

section examples

/-- three kernels added with `sum`: all hypotheses of `C78_sum` can be met -/
example : ∃ s gp, pySum ([Kern.exp 1 1 "a", Kern.matern32 2 1 "b", Kern.cosine 3 1 "c"].map .kernel) = .ok (.kernel s) ∧
    GP.new s (.times twoT) (some (.inl 1)) none none false = .ok gp ∧ ∀ y : Arr ℝ, y.len = 2 →
    gp.logProbability y = .ok ((gaussLogDensity (dataMatrix (fun r => covExp 1 1 r + (covMatern32 2 1 r + covCosine 3 1 r)) twoT (some (.inl 1)))
      (fun i => y.get i) : ℝ) : EReal) := by
  obtain ⟨s, hs, -, h⟩ := C78_sum (t := twoT) (diag := some (.inl 1)) (mean := none) (solver := none) (u := false)
    (Textbook.exp (scale := 1) (sigma := 1) (name := "a") one_pos one_ne_zero)
    (.cons (Textbook.matern32 (scale := 2) (sigma := 1) (name := "b") two_pos one_ne_zero)
      (.cons (Textbook.cosine (scale := 3) (sigma := 1) (name := "c") three_pos one_ne_zero) .nil))
  obtain rfl : s = .sum (.sum (.exp 1 1 "a") (.matern32 2 1 "b")) (.cosine 3 1 "c") := by
    have := hs.symm.trans (pySum_kernels _ _)
    simpa using this
  obtain ⟨gp, hnew⟩ := GP.new_eq (kernel := .sum (.sum (.exp 1 1 "a") (.matern32 2 1 "b")) (.cosine 3 1 "c"))
    (X := .times twoT) (solver := none) (u := false) (some (.inl 1)) none (k := _) rfl (fun h => by cases h) rfl
  refine ⟨_, gp, hs, hnew, fun y hy => ?_⟩
  rw [h gp y hnew (.inl rfl) twoT_sorted (by show 0 < 2; decide) (fun _ _ => one_pos) hy]
  simp

end examples

end Verif
