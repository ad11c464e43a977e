import Verif.Lemmas.StateProcess
import Verif.Props.C20_Transition
import Verif.Props.C42_Interface
import Verif.Props.C06_EndToEnd

/-!
# C59: predicted states, user-supplied observation models, derivatives

`predict(X_test, return_full_state=True)` and `predict(X_test, observation_model=h)`.
-/

namespace Verif
open Matrix Kern Spec
open scoped Kronecker

theorem Kern.Valid.transitionIsExp {k : Kern} (h : k.Valid) (hg : k.Genuine) : k.model.TransitionIsExp := by
  refine C20_transition_is_exp_partial _ ?_
  induction h with
  | exp hs _ => exact .leaf (.exp hs)
  | matern32 hs _ => exact .leaf (.matern32 hs)
  | matern52 hs _ => exact .leaf (.matern52 hs)
  | cosine hs _ => exact .leaf (.cosine hs)
  | expSineSquared hp hγ _ => exact .leaf (.expSineSquared hp hγ)
  | sho hw hq hd _ => exact .leaf (.sho hw hq hg)
  | sum _ _ h1 h2 => exact .sum (h1 hg.1) (h2 hg.2)
  | prod _ _ h1 h2 => exact .prod (h1 hg.1) (h2 hg.2)

theorem Kern.Valid.lyapunov {k : Kern} (h : k.Valid) : k.model.Lyapunov := by
  refine C23_lyapunov _ ?_
  induction h with
  | exp hs _ => exact .leaf (.exp hs)
  | matern32 hs _ => exact .leaf (.matern32 hs)
  | matern52 hs _ => exact .leaf (.matern52 hs)
  | cosine hs _ => exact .leaf (.cosine hs)
  | expSineSquared hp hg _ => exact .leaf (.expSineSquared hp hg)
  | sho hw hq hd _ => exact .leaf (.sho hw hq trivial)
  | sum _ _ h1 h2 => exact .sum h1 h2
  | prod _ _ h1 h2 => exact .prod h1 h2

variable {kernel : Kern} {t : Arr ℝ} {diag : Option (ℝ ⊕ Arr ℝ)} {mean : Option (Coord → ℝ)} {u : Bool}
  {solver : Option SolverKind} {gp gp' : GP} {y : Arr ℝ} {lp : EReal}

/-- covariance of component `a` of the state at time `s` with the noise-free measurement at time `t` -/
noncomputable def SSM.crossCov (k : SSM) (s : ℝ) (a : k.n) (t : ℝ) : ℝ :=
  (stationaryCov k.F k.Pinf s t * (k.obsModel (.time t) none)ᵀ) a 0

theorem row_apply {n : Type*} [Fintype n] (w : Matrix (Fin 1) n ℝ) (M : Matrix n (Fin 1) ℝ) : (w * M) 0 0 = ∑ a, w 0 a * M a 0 :=
  Matrix.mul_apply

theorem postMean_row {ι n : Type*} [Fintype ι] [DecidableEq ι] [Fintype n] (K : Matrix ι ι ℝ) (y : ι → ℝ) (w : n → ℝ) (c : n → ι → ℝ) :
    postMean K y (fun j => ∑ a, w a * c a j) = ∑ a, w a * postMean K y (c a) := by
  unfold postMean dotProduct
  simp only [Finset.sum_mul, Finset.mul_sum]
  rw [Finset.sum_comm]
  exact Finset.sum_congr rfl fun a _ => Finset.sum_congr rfl fun j _ => by ring

theorem postVar_row {ι n : Type*} [Fintype ι] [DecidableEq ι] [Fintype n] (K : Matrix ι ι ℝ) (P : Matrix n n ℝ) (w : Matrix (Fin 1) n ℝ)
    (c : n → ι → ℝ) : postVar K ((w * P * wᵀ) 0 0) (fun j => ∑ a, w 0 a * c a j) =
      (w * (Matrix.of fun a b => postCov K (P a b) (c a) (c b)) * wᵀ) 0 0 := by
  have e : (Matrix.of fun a b => postCov K (P a b) (c a) (c b)) = P - (Matrix.of c) * K⁻¹ * (Matrix.of c)ᵀ := by
    ext a b
    rw [Matrix.sub_apply, Matrix.mul_assoc, Matrix.mul_apply]
    rfl
  have hw : (fun j => ∑ a, w 0 a * c a j) = (w * Matrix.of c) 0 := by
    funext j
    rw [Matrix.mul_apply]
    rfl
  rw [e, hw, Matrix.mul_sub, Matrix.sub_mul, Matrix.sub_apply]
  unfold postVar
  congr 1
  have : w * (Matrix.of c * K⁻¹ * (Matrix.of c)ᵀ) * wᵀ = (w * Matrix.of c) * (K⁻¹ * (w * Matrix.of c)ᵀ) := by
    rw [transpose_mul]
    simp only [Matrix.mul_assoc]
  rw [this, Matrix.mul_apply]
  rfl

/-- The solver's predicted state, for any test time. -/
theorem predicted_state {k : SSM} (hk : k.Regular) (hA : k.TransitionIsExp) (t : Arr ℝ) (y R : Arr ℝ) (ht : Sorted t) (hN : 0 < t.len)
    (hR : ∀ i < t.len, 0 < R.get i) (x : Coord) :
    (∀ a, (ssPredictPoint k.At k.Qt k.Pinf t (k.condition t y R).1 (k.condition t y R).2 x.sortable).m a =
      postMean (dataGram k (t.map .time) R) (fun j => y.get j) (fun j => k.crossCov x.sortable a (t.get j))) ∧
    ∀ a b, (ssPredictPoint k.At k.Qt k.Pinf t (k.condition t y R).1 (k.condition t y R).2 x.sortable).P a b =
      postCov (dataGram k (t.map .time) R) (k.Pinf a b) (fun j => k.crossCov x.sortable a (t.get j))
        (fun j => k.crossCov x.sortable b (t.get j)) := by
  have hX : Sorted ((t.map Coord.time).map Coord.sortable) := ht
  have hS : ∀ i < (t.map Coord.time).len, ((k.kalman ((t.map Coord.time).map Coord.sortable) y R).get i).S 0 0 ≠ 0 :=
    fun i hi => (hk.S_pos hX hN hR hi).ne'
  have hP : ∀ i < (t.map Coord.time).len, IsUnit ((k.kalman ((t.map Coord.time).map Coord.sortable) y R).get i).PPred.det :=
    fun i hi => hk.P_unit hX hN hR hi
  have hrow := hk.toProper.predicted_row (y := y) (R := R) (X := t.map Coord.time) hX hN hS hP x
  have hsymm := hk.toProper.predicted_symm (y := y) (R := R) (X := t.map Coord.time) hX hN hS hP x.sortable
  have hcross : ∀ (w : Matrix (Fin 1) k.n ℝ) (j : Fin t.len), k.rowCov w x ((t.map Coord.time).get j) =
      ∑ a, w 0 a * k.crossCov x.sortable a (t.get j) := fun w j => by
    rw [SSM.rowCov_stationary hA, Matrix.mul_assoc, row_apply]
    rfl
  have e : (t.map Coord.time).map Coord.sortable = t := rfl
  rw [e] at hrow hsymm
  refine ⟨fun a => ?_, ?_⟩
  · have h := (hrow (Matrix.of fun _ => Pi.single a 1)).1
    have e1 : ∀ v : k.n → ℝ, ((Matrix.of fun _ : Fin 1 => Pi.single a 1 : Matrix (Fin 1) k.n ℝ) *ᵥ v) 0 = v a := fun v => by
      show (Pi.single a 1 : k.n → ℝ) ⬝ᵥ v = v a
      rw [single_one_dotProduct]
    rw [e1] at h
    refine h.trans (congrArg _ (funext fun j => ?_))
    refine (hcross _ j).trans ?_
    show (Pi.single a 1 : k.n → ℝ) ⬝ᵥ (fun b => k.crossCov x.sortable b (t.get j)) = _
    rw [single_one_dotProduct]
  · have key := eq_of_rows (M := Matrix.of fun a b => postCov (dataGram k (t.map .time) R) (k.Pinf a b)
        (fun j => k.crossCov x.sortable a (t.get j)) (fun j => k.crossCov x.sortable b (t.get j))) hsymm ?_ fun w => ?_
    · intro a b
      rw [key]
      rfl
    · have hPs := psd_symm hk.P_psd
      have hK : (dataGram k (t.map .time) R)⁻¹ᵀ = (dataGram k (t.map .time) R)⁻¹ := by
        rw [transpose_nonsing_inv]
        congr 1
        ext i j
        rw [transpose_apply]
        unfold dataGram noisyGram
        rw [Matrix.of_apply, Matrix.of_apply]
        dsimp only
        rw [hk.toProper.evaluate_eq 0, hk.toProper.evaluate_eq 0, GM.B_symm]
        congr 1
        by_cases hij : i = j
        · rw [hij]
        · rw [if_neg hij, if_neg (Ne.symm hij)]
      ext a b
      show postCov _ (k.Pinf b a) _ _ = postCov _ (k.Pinf a b) _ _
      unfold postCov
      have h1 : k.Pinf b a = k.Pinf a b := by
        have := congrFun (congrFun hPs a) b
        rwa [transpose_apply] at this
      rw [h1, dotProduct_mulVec, ← mulVec_transpose, hK, dotProduct_comm]
    · rw [(hrow w).2, ← postVar_row]
      unfold SSM.rowVar dataGram
      congr 1
      funext j
      exact hcross w j

/-- the solvers for instantaneous kernels; the parallel one accepts an array of test times only -/
def Instantaneous (solver : Option SolverKind) (Xtest : XArg) : Prop :=
  Sequential solver ∨ (solver = some .parallel ∧ Xtest.isTuple = false)

/-- **C59.** `condition(y).gp.predict(X_test, return_full_state=True)`: for every test coordinate the predicted state has the exact posterior mean
and the exact posterior covariance of the state process. -/
theorem C59_full_state (hv : kernel.Valid) (hg : kernel.Genuine) (Xtest : XArg) (hsol : Instantaneous solver Xtest)
    (hnew : GP.new kernel (.times t) diag mean solver u = .ok gp)
    (ht : Sorted t) (hN : 0 < t.len) (hR : ∀ i < t.len, 0 < (GP.noiseOf t.len diag).get i) (hcond : gp.condition y = .ok (lp, gp')) :
    ∃ r, gp'.predictFullState Xtest = .ok r ∧ r.len = Xtest.coords.len ∧ ∀ i,
      (∀ a, (r.get i).m a = postMean (dataGram kernel.model (t.map .time) (GP.noiseOf t.len diag)) (fun j => y.get j)
        (fun j => gp'.kernel.model.crossCov (Xtest.coords.get i).sortable a (t.get j))) ∧
      ∀ a b, (r.get i).P a b = postCov (dataGram kernel.model (t.map .time) (GP.noiseOf t.len diag)) (gp'.kernel.model.Pinf a b)
        (fun j => gp'.kernel.model.crossCov (Xtest.coords.get i).sortable a (t.get j))
        (fun j => gp'.kernel.model.crossCov (Xtest.coords.get i).sortable b (t.get j)) := by
  obtain ⟨-, hs0, hX0, -, -, -, -, hs', -⟩ := GP.new_ok hnew
  obtain ⟨hrun, -, -, hs, hX, -, -, -, -, hsol', hst, -⟩ := GP.condition_ok hcond
  have hss := hs.trans hs0
  have hv' : gp'.kernel.Valid := hss.valid.2 hv
  have hrun' : gp'.runError = none := by
    rw [← hrun]
    unfold GP.runError
    rw [hsol', hs.transitionError]
  rw [hs'] at hsol'
  have hkind' : ¬ (gp'.solver.kind = .parallel ∧ (gp'.solver.X.isTuple = true ∨ Xtest.isTuple = true)) := by
    rw [hsol']
    rcases hsol with h | ⟨-, h⟩
    · rw [sequential_kind hv h]; rintro ⟨h, -⟩; cases h
    · rw [h]; rintro ⟨-, h | h⟩ <;> cases h
  unfold GP.predictFullState
  simp only [hst, hrun', if_neg hkind']
  refine ⟨_, rfl, rfl, fun i => ?_⟩
  have hr := hv'.builtIn.regular
  have key := predicted_state hr (hv'.transitionIsExp (hss.genuine.2 hg)) t y (GP.noiseOf t.len diag) ht hN hR (Xtest.coords.get i)
  rw [← dataGram_congr hss.strip]
  rcases hsol with h | ⟨rfl, -⟩
  · rw [sequential_kind hv h] at hsol'
    simp only [hsol']
    exact key
  · have e : ssPredictPoint gp'.kernel.model.At gp'.kernel.model.Qt gp'.kernel.model.Pinf t
        (gp'.kernel.model.states .parallel (t.map .time) y (GP.noiseOf t.len diag)).filt
        (gp'.kernel.model.states .parallel (t.map .time) y (GP.noiseOf t.len diag)).smooth (Xtest.coords.get i).sortable = _ :=
      parallel_predict_state gp'.kernel.model hr (t.map .time) y (GP.noiseOf t.len diag) ht hN hR (Xtest.coords.get i).sortable
    simp only [hsol']
    have e' : ∀ s : StateMP gp'.kernel.model.n, s = gp'.kernel.model.predictPoint t y (GP.noiseOf t.len diag) (Xtest.coords.get i).sortable →
      (∀ a, s.m a = postMean (dataGram gp'.kernel.model (t.map .time) (GP.noiseOf t.len diag)) (fun j => y.get j)
        (fun j => gp'.kernel.model.crossCov (Xtest.coords.get i).sortable a (t.get j))) ∧
      ∀ a b, s.P a b = postCov (dataGram gp'.kernel.model (t.map .time) (GP.noiseOf t.len diag)) (gp'.kernel.model.Pinf a b)
        (fun j => gp'.kernel.model.crossCov (Xtest.coords.get i).sortable a (t.get j))
        (fun j => gp'.kernel.model.crossCov (Xtest.coords.get i).sortable b (t.get j)) := fun s hs => hs ▸ key
    exact e' _ e

/-- **C59.** `predict(X_test, observation_model=h)`: the exact posterior mean and variance of the linear functionals `h(x)` of the states. -/
theorem C59_observation_model (hv : kernel.Valid) (hg : kernel.Genuine) (Xtest : XArg) (hsol : Instantaneous solver Xtest)
    (hnew : GP.new kernel (.times t) diag mean solver u = .ok gp)
    (ht : Sorted t) (hN : 0 < t.len) (hR : ∀ i < t.len, 0 < (GP.noiseOf t.len diag).get i) (hcond : gp.condition y = .ok (lp, gp'))
    (h : Coord → Matrix (Fin 1) gp'.kernel.model.n ℝ) :
    ∃ mu var, gp'.predictWith Xtest h = .ok (mu, var) ∧ mu.len = Xtest.coords.len ∧ var.len = Xtest.coords.len ∧ ∀ i,
      mu.get i = postMean (dataGram kernel.model (t.map .time) (GP.noiseOf t.len diag)) (fun j => y.get j)
        (fun j => ∑ a, h (Xtest.coords.get i) 0 a * gp'.kernel.model.crossCov (Xtest.coords.get i).sortable a (t.get j)) ∧
      var.get i = postVar (dataGram kernel.model (t.map .time) (GP.noiseOf t.len diag))
        ((h (Xtest.coords.get i) * gp'.kernel.model.Pinf * (h (Xtest.coords.get i))ᵀ) 0 0)
        (fun j => ∑ a, h (Xtest.coords.get i) 0 a * gp'.kernel.model.crossCov (Xtest.coords.get i).sortable a (t.get j)) := by
  obtain ⟨r, hr, hl, hm⟩ := C59_full_state hv hg Xtest hsol hnew ht hN hR hcond
  unfold GP.predictWith
  rw [hr]
  refine ⟨_, _, rfl, rfl, rfl, fun i => ⟨?_, ?_⟩⟩
  · show (h (Xtest.coords.get i) *ᵥ (r.get i).m) 0 = _
    rw [postMean_row]
    exact Finset.sum_congr rfl fun a _ => by rw [(hm i).1 a]
  · show (h (Xtest.coords.get i) * (r.get i).P * (h (Xtest.coords.get i))ᵀ) 0 0 = _
    rw [postVar_row]
    have e : (r.get i).P = Matrix.of fun a b => postCov (dataGram kernel.model (t.map .time) (GP.noiseOf t.len diag))
        (gp'.kernel.model.Pinf a b) (fun j => gp'.kernel.model.crossCov (Xtest.coords.get i).sortable a (t.get j))
        (fun j => gp'.kernel.model.crossCov (Xtest.coords.get i).sortable b (t.get j)) := by
      ext a b
      exact (hm i).2 a b
    rw [e]

/-! ### Derivatives -/

/-- the row that reads the observed quantity off the state -/
def SSM.valueRow (k : SSM) : Matrix (Fin 1) k.n ℝ := k.obsModel (.time 0) none

/-- the row `H F` that reads its time derivative -/
def SSM.derivativeRow (k : SSM) : Matrix (Fin 1) k.n ℝ := k.obsModel (.time 0) none * k.F

/-- no noise enters the observed quantity directly -/
def SSM.Unforced (k : SSM) : Prop := k.obsModel (.time 0) none * (k.L * k.Qc * k.Lᵀ) = 0

theorem hstack_mul_blockDiag {n₁ n₂ : Type} [Fintype n₁] [Fintype n₂] (h1 : Matrix (Fin 1) n₁ ℝ) (h2 : Matrix (Fin 1) n₂ ℝ)
    (A : Matrix n₁ n₁ ℝ) (B : Matrix n₂ n₂ ℝ) : hstack h1 h2 * blockDiag A B = hstack (h1 * A) (h2 * B) := by
  unfold hstack blockDiag
  rw [Matrix.fromCols_mul_fromBlocks, Matrix.mul_zero, Matrix.mul_zero, add_zero, zero_add]

theorem kronRow_mul {n₁ n₂ : Type} [Fintype n₁] [Fintype n₂] (h1 : Matrix (Fin 1) n₁ ℝ) (h2 : Matrix (Fin 1) n₂ ℝ) (A : Matrix n₁ n₁ ℝ)
    (B : Matrix n₂ n₂ ℝ) : kronRow h1 h2 * (A ⊗ₖ B) = kronRow (h1 * A) (h2 * B) := by
  unfold kronRow
  rw [Matrix.mul_kronecker_mul]
  rfl

theorem kronRow_zero_right {n₁ n₂ : Type} (a : Matrix (Fin 1) n₁ ℝ) : kronRow a (0 : Matrix (Fin 1) n₂ ℝ) = 0 := by
  ext i j
  simp [kronRow]

theorem SSM.Unforced.sum {a b : SSM} (ha : a.Unforced) (hb : b.Unforced) : (a.sum b).Unforced := by
  have e : blockDiag a.L b.L * blockDiag a.Qc b.Qc * (blockDiag a.L b.L)ᵀ = blockDiag (a.L * a.Qc * a.Lᵀ) (b.L * b.Qc * b.Lᵀ) := by
    rw [blockDiag_transpose, blockDiag_mul, blockDiag_mul]
  have e2 : hstack (a.obsModel (.time 0) none) (b.obsModel (.time 0) none) *
      (blockDiag a.L b.L * blockDiag a.Qc b.Qc * (blockDiag a.L b.L)ᵀ) = 0 := by
    rw [e, hstack_mul_blockDiag, ha, hb, hstack_zero]
  exact e2

theorem SSM.Unforced.prod {a b : SSM} (ha : a.Unforced) (hb : b.Unforced) : (a.prod b).Unforced := by
  have e : kronRow (a.obsModel (.time 0) none) (b.obsModel (.time 0) none) *
      ((1 : Matrix (a.n × b.n) (a.n × b.n) ℝ) * ((a.L * a.Qc * a.Lᵀ) ⊗ₖ b.Pinf + a.Pinf ⊗ₖ (b.L * b.Qc * b.Lᵀ)) *
        (1 : Matrix (a.n × b.n) (a.n × b.n) ℝ)ᵀ) = 0 := by
    rw [transpose_one, Matrix.mul_one, Matrix.one_mul, Matrix.mul_add, kronRow_mul, kronRow_mul, ha, hb, kronRow_zero_left, kronRow_zero_right,
      add_zero]
  exact e

theorem unforced2 (q : ℝ) : ((1 : ℝ) • (!![1, 0] : Matrix (Fin 1) (Fin 2) ℝ)) *
    ((!![0; 1] : Matrix (Fin 2) (Fin 1) ℝ) * !![q] * (!![0; 1] : Matrix (Fin 2) (Fin 1) ℝ)ᵀ) = 0 := by
  rw [noise2]
  ext i j; fin_cases i; fin_cases j <;> simp [Matrix.mul_apply, Fin.sum_univ_two]

theorem unforced3 (q : ℝ) : ((1 : ℝ) • (!![1, 0, 0] : Matrix (Fin 1) (Fin 3) ℝ)) *
    ((!![0; 0; 1] : Matrix (Fin 3) (Fin 1) ℝ) * !![q] * (!![0; 0; 1] : Matrix (Fin 3) (Fin 1) ℝ)ᵀ) = 0 := by
  rw [noise3]
  ext i j; fin_cases i; fin_cases j <;> simp [Matrix.mul_apply, Fin.sum_univ_three]

theorem Kern.Valid.unforced {k : Kern} (h : k.Valid) (he : ¬ Uses IsExp k) : k.model.Unforced := by
  induction h with
  | exp hs _ => exact absurd (.here (.inl ⟨_, _, _, rfl⟩)) he
  | matern32 hs _ => exact unforced2 _
  | matern52 hs _ => exact unforced3 _
  | cosine hs _ => exact unforced2 _
  | @expSineSquared period gamma sigma order name hp hg _ =>
    have e : (Verif.expSineSquared period gamma sigma order name).Qc = 0 := ExpSineSquared.sumTerms_Qc _ _ _
    show (Verif.expSineSquared period gamma sigma order name).Unforced
    unfold SSM.Unforced
    rw [e, Matrix.mul_zero, Matrix.zero_mul, Matrix.mul_zero]
  | sho hw hq hd _ => exact unforced2 _
  | sum _ _ h1 h2 => exact (h1 fun h => he (.inSumLeft h)).sum (h2 fun h => he (.inSumRight h))
  | prod _ _ h1 h2 => exact (h1 fun h => he (.inProdLeft h)).prod (h2 fun h => he (.inProdRight h))

theorem Kern.Valid.smooth {k : Kern} (h : k.Valid) (he : ¬ Uses IsExp k) :
    k.model.valueRow * (k.model.F * k.model.Pinf + k.model.Pinf * k.model.Fᵀ) = 0 := by
  have h1 : k.model.F * k.model.Pinf + k.model.Pinf * k.model.Fᵀ = -(k.model.L * k.model.Qc * k.model.Lᵀ) :=
    eq_neg_of_add_eq_zero_left h.lyapunov
  rw [h1, Matrix.mul_neg, neg_eq_zero]
  exact h.unforced he

/-- **C59.** For kernels without `Exp` the row `H F` of the state is the time derivative of the modelled process: its covariances with the
process, and with itself, are the first and the mixed second derivatives of the kernel function. -/
theorem C59_derivative_covariance (k : Kern) (hv : k.Valid) (hg : k.Genuine) (he : ¬ Uses IsExp k) (s t : ℝ) :
    HasDerivAt (fun s => k.model.evaluate (.time s) (.time t))
      ((k.model.derivativeRow * stationaryCov k.model.F k.model.Pinf s t * k.model.valueRowᵀ) 0 0) s ∧
    HasDerivAt (fun t => (k.model.derivativeRow * stationaryCov k.model.F k.model.Pinf s t * k.model.valueRowᵀ) 0 0)
      ((k.model.derivativeRow * stationaryCov k.model.F k.model.Pinf s t * k.model.derivativeRowᵀ) 0 0) t := by
  have hp := hv.builtIn.regular.toProper
  have hP := psd_symm hp.P_psd
  constructor
  · have e : ∀ s, k.model.evaluate (.time s) (.time t) =
        (k.model.valueRow * stationaryCov k.model.F k.model.Pinf s t * k.model.valueRowᵀ) 0 0 := fun s => by
      rw [← hp.rowCov_evaluate, SSM.rowCov_stationary (hv.transitionIsExp hg), hp.H_const (.time s), hp.H_const (.time t)]
      rfl
    simp only [e]
    exact stationaryCov_deriv (hv.smooth he) _ s t
  · have e : ∀ (w : Matrix (Fin 1) k.model.n ℝ) (t : ℝ), (k.model.derivativeRow * stationaryCov k.model.F k.model.Pinf s t * wᵀ) 0 0 =
        (w * stationaryCov k.model.F k.model.Pinf t s * k.model.derivativeRowᵀ) 0 0 := fun w t => by
      rw [← transpose_apply (k.model.derivativeRow * _ * _), transpose_mul, transpose_mul, transpose_transpose,
        stationaryCov_transpose hP, Matrix.mul_assoc]
    simp only [e]
    exact stationaryCov_deriv (hv.smooth he) _ t s

theorem crossCov_row {k : SSM} (hp : k.Proper) (w : Matrix (Fin 1) k.n ℝ) (s t : ℝ) :
    ∑ a, w 0 a * k.crossCov s a t = (w * stationaryCov k.F k.Pinf s t * k.valueRowᵀ) 0 0 := by
  rw [Matrix.mul_assoc, row_apply]
  unfold SSM.crossCov SSM.valueRow
  rw [hp.H_const (.time t)]

/-- **C59.** `predict(X_test, observation_model=derivative)` where `derivative` is the row `H F`: for kernels without `Exp` the predicted mean is
the time derivative of the predictive mean curve, and the predicted variance is the posterior variance of the derivative of the process. -/
theorem C59_derivative_prediction (hv : kernel.Valid) (hg : kernel.Genuine) (he : ¬ Uses IsExp kernel) (Xtest : XArg) (hsol : Instantaneous solver Xtest)
    (hnew : GP.new kernel (.times t) diag mean solver u = .ok gp)
    (ht : Sorted t) (hN : 0 < t.len) (hR : ∀ i < t.len, 0 < (GP.noiseOf t.len diag).get i) (hcond : gp.condition y = .ok (lp, gp')) :
    ∃ mu var, gp'.predictWith Xtest (fun _ => gp'.kernel.model.derivativeRow) = .ok (mu, var) ∧
      mu.len = Xtest.coords.len ∧ var.len = Xtest.coords.len ∧ ∀ i,
      HasDerivAt (fun s => postMean (dataGram kernel.model (t.map .time) (GP.noiseOf t.len diag)) (fun j => y.get j)
        (fun j => kernel.model.evaluate (.time s) (.time (t.get j)))) (mu.get i) (Xtest.coords.get i).sortable ∧
      ∃ (D : ℝ → ℝ) (v : ℝ),
        (∀ r, HasDerivAt (fun s => kernel.model.evaluate (.time s) (.time r)) (D r) (Xtest.coords.get i).sortable) ∧
        HasDerivAt D v (Xtest.coords.get i).sortable ∧
        var.get i = postVar (dataGram kernel.model (t.map .time) (GP.noiseOf t.len diag)) v (fun j => D (t.get j)) := by
  obtain ⟨-, hs0, -⟩ := GP.new_ok hnew
  obtain ⟨-, -, -, hs, -⟩ := GP.condition_ok hcond
  have hss := hs.trans hs0
  have hv' : gp'.kernel.Valid := hss.valid.2 hv
  have he' : ¬ Uses IsExp gp'.kernel := by
    have h0 : kernel.transitionError true = none :=
      (transitionError_iff true kernel).2 ⟨((transitionError_iff false kernel).1 hv.transitionError).1, fun _ => he⟩
    rw [← hss.transitionError] at h0
    exact ((transitionError_iff true _).1 h0).2 rfl
  have hp' := hv'.builtIn.regular.toProper
  have hev : ∀ s r, gp'.kernel.model.evaluate (.time s) (.time r) = kernel.model.evaluate (.time s) (.time r) := fun s r => by
    rw [← SSM.strip_evaluate, hss.strip, SSM.strip_evaluate]
  obtain ⟨mu, var, h0, h1, h2, h3⟩ := C59_observation_model hv hg Xtest hsol hnew ht hN hR hcond (fun _ => gp'.kernel.model.derivativeRow)
  refine ⟨mu, var, h0, h1, h2, fun i => ?_⟩
  obtain ⟨hm, hvar⟩ := h3 i
  have hd : ∀ s r, HasDerivAt (fun s => kernel.model.evaluate (.time s) (.time r))
      ((gp'.kernel.model.derivativeRow * stationaryCov gp'.kernel.model.F gp'.kernel.model.Pinf s r * gp'.kernel.model.valueRowᵀ) 0 0) s :=
    fun s r => by
      have := (C59_derivative_covariance _ hv' (hss.genuine.2 hg) he' s r).1
      simpa only [hev] using this
  simp only [crossCov_row hp'] at hm hvar
  refine ⟨?_, _, _, fun r => hd _ r, (C59_derivative_covariance _ hv' (hss.genuine.2 hg) he' _ _).2, ?_⟩
  · rw [hm]
    unfold postMean dotProduct
    exact HasDerivAt.fun_sum fun j _ => (hd _ _).mul_const _
  · rw [hvar, stationaryCov_self]

/-! ### the rows `H F` of the built-in kernels: the second component of the state is the derivative -/

theorem value_row2 (a b c d : ℝ) : ((1 : ℝ) • (!![1, 0] : Matrix (Fin 1) (Fin 2) ℝ)) * (!![a, b; c, d] : Matrix (Fin 2) (Fin 2) ℝ) = !![a, b] := by
  ext i j; fin_cases i; fin_cases j <;> simp [Matrix.mul_apply, Fin.sum_univ_two]

theorem C59_matern32_row (scale sigma : ℝ) (name : String) :
    (matern32 scale sigma name).derivativeRow = (!![0, 1] : Matrix (Fin 1) (Fin 2) ℝ) := value_row2 0 1 _ _

theorem C59_matern52_row (scale sigma : ℝ) (name : String) :
    (matern52 scale sigma name).derivativeRow = (!![0, 1, 0] : Matrix (Fin 1) (Fin 3) ℝ) := by
  have e : ((1 : ℝ) • (!![1, 0, 0] : Matrix (Fin 1) (Fin 3) ℝ)) * Matern52.F (Matern52.lam scale) = !![0, 1, 0] := by
    unfold Matern52.F
    ext i j; fin_cases i; fin_cases j <;> simp [Matrix.mul_apply, Fin.sum_univ_three]
  exact e

theorem C59_sho_row (omega quality sigma : ℝ) (name : String) :
    (sho omega quality sigma name).derivativeRow = (!![0, 1] : Matrix (Fin 1) (Fin 2) ℝ) := value_row2 0 1 _ _

theorem C59_cosine_row (scale sigma : ℝ) (name : String) :
    (cosine scale sigma name).derivativeRow = (!![0, -(2 * Real.pi / scale)] : Matrix (Fin 1) (Fin 2) ℝ) := value_row2 _ _ _ _

/-- sums: the derivative rows side by side -/
theorem C59_sum_row (a b : SSM) : (a.sum b).derivativeRow = hstack a.derivativeRow b.derivativeRow :=
  hstack_mul_blockDiag _ _ _ _

/-- products: the product rule -/
theorem C59_prod_row (a b : SSM) :
    (a.prod b).derivativeRow = kronRow a.derivativeRow b.valueRow + kronRow a.valueRow b.derivativeRow := by
  have e : kronRow (a.obsModel (.time 0) none) (b.obsModel (.time 0) none) *
      (a.F ⊗ₖ (1 : Matrix b.n b.n ℝ) + (1 : Matrix a.n a.n ℝ) ⊗ₖ b.F) = kronRow a.derivativeRow b.valueRow + kronRow a.valueRow b.derivativeRow := by
    rw [Matrix.mul_add, kronRow_mul, kronRow_mul, Matrix.mul_one, Matrix.mul_one]
    rfl
  exact e

/-- `Matern52`: reading the second component of the predicted state gives the slope of the predicted curve, sequentially and in parallel -/
example (t y ts : Arr ℝ) (hl : t.len = 3) (ht : Sorted t) (solver : Option SolverKind) (hsol : solver = none ∨ solver = some .parallel) :
    ∃ gp lp gp', GP.new (.matern52 2 1 "a") (.times t) (some (.inl 1)) none solver false = .ok gp ∧ gp.condition y = .ok (lp, gp') ∧
    ∃ mu var, gp'.predictWith (.times ts) (fun _ => gp'.kernel.model.derivativeRow) = .ok (mu, var) ∧
      ∀ i, HasDerivAt (fun s => postMean (dataGram (matern52 2 1 "a") (t.map .time) (GP.noiseOf t.len (some (.inl 1)))) (fun j => y.get j)
        (fun j => (matern52 2 1 "a").evaluate (.time s) (.time (t.get j)))) (mu.get i) (ts.get i) := by
  have hv : (Kern.matern52 2 1 "a").Valid := .matern52 two_pos one_ne_zero
  have hexp : ¬ Uses IsExp (Kern.matern52 2 1 "a") := ((transitionError_iff true _).1 rfl).2 rfl
  have hname : ∃ k, (Kern.matern52 2 1 "a").assignUniqueNames = .ok k := ⟨_, rfl⟩
  obtain ⟨gp, hnew, lp, gp', hc⟩ : ∃ gp, GP.new (.matern52 2 1 "a") (.times t) (some (.inl 1)) none solver false = .ok gp ∧
      ∃ lp gp', gp.condition y = .ok (lp, gp') := by
    rcases hsol with rfl | rfl
    · obtain ⟨⟨lp, gp'⟩, h⟩ := (C02_condition_succeeds hv (solver := none) (.inl rfl) (u := false) (mean := none) (diag := some (.inl 1)) (t := t)
        rfl y).2 ⟨by omega, hname⟩
      exact ⟨_, rfl, lp, gp', h⟩
    · obtain ⟨⟨lp, gp'⟩, h⟩ := (C07_condition_succeeds hv hexp (u := false) (mean := none) (diag := some (.inl 1)) (t := t) rfl y).2
        ⟨by omega, hname⟩
      exact ⟨_, rfl, lp, gp', h⟩
  have hI : Instantaneous solver (.times ts) := by
    rcases hsol with rfl | rfl
    · exact .inl (.inl rfl)
    · exact .inr ⟨rfl, rfl⟩
  obtain ⟨mu, var, h, -, -, h'⟩ := C59_derivative_prediction hv trivial hexp (.times ts) hI hnew ht (by omega) (fun _ _ => one_pos) hc
  exact ⟨gp, lp, gp', hnew, hc, mu, var, h, fun i => (h' i).1⟩

end Verif
