import Verif.Props.C01_AtGaps
import Verif.Props.C61_Regression
import Verif.Lemmas.IntCongr

/-!
# C97: oscillators of any damping over resolved time steps

For `quality > 1/2` the entries of the process noise of `SHO` which are below `1e-14` are replaced by zero. The solvers read the process noise
only over the steps between consecutive data and from the last datum before a test time to that test time. If the noise of every
oscillator in the kernel is resolved over these steps - no entry that is not zero is below the cut-off - `log_probability`, `condition` and
`predict` are exact regression, with the sequential and with the parallel solver.
-/

namespace Verif
open Matrix Kern Spec Kronecker

/-- sums and products of all exported instantaneous kernels except `Constant`, with oscillators of any damping -/
inductive Kern.AnyDamping : Kern → Prop
  | valid {k : Kern} (hv : k.Valid) : AnyDamping k
  | sho {omega quality sigma : ℝ} {name : String} (hw : 0 < omega) (hq : 1 / 2 < quality) (hd : ¬ SHO.isCritical quality) (hσ : sigma ≠ 0) :
      AnyDamping (.sho omega quality sigma name)
  | sum {a b : Kern} (ha : AnyDamping a) (hb : AnyDamping b) : AnyDamping (.sum a b)
  | prod {a b : Kern} (ha : AnyDamping a) (hb : AnyDamping b) : AnyDamping (.prod a b)

/-- every entry of the noise over a time step `s`, `P - A(s) P A(s)ᵀ` in terms of stationary covariance and transition matrix, of every
underdamped oscillator has the property `p` -/
def Kern.OscillatorNoise (p : ℝ → Prop) (s : ℝ) : Kern → Prop
  | .sho omega quality sigma name => ¬ SHO.NotUnderdamped quality → ∀ i j : Fin 2,
      let k := (Kern.sho omega quality sigma name).model
      let E : Matrix (Fin 2) (Fin 2) ℝ := k.Pinf - k.At 0 s * k.Pinf * (k.At 0 s)ᵀ
      p (E i j)
  | .sum a b => a.OscillatorNoise p s ∧ b.OscillatorNoise p s
  | .prod a b => a.OscillatorNoise p s ∧ b.OscillatorNoise p s
  | _ => True

/-- no entry of the noise of an underdamped oscillator is below the cut-off without being zero -/
def Kern.Resolves (s : ℝ) (k : Kern) : Prop := k.OscillatorNoise (fun e => e = 0 ∨ 1e-14 ≤ |e|) s

theorem Kern.oscillatorNoise_sho {p : ℝ → Prop} {w q sigma s : ℝ} {name : String} (hw : 0 < w) (hq : 1 / 2 < q) (hd : ¬ SHO.isCritical q) :
    (Kern.sho w q sigma name).OscillatorNoise p s ↔ ∀ i j, p (SHO.QunderExact w q sigma s i j) := by
  have h5 : q > 0.5 := by norm_num; linarith
  have e : SHO.Pinf w sigma - SHO.A w q (s - 0) * SHO.Pinf w sigma * (SHO.A w q (s - 0))ᵀ = SHO.QunderExact w q sigma s := by
    unfold SHO.A
    rw [if_neg hd, if_pos h5, SHO.Qunder_eq sigma hw.ne' hq, sub_zero]
  have hn : ¬ SHO.NotUnderdamped q := by rintro (h | h); exacts [hd h, by linarith]
  rw [← e]
  exact ⟨fun h => h hn, fun h _ => h⟩

theorem Kern.Valid.oscillatorNoise {k : Kern} (h : k.Valid) (p : ℝ → Prop) (s : ℝ) : k.OscillatorNoise p s := by
  induction h with
  | sho _ _ hd => exact fun h => absurd hd h
  | sum _ _ h1 h2 => exact ⟨h1, h2⟩
  | prod _ _ h1 h2 => exact ⟨h1, h2⟩
  | _ => trivial

/-- for one underdamped oscillator: the formulas of the code before the cut-off -/
theorem Kern.resolves_sho {w q sigma s : ℝ} {name : String} (hw : 0 < w) (hq : 1 / 2 < q) (hd : ¬ SHO.isCritical q) :
    (Kern.sho w q sigma name).Resolves s ↔
      ∀ i j, SHO.QunderExact w q sigma s i j = 0 ∨ 1e-14 ≤ |SHO.QunderExact w q sigma s i j| :=
  Kern.oscillatorNoise_sho hw hq hd

namespace Kern.AnyDamping
variable {k : Kern}

theorem combos (h : k.AnyDamping) : Combos (Leaf SHO.Any) k.model := by
  induction h with
  | valid hv => exact hv.builtIn.leafCombos
  | sho hw hq => exact .leaf (.sho hw (by linarith) trivial)
  | sum _ _ h1 h2 => exact .sum h1 h2
  | prod _ _ h1 h2 => exact .prod h1 h2

theorem P_pd (h : k.AnyDamping) : k.model.Pinf.PosDef := by
  induction h with
  | valid hv => exact hv.builtIn.regular.P_pd
  | sho hw hq _ hσ => exact SHO.sho_Pinf_pd _ _ hw hσ
  | sum _ _ h1 h2 => exact blockDiag_pd h1 h2
  | prod _ _ h1 h2 => exact h1.kronecker h2

theorem noise (h : k.AnyDamping) {s : ℝ} (hs : 0 ≤ s) (hr : k.Resolves s) : k.model.NoiseExactOver s := by
  induction h with
  | valid hv => exact hv.builtIn.regular.Q_eq s hs
  | @sho w q sigma name hw hq hd hσ =>
    exact C22_sho_untruncated name hw hq hd ((resolves_sho hw hq hd).1 hr)
  | @sum a b _ _ h1 h2 =>
    have e1 := h1 hr.1
    have e2 := h2 hr.2
    unfold SSM.NoiseExactOver at e1 e2 ⊢
    show blockDiag (a.model.Qt 0 s) (b.model.Qt 0 s) = blockDiag a.model.Pinf b.model.Pinf - blockDiag (a.model.At 0 s) (b.model.At 0 s) *
      blockDiag a.model.Pinf b.model.Pinf * (blockDiag (a.model.At 0 s) (b.model.At 0 s))ᵀ
    rw [blockDiag_transpose, blockDiag_mul, blockDiag_mul, blockDiag_sub, e1, e2]
  | @prod a b _ _ h1 h2 =>
    have e1 := h1 hr.1
    have e2 := h2 hr.2
    unfold SSM.NoiseExactOver at e1 e2 ⊢
    show a.model.Pinf ⊗ₖ b.model.Qt 0 s + a.model.Qt 0 s ⊗ₖ b.model.Pinf - a.model.Qt 0 s ⊗ₖ b.model.Qt 0 s = a.model.Pinf ⊗ₖ b.model.Pinf -
      (a.model.At 0 s ⊗ₖ b.model.At 0 s) * (a.model.Pinf ⊗ₖ b.model.Pinf) * (a.model.At 0 s ⊗ₖ b.model.At 0 s)ᵀ
    rw [kron_conj, e1, e2]
    simp only [kron_sub_left, kron_sub_right]
    abel

theorem component {a : Kern} (h : k.AnyDamping) (ha : a ∈ k.extractLeafKernels) : a.isIntegrated = false := by
  induction h with
  | valid hv => cases hv.component ha <;> rfl
  | sho => cases List.mem_singleton.1 ha; rfl
  | sum _ _ h1 h2 => rcases List.mem_append.1 ha with ha | ha; exacts [h1 ha, h2 ha]
  | prod => cases List.mem_singleton.1 ha; rfl

theorem instantaneous (h : k.AnyDamping) : GP.needsIntegrated k = false := by
  unfold GP.needsIntegrated
  rw [List.any_eq_false]
  intro a ha
  rw [h.component ha]; simp

theorem transitionError (h : k.AnyDamping) : k.transitionError false = none := by
  induction h with
  | valid hv => exact hv.transitionError
  | sho => rfl
  | sum _ _ h1 h2 => simp only [Kern.transitionError, h1, h2]; rfl
  | prod _ _ h1 h2 => simp only [Kern.transitionError, h1, h2]; rfl

theorem obsError (h : k.AnyDamping) (X : XArg) : k.obsError X = none := by
  have : k.unpacksCoordinate = false := by
    induction h with
    | valid hv => exact hv.unpacks
    | sho => rfl
    | sum _ _ h1 h2 => simp only [Kern.unpacksCoordinate, h1, h2, Bool.or_self]
    | prod _ _ h1 h2 => simp only [Kern.unpacksCoordinate, h1, h2, Bool.or_self]
  cases X <;> simp [Kern.obsError, this]

end Kern.AnyDamping

/-! ## Runs of the parallel solver whose noise agrees over the steps -/

section
variable {n : Type} [Fintype n] [DecidableEq n]
variable {A Q Q' : ℝ → ℝ → Matrix n n ℝ} {H : ℝ → Matrix (Fin 1) n ℝ} {HX : Arr (Matrix (Fin 1) n ℝ)} {R t y : Arr ℝ}
  {m0 : n → ℝ} {P0 : Matrix n n ℝ}

theorem parParams_zero : (parallelParams A Q H R t y m0 P0).get 0 = KElem.first A H m0 P0 (y.get 0) (R.get 0) := rfl

theorem parParams_succ (i : ℕ) : (parallelParams A Q H R t y m0 P0).get (i + 1) =
    KElem.measure (A 0 (t.get (i + 1) - t.get i)) (Q 0 (t.get (i + 1) - t.get i)) (H (t.get (i + 1) - t.get i)) (y.get (i + 1))
      (R.get (i + 1)) := rfl

theorem parPost_zero (s : Arr (KElem n)) : (parallelPost A Q HX R t y (s.map KElem.b) (s.map KElem.C) m0 P0).get 0 =
    parOut (HX.get 0) (R.get 0) (y.get 0) (s.get 0) (1 *ᵥ m0) (1 * P0 * 1ᵀ + 0) := rfl

theorem parPost_succ (s : Arr (KElem n)) (j : ℕ) : (parallelPost A Q HX R t y (s.map KElem.b) (s.map KElem.C) m0 P0).get (j + 1) =
    parOut (HX.get (j + 1)) (R.get (j + 1)) (y.get (j + 1)) (s.get (j + 1)) (A 0 (t.get (j + 1) - t.get j) *ᵥ (s.get j).b)
      (A 0 (t.get (j + 1) - t.get j) * (s.get j).C * (A 0 (t.get (j + 1) - t.get j))ᵀ + Q 0 (t.get (j + 1) - t.get j)) := rfl

theorem parallelFilter_congr (hQ : ∀ i, i + 1 < t.len → Q 0 (t.get (i + 1) - t.get i) = Q' 0 (t.get (i + 1) - t.get i)) {j : ℕ}
    (hj : j < t.len) :
    (parallelKalmanFilter A Q H HX R t y m0 P0).get j = (parallelKalmanFilter A Q' H HX R t y m0 P0).get j := by
  have hp : ∀ i < t.len, (parallelParams A Q H R t y m0 P0).get i = (parallelParams A Q' H R t y m0 P0).get i := by
    intro i hi
    cases i with
    | zero => rw [parParams_zero, parParams_zero]
    | succ i => rw [parParams_succ, parParams_succ, hQ i hi]
  have hl : (parallelParams A Q H R t y m0 P0).len = t.len := by show 1 + (t.len - 1) = _; omega
  have hl' : (parallelParams A Q' H R t y m0 P0).len = t.len := by show 1 + (t.len - 1) = _; omega
  have hs : ∀ i < t.len, (parallelKalmanScan (parallelParams A Q H R t y m0 P0)).get i =
      (parallelKalmanScan (parallelParams A Q' H R t y m0 P0)).get i := by
    intro i hi
    show assocScanGet _ (parallelParams A Q H R t y m0 P0).len (parallelParams A Q H R t y m0 P0).get i =
      assocScanGet _ (parallelParams A Q' H R t y m0 P0).len (parallelParams A Q' H R t y m0 P0).get i
    rw [hl, hl']
    exact assocScanGet_congr _ _ _ _ hp _ hi
  unfold parallelKalmanFilter
  cases j with
  | zero => rw [parPost_zero, parPost_zero, hs 0 hj]
  | succ j => rw [parPost_succ, parPost_succ, hs _ hj, hs j (by omega), hQ j hj]

theorem parallelSmoother_congr (hN : 0 < t.len) (hQ : ∀ i, i + 1 < t.len → Q 0 (t.get (i + 1) - t.get i) = Q' 0 (t.get (i + 1) - t.get i))
    {mu mu' : Arr (n → ℝ)} {P P' : Arr (Matrix n n ℝ)} (hl : mu.len = t.len ∧ mu'.len = t.len ∧ P.len = t.len ∧ P'.len = t.len)
    (hmu : ∀ i < t.len, mu.get i = mu'.get i) (hP : ∀ i < t.len, P.get i = P'.get i) {j : ℕ} (hj : j < t.len) :
    (parallelRtsSmoother A Q t mu P).get j = (parallelRtsSmoother A Q' t mu' P').get j := by
  obtain ⟨l1, l2, l3, l4⟩ := hl
  have he : (parallelRtsParams A Q t mu P).len = t.len := by show t.len - 1 + 1 = _; omega
  have he' : (parallelRtsParams A Q' t mu' P').len = t.len := by show t.len - 1 + 1 = _; omega
  have hp : ∀ i < t.len, (parallelRtsParams A Q t mu P).get i = (parallelRtsParams A Q' t mu' P').get i := by
    intro i hi
    unfold parallelRtsParams
    by_cases h : i < t.len - 1
    · rw [Arr.append_get_lt _ _ (by exact h), Arr.append_get_lt _ _ (by exact h)]
      show BElem.generic (A 0 (t.get (i + 1) - t.get i)) (Q 0 (t.get (i + 1) - t.get i)) (mu.get i) (P.get i) =
        BElem.generic (A 0 (t.get (i + 1) - t.get i)) (Q' 0 (t.get (i + 1) - t.get i)) (mu'.get i) (P'.get i)
      rw [hQ i (by omega), hmu i hi, hP i hi]
    · show (if i < t.len - 1 then _ else BElem.last mu.last P.last) = (if i < t.len - 1 then _ else BElem.last mu'.last P'.last)
      rw [if_neg h, if_neg h]
      unfold Arr.last
      rw [l1, l2, l3, l4, hmu _ (by omega), hP _ (by omega)]
  have hs : (associativeScan BElem.combine (parallelRtsParams A Q t mu P) true).get j =
      (associativeScan BElem.combine (parallelRtsParams A Q' t mu' P') true).get j := by
    show assocScanGet _ (parallelRtsParams A Q t mu P).len (Arr.rev (parallelRtsParams A Q t mu P)).get
        ((parallelRtsParams A Q t mu P).len - 1 - j) =
      assocScanGet _ (parallelRtsParams A Q' t mu' P').len (Arr.rev (parallelRtsParams A Q' t mu' P')).get
        ((parallelRtsParams A Q' t mu' P').len - 1 - j)
    rw [he, he']
    refine assocScanGet_congr _ _ _ _ (fun i hi => ?_) _ (by omega)
    show (parallelRtsParams A Q t mu P).get ((parallelRtsParams A Q t mu P).len - 1 - i) =
      (parallelRtsParams A Q' t mu' P').get ((parallelRtsParams A Q' t mu' P').len - 1 - i)
    rw [he, he']
    exact hp _ (by omega)
  exact congrArg (fun e : BElem n => (⟨e.g, e.L⟩ : StateMP n)) hs

theorem predict_congr_noise {P : Matrix n n ℝ} {kf kf' : Arr (FilterOut n)} {sm sm' : Arr (StateMP n)} (ht : Sorted t) (hN : 0 < t.len)
    (hk : ∀ i < t.len, kf.get i = kf'.get i) (hs : ∀ i < t.len, sm.get i = sm'.get i) (x : ℝ)
    (hQ : ∀ i < t.len, t.get i ≤ x → (∀ j < t.len, t.get j ≤ x → t.get j ≤ t.get i) → Q 0 (x - t.get i) = Q' 0 (x - t.get i)) :
    ssPredictPoint A Q P t kf sm x = ssPredictPoint A Q' P t kf' sm' x := by
  have hlast : searchsortedRight t x ≠ 0 →
      Q 0 (x - t.get (searchsortedRight t x - 1)) = Q' 0 (x - t.get (searchsortedRight t x - 1)) := by
    intro h0
    have hle : searchsortedRight t x ≤ t.len := searchsorted_le x
    refine hQ _ (by omega) ((searchsorted_lt_iff ht x (by omega)).1 (by omega)) fun j hj hjx => ?_
    have := (searchsorted_lt_iff ht x hj).2 hjx
    exact ht _ _ (by omega) (by omega)
  have hle : searchsortedRight t x ≤ t.len := searchsorted_le x
  rw [predict_branches A Q P t kf sm x _ rfl, predict_branches A Q' P t kf' sm' x _ rfl]
  generalize searchsortedRight t x = j at hlast hle
  by_cases h0 : j = 0
  · simp only [if_pos h0, hk 0 hN, hs 0 hN]
  · have hl := hlast h0
    by_cases h1 : t.len ≤ j
    · obtain rfl : j = t.len := by omega
      simp only [if_neg h0, le_refl, if_true, hk (t.len - 1) (by omega), hl]
    · simp only [if_neg h0, if_neg h1, hk j (by omega), hs j (by omega), hk (j - 1) (by omega), hl]

end

/-! ## The interface -/

/-- the solvers covered: the sequential one, and the parallel one for kernels it accepts -/
def InstantSolver (kernel : Kern) (solver : Option SolverKind) : Prop := Sequential solver ∨ (solver = some .parallel ∧ ¬ Uses IsExp kernel)

section
variable {kernel : Kern} {t : Arr ℝ} {solver : Option SolverKind} {κ : ℝ → ℝ} {diag : Option (ℝ ⊕ Arr ℝ)} {mean : Option (Coord → ℝ)}
  {u : Bool} {gp gp' : GP} {y : Arr ℝ} {lp : EReal}

theorem anyDamping_kind (hk : kernel.AnyDamping) (hsol : InstantSolver kernel solver) :
    solver.getD (GP.chooseSolver kernel) = .stateSpace ∨ solver.getD (GP.chooseSolver kernel) = .parallel := by
  rcases hsol with (rfl | rfl) | ⟨rfl, -⟩
  · left
    show GP.chooseSolver kernel = _
    unfold GP.chooseSolver
    rw [hk.instantaneous]; rfl
  · exact Or.inl rfl
  · exact Or.inr rfl

theorem anyDamping_run (hk : kernel.AnyDamping) (hsol : InstantSolver kernel solver)
    (hnew : GP.new kernel (.times t) diag mean solver u = .ok gp) : gp.runError = none := by
  obtain ⟨-, hs, -, -, -, -, -, hs', -⟩ := GP.new_ok hnew
  unfold GP.runError
  rw [hs', hs.transitionError]
  rcases hsol with hsol | ⟨rfl, hexp⟩
  · have : solver.getD (GP.chooseSolver kernel) = .stateSpace := by
      rcases hsol with rfl | rfl
      · show GP.chooseSolver kernel = _
        unfold GP.chooseSolver
        rw [hk.instantaneous]; rfl
      · rfl
    rw [this]
    exact hk.transitionError
  · rw [transitionError_iff]
    exact ⟨((transitionError_iff false kernel).1 hk.transitionError).1, fun _ => hexp⟩

/-- **C97.** Constructing the GP and conditioning succeed (names that are distinct, not exactly one datum). -/
theorem C97_succeeds (hk : kernel.AnyDamping) (hsol : InstantSolver kernel solver) (hn : kernel.componentNames.Nodup) (t : Arr ℝ)
    (diag : Option (ℝ ⊕ Arr ℝ)) (mean : Option (Coord → ℝ)) :
    ∃ gp, GP.new kernel (.times t) diag mean solver true = .ok gp ∧ (t.len ≠ 1 → ∀ y, ∃ r, gp.condition y = .ok r) := by
  have hn' : kernel.assignUniqueNames = .ok kernel := if_pos hn
  obtain ⟨gp, h⟩ := GP.new_eq (u := true) diag mean (k := kernel) hn' (by rw [hk.instantaneous]; intro h; cases h)
    (by rcases anyDamping_kind hk hsol with e | e <;> rw [e] <;> rfl)
  refine ⟨gp, h, fun hl y => ?_⟩
  obtain ⟨hk', hs, hX, -, -, -, -, hs', -⟩ := GP.new_ok h
  have e : gp.kernel = kernel := by
    rw [if_pos rfl, hn'] at hk'
    exact (Except.ok.inj hk').symm
  refine GP.condition_eq (anyDamping_run hk hsol h) (k := kernel) (by rw [e]; exact hn') (fun h => ?_) (by rw [hX]; exact hl)
    (by rw [hs.obsError]; exact hk.obsError _)
  rw [hs.needsIntegrated, hk.instantaneous] at h
  cases h

/-- the states of the kernel and of the kernel with the noise it should have -/
theorem resolved_states (hk : kernel.AnyDamping) (ht : Sorted t) (hN : 0 < t.len)
    (hg : ∀ i, i + 1 < t.len → kernel.Resolves (t.get (i + 1) - t.get i)) (R : Arr ℝ) {kind : SolverKind}
    (hkind : kind = .stateSpace ∨ kind = .parallel) (hR : ∀ i < t.len, 0 < R.get i) (y : Arr ℝ) :
    (∀ i < t.len, (kernel.model.states kind (t.map .time) y R).filt.get i =
      (kernel.model.ideal.states .stateSpace (t.map .time) y R).filt.get i) ∧
    (∀ i < t.len, (kernel.model.states kind (t.map .time) y R).smooth.get i =
      (kernel.model.ideal.states .stateSpace (t.map .time) y R).smooth.get i) ∧
    kernel.model.logProb kind (t.map .time) y R = kernel.model.ideal.logProb .stateSpace (t.map .time) y R := by
  set k := kernel.model with hkd
  set X : Arr Coord := t.map .time with hX
  have hXt : X.map Coord.sortable = t := rfl
  have hgap : ∀ i, i + 1 < X.len → k.NoiseExactOver ((X.get (i + 1)).sortable - (X.get i).sortable) := fun i hi =>
    hk.noise (sub_nonneg.2 (ht i (i + 1) (Nat.le_succ i) hi)) (hg i hi)
  obtain ⟨G, hG⟩ := hk.combos.covModel
  have hreg : k.ideal.Regular := hG.ideal_regular hk.P_pd
  rcases hkind with rfl | rfl
  · have f : ∀ i < t.len, (k.kalman (X.map Coord.sortable) y R).get i = (k.ideal.kalman (X.map Coord.sortable) y R).get i :=
      fun i hi => ideal_kalman hk.combos y R hgap hi
    refine ⟨f, fun i hi => ideal_smooth hk.combos y R hgap hi, ?_⟩
    exact (C01_likelihood_exact_over_gaps hk.combos y R hgap ht hR).trans
      (C01_likelihood_exact k.ideal hreg.toProper X y R ht fun i hi => kf_S_pos ht hreg.P_psd hreg.Q_psd hR hi).symm
  · have hQ : ∀ i, i + 1 < t.len → k.Qt 0 (t.get (i + 1) - t.get i) = k.ideal.Qt 0 (t.get (i + 1) - t.get i) := hgap
    have f : ∀ i < t.len, (k.parallelKalman X y R).get i = (k.ideal.parallelKalman X y R).get i := fun i hi =>
      parallelFilter_congr (t := t) (A := k.At) (Q := k.Qt) (Q' := k.ideal.Qt) (H := k.Ht) (HX := X.map fun x => k.obsModel x none) hQ hi
    obtain ⟨l1, e1⟩ := C06_parallel_filter k.ideal hreg.toProper X y R ht hN (hreg.toProper.freshOk ht hN hR)
    obtain ⟨l2, e2⟩ := C07_parallel_smoother k.ideal hreg X y R ht hN hR
    have l1' : (k.ideal.parallelKalman X y R).len = t.len := l1
    have l1'' : (k.parallelKalman X y R).len = t.len := by show 1 + (t.len - 1) = _; omega
    have l2' : (k.ideal.condition (X.map Coord.sortable) y R).2.len = t.len := rts_len _ _ _ hN
    rw [l1'] at e1
    rw [l2, l2'] at e2
    have fs : ∀ i < t.len, (k.parallelCondition X y R).2.get i = (k.ideal.parallelCondition X y R).2.get i := fun i hi =>
      parallelSmoother_congr (t := t) (A := k.At) (Q := k.Qt) (Q' := k.ideal.Qt) hN hQ ⟨l1'', l1', l1'', l1'⟩
        (fun j hj => congrArg FilterOut.m (f j hj)) (fun j hj => congrArg FilterOut.P (f j hj)) hi
    refine ⟨fun i hi => (f i hi).trans (e1 i hi), fun i hi => (fs i hi).trans (e2 i hi), ?_⟩
    show computeLogProb ((k.parallelKalman X y R).map (·.v)) ((k.parallelKalman X y R).map (·.S)) =
      computeLogProb ((k.ideal.kalman (X.map Coord.sortable) y R).map (·.v)) ((k.ideal.kalman (X.map Coord.sortable) y R).map (·.S))
    refine computeLogProb_congr (l1''.trans (kalman_len k.ideal t y R).symm) (fun i hi => ?_) (fun i hi => ?_)
    · exact congrArg FilterOut.v ((f i (l1'' ▸ hi)).trans (e1 i (l1'' ▸ hi)))
    · exact congrArg FilterOut.S ((f i (l1'' ▸ hi)).trans (e1 i (l1'' ▸ hi)))

/-- **C97, likelihood.** -/
theorem C97_log_probability (hk : kernel.AnyDamping) (hκ : kernel.model.HasCov κ) (hsol : InstantSolver kernel solver)
    (hnew : GP.new kernel (.times t) diag mean solver u = .ok gp) (ht : Sorted t) (hN : 0 < t.len)
    (hg : ∀ i, i + 1 < t.len → kernel.Resolves (t.get (i + 1) - t.get i))
    (hR : ∀ i < t.len, 0 < (GP.noiseOf t.len diag).get i) (y : Arr ℝ) :
    gp.logProbability y = .ok
      ((gaussLogDensity (obsGram κ (XArg.times t).coords (GP.noiseOf t.len diag)) (fun i => y.get i) : ℝ) : EReal) := by
  have hrun := anyDamping_run hk hsol hnew
  obtain ⟨-, hs, -, -, -, -, -, hs', -⟩ := GP.new_ok hnew
  unfold GP.logProbability
  rw [hrun]
  simp only
  rw [logProb_of_same hs, hs']
  obtain ⟨G, hG⟩ := hk.combos.covModel
  have hreg : kernel.model.ideal.Regular := hG.ideal_regular hk.P_pd
  have h := (resolved_states hk ht hN hg _ (anyDamping_kind hk hsol) hR y).2.2
  refine congrArg _ (h.trans ?_)
  refine (C01_likelihood_exact kernel.model.ideal hreg.toProper (t.map .time) y _ ht
    fun i hi => kf_S_pos ht hreg.P_psd hreg.Q_psd hR hi).trans ?_
  rw [← dataGram_eq_obsGram hκ]
  rfl

/-- **C97, conditioning.** -/
theorem C97_condition (hk : kernel.AnyDamping) (hκ : kernel.model.HasCov κ) (hsol : InstantSolver kernel solver)
    (hnew : GP.new kernel (.times t) diag mean solver u = .ok gp) (ht : Sorted t) (hN : 0 < t.len)
    (hg : ∀ i, i + 1 < t.len → kernel.Resolves (t.get (i + 1) - t.get i))
    (hR : ∀ i < t.len, 0 < (GP.noiseOf t.len diag).get i) (hcond : gp.condition y = .ok (lp, gp')) :
    gp.logProbability y = .ok lp ∧ gp'.mean.len = t.len ∧ ∃ var, gp'.var = some var ∧ var.len = t.len ∧ ∀ i < t.len,
      gp'.mean.get i = postMean (obsGram κ (XArg.times t).coords (GP.noiseOf t.len diag)) (fun j => y.get j)
        (obsCross κ (.time (t.get i)) (XArg.times t).coords) ∧
      var.get i = postVar (obsGram κ (XArg.times t).coords (GP.noiseOf t.len diag)) (κ 0)
        (obsCross κ (.time (t.get i)) (XArg.times t).coords) := by
  obtain ⟨-, hs, hX, -, -, -, -, hs', -⟩ := GP.new_ok hnew
  obtain ⟨hrun, hlp, -, -, -, -, hm, hvar, -⟩ := GP.condition_ok hcond
  refine ⟨?_, ?_, _, hvar, ?_, fun i hi => ?_⟩
  · unfold GP.logProbability
    rw [hrun, hlp]
  · rw [hm]; show gp.X.coords.len = _; rw [hX]; rfl
  · show gp.X.coords.len = _; rw [hX]; rfl
  · obtain ⟨G, hG⟩ := hk.combos.covModel
    have hreg : kernel.model.ideal.Regular := hG.ideal_regular hk.P_pd
    have hkind := anyDamping_kind hk hsol
    obtain ⟨-, h, -⟩ := resolved_states hk ht hN hg _ hkind hR y
    have e : gp.atData y = kernel.model.projectData (kernel.model.states (solver.getD (GP.chooseSolver kernel)) (t.map .time) y
        (GP.noiseOf t.len diag)) (fun x => kernel.model.obsModel x none) (t.map .time) := by
      unfold GP.atData GP.projectAtData
      rw [← SSM.strip_projectData, hs.strip, SSM.strip_projectData, hX, hs']
      rfl
    have e' : (kernel.model.projectData (kernel.model.states (solver.getD (GP.chooseSolver kernel)) (t.map .time) y
        (GP.noiseOf t.len diag)) (fun x => kernel.model.obsModel x none) (t.map .time)).get i =
        (kernel.model.ideal.conditionedAtData (t.map .time) y (GP.noiseOf t.len diag)).get i := by
      rw [conditionedAtData_get kernel.model.ideal (t.map .time) y _ hi]
      have h1 := h i hi
      rcases hkind with hkind | hkind <;> rw [hkind] at h1 ⊢
      all_goals
        refine (projectAtData_all _ (t.map .time) _ hi).trans ?_
        exact congrArg (fun s : StateMP kernel.model.n => ((kernel.model.obsModel (.time (t.get i)) none *ᵥ s.m) 0,
          (kernel.model.obsModel (.time (t.get i)) none * s.P * (kernel.model.obsModel (.time (t.get i)) none)ᵀ) 0 0)) h1
    rw [hm]
    show ((gp.atData y).get i).1 = _ ∧ ((gp.atData y).get i).2 = _
    rw [e, e', ← postMean_times hκ, ← postVar_times hκ]
    exact ⟨C02_conditioned_mean_exact kernel.model.ideal hreg (t.map .time) y _ ht hR i hi,
      C03_conditioned_variance_exact kernel.model.ideal hreg (t.map .time) y _ ht hR i hi⟩

/-- **C97, prediction.** The steps that matter are those between the data and from the last datum not after a test time to that test time;
before the first datum there is none. -/
theorem C97_predict (hk : kernel.AnyDamping) (hκ : kernel.model.HasCov κ) (hsol : InstantSolver kernel solver)
    (hnew : GP.new kernel (.times t) diag mean solver u = .ok gp) (ht : Sorted t) (hN : 0 < t.len)
    (hg : ∀ i, i + 1 < t.len → kernel.Resolves (t.get (i + 1) - t.get i))
    (hR : ∀ i < t.len, 0 < (GP.noiseOf t.len diag).get i) (hcond : gp.condition y = .ok (lp, gp')) (ts : Arr ℝ) :
    ∃ mu var, gp'.predict (some (.times ts)) = .ok (mu, var) ∧ mu.len = ts.len ∧ var.len = ts.len ∧ ∀ m,
      (∀ i < t.len, t.get i ≤ ts.get m → (∀ j < t.len, t.get j ≤ ts.get m → t.get j ≤ t.get i) → kernel.Resolves (ts.get m - t.get i)) →
      mu.get m = postMean (obsGram κ (XArg.times t).coords (GP.noiseOf t.len diag)) (fun j => y.get j)
        (obsCross κ (.time (ts.get m)) (XArg.times t).coords) ∧
      var.get m = postVar (obsGram κ (XArg.times t).coords (GP.noiseOf t.len diag)) (κ 0)
        (obsCross κ (.time (ts.get m)) (XArg.times t).coords) := by
  obtain ⟨-, hs0, -, -, -, -, -, hs', -⟩ := GP.new_ok hnew
  obtain ⟨hrun, -, -, hs, -, -, -, -, -, hsol', hst, -⟩ := GP.condition_ok hcond
  have hrun' : gp'.runError = none := by
    rw [← hrun]
    unfold GP.runError
    rw [hsol', hs.transitionError]
  rw [hs'] at hsol'
  have hkind' : ¬ (gp'.solver.kind = .parallel ∧ (gp'.solver.X.isTuple = true ∨ (XArg.times ts).isTuple = true)) := by
    rw [hsol']; rintro ⟨-, h | h⟩ <;> cases h
  have ho : gp'.kernel.obsError (.times ts) = none := by rw [(hs.trans hs0).obsError]; exact hk.obsError _
  unfold GP.predict
  simp only [hst, GP.predictConditioned, hrun', if_neg hkind', ho]
  refine ⟨_, _, rfl, rfl, rfl, fun m hm => ?_⟩
  have hkind := anyDamping_kind hk hsol
  have e : gp'.kernel.model.projectTest (gp'.kernel.model.states gp'.solver.kind gp'.solver.X.coords y gp'.solver.noise)
      (fun x => gp'.kernel.model.obsModel x none) (XArg.times ts).coords =
      kernel.model.projectTest (kernel.model.states (solver.getD (GP.chooseSolver kernel)) (t.map .time) y (GP.noiseOf t.len diag))
        (fun x => kernel.model.obsModel x none) (ts.map .time) := by
    rw [← SSM.strip_projectTest, (hs.trans hs0).strip, SSM.strip_projectTest, hsol']
    rfl
  rw [e]
  obtain ⟨G, hG⟩ := hk.combos.covModel
  have hreg : kernel.model.ideal.Regular := hG.ideal_regular hk.P_pd
  obtain ⟨h1, h2, -⟩ := resolved_states hk ht hN hg (GP.noiseOf t.len diag) hkind hR y
  have hts : (kernel.model.states (solver.getD (GP.chooseSolver kernel)) (t.map .time) y (GP.noiseOf t.len diag)).t = t := by
    rcases hkind with e | e <;> rw [e] <;> rfl
  have key : (kernel.model.projectTest (kernel.model.states (solver.getD (GP.chooseSolver kernel)) (t.map .time) y (GP.noiseOf t.len diag))
        (fun x => kernel.model.obsModel x none) (ts.map .time)).get m =
      (kernel.model.ideal.predictAt (t.map .time) y (GP.noiseOf t.len diag) (ts.map .time)).get m := by
    have hp := predict_congr_noise (A := kernel.model.At) (Q := kernel.model.Qt) (Q' := kernel.model.ideal.Qt) (P := kernel.model.Pinf) ht hN h1 h2
      (ts.get m) (fun i hi hix hmax => hk.noise (sub_nonneg.2 hix) (hm i hi hix hmax))
    rw [← hts] at hp
    have hp' := congrArg (fun s : StateMP kernel.model.n => ((kernel.model.obsModel (.time (ts.get m)) none *ᵥ s.m) 0,
          (kernel.model.obsModel (.time (ts.get m)) none * s.P * (kernel.model.obsModel (.time (ts.get m)) none)ᵀ) 0 0)) hp
    rw [hts] at hp'
    rw [predictAt_get]
    refine Eq.trans ?_ hp'
    unfold SSM.projectTest
    rw [hts]
    rfl
  have h := key.trans (C04_prediction_exact kernel.model.ideal hreg (t.map .time) y (GP.noiseOf t.len diag) (ts.map .time) ht hN hR m)
  rw [← postMean_times hκ, ← postVar_times hκ]
  exact ⟨congrArg Prod.fst h, congrArg Prod.snd h⟩

/-- **C97.** Every such kernel has a covariance function of the lag. -/
theorem C97_hasCov (hk : kernel.AnyDamping) : ∃ κ, kernel.model.HasCov κ := by
  obtain ⟨G, hG⟩ := hk.combos.covModel
  exact ⟨_, hG.evaluate_eq⟩

end

section examples

/-- observations every half oscillation of `SHO(1, 1, 1)` -/
noncomputable def halfOscT : Arr ℝ := ⟨3, fun i => i * (Real.pi / SHO.eta 1)⟩

theorem halfOscT_sorted : Sorted halfOscT := fun i j hij _ =>
  mul_le_mul_of_nonneg_right (by exact_mod_cast hij) (div_nonneg Real.pi_pos.le (Real.sqrt_nonneg _))

/-- a damped oscillation plus a Matern-3/2 trend -/
noncomputable def oscKernel : Kern := .sum (.sho 1 1 1 "osc") (.matern32 2 1 "trend")

theorem oscKernel_any : oscKernel.AnyDamping :=
  .sum (.sho one_pos (by norm_num) SHO.not_critical_one one_ne_zero) (.valid (.matern32 two_pos one_ne_zero))

theorem oscKernel_resolves : oscKernel.Resolves (Real.pi / SHO.eta 1) :=
  ⟨(Kern.resolves_sho one_pos (by norm_num) SHO.not_critical_one).2 SHO.half_oscillation, trivial⟩

theorem halfOscT_resolves (i : ℕ) : oscKernel.Resolves (halfOscT.get (i + 1) - halfOscT.get i) := by
  have e : halfOscT.get (i + 1) - halfOscT.get i = Real.pi / SHO.eta 1 := by
    show ((i + 1 : ℕ) : ℝ) * _ - (i : ℝ) * _ = _
    push_cast; ring
  rw [e]
  exact oscKernel_resolves

theorem oscKernel_noExp : ¬ Uses IsExp oscKernel := ((transitionError_iff true _).1 rfl).2 rfl

/-- the kernel is outside the reach of C01-C04, whose oscillators are not underdamped, and both solvers are exact at half an oscillation
after the last datum and at any time before the first -/
example (y : Arr ℝ) (solver : Option SolverKind) (hs : solver = none ∨ solver = some .parallel) (x : ℝ) (hx : x < 0) :
    ∃ κ gp lp gp' mu var, GP.new oscKernel (.times halfOscT) (some (.inl 1)) none solver true = .ok gp ∧
    gp.logProbability y = .ok lp ∧ gp.condition y = .ok (lp, gp') ∧
    lp = ((gaussLogDensity (obsGram κ (XArg.times halfOscT).coords ⟨3, fun _ => 1⟩) (fun i => y.get i) : ℝ) : EReal) ∧
    gp'.predict (some (.times ⟨2, fun i => if i = 0 then x else 3 * (Real.pi / SHO.eta 1)⟩)) = .ok (mu, var) ∧
    mu.get 0 = postMean (obsGram κ (XArg.times halfOscT).coords ⟨3, fun _ => 1⟩) (fun j => y.get j)
      (obsCross κ (.time x) (XArg.times halfOscT).coords) ∧
    mu.get 1 = postMean (obsGram κ (XArg.times halfOscT).coords ⟨3, fun _ => 1⟩) (fun j => y.get j)
      (obsCross κ (.time (3 * (Real.pi / SHO.eta 1))) (XArg.times halfOscT).coords) := by
  have hsol : InstantSolver oscKernel solver := hs.imp Or.inl fun h => ⟨h, oscKernel_noExp⟩
  have hp : 0 < Real.pi / SHO.eta 1 := div_pos Real.pi_pos (SHO.eta_pos_under (by norm_num))
  obtain ⟨κ, hκ⟩ := C97_hasCov oscKernel_any
  obtain ⟨gp, hnew, hc⟩ := C97_succeeds oscKernel_any hsol (by simp [oscKernel, Kern.componentNames, Kern.extractLeafKernels, Kern.name])
    halfOscT (some (.inl 1)) none
  obtain ⟨⟨lp, gp'⟩, hcond⟩ := hc (by decide) y
  have hR : ∀ i < halfOscT.len, 0 < (GP.noiseOf halfOscT.len (some (.inl 1))).get i := fun _ _ => one_pos
  have hlp := C97_log_probability oscKernel_any hκ hsol hnew halfOscT_sorted (by decide) (fun i _ => halfOscT_resolves i) hR y
  have hc1 := (C97_condition oscKernel_any hκ hsol hnew halfOscT_sorted (by decide) (fun i _ => halfOscT_resolves i) hR hcond).1
  obtain ⟨mu, var, hpred, -, -, hex⟩ := C97_predict oscKernel_any hκ hsol hnew halfOscT_sorted (by decide) (fun i _ => halfOscT_resolves i) hR
    hcond ⟨2, fun i => if i = 0 then x else 3 * (Real.pi / SHO.eta 1)⟩
  refine ⟨κ, gp, lp, gp', mu, var, hnew, hc1, hcond, Except.ok.inj (hc1.symm.trans hlp), hpred, (hex 0 ?_).1, (hex 1 ?_).1⟩
  · intro i _ h
    have h1 : (i : ℝ) * (Real.pi / SHO.eta 1) ≤ x := h
    have h2 : (0 : ℝ) ≤ (i : ℝ) * (Real.pi / SHO.eta 1) := mul_nonneg (Nat.cast_nonneg i) hp.le
    linarith
  · intro i hi _ hmax
    have hi3 : i < 3 := hi
    have h2 : ((2 : ℕ) : ℝ) * (Real.pi / SHO.eta 1) ≤ (i : ℝ) * (Real.pi / SHO.eta 1) := hmax 2 (by decide) (by
      show ((2 : ℕ) : ℝ) * (Real.pi / SHO.eta 1) ≤ 3 * (Real.pi / SHO.eta 1)
      push_cast; linarith)
    have h3 : (2 : ℝ) ≤ i := by
      have := le_of_mul_le_mul_right h2 hp
      exact_mod_cast this
    obtain rfl : i = 2 := by
      have : 2 ≤ i := by exact_mod_cast h3
      omega
    have e : (3 * (Real.pi / SHO.eta 1)) - ((2 : ℕ) : ℝ) * (Real.pi / SHO.eta 1) = Real.pi / SHO.eta 1 := by push_cast; ring
    show oscKernel.Resolves ((3 * (Real.pi / SHO.eta 1)) - ((2 : ℕ) : ℝ) * (Real.pi / SHO.eta 1))
    rw [e]
    exact oscKernel_resolves

end examples

end Verif
