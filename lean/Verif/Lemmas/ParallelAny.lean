import Verif.Model.Integrated

/-!
# The parallel scans on data which are a combination of data

No property of the kernel is used, and none of the solved matrices need be invertible: the elements of both scans depend on the data
through `b` and `eta` (`g` in the smoother) only, linearly, and the combinations keep that form.
-/

set_option linter.unusedSectionVars false

namespace Verif
open Matrix

/-- a relation between the elements of three scans which the combination keeps holds between their results -/
theorem assocScanGet_rel {α : Type*} (f : α → α → α) (V : α → α → α → Prop)
    (hV : ∀ a a' a'' b b' b'', V a a' a'' → V b b' b'' → V (f a b) (f a' b') (f a'' b'')) :
    ∀ (n : ℕ) (e e' e'' : ℕ → α), (∀ i, V (e i) (e' i) (e'' i)) →
      ∀ j, V (assocScanGet f n e j) (assocScanGet f n e' j) (assocScanGet f n e'' j) := by
  intro n
  induction n using Nat.strong_induction_on with
  | _ n ih =>
    intro e e' e'' h j
    unfold assocScanGet
    by_cases h2 : n < 2
    · simp only [h2, dif_pos]; exact h j
    · simp only [h2, dif_neg, not_false_eq_true]
      have hodd := ih (n / 2) (by omega) _ _ _ (fun i => hV _ _ _ _ _ _ (h (2 * i)) (h (2 * i + 1)))
      by_cases hj : j % 2 = 0
      · simp only [hj, if_true]
        by_cases h0 : j / 2 = 0
        · simp only [h0, if_true]; exact h 0
        · simp only [h0, if_false]; exact hV _ _ _ _ _ _ (hodd _) (h _)
      · simp only [hj, if_false]; exact hodd _

theorem associativeScan_rel {α : Type*} (f : α → α → α) (V : α → α → α → Prop)
    (hV : ∀ a a' a'' b b' b'', V a a' a'' → V b b' b'' → V (f a b) (f a' b') (f a'' b'')) {e e' e'' : Arr α} (rev : Bool)
    (hl' : e'.len = e.len) (hl'' : e''.len = e.len) (h : ∀ i, V (e.get i) (e'.get i) (e''.get i)) (j : ℕ) :
    V ((associativeScan f e rev).get j) ((associativeScan f e' rev).get j) ((associativeScan f e'' rev).get j) := by
  cases rev
  · show V (assocScanGet f e.len e.get j) (assocScanGet f e'.len e'.get j) (assocScanGet f e''.len e''.get j)
    rw [hl', hl'']
    exact assocScanGet_rel f V hV _ _ _ _ h j
  · show V (assocScanGet f e.len e.rev.get (e.len - 1 - j)) (assocScanGet f e'.len e'.rev.get (e'.len - 1 - j))
      (assocScanGet f e''.len e''.rev.get (e''.len - 1 - j))
    rw [hl', hl'']
    refine assocScanGet_rel f V hV _ _ _ _ (fun i => ?_) _
    show V (e.get (e.len - 1 - i)) (e'.get (e'.len - 1 - i)) (e''.get (e''.len - 1 - i))
    rw [hl', hl'']
    exact h _

section
variable {n : Type} [Fintype n] [DecidableEq n] {a b : ℝ}

/-- `e''` belongs to the data `a y + b y'`, if `e` belongs to `y` and `e'` to `y'` -/
structure KElem.Lin (a b : ℝ) (e e' e'' : KElem n) : Prop where
  A : e''.A = e.A
  A' : e'.A = e.A
  C : e''.C = e.C
  C' : e'.C = e.C
  J : e''.J = e.J
  J' : e'.J = e.J
  mean : e''.b = a • e.b + b • e'.b
  eta : e''.eta = a • e.eta + b • e'.eta

theorem KElem.Lin.combine {l l' l'' r r' r'' : KElem n} (hl : KElem.Lin a b l l' l'') (hr : KElem.Lin a b r r' r'') :
    KElem.Lin a b (l.combine r) (l'.combine r') (l''.combine r'') where
  A := by simp only [KElem.combine, hl.A, hl.C, hr.A, hr.J]
  A' := by simp only [KElem.combine, hl.A', hl.C', hr.A', hr.J']
  C := by simp only [KElem.combine, hl.C, hr.A, hr.J, hr.C]
  C' := by simp only [KElem.combine, hl.C', hr.A', hr.J', hr.C']
  J := by simp only [KElem.combine, hl.A, hl.C, hl.J, hr.J]
  J' := by simp only [KElem.combine, hl.A', hl.C', hl.J', hr.J']
  mean := by
    simp only [KElem.combine, hl.A, hl.C, hr.A, hr.J, hl.A', hl.C', hr.A', hr.J', hl.mean, hr.mean, hr.eta, solveVec, mulVec_add, mulVec_smul,
      smul_add]
    abel
  eta := by
    simp only [KElem.combine, hl.A, hl.C, hr.A, hr.J, hl.A', hl.C', hr.A', hr.J', hl.mean, hl.eta, hr.eta, solveVec, mulVec_add, mulVec_sub,
      mulVec_smul, smul_add, smul_sub]
    abel

/-- the same for the elements of the smoother -/
structure BElem.Lin (a b : ℝ) (e e' e'' : BElem n) : Prop where
  E : e''.E = e.E
  E' : e'.E = e.E
  L : e''.L = e.L
  L' : e'.L = e.L
  g : e''.g = a • e.g + b • e'.g

theorem BElem.Lin.combine {l l' l'' r r' r'' : BElem n} (hl : BElem.Lin a b l l' l'') (hr : BElem.Lin a b r r' r'') :
    BElem.Lin a b (l.combine r) (l'.combine r') (l''.combine r'') where
  E := by simp only [BElem.combine, hl.E, hr.E]
  E' := by simp only [BElem.combine, hl.E', hr.E']
  L := by simp only [BElem.combine, hl.L, hr.E, hr.L]
  L' := by simp only [BElem.combine, hl.L', hr.E', hr.L']
  g := by
    simp only [BElem.combine, hr.E, hr.E', hl.g, hr.g, mulVec_add, mulVec_smul, smul_add]
    abel

theorem BElem.Lin.generic (Phi Q P : Matrix n n ℝ) {mu mu' mu'' : n → ℝ} (h : mu'' = a • mu + b • mu') :
    BElem.Lin a b (.generic Phi Q mu P) (.generic Phi Q mu' P) (.generic Phi Q mu'' P) where
  E := rfl
  E' := rfl
  L := rfl
  L' := rfl
  g := by
    simp only [BElem.generic, h, mulVec_add, mulVec_smul, smul_sub]
    abel

theorem const_lin {y y' y'' : ℝ} (h : y'' = a * y + b * y') : (fun _ : Fin 1 => y'') = a • (fun _ => y) + b • (fun _ => y') := by
  funext i; exact h

theorem KElem.Lin.measure (Phi Q : Matrix n n ℝ) (H : Matrix (Fin 1) n ℝ) (r : ℝ) {y y' y'' : ℝ} (h : y'' = a * y + b * y') :
    KElem.Lin a b (.measure Phi Q H y r) (.measure Phi Q H y' r) (.measure Phi Q H y'' r) where
  A := rfl
  A' := rfl
  C := rfl
  C' := rfl
  J := rfl
  J' := rfl
  mean := by simp only [KElem.measure]; rw [const_lin h, mulVec_add, mulVec_smul, mulVec_smul]
  eta := by simp only [KElem.measure, solveVec]; rw [const_lin h]; simp only [mulVec_add, mulVec_smul]

theorem KElem.Lin.endElem (Phi Q : Matrix n n ℝ) (H : Matrix (Fin 1) n ℝ) (r : ℝ) {y y' y'' : ℝ} (h : y'' = a * y + b * y') :
    KElem.Lin a b (.endElem Phi Q H y r) (.endElem Phi Q H y' r) (.endElem Phi Q H y'' r) where
  A := rfl
  A' := rfl
  C := rfl
  C' := rfl
  J := rfl
  J' := rfl
  mean := by simp only [KElem.endElem]; rw [const_lin h, mulVec_add, mulVec_smul, mulVec_smul]
  eta := by simp only [KElem.endElem, solveVec]; rw [const_lin h]; simp only [mulVec_add, mulVec_smul]

/-- the first element starts from the zero mean -/
theorem KElem.Lin.first (Phi : ℝ → ℝ → Matrix n n ℝ) (H : ℝ → Matrix (Fin 1) n ℝ) (P0 : Matrix n n ℝ) (r : ℝ) {y y' y'' : ℝ}
    (h : y'' = a * y + b * y') :
    KElem.Lin a b (.first Phi H 0 P0 y r) (.first Phi H 0 P0 y' r) (.first Phi H 0 P0 y'' r) where
  A := rfl
  A' := rfl
  C := rfl
  C' := rfl
  J := rfl
  J' := rfl
  mean := by
    simp only [KElem.first, mulVec_zero, Pi.zero_apply, sub_zero, zero_add]
    rw [const_lin h, mulVec_add, mulVec_smul, mulVec_smul]
  eta := by simp only [KElem.first, solveVec]; rw [const_lin h]; simp only [mulVec_add, mulVec_smul]

/-- an element which does not depend on the data, with `b = eta = 0` -/
theorem KElem.Lin.const (A C J : Matrix n n ℝ) : KElem.Lin a b (⟨A, 0, C, 0, J⟩ : KElem n) ⟨A, 0, C, 0, J⟩ ⟨A, 0, C, 0, J⟩ where
  A := rfl
  A' := rfl
  C := rfl
  C' := rfl
  J := rfl
  J' := rfl
  mean := by simp
  eta := by simp

/-- filtered and predicted states of three data sets, the third a combination of the others -/
structure FilterOut.Lin (a b : ℝ) (f f' f'' : FilterOut n) : Prop where
  mPred : f''.mPred = a • f.mPred + b • f'.mPred
  m : f''.m = a • f.m + b • f'.m
  PPred : f''.PPred = f.PPred
  P : f''.P = f.P
  PPred' : f'.PPred = f.PPred
  P' : f'.P = f.P

theorem Arr.append_single_rel {α : Type*} (V : α → α → α → Prop) {x x' x'' : α} {l : ℕ} {f f' f'' : ℕ → α} (hx : V x x' x'')
    (hf : ∀ i, V (f i) (f' i) (f'' i)) (j : ℕ) :
    V ((Arr.append (.single x) ⟨l, f⟩).get j) ((Arr.append (.single x') ⟨l, f'⟩).get j) ((Arr.append (.single x'') ⟨l, f''⟩).get j) := by
  by_cases hj : j < 1
  · simp only [Arr.append, Arr.single, hj, if_true]; exact hx
  · simp only [Arr.append, Arr.single, hj, if_false]; exact hf _

theorem Arr.append_last_rel {α : Type*} (V : α → α → α → Prop) {x x' x'' : α} {l : ℕ} {f f' f'' : ℕ → α} (hx : V x x' x'')
    (hf : ∀ i, V (f i) (f' i) (f'' i)) (j : ℕ) :
    V ((Arr.append ⟨l, f⟩ (.single x)).get j) ((Arr.append ⟨l, f'⟩ (.single x')).get j) ((Arr.append ⟨l, f''⟩ (.single x'')).get j) := by
  by_cases hj : j < l
  · simp only [Arr.append, Arr.single, hj, if_true]; exact hf _
  · simp only [Arr.append, Arr.single, hj, if_false]; exact hx

/-- the predictions made from the results of the scan -/
theorem parPred_lin {s s' s'' : Arr (KElem n)} (h : ∀ j, KElem.Lin a b (s.get j) (s'.get j) (s''.get j)) (Phi P0 : Matrix n n ℝ) (j : ℕ) :
    (Phi *ᵥ (Arr.append (.single 0) (s''.map KElem.b).init).get j =
      a • Phi *ᵥ (Arr.append (.single 0) (s.map KElem.b).init).get j + b • Phi *ᵥ (Arr.append (.single 0) (s'.map KElem.b).init).get j) ∧
    (Arr.append (.single P0) (s''.map KElem.C).init).get j = (Arr.append (.single P0) (s.map KElem.C).init).get j ∧
    (Arr.append (.single P0) (s'.map KElem.C).init).get j = (Arr.append (.single P0) (s.map KElem.C).init).get j := by
  by_cases hj : j < 1
  · simp only [Arr.append, Arr.single, Arr.init, Arr.map, hj, if_true]
    simp
  · simp only [Arr.append, Arr.single, Arr.init, Arr.map, hj, if_false]
    exact ⟨by rw [(h _).mean, mulVec_add, mulVec_smul, mulVec_smul], (h _).C, (h _).C'⟩

theorem kScan_lin {e e' e'' : Arr (KElem n)} (hl' : e'.len = e.len) (hl'' : e''.len = e.len)
    (h : ∀ i, KElem.Lin a b (e.get i) (e'.get i) (e''.get i)) (j : ℕ) : KElem.Lin a b ((associativeScan KElem.combine e).get j)
      ((associativeScan KElem.combine e').get j) ((associativeScan KElem.combine e'').get j) :=
  associativeScan_rel KElem.combine (KElem.Lin a b) (fun _ _ _ _ _ _ hl hr => hl.combine hr) false hl' hl'' h j

theorem bScan_lin {e e' e'' : Arr (BElem n)} (hl' : e'.len = e.len) (hl'' : e''.len = e.len)
    (h : ∀ i, BElem.Lin a b (e.get i) (e'.get i) (e''.get i)) (j : ℕ) : BElem.Lin a b ((associativeScan BElem.combine e true).get j)
      ((associativeScan BElem.combine e' true).get j) ((associativeScan BElem.combine e'' true).get j) :=
  associativeScan_rel BElem.combine (BElem.Lin a b) (fun _ _ _ _ _ _ hl hr => hl.combine hr) true hl' hl'' h j

variable (Phi Q : ℝ → ℝ → Matrix n n ℝ) (R : Arr ℝ) {y y' y'' : Arr ℝ} (P0 : Matrix n n ℝ)

theorem parallelKalmanFilter_lin (H : ℝ → Matrix (Fin 1) n ℝ) (HX : Arr (Matrix (Fin 1) n ℝ)) (t : Arr ℝ)
    (h : ∀ i, y''.get i = a * y.get i + b * y'.get i) (j : ℕ) :
    FilterOut.Lin a b ((parallelKalmanFilter Phi Q H HX R t y 0 P0).get j) ((parallelKalmanFilter Phi Q H HX R t y' 0 P0).get j)
      ((parallelKalmanFilter Phi Q H HX R t y'' 0 P0).get j) := by
  have hs : ∀ j, KElem.Lin a b ((parallelKalmanScan (parallelParams Phi Q H R t y 0 P0)).get j)
      ((parallelKalmanScan (parallelParams Phi Q H R t y' 0 P0)).get j) ((parallelKalmanScan (parallelParams Phi Q H R t y'' 0 P0)).get j) :=
    kScan_lin rfl rfl fun i => by
      unfold parallelParams
      exact Arr.append_single_rel (KElem.Lin a b) (KElem.Lin.first _ _ _ _ (h 0)) (fun i => KElem.Lin.measure _ _ _ _ (h (i + 1))) i
  obtain ⟨h1, h2, h3⟩ := parPred_lin hs ((Arr.append (Arr.single (1 : Matrix n n ℝ)) (t.diff.map fun d => Phi 0 d)).get j) P0 j
  unfold parallelKalmanFilter parallelPost
  exact ⟨h1, (hs j).mean, by dsimp only; rw [h2], (hs j).C, by dsimp only; rw [h3], (hs j).C'⟩

theorem parIntKalmanFilter_lin (H : Arr (Matrix (Fin 1) n ℝ)) (reset : ℤ → Matrix n n ℝ) (sc : StateCoords) (inst : Arr ℤ)
    (h : ∀ i, y''.get i = a * y.get i + b * y'.get i) (j : ℕ) :
    FilterOut.Lin a b ((parIntKalmanFilter Phi Q H reset R y sc inst 0 P0).get j) ((parIntKalmanFilter Phi Q H reset R y' sc inst 0 P0).get j)
      ((parIntKalmanFilter Phi Q H reset R y'' sc inst 0 P0).get j) := by
  have hs : ∀ j, KElem.Lin a b ((associativeScan KElem.combine (parIntParams Phi Q H reset R y sc inst 0 P0)).get j)
      ((associativeScan KElem.combine (parIntParams Phi Q H reset R y' sc inst 0 P0)).get j)
      ((associativeScan KElem.combine (parIntParams Phi Q H reset R y'' sc inst 0 P0)).get j) :=
    kScan_lin rfl rfl fun i => by
      unfold parIntParams
      refine Arr.append_single_rel (KElem.Lin a b) ?_ (fun i => ?_) i
      · rw [mulVec_zero]
        exact KElem.Lin.const _ _ _
      · by_cases h0 : sc.stateid.tail.get i = 0
        · simp only [h0, if_true]; exact KElem.Lin.const _ _ _
        · simp only [h0, if_false]; exact KElem.Lin.endElem _ _ _ _ (h _)
  obtain ⟨h1, h2, h3⟩ := parPred_lin hs ((Arr.append (Arr.single (Phi 0 0)) (sc.t.diff.map fun d => Phi 0 d)).get j) P0 j
  unfold parIntKalmanFilter
  exact ⟨h1, (hs j).mean, by dsimp only; rw [h2], (hs j).C, by dsimp only; rw [h3], (hs j).C'⟩

/-- smoothed states of three data sets -/
structure StateMP.Lin (a b : ℝ) (s s' s'' : StateMP n) : Prop where
  m : s''.m = a • s.m + b • s'.m
  P : s''.P = s.P
  P' : s'.P = s.P

variable {f f' f'' : Arr (FilterOut n)}

theorem BElem.Lin.lastOf (hl' : f'.len = f.len) (hl'' : f''.len = f.len) (h : ∀ j, FilterOut.Lin a b (f.get j) (f'.get j) (f''.get j)) :
    BElem.Lin a b (.last f.last.m f.last.P) (.last f'.last.m f'.last.P) (.last f''.last.m f''.last.P) := by
  unfold Arr.last
  rw [hl', hl'']
  exact ⟨rfl, rfl, (h _).P, (h _).P', (h _).m⟩

theorem parallelRtsParams_lin (t : Arr ℝ) (hl' : f'.len = f.len) (hl'' : f''.len = f.len)
    (h : ∀ j, FilterOut.Lin a b (f.get j) (f'.get j) (f''.get j)) (i : ℕ) :
    BElem.Lin a b ((parallelRtsParams Phi Q t (f.map FilterOut.m) (f.map FilterOut.P)).get i)
      ((parallelRtsParams Phi Q t (f'.map FilterOut.m) (f'.map FilterOut.P)).get i)
      ((parallelRtsParams Phi Q t (f''.map FilterOut.m) (f''.map FilterOut.P)).get i) := by
  by_cases hi : i < t.diff.len
  · simp only [parallelRtsParams, Arr.append, hi, if_true, Arr.init, Arr.map, (h i).P, (h i).P']
    exact BElem.Lin.generic _ _ _ (h i).m
  · have e : ∀ f : Arr (FilterOut n), (parallelRtsParams Phi Q t (f.map FilterOut.m) (f.map FilterOut.P)).get i = .last f.last.m f.last.P := fun f =>
      if_neg hi
    rw [e, e, e]
    exact BElem.Lin.lastOf hl' hl'' h

theorem parallelRts_lin (t : Arr ℝ) (hl' : f'.len = f.len) (hl'' : f''.len = f.len)
    (h : ∀ j, FilterOut.Lin a b (f.get j) (f'.get j) (f''.get j)) (j : ℕ) :
    StateMP.Lin a b ((parallelRtsSmoother Phi Q t (f.map FilterOut.m) (f.map FilterOut.P)).get j)
      ((parallelRtsSmoother Phi Q t (f'.map FilterOut.m) (f'.map FilterOut.P)).get j)
      ((parallelRtsSmoother Phi Q t (f''.map FilterOut.m) (f''.map FilterOut.P)).get j) := by
  have hl : ∀ f : Arr (FilterOut n), (parallelRtsParams Phi Q t (f.map FilterOut.m) (f.map FilterOut.P)).len = t.diff.len + 1 := fun _ => rfl
  have hb := bScan_lin (a := a) (b := b) (e := parallelRtsParams Phi Q t (f.map FilterOut.m) (f.map FilterOut.P))
    (e' := parallelRtsParams Phi Q t (f'.map FilterOut.m) (f'.map FilterOut.P)) (e'' := parallelRtsParams Phi Q t (f''.map FilterOut.m) (f''.map FilterOut.P))
    ((hl f').trans (hl f).symm) ((hl f'').trans (hl f).symm) (parallelRtsParams_lin Phi Q t hl' hl'' h) j
  unfold parallelRtsSmoother
  exact ⟨hb.g, hb.L, hb.L'⟩

/-- the elements of the integrated parallel smoother -/
noncomputable def parIntRtsElems (reset : ℤ → Matrix n n ℝ) (sc : StateCoords) (inst : Arr ℤ) (kf : Arr (FilterOut n)) : Arr (BElem n) :=
  Arr.append
    ⟨sc.t.diff.len, fun i =>
      if sc.stateid.init.get i = 0 then
        BElem.generic (Phi 0 (sc.t.diff.get i) * reset (inst.init.get i)) (Q 0 (sc.t.diff.get i)) (kf.get i).mPred (kf.get i).PPred
      else BElem.generic (Phi 0 (sc.t.diff.get i)) (Q 0 (sc.t.diff.get i)) (kf.get i).m (kf.get i).P⟩
    (Arr.single (BElem.last kf.last.m kf.last.P))

theorem parIntRtsSmoother_eq (reset : ℤ → Matrix n n ℝ) (sc : StateCoords) (inst : Arr ℤ) (kf : Arr (FilterOut n)) :
    parIntRtsSmoother Phi Q reset sc inst kf =
      (associativeScan BElem.combine (parIntRtsElems Phi Q reset sc inst kf) true).map fun e => ⟨e.g, e.L⟩ := rfl

theorem parIntRtsElems_lin (reset : ℤ → Matrix n n ℝ) (sc : StateCoords) (inst : Arr ℤ) (hl' : f'.len = f.len) (hl'' : f''.len = f.len)
    (h : ∀ j, FilterOut.Lin a b (f.get j) (f'.get j) (f''.get j)) (i : ℕ) :
    BElem.Lin a b ((parIntRtsElems Phi Q reset sc inst f).get i) ((parIntRtsElems Phi Q reset sc inst f').get i)
      ((parIntRtsElems Phi Q reset sc inst f'').get i) := by
  by_cases hi : i < sc.t.diff.len
  · by_cases h0 : sc.stateid.init.get i = 0
    · simp only [parIntRtsElems, Arr.append, hi, if_true, h0, (h i).PPred, (h i).PPred']
      exact BElem.Lin.generic _ _ _ (h i).mPred
    · simp only [parIntRtsElems, Arr.append, hi, if_true, if_false, h0, (h i).P, (h i).P']
      exact BElem.Lin.generic _ _ _ (h i).m
  · simp only [parIntRtsElems, Arr.append, hi, if_false, Arr.single]
    exact BElem.Lin.lastOf hl' hl'' h

theorem parIntRts_lin (reset : ℤ → Matrix n n ℝ) (sc : StateCoords) (inst : Arr ℤ) (hl' : f'.len = f.len) (hl'' : f''.len = f.len)
    (h : ∀ j, FilterOut.Lin a b (f.get j) (f'.get j) (f''.get j)) (j : ℕ) :
    StateMP.Lin a b ((parIntRtsSmoother Phi Q reset sc inst f).get j) ((parIntRtsSmoother Phi Q reset sc inst f').get j)
      ((parIntRtsSmoother Phi Q reset sc inst f'').get j) := by
  have hb := bScan_lin (a := a) (b := b) (e := parIntRtsElems Phi Q reset sc inst f) (e' := parIntRtsElems Phi Q reset sc inst f')
    (e'' := parIntRtsElems Phi Q reset sc inst f'') rfl rfl (parIntRtsElems_lin Phi Q reset sc inst hl' hl'' h) j
  rw [parIntRtsSmoother_eq, parIntRtsSmoother_eq, parIntRtsSmoother_eq]
  exact ⟨hb.g, hb.L, hb.L'⟩

end

/-! ### Only time differences enter -/

theorem Arr.diff_shift {t t' : Arr ℝ} {c : ℝ} (hl : t'.len = t.len) (h : ∀ i, t'.get i = t.get i + c) : t'.diff = t.diff := by
  unfold Arr.diff
  simp only [hl, h, add_sub_add_right_eq_sub]

section
variable {n : Type} [Fintype n] [DecidableEq n] (Phi Q : ℝ → ℝ → Matrix n n ℝ) (R y : Arr ℝ) (m0 : n → ℝ) (P0 : Matrix n n ℝ)

theorem parallelKalmanFilter_diff (H : ℝ → Matrix (Fin 1) n ℝ) (HX : Arr (Matrix (Fin 1) n ℝ)) {t t' : Arr ℝ} (h : t'.diff = t.diff) :
    parallelKalmanFilter Phi Q H HX R t' y m0 P0 = parallelKalmanFilter Phi Q H HX R t y m0 P0 := by
  unfold parallelKalmanFilter parallelParams parallelPost
  rw [h]

theorem parallelRtsSmoother_diff (mu : Arr (n → ℝ)) (P : Arr (Matrix n n ℝ)) {t t' : Arr ℝ} (h : t'.diff = t.diff) :
    parallelRtsSmoother Phi Q t' mu P = parallelRtsSmoother Phi Q t mu P := by
  unfold parallelRtsSmoother parallelRtsParams
  rw [h]

theorem parIntKalmanFilter_diff (H : Arr (Matrix (Fin 1) n ℝ)) (reset : ℤ → Matrix n n ℝ) (inst : Arr ℤ) {sc sc' : StateCoords}
    (h : sc'.t.diff = sc.t.diff) (ho : sc'.obsid = sc.obsid) (hs : sc'.stateid = sc.stateid) :
    parIntKalmanFilter Phi Q H reset R y sc' inst m0 P0 = parIntKalmanFilter Phi Q H reset R y sc inst m0 P0 := by
  unfold parIntKalmanFilter parIntParams
  rw [h, ho, hs]

theorem parIntRtsSmoother_diff (reset : ℤ → Matrix n n ℝ) (inst : Arr ℤ) (kf : Arr (FilterOut n)) {sc sc' : StateCoords}
    (h : sc'.t.diff = sc.t.diff) (hs : sc'.stateid = sc.stateid) :
    parIntRtsSmoother Phi Q reset sc' inst kf = parIntRtsSmoother Phi Q reset sc inst kf := by
  unfold parIntRtsSmoother
  rw [h, hs]

end

section
variable (k : SSM) (X : Arr Coord) (R : Arr ℝ) {y y' y'' : Arr ℝ} {a b : ℝ}

theorem parallelKalman_len (y : Arr ℝ) : (k.parallelKalman X y R).len = 1 + (X.len - 1) := rfl
theorem parIntKalman_len_eq (y : Arr ℝ) : (k.parIntKalman X y R).len = 1 + ((stateCoords X).t.len - 1) := rfl

theorem parallelKalman_lin (h : ∀ i, y''.get i = a * y.get i + b * y'.get i) (j : ℕ) :
    FilterOut.Lin a b ((k.parallelKalman X y R).get j) ((k.parallelKalman X y' R).get j) ((k.parallelKalman X y'' R).get j) :=
  parallelKalmanFilter_lin _ _ _ _ _ _ _ h j

theorem parIntKalman_lin (h : ∀ i, y''.get i = a * y.get i + b * y'.get i) (j : ℕ) :
    FilterOut.Lin a b ((k.parIntKalman X y R).get j) ((k.parIntKalman X y' R).get j) ((k.parIntKalman X y'' R).get j) :=
  parIntKalmanFilter_lin _ _ _ _ _ _ _ _ h j

theorem parallelSmooth_lin (h : ∀ i, y''.get i = a * y.get i + b * y'.get i) (j : ℕ) :
    StateMP.Lin a b ((k.parallelCondition X y R).2.get j) ((k.parallelCondition X y' R).2.get j) ((k.parallelCondition X y'' R).2.get j) := by
  have hl := parallelKalman_len k X R
  exact parallelRts_lin _ _ _ ((hl y').trans (hl y).symm) ((hl y'').trans (hl y).symm) (parallelKalman_lin k X R h) j

theorem parIntSmooth_lin (h : ∀ i, y''.get i = a * y.get i + b * y'.get i) (j : ℕ) :
    StateMP.Lin a b ((k.parallelIntegratedCondition X y R).2.get j) ((k.parallelIntegratedCondition X y' R).2.get j)
      ((k.parallelIntegratedCondition X y'' R).2.get j) := by
  have hl := parIntKalman_len_eq k X R
  exact parIntRts_lin _ _ _ _ _ ((hl y').trans (hl y).symm) ((hl y'').trans (hl y).symm) (parIntKalman_lin k X R h) j

end

end Verif
