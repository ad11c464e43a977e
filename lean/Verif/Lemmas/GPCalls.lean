import Verif.Lemmas.Strip

/-!
# What the calls of the `GaussianProcess` interface compute when they do not raise
-/

namespace Verif
open Matrix

namespace Kern

/-- the kernel object with all names removed -/
def unname : Kern → Kern
  | scale _ k c => scale "" k c
  | sum a b => sum a.unname b.unname
  | prod a b => prod a.unname b.unname
  | k => k.replaceName ""

theorem unname_replaceName (k : Kern) (h : k.atoms = [k]) (s : String) : (k.replaceName s).unname = k.unname := by
  cases k <;> rfl

theorem rename_unname {names : List String} {k k' : Kern} {u u' : String → ℕ}
    (e : k.rename names u = .ok (k', u')) : k'.unname = k.unname := by
  have leaf : ∀ {k k' : Kern} {u u' : String → ℕ}, k.atoms = [k] → renameLeaf names k u = .ok (k', u') → k'.unname = k.unname := by
    intro k k' u u' h e
    unfold renameLeaf at e
    split_ifs at e
    · cases e; exact unname_replaceName k h _
    · cases e; rfl
  induction k generalizing u u' k' with
  | sum a b ha hb =>
    simp only [rename] at e
    split at e
    · cases e
    · rename_i a' u1 ea
      split at e
      · cases e
      · rename_i b' u2 eb
        cases e
        show Kern.sum a'.unname b'.unname = _
        rw [ha ea, hb eb]; rfl
  | prod a b ha hb =>
    simp only [rename] at e
    split at e
    · cases e
    · rename_i a' u1 ea
      split at e
      · cases e
      · rename_i b' u2 eb
        cases e
        show Kern.prod a'.unname b'.unname = _
        rw [ha ea, hb eb]; rfl
  | _ => exact leaf rfl e

theorem assignUniqueNames_unname {k k' : Kern} (e : k.assignUniqueNames = .ok k') : k'.unname = k.unname := by
  unfold assignUniqueNames at e
  split_ifs at e
  · cases e; rfl
  · cases h : k.rename k.componentNames fun _ => 1 with
    | error x => rw [h] at e; cases e
    | ok r => rw [h] at e; cases e; exact rename_unname h

theorem strip_unname (k : Kern) : k.unname.model.strip = k.model.strip := by
  induction k with
  | sum a b ha hb =>
    show (a.unname.model.sum b.unname.model).strip = (a.model.sum b.model).strip
    rw [SSM.strip_sum, ha, hb, ← SSM.strip_sum]
  | prod a b ha hb =>
    show (a.unname.model.prod b.unname.model).strip = (a.model.prod b.model).strip
    rw [SSM.strip_prod, ha, hb, ← SSM.strip_prod]
  | _ => rfl

/-- kernels that differ in names only -/
def SameButNames (k k' : Kern) : Prop := k.unname = k'.unname

theorem SameButNames.strip {k k' : Kern} (h : k.SameButNames k') : k.model.strip = k'.model.strip := by
  rw [← strip_unname k, ← strip_unname k', h]

theorem transitionError_unname (p : Bool) (k : Kern) : k.unname.transitionError p = k.transitionError p := by
  induction k with
  | sum a b ha hb => simp only [unname, transitionError, ha, hb]
  | prod a b ha hb => simp only [unname, transitionError, ha, hb]
  | _ => rfl

theorem SameButNames.transitionError {k k' : Kern} (h : k.SameButNames k') (p : Bool) : k.transitionError p = k'.transitionError p := by
  rw [← transitionError_unname p k, ← transitionError_unname p k', h]

theorem extract_unname (k : Kern) (all : Bool) : k.unname.extractLeafKernels all = (k.extractLeafKernels all).map unname := by
  induction k with
  | sum a b ha hb => simp only [unname, extractLeafKernels, ha, hb, List.map_append]
  | prod a b ha hb =>
    simp only [unname, extractLeafKernels, ha, hb]
    split_ifs <;> simp [unname]
  | _ => rfl

theorem isIntegrated_unname (k : Kern) : k.unname.isIntegrated = k.isIntegrated := by cases k <;> rfl

theorem isProd_unname (k : Kern) : k.unname.IsProd ↔ k.IsProd := by cases k <;> rfl

theorem needsIntegrated_unname (k : Kern) : GP.needsIntegrated k.unname = GP.needsIntegrated k := by
  unfold GP.needsIntegrated
  rw [extract_unname, List.any_map]
  congr 1
  exact funext isIntegrated_unname

theorem SameButNames.needsIntegrated {k k' : Kern} (h : k.SameButNames k') : GP.needsIntegrated k = GP.needsIntegrated k' := by
  rw [← needsIntegrated_unname k, ← needsIntegrated_unname k', h]

theorem SameButNames.extract {k k' : Kern} (h : k.SameButNames k') (all : Bool) :
    (k.extractLeafKernels all).map unname = (k'.extractLeafKernels all).map unname := by
  rw [← extract_unname, ← extract_unname, h]

theorem unpacksCoordinate_unname (k : Kern) : k.unname.unpacksCoordinate = k.unpacksCoordinate := by
  induction k with
  | sum a b ha hb => simp only [unname, unpacksCoordinate, ha, hb]
  | prod a b ha hb => simp only [unname, unpacksCoordinate, ha, hb]
  | _ => rfl

theorem SameButNames.obsError {k k' : Kern} (h : k.SameButNames k') (X : XArg) : k.obsError X = k'.obsError X := by
  unfold Kern.obsError
  rw [← unpacksCoordinate_unname k, ← unpacksCoordinate_unname k', h]

theorem SameButNames.symm {k k' : Kern} (h : k.SameButNames k') : k'.SameButNames k := Eq.symm h
theorem SameButNames.trans {k k' k'' : Kern} (h : k.SameButNames k') (h' : k'.SameButNames k'') : k.SameButNames k'' := Eq.trans h h'

end Kern

namespace GP
open Kern

theorem new_ok {kernel : Kern} {X : XArg} {diag : Option (ℝ ⊕ Arr ℝ)} {mean : Option (Coord → ℝ)} {solver : Option SolverKind}
    {u : Bool} {gp : GP} (h : GP.new kernel X diag mean solver u = .ok gp) :
    (if u then kernel.assignUniqueNames else .ok kernel) = .ok gp.kernel ∧ gp.kernel.SameButNames kernel ∧ gp.X = X ∧
    gp.meanFunction = mean.getD (fun _ => 0) ∧ gp.mean = X.coords.map (mean.getD fun _ => 0) ∧ gp.var = none ∧
    gp.noise = noiseOf X.len diag ∧ gp.solver = ⟨solver.getD (chooseSolver kernel), X, noiseOf X.len diag⟩ ∧ gp.states = none ∧
    (needsIntegrated kernel = true → X.isTuple = true) ∧ (solver.getD (chooseSolver kernel)).construct X = .ok () := by
  unfold GP.new at h
  cases hk : (if u then kernel.assignUniqueNames else .ok kernel : Except PyErr Kern) with
  | error e => rw [hk] at h; cases h
  | ok k =>
    rw [hk] at h
    have hs : k.SameButNames kernel := by
      cases u
      · cases hk; rfl
      · exact assignUniqueNames_unname hk
    have hc : chooseSolver k = chooseSolver kernel := by unfold chooseSolver; rw [hs.needsIntegrated]
    simp only [bind, Except.bind] at h
    split_ifs at h with h1
    have h1' : needsIntegrated kernel = true → X.isTuple = true := by
      intro hn
      rw [hs.needsIntegrated, hn] at h1
      simpa using h1
    rw [hc] at h
    cases hcon : (solver.getD (chooseSolver kernel)).construct X with
    | error e => simp only [hcon] at h; cases h
    | ok r =>
      simp only [hcon, pure, Except.pure] at h
      cases h
      exact ⟨rfl, hs, rfl, rfl, rfl, rfl, rfl, rfl, rfl, h1', rfl⟩

theorem new_eq {kernel k : Kern} {X : XArg} (diag : Option (ℝ ⊕ Arr ℝ)) (mean : Option (Coord → ℝ)) {solver : Option SolverKind}
    {u : Bool} (hk : (if u then kernel.assignUniqueNames else .ok kernel) = .ok k)
    (hX : needsIntegrated kernel = true → X.isTuple = true) (hc : (solver.getD (chooseSolver kernel)).construct X = .ok ()) :
    ∃ gp, GP.new kernel X diag mean solver u = .ok gp := by
  unfold GP.new
  have hs : k.SameButNames kernel := by
    cases u
    · cases hk; rfl
    · exact assignUniqueNames_unname hk
  have hch : chooseSolver k = chooseSolver kernel := by unfold chooseSolver; rw [hs.needsIntegrated]
  rw [hk]
  simp only [bind, Except.bind, hch, hc]
  rw [hs.needsIntegrated]
  have : ¬ (needsIntegrated kernel && !X.isTuple) = true := by
    intro h
    simp only [Bool.and_eq_true, Bool.not_eq_true'] at h
    rw [hX h.1] at h
    exact absurd h.2 (by simp)
  rw [if_neg this]
  exact ⟨_, rfl⟩

/-- the mean and variance at the data, before `squeeze` -/
noncomputable def atData (gp : GP) (y : Arr ℝ) : Arr (ℝ × ℝ) := gp.projectAtData y fun x => gp.kernel.model.obsModel x none

theorem atData_len (gp : GP) (y : Arr ℝ) : (gp.atData y).len = gp.X.coords.len := rfl

theorem condition_obs {gp : GP} {y : Arr ℝ} {r : EReal × GP} (h : gp.condition y = .ok r) : gp.kernel.obsError gp.X = none := by
  unfold GP.condition at h
  simp only [bind, Except.bind, pure, Except.pure] at h
  split at h
  · cases h
  · cases ho : gp.kernel.obsError gp.X with
    | none => rfl
    | some e => rw [ho] at h; cases h

theorem condition_ok {gp gp' : GP} {y : Arr ℝ} {lp : EReal} (h : gp.condition y = .ok (lp, gp')) :
    gp.runError = none ∧ lp = gp.kernel.model.logProb gp.solver.kind gp.solver.X.coords y gp.solver.noise ∧
    gp.kernel.assignUniqueNames = .ok gp'.kernel ∧ gp'.kernel.SameButNames gp.kernel ∧ gp'.X = gp.X ∧
    (∀ x, gp'.meanFunction x = 0) ∧
    gp'.mean = (gp.atData y).map Prod.fst ∧ gp'.var = some ((gp.atData y).map Prod.snd) ∧ gp'.noise = gp.noise ∧ gp'.solver = gp.solver ∧
    gp'.states = some y ∧ gp.X.coords.len ≠ 1 ∧ (needsIntegrated gp.kernel = true → gp.X.isTuple = true) := by
  have ho := condition_obs h
  unfold GP.condition at h
  simp only [bind, Except.bind, pure, Except.pure, ho] at h
  have hkal : gp.solver.kind.kalmanReturns true = 6 := by cases gp.solver.kind <;> rfl
  cases hr : gp.runError with
  | some e => simp only [solverCondition, hr] at h; cases h
  | none =>
    simp only [solverCondition, hr, hkal, if_true] at h
    split at h
    · cases h
    · rename_i gp1 hgp1
      cases h
      unfold newConditioned at hgp1
      simp only [bind, Except.bind, pure, Except.pure] at hgp1
      split at hgp1
      · cases hgp1
      · rename_i k hk
        have hs : k.SameButNames gp.kernel := assignUniqueNames_unname hk
        split_ifs at hgp1 with h1
        have h1' : needsIntegrated gp.kernel = true → gp.X.isTuple = true := by
          intro hn
          rw [hs.needsIntegrated, hn] at h1
          simpa using h1
        by_cases hl : gp.X.coords.len = 1
        · have : squeeze ((gp.atData y).map Prod.fst) = .scalar (((gp.atData y).map Prod.fst).get 0) := if_pos hl
          have e : gp.projectAtData y (fun x => gp.kernel.model.obsModel x none) = gp.atData y := rfl
          rw [e, this] at hgp1
          cases hgp1
        · have e1 : squeeze ((gp.atData y).map Prod.fst) = .vector ((gp.atData y).map Prod.fst) := if_neg hl
          have e : gp.projectAtData y (fun x => gp.kernel.model.obsModel x none) = gp.atData y := rfl
          rw [e, e1] at hgp1
          cases hgp1
          exact ⟨rfl, rfl, hk, hs, rfl, fun _ => rfl, rfl, rfl, rfl, rfl, rfl, hl, h1'⟩

/-- a conditioned GP can be projected at its data -/
theorem condition_obs' {gp gp' : GP} {y : Arr ℝ} {lp : EReal} (h : gp.condition y = .ok (lp, gp')) : gp'.kernel.obsError gp'.X = none := by
  obtain ⟨-, -, -, hs, hX, -⟩ := condition_ok h
  rw [hX, hs.obsError, condition_obs h]

theorem condition_eq {gp : GP} {k : Kern} {y : Arr ℝ} (hr : gp.runError = none) (hk : gp.kernel.assignUniqueNames = .ok k)
    (hX : needsIntegrated gp.kernel = true → gp.X.isTuple = true) (hl : gp.X.coords.len ≠ 1)
    (ho : gp.kernel.obsError gp.X = none) : ∃ r, gp.condition y = .ok r := by
  unfold GP.condition
  have hkal : gp.solver.kind.kalmanReturns true = 6 := by cases gp.solver.kind <;> rfl
  have hs : k.SameButNames gp.kernel := assignUniqueNames_unname hk
  have e1 : squeeze ((gp.atData y).map Prod.fst) = .vector ((gp.atData y).map Prod.fst) := if_neg hl
  have e : gp.projectAtData y (fun x => gp.kernel.model.obsModel x none) = gp.atData y := rfl
  have : ¬ (needsIntegrated gp.kernel && !gp.X.isTuple) = true := by
    intro h
    simp only [Bool.and_eq_true, Bool.not_eq_true'] at h
    rw [hX h.1] at h
    exact absurd h.2 (by simp)
  simp only [bind, Except.bind, pure, Except.pure, solverCondition, hr, hkal, if_true, newConditioned, hk, hs.needsIntegrated,
    e, e1, if_neg this, ho]
  exact ⟨_, rfl⟩

end GP
end Verif
