import Verif.Lemmas.Names

/-!
# Renaming changes nothing but names

`SSM.strip` forgets the names (and the rows of components); everything that does not ask for a component only depends on the stripped
kernel.
-/

namespace Verif
open Matrix Kern

/-- the kernel without names: every request for a component is answered with the row of the whole kernel -/
def SSM.strip (k : SSM) : SSM := { k with name := "", obsModel := fun X _ => k.obsModel X none }

theorem SSM.strip_sum (a b : SSM) : (a.sum b).strip = (a.strip.sum b.strip).strip := rfl
theorem SSM.strip_prod (a b : SSM) : (a.prod b).strip = (a.strip.prod b.strip).strip := rfl

theorem SSM.strip_logProb (k : SSM) (kind : SolverKind) (X : Arr Coord) (y R : Arr ℝ) :
    k.strip.logProb kind X y R = k.logProb kind X y R := by
  cases kind <;> rfl

theorem SSM.strip_projectData (k : SSM) (kind : SolverKind) (X Xd : Arr Coord) (y R : Arr ℝ) :
    k.strip.projectData (k.strip.states kind X y R) (fun x => k.strip.obsModel x none) Xd =
      k.projectData (k.states kind X y R) (fun x => k.obsModel x none) Xd := by
  cases kind <;> rfl

theorem SSM.strip_projectTest (k : SSM) (kind : SolverKind) (X Xt : Arr Coord) (y R : Arr ℝ) :
    k.strip.projectTest (k.strip.states kind X y R) (fun x => k.strip.obsModel x none) Xt =
      k.projectTest (k.states kind X y R) (fun x => k.obsModel x none) Xt := by
  cases kind <;> rfl

theorem SSM.strip_evaluate (k : SSM) (X1 X2 : Coord) : k.strip.evaluate X1 X2 = k.evaluate X1 X2 := rfl

theorem strip_replaceName (k : Kern) (h : k.atoms = [k]) (s : String) : (k.replaceName s).model.strip = k.model.strip := by
  cases k <;> rfl

theorem rename_strip {names : List String} {k k' : Kern} {u u' : String → ℕ}
    (e : k.rename names u = .ok (k', u')) : k'.model.strip = k.model.strip := by
  have leaf : ∀ {k k' : Kern} {u u' : String → ℕ}, k.atoms = [k] → renameLeaf names k u = .ok (k', u') →
      k'.model.strip = k.model.strip := by
    intro k k' u u' h e
    unfold renameLeaf at e
    split_ifs at e
    · cases e; exact strip_replaceName k h _
    · cases e; rfl
  induction k generalizing u u' k' with
  | sum a b ha hb =>
    simp only [rename] at e
    split at e
    · cases e
    · rename_i a' u1 ea
      split at e
      · cases e
      · rename_i b' u2 eb
        cases e
        show (a'.model.sum b'.model).strip = (a.model.sum b.model).strip
        rw [SSM.strip_sum, ha ea, hb eb, ← SSM.strip_sum]
  | prod a b ha hb =>
    simp only [rename] at e
    split at e
    · cases e
    · rename_i a' u1 ea
      split at e
      · cases e
      · rename_i b' u2 eb
        cases e
        show (a'.model.prod b'.model).strip = (a.model.prod b.model).strip
        rw [SSM.strip_prod, ha ea, hb eb, ← SSM.strip_prod]
  | _ => exact leaf rfl e

theorem assignUniqueNames_strip {k k' : Kern} (e : k.assignUniqueNames = .ok k') : k'.model.strip = k.model.strip := by
  unfold assignUniqueNames at e
  split_ifs at e
  · cases e; rfl
  · cases h : k.rename k.componentNames fun _ => 1 with
    | error x => rw [h] at e; cases e
    | ok r => rw [h] at e; cases e; exact rename_strip h

end Verif
