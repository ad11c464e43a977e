import Verif.Model.GP
import Mathlib.Data.List.Nodup
import Mathlib.Data.List.Count

/-!
# Helper lemmas on kernel names
-/

namespace Verif
open Matrix

/-- splitting at the last underscore -/
theorem split_underscore {l₁ l₂ d₁ d₂ : List Char} (h₁ : '_' ∉ d₁) (h₂ : '_' ∉ d₂) (h : l₁ ++ '_' :: d₁ = l₂ ++ '_' :: d₂) :
    l₁ = l₂ ∧ d₁ = d₂ := by
  rcases List.append_eq_append_iff.1 h with ⟨a, ha, hb⟩ | ⟨a, ha, hb⟩
  · cases a with
    | nil => simp at ha hb; exact ⟨ha.symm, hb⟩
    | cons c a => simp at hb; exact absurd (hb.2 ▸ (by simp)) h₁
  · cases a with
    | nil => simp at ha hb; exact ⟨ha, hb.symm⟩
    | cons c a => simp at hb; exact absurd (hb.2 ▸ (by simp)) h₂

/-- numbered names determine the name and the number -/
theorem numbered_inj {a b : String} {i j : ℕ} (h : a ++ "_" ++ toString i = b ++ "_" ++ toString j) : a = b ∧ i = j := by
  have h' := congrArg String.toList h
  simp only [String.toList_append] at h'
  have hi : (toString i).toList = Nat.toDigits 10 i := Nat.toList_repr
  have hj : (toString j).toList = Nat.toDigits 10 j := Nat.toList_repr
  rw [hi, hj] at h'
  have e : ("_" : String).toList = ['_'] := rfl
  rw [e, List.append_assoc, List.append_assoc] at h'
  obtain ⟨h1, h2⟩ := split_underscore Nat.underscore_not_in_toDigits Nat.underscore_not_in_toDigits h'
  refine ⟨String.ext (by simpa using h1), ?_⟩
  have := congrArg (fun l => Nat.ofDigitChars 10 l 0) h2
  simpa [Nat.ofDigitChars_toDigits (b := 10) (by norm_num) (by norm_num)] using this

namespace Kern

/-- is it a `Sum`? -/
def IsSum : Kern → Prop
  | sum _ _ => True
  | _ => False

/-- is it a `Product`? -/
def IsProd : Kern → Prop
  | prod _ _ => True
  | _ => False

/-- the effect of `_rename` on the names of the leaves, from left to right -/
def relabel (names : List String) : List Kern → (String → ℕ) → List Kern × (String → ℕ)
  | [], u => ([], u)
  | k :: ks, u =>
    if names.count k.name > 1 then
      let r := relabel names ks (Function.update u k.name (u k.name + 1))
      (k.replaceName (k.name ++ "_" ++ toString (u k.name)) :: r.1, r.2)
    else
      let r := relabel names ks u
      (k :: r.1, r.2)

theorem relabel_cons_pos {names : List String} {k : Kern} {ks : List Kern} {u : String → ℕ} (h : names.count k.name > 1) :
    relabel names (k :: ks) u = (k.replaceName (k.name ++ "_" ++ toString (u k.name)) ::
      (relabel names ks (Function.update u k.name (u k.name + 1))).1, (relabel names ks (Function.update u k.name (u k.name + 1))).2) :=
  if_pos h

theorem relabel_cons_neg {names : List String} {k : Kern} {ks : List Kern} {u : String → ℕ} (h : ¬ names.count k.name > 1) :
    relabel names (k :: ks) u = (k :: (relabel names ks u).1, (relabel names ks u).2) := if_neg h

theorem relabel_append (names : List String) (l l' : List Kern) (u : String → ℕ) :
    relabel names (l ++ l') u =
      ((relabel names l u).1 ++ (relabel names l' (relabel names l u).2).1, (relabel names l' (relabel names l u).2).2) := by
  induction l generalizing u with
  | nil => rfl
  | cons k ks ih =>
    rw [List.cons_append]
    by_cases h : names.count k.name > 1
    · rw [relabel_cons_pos h, relabel_cons_pos h, ih]; rfl
    · rw [relabel_cons_neg h, relabel_cons_neg h, ih]; rfl

/-- everything but `Sum` and `Product` -/
def atoms (k : Kern) : List Kern := k.extractLeafKernels true

theorem atoms_sum (a b : Kern) : (sum a b).atoms = a.atoms ++ b.atoms := rfl
theorem atoms_prod (a b : Kern) : (prod a b).atoms = a.atoms ++ b.atoms := rfl

theorem replaceName_atoms {k : Kern} (h : k.atoms = [k]) (s : String) : (k.replaceName s).atoms = [k.replaceName s] := by
  cases k <;> first | rfl | exact h

theorem renameLeaf_ok {names : List String} {k : Kern} {u : String → ℕ} :
    renameLeaf names k u =
      if k.name ∈ names then .ok (((relabel names [k] u).1.headD k), (relabel names [k] u).2) else .error .keyError := by
  unfold renameLeaf
  by_cases h : k.name ∈ names
  · rw [if_neg (by rw [List.count_eq_zero]; exact not_not.2 h), if_pos h]
    unfold relabel
    split_ifs <;> rfl
  · rw [if_pos (List.count_eq_zero.2 h), if_neg h]

/-- renaming succeeds exactly if all leaves are known, and then relabels the leaves in order -/
theorem rename_spec (names : List String) (k : Kern) (u : String → ℕ) :
    (if ∀ a ∈ k.atoms, a.name ∈ names then
      ∃ k', k.rename names u = .ok (k', (relabel names k.atoms u).2) ∧ k'.atoms = (relabel names k.atoms u).1
    else k.rename names u = .error .keyError) := by
  have leaf : ∀ (k : Kern) (u : String → ℕ), k.atoms = [k] → (∀ u, k.rename names u = renameLeaf names k u) →
      (if ∀ a ∈ k.atoms, a.name ∈ names then
        ∃ k', k.rename names u = .ok (k', (relabel names k.atoms u).2) ∧ k'.atoms = (relabel names k.atoms u).1
      else k.rename names u = .error .keyError) := by
    intro k u hk hr
    rw [hr, renameLeaf_ok, hk]
    by_cases h : k.name ∈ names
    · rw [if_pos (by simpa using h), if_pos h]
      refine ⟨_, rfl, ?_⟩
      unfold relabel
      split_ifs
      · exact replaceName_atoms hk _
      · exact hk
    · rw [if_neg (by simpa using h), if_neg h]
  induction k generalizing u with
  | sum a b iha ihb =>
    rw [atoms_sum, relabel_append]
    have ha := iha u
    by_cases h1 : ∀ c ∈ a.atoms, c.name ∈ names
    · rw [if_pos h1] at ha
      obtain ⟨a', ea, pa⟩ := ha
      have hb := ihb (relabel names a.atoms u).2
      by_cases h2 : ∀ c ∈ b.atoms, c.name ∈ names
      · rw [if_pos h2] at hb
        obtain ⟨b', eb, pb⟩ := hb
        rw [if_pos (by intro c hc; rcases List.mem_append.1 hc with h | h; exacts [h1 c h, h2 c h])]
        refine ⟨sum a' b', ?_, by rw [atoms_sum, pa, pb]⟩
        simp only [rename, ea, eb]
      · rw [if_neg h2] at hb
        rw [if_neg (fun h => h2 fun c hc => h c (List.mem_append_right _ hc))]
        simp only [rename, ea, hb]
    · rw [if_neg h1] at ha
      rw [if_neg (fun h => h1 fun c hc => h c (List.mem_append_left _ hc))]
      simp only [rename, ha]
  | prod a b iha ihb =>
    rw [atoms_prod, relabel_append]
    have ha := iha u
    by_cases h1 : ∀ c ∈ a.atoms, c.name ∈ names
    · rw [if_pos h1] at ha
      obtain ⟨a', ea, pa⟩ := ha
      have hb := ihb (relabel names a.atoms u).2
      by_cases h2 : ∀ c ∈ b.atoms, c.name ∈ names
      · rw [if_pos h2] at hb
        obtain ⟨b', eb, pb⟩ := hb
        rw [if_pos (by intro c hc; rcases List.mem_append.1 hc with h | h; exacts [h1 c h, h2 c h])]
        refine ⟨prod a' b', ?_, by rw [atoms_prod, pa, pb]⟩
        simp only [rename, ea, eb]
      · rw [if_neg h2] at hb
        rw [if_neg (fun h => h2 fun c hc => h c (List.mem_append_right _ hc))]
        simp only [rename, ea, hb]
    · rw [if_neg h1] at ha
      rw [if_neg (fun h => h1 fun c hc => h c (List.mem_append_left _ hc))]
      simp only [rename, ha]
  | _ => exact leaf _ _ rfl fun _ => rfl

theorem name_replaceName {k : Kern} (h : k.atoms = [k]) (s : String) : (k.replaceName s).name = s := by
  cases k with
  | sum a b =>
    exfalso
    have hl : ∀ k : Kern, k.atoms ≠ [] := by
      intro k
      induction k with
      | sum a b iha _ => exact fun h => iha (List.append_eq_nil_iff.1 h).1
      | prod a b iha _ => exact fun h => iha (List.append_eq_nil_iff.1 h).1
      | _ => exact List.cons_ne_nil _ _
    have := congrArg List.length h
    rw [atoms_sum, List.length_append, List.length_singleton] at this
    have h1 := List.length_pos_of_ne_nil (hl a)
    have h2 := List.length_pos_of_ne_nil (hl b)
    omega
  | prod a b =>
    exfalso
    have hl : ∀ k : Kern, k.atoms ≠ [] := by
      intro k
      induction k with
      | sum a b iha _ => exact fun h => iha (List.append_eq_nil_iff.1 h).1
      | prod a b iha _ => exact fun h => iha (List.append_eq_nil_iff.1 h).1
      | _ => exact List.cons_ne_nil _ _
    have := congrArg List.length h
    rw [atoms_prod, List.length_append, List.length_singleton] at this
    have h1 := List.length_pos_of_ne_nil (hl a)
    have h2 := List.length_pos_of_ne_nil (hl b)
    omega
  | _ => rfl

theorem atoms_atoms {k a : Kern} (h : a ∈ k.atoms) : a.atoms = [a] := by
  induction k with
  | sum x y hx hy => rcases List.mem_append.1 h with h | h; exacts [hx h, hy h]
  | prod x y hx hy => rcases List.mem_append.1 h with h | h; exacts [hx h, hy h]
  | _ => rw [List.mem_singleton.1 h]; rfl

theorem relabel_length (names : List String) (l : List Kern) (u : String → ℕ) : (relabel names l u).1.length = l.length := by
  induction l generalizing u with
  | nil => rfl
  | cons k ks ih => unfold relabel; split_ifs <;> simp [ih]

/-- the `i`-th leaf after renaming -/
theorem relabel_get (names : List String) (l : List Kern) (u : String → ℕ) (i : ℕ) (hi : i < l.length) :
    (relabel names l u).1[i]'(by rwa [relabel_length]) =
      if names.count l[i].name > 1 then
        l[i].replaceName (l[i].name ++ "_" ++ toString (u l[i].name + ((l.take i).map name).count l[i].name))
      else l[i] := by
  induction l generalizing u i with
  | nil => simp at hi
  | cons k ks ih =>
    cases i with
    | zero =>
      unfold relabel
      by_cases h : names.count k.name > 1
      · simp [h]
      · simp [h]
    | succ i =>
      have hi' : i < ks.length := by simpa using hi
      unfold relabel
      by_cases h : names.count k.name > 1
      · simp only [h, if_true, List.getElem_cons_succ]
        rw [ih _ i hi']
        by_cases h2 : names.count ks[i].name > 1
        · simp only [h2, if_true, List.take_succ_cons, List.map_cons, List.count_cons]
          congr 3
          by_cases hk : k.name = ks[i].name
          · rw [hk]; simp; omega
          · rw [Function.update_of_ne (Ne.symm hk)]; simp [hk]
        · simp only [h2, if_false]
      · simp only [h, if_false, List.getElem_cons_succ]
        rw [ih _ i hi']
        by_cases h2 : names.count ks[i].name > 1
        · simp only [h2, if_true, List.take_succ_cons, List.map_cons, List.count_cons]
          have hk : k.name ≠ ks[i].name := fun e => h (e ▸ h2)
          simp [hk]
        · simp only [h2, if_false]

end Kern
end Verif
