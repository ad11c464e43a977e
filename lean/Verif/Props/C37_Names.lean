import Verif.Lemmas.Names

/-!
# C37, C38, C41: components and their names
-/

namespace Verif
open Kern

/-! ### C41: the components of a kernel -/

/-- the summands of a kernel written with `+`, from left to right, however it is bracketed -/
inductive Summands : Kern → List Kern → Prop
  | one {k : Kern} (h : ¬ k.IsSum) : Summands k [k]
  | add {a b : Kern} {l l' : List Kern} (ha : Summands a l) (hb : Summands b l') : Summands (.sum a b) (l ++ l')

/-- the kernels from which a kernel is built with `+` and `*`, from left to right -/
inductive Factors : Kern → List Kern → Prop
  | one {k : Kern} (h : ¬ k.IsSum) (h' : ¬ k.IsProd) : Factors k [k]
  | add {a b : Kern} {l l' : List Kern} (ha : Factors a l) (hb : Factors b l') : Factors (.sum a b) (l ++ l')
  | mul {a b : Kern} {l l' : List Kern} (ha : Factors a l) (hb : Factors b l') : Factors (.prod a b) (l ++ l')

/-- **C41.** `extract_leaf_kernels(kernel)` is the list of the summands, in order; products stay whole. -/
theorem C41_summands (k : Kern) (l : List Kern) : k.extractLeafKernels = l ↔ Summands k l := by
  constructor
  · rintro rfl
    induction k with
    | sum a b ha hb => exact .add ha hb
    | _ => exact .one id
  · intro h
    induction h with
    | @one k h => cases k <;> first | rfl | exact absurd trivial h
    | add _ _ ha hb => rw [← ha, ← hb]; rfl

/-- **C41.** `extract_leaf_kernels(kernel, all=True)` is the list of everything from which the kernel is built. -/
theorem C41_all (k : Kern) (l : List Kern) : k.extractLeafKernels true = l ↔ Factors k l := by
  constructor
  · rintro rfl
    induction k with
    | sum a b ha hb => exact .add ha hb
    | prod a b ha hb => exact .mul ha hb
    | _ => exact .one id id
  · intro h
    induction h with
    | @one k h h' => cases k <;> first | rfl | exact absurd trivial h | exact absurd trivial h'
    | add _ _ ha hb => rw [← ha, ← hb]; rfl
    | mul _ _ ha hb => rw [← ha, ← hb]; rfl

/-- `a + (b * (c + d) + a)` has the components `a`, `b * (c + d)`, `a` -/
example (a b c d : ℝ) : let A := Kern.exp a 1 "A"; let B := Kern.matern32 b 1 "B"; let C := Kern.cosine c 1 "C"; let D := Kern.exp d 1 "D"
    Summands (.sum A (.sum (.prod B (.sum C D)) A)) [A, .prod B (.sum C D), A] ∧
    Factors (.sum A (.sum (.prod B (.sum C D)) A)) [A, B, C, D, A] :=
  ⟨(C41_summands _ _).1 rfl, (C41_all _ _).1 rfl⟩

/-! ### C38: construction -/

/-- **C38, what holds.** Renaming fails exactly if two components have the same name and some factor of a product does not have the
name of a component; the error is a `KeyError`. -/
theorem C38_construction_iff (k : Kern) :
    (k.componentNames.Nodup ∨ ∀ a ∈ k.extractLeafKernels true, a.name ∈ k.componentNames) ∧ (∃ k', k.assignUniqueNames = .ok k') ∨
    ¬ (k.componentNames.Nodup ∨ ∀ a ∈ k.extractLeafKernels true, a.name ∈ k.componentNames) ∧ k.assignUniqueNames = .error .keyError := by
  unfold assignUniqueNames
  by_cases h : k.componentNames.Nodup
  · rw [if_pos h]; exact .inl ⟨.inl h, _, rfl⟩
  · rw [if_neg h]
    have hs := rename_spec k.componentNames k fun _ => 1
    by_cases h2 : ∀ a ∈ k.atoms, a.name ∈ k.componentNames
    · rw [if_pos h2] at hs
      obtain ⟨k', e, -⟩ := hs
      exact .inl ⟨.inr h2, k', by rw [e]; rfl⟩
    · rw [if_neg h2] at hs
      refine .inr ⟨not_or.2 ⟨h, h2⟩, by rw [hs]; rfl⟩

/-- no component is a product -/
def NoProducts (k : Kern) : Prop := ∀ c ∈ k.extractLeafKernels, ¬ c.IsProd

theorem NoProducts.atoms_eq {k : Kern} (h : NoProducts k) : k.atoms = k.extractLeafKernels := by
  induction k with
  | sum a b ha hb =>
    have h1 := ha fun c hc => h c (List.mem_append_left _ hc)
    have h2 := hb fun c hc => h c (List.mem_append_right _ hc)
    rw [atoms_sum, h1, h2]; rfl
  | prod a b => exact absurd trivial (h _ (List.mem_singleton.2 rfl))
  | _ => rfl

/-- **C38, partial**: for a sum without products, names never make the construction fail. Missing: products, for which it can. -/
theorem C38_sum_partial (k : Kern) (h : NoProducts k) : ∃ k', k.assignUniqueNames = .ok k' := by
  rcases C38_construction_iff k with h' | h'
  · exact h'.2
  · refine absurd (Or.inr ?_) h'.1
    intro a ha
    exact List.mem_map_of_mem (h.atoms_eq ▸ ha)

/-- **C38, the part that fails**: `Exp + Exp + Matern32 * Cosine` (with the default names) cannot be used in a GP, whatever the
coordinates, noise and solver. -/
theorem C38_product_fails (X : XArg) (diag : Option (ℝ ⊕ Arr ℝ)) (mean : Option (Coord → ℝ)) (solver : Option SolverKind) :
    GP.new (.sum (.sum (.exp 1 1 "Exp") (.exp 2 1 "Exp")) (.prod (.matern32 1 1 "Matern32") (.cosine 1 1 "Cosine"))) X diag mean solver =
      .error .keyError := by
  have : Kern.assignUniqueNames (.sum (.sum (.exp 1 1 "Exp") (.exp 2 1 "Exp"))
      (.prod (.matern32 1 1 "Matern32") (.cosine 1 1 "Cosine"))) = .error .keyError := by
    rcases C38_construction_iff (.sum (.sum (.exp 1 1 "Exp") (.exp 2 1 "Exp"))
      (.prod (.matern32 1 1 "Matern32") (.cosine 1 1 "Cosine"))) with h | h
    · exfalso
      rcases h.1 with h | h
      · simp [componentNames, extractLeafKernels, Kern.name] at h
      · have := h (.matern32 1 1 "Matern32") (by simp [extractLeafKernels])
        simp [componentNames, extractLeafKernels, Kern.name] at this
    · exact h.2
  simp only [GP.new, this, if_true]
  rfl

/-! ### C37: distinct names -/

/-- a repeated name with a number appended is the name of another component: `"A"`, `"A"`, `"A_1"` -/
def Collision (names : List String) : Prop :=
  ∃ a b, names.count a > 1 ∧ names.count b = 1 ∧ ∃ i, 1 ≤ i ∧ i ≤ names.count a ∧ b = a ++ "_" ++ toString i

theorem rename_noProducts {names : List String} {k k' : Kern} {u u' : String → ℕ} (h : NoProducts k)
    (e : k.rename names u = .ok (k', u')) : NoProducts k' := by
  induction k generalizing u u' k' with
  | sum a b ha hb =>
    simp only [rename] at e
    split at e
    · cases e
    · rename_i a' u1 ea
      split at e
      · cases e
      · rename_i b' u2 eb
        cases e
        intro c hc
        rcases List.mem_append.1 hc with hc | hc
        · exact ha (fun c hc => h c (List.mem_append_left _ hc)) ea c hc
        · exact hb (fun c hc => h c (List.mem_append_right _ hc)) eb c hc
  | prod a b => exact absurd trivial (h _ (List.mem_singleton.2 rfl))
  | _ =>
    simp only [rename, renameLeaf] at e
    split_ifs at e <;> cases e <;> intro c hc <;> cases List.mem_singleton.1 hc <;> exact id

/-- **C37.** For a sum without products: the components keep their order and parameters; a component whose name occurs once is
unchanged, the `i`-th occurrence of a repeated name `a` becomes `a_i`. -/
theorem C37_names (k : Kern) (h : NoProducts k) : ∃ k', k.assignUniqueNames = .ok k' ∧ NoProducts k' ∧
    ∃ hl : k'.extractLeafKernels.length = k.extractLeafKernels.length, ∀ i, (hi : i < k.extractLeafKernels.length) →
      let c := k.extractLeafKernels[i]
      k'.extractLeafKernels[i] = if k.componentNames.count c.name = 1 then c
        else c.replaceName (c.name ++ "_" ++ toString (1 + (k.componentNames.take i).count c.name)) := by
  unfold assignUniqueNames
  by_cases hd : k.componentNames.Nodup
  · rw [if_pos hd]
    refine ⟨k, rfl, h, rfl, fun i hi => ?_⟩
    refine (if_pos ?_).symm
    exact List.count_eq_one_of_mem hd (List.mem_map_of_mem (List.getElem_mem _))
  · rw [if_neg hd]
    have hs := rename_spec k.componentNames k fun _ => 1
    have hall : ∀ a ∈ k.atoms, a.name ∈ k.componentNames := by
      intro a ha
      rw [h.atoms_eq] at ha
      exact List.mem_map_of_mem ha
    rw [if_pos hall] at hs
    obtain ⟨k', e, ea⟩ := hs
    have hn := rename_noProducts h e
    rw [hn.atoms_eq, h.atoms_eq] at ea
    refine ⟨k', by rw [e]; rfl, hn, by rw [ea, relabel_length], fun i hi => ?_⟩
    have hg := relabel_get k.componentNames k.extractLeafKernels (fun _ => 1) i hi
    simp only [ea]
    rw [hg, List.map_take]
    have hpos : 0 < k.componentNames.count (k.extractLeafKernels[i]).name :=
      List.count_pos_iff.2 (List.mem_map_of_mem (List.getElem_mem _))
    by_cases h1 : k.componentNames.count (k.extractLeafKernels[i]).name = 1
    · rw [if_pos h1, if_neg (by omega)]
    · rw [if_neg h1, if_pos (by omega)]
      rfl

/-- the `j`-th occurrence of an element of a list -/
theorem exists_occurrence {l : List String} {a : String} {j : ℕ} (h : j < l.count a) :
    ∃ i, ∃ hi : i < l.length, l[i] = a ∧ (l.take i).count a = j := by
  induction l generalizing j with
  | nil => simp at h
  | cons b l ih =>
    by_cases hb : b = a
    · subst hb
      cases j with
      | zero => exact ⟨0, by simp, by simp, by simp⟩
      | succ j =>
        obtain ⟨i, hi, e, ec⟩ := ih (j := j) (by simpa using h)
        exact ⟨i + 1, by simpa using hi, by simpa using e, by simp [ec]⟩
    · obtain ⟨i, hi, e, ec⟩ := ih (j := j) (by simpa [List.count_cons, hb] using h)
      exact ⟨i + 1, by simpa using hi, by simpa using e, by simp [hb, ec]⟩

/-- occurrences are numbered differently -/
theorem count_take_lt {l : List String} {i j : ℕ} (hij : i < j) (hj : j < l.length) (h : l[i] = l[j]) :
    (l.take i).count l[i] < (l.take j).count l[j] := by
  rw [h]
  have hi : i < l.length := hij.trans hj
  have h1 : l.take (i + 1) = l.take i ++ [l[i]] := (List.take_append_getElem hi).symm
  have h2 : (l.take (i + 1)).count l[j] ≤ (l.take j).count l[j] :=
    ((List.take_prefix_take_left (by omega)).sublist).count_le _
  rw [h1, List.count_append, h] at h2
  simp at h2
  omega

/-- **C37.** For a sum without products the names are pairwise distinct afterwards, unless a repeated name with a number appended is
already the name of another component — and then they are not. -/
theorem C37_distinct_iff (k : Kern) (h : NoProducts k) : ∃ k', k.assignUniqueNames = .ok k' ∧
    (k'.componentNames.Nodup ↔ ¬ Collision k.componentNames) := by
  obtain ⟨k', e, hn, hl, hg⟩ := C37_names k h
  refine ⟨k', e, ?_⟩
  have len : k'.componentNames.length = k.componentNames.length := by
    unfold componentNames; rw [List.length_map, List.length_map, hl]
  have name : ∀ i, (hi : i < k.componentNames.length) → k'.componentNames[i]'(by omega) =
      if k.componentNames.count k.componentNames[i] = 1 then k.componentNames[i]
      else k.componentNames[i] ++ "_" ++ toString (1 + (k.componentNames.take i).count k.componentNames[i]) := by
    intro i hi
    have hi' : i < k.extractLeafKernels.length := by simpa [componentNames] using hi
    have e1 : k.componentNames[i] = (k.extractLeafKernels[i]).name := by simp [componentNames]
    have e2 : k'.componentNames[i]'(by omega) = (k'.extractLeafKernels[i]'(by omega)).name := by simp [componentNames]
    rw [e1, e2, hg i hi']
    have ha : (k.extractLeafKernels[i]).atoms = [k.extractLeafKernels[i]] :=
      atoms_atoms (k := k) (by rw [h.atoms_eq]; exact List.getElem_mem _)
    split_ifs
    · rfl
    · rw [name_replaceName ha]
  have pos : ∀ i, (hi : i < k.componentNames.length) → 0 < k.componentNames.count k.componentNames[i] := fun i hi =>
    List.count_pos_iff.2 (List.getElem_mem hi)
  constructor
  · rintro hnd ⟨a, b, ha, hb, i, hi1, hi2, rfl⟩
    obtain ⟨p, hp, ep, ec⟩ := exists_occurrence (l := k.componentNames) (a := a) (j := i - 1) (by omega)
    obtain ⟨q, hq, eq, -⟩ := exists_occurrence (l := k.componentNames) (a := a ++ "_" ++ toString i) (j := 0) (by omega)
    have n1 := name p hp
    have n2 := name q hq
    rw [ep, if_neg (by omega), ec, show 1 + (i - 1) = i by omega] at n1
    rw [eq, if_pos hb] at n2
    have hpq := (List.nodup_iff_injective_getElem.1 hnd) (a₁ := ⟨p, by omega⟩) (a₂ := ⟨q, by omega⟩) (n1.trans n2.symm)
    have : p = q := congrArg Fin.val hpq
    subst this
    rw [ep] at eq
    rw [← eq] at hb
    omega
  · intro hc
    rw [List.nodup_iff_injective_getElem]
    have key : ∀ p q, (hp : p < k.componentNames.length) → (hq : q < k.componentNames.length) → p < q →
        k'.componentNames[p]'(by omega) ≠ k'.componentNames[q]'(by omega) := by
      intro p q hp hq hpq heq
      rw [name p hp, name q hq] at heq
      have cp := pos p hp
      have cq := pos q hq
      have idx : ∀ r, (hr : r < k.componentNames.length) →
          1 + (k.componentNames.take r).count k.componentNames[r] ≤ k.componentNames.count k.componentNames[r] := by
        intro r hr
        have h1 : (k.componentNames.take (r + 1)).count k.componentNames[r] ≤ k.componentNames.count k.componentNames[r] :=
          ((List.take_prefix _ _).sublist).count_le _
        rw [← List.take_append_getElem hr, List.count_append] at h1
        simp at h1
        omega
      by_cases h1 : k.componentNames.count k.componentNames[p] = 1
      · rw [if_pos h1] at heq
        by_cases h2 : k.componentNames.count k.componentNames[q] = 1
        · rw [if_pos h2] at heq
          have := count_take_lt hpq hq heq
          have := idx q hq
          omega
        · rw [if_neg h2] at heq
          exact hc ⟨_, _, by omega, h1, _, by omega, idx q hq, heq⟩
      · rw [if_neg h1] at heq
        by_cases h2 : k.componentNames.count k.componentNames[q] = 1
        · rw [if_pos h2] at heq
          exact hc ⟨_, _, by omega, h2, _, by omega, idx p hp, heq.symm⟩
        · rw [if_neg h2] at heq
          obtain ⟨ha, hn⟩ := numbered_inj heq
          have := count_take_lt hpq hq ha
          omega
    rintro ⟨p, hp⟩ ⟨q, hq⟩ heq
    rcases lt_trichotomy p q with h' | h' | h'
    · exact absurd heq (key p q (by omega) (by omega) h')
    · exact Fin.ext h'
    · exact absurd heq.symm (key q p (by omega) (by omega) h')

/-- `Exp + Exp + Matern32`: distinct names -/
example : ∃ k', Kern.assignUniqueNames (.sum (.sum (.exp 1 1 "Exp") (.exp 2 1 "Exp")) (.matern32 1 1 "Matern32")) = .ok k' ∧
    k'.componentNames.Nodup := by
  obtain ⟨k', e, h⟩ := C37_distinct_iff (.sum (.sum (.exp 1 1 "Exp") (.exp 2 1 "Exp")) (.matern32 1 1 "Matern32"))
    (by intro c hc; simp [extractLeafKernels] at hc; rcases hc with rfl | rfl | rfl <;> exact id)
  refine ⟨k', e, h.2 ?_⟩
  rintro ⟨a, b, ha, hb, i, h1, h2, rfl⟩
  have hm : a ∈ ["Exp", "Exp", "Matern32"] := List.count_pos_iff.1 (lt_trans one_pos ha)
  have hm' : a ++ "_" ++ toString i ∈ ["Exp", "Exp", "Matern32"] := List.count_pos_iff.1 (lt_of_lt_of_eq one_pos hb.symm)
  have hl := fun s (h : a ++ "_" ++ toString i = s) => congrArg String.toList h
  simp only [List.mem_cons, List.not_mem_nil, or_false] at hm hm'
  rcases hm with rfl | rfl | rfl <;> rcases hm' with h | h | h <;> simp [String.ext_iff] at h

/-- **C37, the part that fails**: `"A"`, `"A"`, `"A_1"` become `"A_1"`, `"A_2"`, `"A_1"`. -/
theorem C37_collision : ∃ k', Kern.assignUniqueNames (.sum (.sum (.exp 1 1 "A") (.exp 2 1 "A")) (.exp 3 1 "A_1")) = .ok k' ∧
    k'.componentNames = ["A_1", "A_2", "A_1"] ∧ ¬ k'.componentNames.Nodup :=
  ⟨_, rfl, rfl, by decide⟩

/-- **C37, the part that fails**: components that are products keep equal names. -/
theorem C37_products_stay_equal : let A := Kern.exp 1 1 "A"; let B := Kern.matern32 1 1 "B"
    ∃ k', Kern.assignUniqueNames (.sum (.sum (.sum A B) (.prod A B)) (.prod A B)) = .ok k' ∧
      k'.componentNames = ["A", "B", "Product(A, B)", "Product(A, B)"] :=
  ⟨_, rfl, rfl⟩

end Verif
