import Verif.Lemmas.GPCalls
import Verif.Lemmas.RowExact
import Verif.Props.C01_Exact
import Verif.Props.C24_Values
import Verif.Spec.ValidKern

/-!
# Rows of components
-/

namespace Verif
open Matrix Kern

theorem Kern.valid_unname (k : Kern) : k.unname.Valid ↔ k.Valid := by
  induction k with
  | sum a b ha hb =>
    exact ⟨fun h => by cases h with | sum h1 h2 => exact .sum (ha.1 h1) (hb.1 h2),
      fun h => by cases h with | sum h1 h2 => exact .sum (ha.2 h1) (hb.2 h2)⟩
  | prod a b ha hb =>
    exact ⟨fun h => by cases h with | prod h1 h2 => exact .prod (ha.1 h1) (hb.1 h2),
      fun h => by cases h with | prod h1 h2 => exact .prod (ha.2 h1) (hb.2 h2)⟩
  | exp => exact ⟨fun h => by cases h with | exp h1 h2 => exact .exp h1 h2, fun h => by cases h with | exp h1 h2 => exact .exp h1 h2⟩
  | matern32 => exact ⟨fun h => by cases h with | matern32 h1 h2 => exact .matern32 h1 h2,
      fun h => by cases h with | matern32 h1 h2 => exact .matern32 h1 h2⟩
  | matern52 => exact ⟨fun h => by cases h with | matern52 h1 h2 => exact .matern52 h1 h2,
      fun h => by cases h with | matern52 h1 h2 => exact .matern52 h1 h2⟩
  | cosine => exact ⟨fun h => by cases h with | cosine h1 h2 => exact .cosine h1 h2,
      fun h => by cases h with | cosine h1 h2 => exact .cosine h1 h2⟩
  | expSineSquared => exact ⟨fun h => by cases h with | expSineSquared h1 h2 h3 => exact .expSineSquared h1 h2 h3,
      fun h => by cases h with | expSineSquared h1 h2 h3 => exact .expSineSquared h1 h2 h3⟩
  | sho => exact ⟨fun h => by cases h with | sho h1 h2 h3 h4 => exact .sho h1 h2 h3 h4,
      fun h => by cases h with | sho h1 h2 h3 h4 => exact .sho h1 h2 h3 h4⟩
  | _ => exact ⟨fun h => (by cases h), fun h => (by cases h)⟩

theorem Kern.SameButNames.valid {k k' : Kern} (h : k.SameButNames k') : k.Valid ↔ k'.Valid := by
  rw [← valid_unname k, ← valid_unname k', h]

theorem Kern.genuine_unname (k : Kern) : k.unname.Genuine ↔ k.Genuine := by
  induction k with
  | sum a b ha hb => exact and_congr ha hb
  | prod a b ha hb => exact and_congr ha hb
  | _ => exact Iff.rfl

theorem Kern.SameButNames.genuine {k k' : Kern} (h : k.SameButNames k') : k.Genuine ↔ k'.Genuine := by
  rw [← genuine_unname k, ← genuine_unname k', h]

theorem SSM.evaluate_of_strip {k k' : SSM} (h : k.strip = k'.strip) (X1 X2 : Coord) : k.evaluate X1 X2 = k'.evaluate X1 X2 := by
  rw [← k.strip_evaluate, ← k'.strip_evaluate, h]

/-! ### rows -/

theorem componentRow_cons (k : SSM) (c : String) (l : List String) (X : Coord) :
    k.componentRow (c :: l) X = k.obsModel X (some c) + k.componentRow l X := by
  cases l with
  | nil => exact (add_zero _).symm
  | cons d l => rfl

theorem componentRow_eq_sum (k : SSM) (l : List String) (X : Coord) :
    k.componentRow l X = (l.map fun c => k.obsModel X (some c)).sum := by
  induction l with
  | nil => rfl
  | cons c l ih => rw [componentRow_cons, ih, List.map_cons, List.sum_cons]

theorem hstack_add {n₁ n₂ : Type} (a a' : Matrix (Fin 1) n₁ ℝ) (b b' : Matrix (Fin 1) n₂ ℝ) :
    hstack a b + hstack a' b' = hstack (a + a') (b + b') := by
  ext i (j | j) <;> rfl

theorem componentRow_sum (a b : SSM) (l : List String) (X : Coord) :
    (a.sum b).componentRow l X = hstack (a.componentRow l X) (b.componentRow l X) := by
  induction l with
  | nil =>
    show (0 : Matrix (Fin 1) (a.n ⊕ b.n) ℝ) = hstack 0 0
    ext i (j | j) <;> rfl
  | cons c l ih =>
    rw [componentRow_cons, componentRow_cons, componentRow_cons]
    refine Eq.trans (congrArg (fun r => (a.sum b).obsModel X (some c) + r) ih) ?_
    exact hstack_add _ _ _ _

/-- the row of a kernel which is neither a sum nor a product -/
theorem leaf_obsModel (k : Kern) (h : ¬ k.IsSum) (h' : ¬ k.IsProd) (X : Coord) (c : String) :
    k.model.obsModel X (some c) = (if k.name = c then (1 : ℝ) else 0) • k.model.obsModel X none := by
  have key : ∀ {n : Type} (s : String) (H : Coord → Matrix (Fin 1) n ℝ), defaultObsModel s H X (some c) =
      (if s = c then (1 : ℝ) else 0) • defaultObsModel s H X none := by
    intro n s H
    unfold defaultObsModel keepFactor
    rw [smul_smul, mul_one]
  have hd : k.model.obsModel = defaultObsModel k.name k.model.obsMatrix := by
    cases k with
    | sum a b => exact absurd trivial h
    | prod a b => exact absurd trivial h'
    | _ => rfl
  rw [hd]
  exact key _ _

theorem leaf_componentRow (k : Kern) (h : ¬ k.IsSum) (h' : ¬ k.IsProd) (X : Coord) (l : List String) :
    k.model.componentRow l X = (l.count k.name : ℝ) • k.model.obsModel X none := by
  induction l with
  | nil => rw [List.count_nil, Nat.cast_zero, zero_smul]; rfl
  | cons c l ih =>
    rw [componentRow_cons, ih, leaf_obsModel k h h', ← add_smul, List.count_cons]
    congr 1
    by_cases hc : k.name = c
    · subst hc; simp; ring
    · have : ¬ c = k.name := fun e => hc e.symm
      simp [hc, this]

theorem kronRow_zero_left {n₁ n₂ : Type} (b : Matrix (Fin 1) n₂ ℝ) : kronRow (0 : Matrix (Fin 1) n₁ ℝ) b = 0 := by
  ext i ⟨j, k⟩
  simp [kronRow]

theorem hstack_zero {n₁ n₂ : Type} : hstack (0 : Matrix (Fin 1) n₁ ℝ) (0 : Matrix (Fin 1) n₂ ℝ) = 0 := by
  ext i (j | j) <;> rfl

/-- a name which nothing in the kernel has selects nothing -/
theorem obsModel_unknown (k : Kern) (X : Coord) (c : String) (h : ∀ a ∈ k.atoms, a.name ≠ c) : k.model.obsModel X (some c) = 0 := by
  induction k with
  | sum a b ha hb =>
    refine Eq.trans (congrArg₂ hstack (ha fun x hx => h x (List.mem_append_left _ hx)) (hb fun x hx => h x (List.mem_append_right _ hx))) ?_
    exact hstack_zero
  | prod a b ha hb =>
    refine Eq.trans (congrArg₂ kronRow (ha fun x hx => h x (List.mem_append_left _ hx)) rfl) ?_
    exact kronRow_zero_left _
  | _ => rw [leaf_obsModel _ id id, if_neg (h _ (List.mem_singleton.2 rfl)), zero_smul]

/-- no product component answers to the name `c` (with its own name or with the name of a factor) -/
def Clear (k : Kern) (c : String) : Prop := ∀ p ∈ k.extractLeafKernels, p.IsProd → p.name ≠ c ∧ ∀ a ∈ p.extractLeafKernels true, a.name ≠ c

theorem Clear.left {a b : Kern} {c : String} (h : Clear (.sum a b) c) : Clear a c := fun p hp => h p (List.mem_append_left _ hp)
theorem Clear.right {a b : Kern} {c : String} (h : Clear (.sum a b) c) : Clear b c := fun p hp => h p (List.mem_append_right _ hp)

theorem componentRow_zero {k : SSM} {X : Coord} (l : List String) (h : ∀ c ∈ l, k.obsModel X (some c) = 0) : k.componentRow l X = 0 := by
  rw [componentRow_eq_sum]
  refine List.sum_eq_zero fun r hr => ?_
  obtain ⟨c, hc, rfl⟩ := List.mem_map.1 hr
  exact h c hc

/-! ### covariances of rows -/

theorem rowCov_sum (a b : SSM) (wa : Matrix (Fin 1) a.n ℝ) (wb : Matrix (Fin 1) b.n ℝ) (Xs X : Coord) :
    (a.sum b).rowCov (hstack wa wb) Xs X = a.rowCov wa Xs X + b.rowCov wb Xs X := by
  unfold SSM.rowCov
  split_ifs with h
  · have e := hstack_quad wa (a.obsModel X none) wb (b.obsModel X none) (a.Pinf * (a.A Xs X)ᵀ) (b.Pinf * (b.A Xs X)ᵀ)
    rw [← blockDiag_mul, ← blockDiag_transpose] at e
    simp only [← Matrix.mul_assoc] at e
    exact congrFun₂ e 0 0
  · have e := hstack_quad wa (a.obsModel X none) wb (b.obsModel X none) (a.A X Xs * a.Pinf) (b.A X Xs * b.Pinf)
    rw [← blockDiag_mul] at e
    simp only [← Matrix.mul_assoc] at e
    exact congrFun₂ e 0 0

theorem rowVar_sum (a b : SSM) (wa : Matrix (Fin 1) a.n ℝ) (wb : Matrix (Fin 1) b.n ℝ) :
    (a.sum b).rowVar (hstack wa wb) = a.rowVar wa + b.rowVar wb :=
  congrFun₂ (hstack_quad wa wa wb wb a.Pinf b.Pinf) 0 0

theorem rowCov_smul (k : SSM) (c : ℝ) (w : Matrix (Fin 1) k.n ℝ) (Xs X : Coord) : k.rowCov (c • w) Xs X = c * k.rowCov w Xs X := by
  unfold SSM.rowCov
  split_ifs <;> simp only [Matrix.smul_mul, Matrix.smul_apply, smul_eq_mul]

theorem rowVar_smul (k : SSM) (c : ℝ) (w : Matrix (Fin 1) k.n ℝ) : k.rowVar (c • w) = c ^ 2 * k.rowVar w := by
  unfold SSM.rowVar
  simp only [Matrix.smul_mul, Matrix.transpose_smul, Matrix.mul_smul, Matrix.smul_apply, smul_eq_mul]
  ring

theorem rowCov_zero (k : SSM) (Xs X : Coord) : k.rowCov 0 Xs X = 0 := by
  have := rowCov_smul k 0 0 Xs X
  rwa [zero_smul, zero_mul] at this

theorem rowVar_zero (k : SSM) : k.rowVar 0 = 0 := by
  have := rowVar_smul k 0 0
  rwa [zero_smul, zero_pow two_ne_zero, zero_mul] at this

theorem rowCov_self {k : SSM} (hk : k.Proper) (Xs X : Coord) : k.rowCov (k.obsModel Xs none) Xs X = k.evaluate Xs X := by
  rw [hk.rowCov_eq 0, hk.evaluate_eq 0]

theorem rowVar_self {k : SSM} (hk : k.Proper) (Xs : Coord) : k.rowVar (k.obsModel Xs none) = k.evaluate Xs Xs := by
  rw [hk.rowVar_eq 0 _ Xs.sortable, hk.evaluate_eq 0]

/-- the components with one of the given names -/
def Kern.named (k : Kern) (names : List String) : List Kern := k.extractLeafKernels.filter fun a => a.name ∈ names

theorem named_sum (a b : Kern) (l : List String) : (Kern.sum a b).named l = a.named l ++ b.named l := List.filter_append _ _

theorem rows_of_components (k : Kern) (hv : k.Valid) (l : List String) (hl : l.Nodup) (hc : ∀ c ∈ l, Clear k c) (Xs : Coord) :
    (∀ X, k.model.rowCov (k.model.componentRow l Xs) Xs X = ((k.named l).map fun a => a.model.evaluate Xs X).sum) ∧
    k.model.rowVar (k.model.componentRow l Xs) = ((k.named l).map fun a => a.model.evaluate Xs Xs).sum := by
  have leaf : ∀ k : Kern, k.Valid → ¬ k.IsSum → ¬ k.IsProd →
      (∀ X, k.model.rowCov (k.model.componentRow l Xs) Xs X = (([k].filter fun a => a.name ∈ l).map fun a => a.model.evaluate Xs X).sum) ∧
      k.model.rowVar (k.model.componentRow l Xs) = (([k].filter fun a => a.name ∈ l).map fun a => a.model.evaluate Xs Xs).sum := by
    intro k hv h h'
    have hp := hv.builtIn.regular.toProper
    rw [leaf_componentRow k h h']
    by_cases hm : k.name ∈ l
    · rw [List.count_eq_one_of_mem hl hm]
      simp only [Nat.cast_one, one_smul, rowCov_self hp, rowVar_self hp]
      simp [hm]
    · rw [List.count_eq_zero_of_not_mem hm]
      simp only [Nat.cast_zero, zero_smul, rowCov_zero, rowVar_zero]
      simp [hm]
  induction k with
  | sum a b ha hb =>
    cases hv with
    | sum va vb =>
      have h1 := ha va fun c h => (hc c h).left
      have h2 := hb vb fun c h => (hc c h).right
      have e := componentRow_sum a.model b.model l Xs
      constructor
      · intro X
        refine (congrArg (fun r => (a.model.sum b.model).rowCov r Xs X) e).trans ?_
        rw [rowCov_sum, h1.1, h2.1, named_sum, List.map_append, List.sum_append]
      · refine (congrArg (fun r => (a.model.sum b.model).rowVar r) e).trans ?_
        rw [rowVar_sum, h1.2, h2.2, named_sum, List.map_append, List.sum_append]
  | prod a b =>
    have hz : (Kern.prod a b).model.componentRow l Xs = 0 :=
      componentRow_zero l fun c h => obsModel_unknown _ Xs c (hc c h _ (List.mem_singleton.2 rfl) trivial).2
    have hn : (Kern.prod a b).named l = [] := by
      refine List.filter_eq_nil_iff.2 fun x hx => ?_
      cases List.mem_singleton.1 hx
      simp only [decide_eq_true_eq]
      exact fun h => (hc _ h _ (List.mem_singleton.2 rfl) trivial).1 rfl
    rw [hz, hn]
    exact ⟨fun X => rowCov_zero _ _ _, rowVar_zero _⟩
  | _ => exact leaf _ hv id id

/-- without products, the rows of all components add up to the row of the kernel -/
theorem componentRow_all (k : Kern) (h : ∀ c ∈ k.extractLeafKernels, ¬ c.IsProd) (l : List String) (hl : l.Nodup)
    (hm : ∀ c ∈ k.componentNames, c ∈ l) (X : Coord) : k.model.componentRow l X = k.model.obsModel X none := by
  induction k with
  | sum a b ha hb =>
    refine (componentRow_sum a.model b.model l X).trans ?_
    rw [ha (fun c hc => h c (List.mem_append_left _ hc)) (fun c hc => hm c (by
        unfold componentNames; rw [extractLeafKernels, List.map_append]; exact List.mem_append_left _ hc)),
      hb (fun c hc => h c (List.mem_append_right _ hc)) (fun c hc => hm c (by
        unfold componentNames; rw [extractLeafKernels, List.map_append]; exact List.mem_append_right _ hc))]
    rfl
  | prod a b => exact absurd trivial (h _ (List.mem_singleton.2 rfl))
  | _ =>
    rw [leaf_componentRow _ id id, List.count_eq_one_of_mem hl (hm _ (List.mem_singleton.2 rfl)), Nat.cast_one, one_smul]

theorem list_sum_mulVec {n : Type} [Fintype n] (l : List (Matrix (Fin 1) n ℝ)) (m : n → ℝ) :
    (l.sum *ᵥ m) 0 = (l.map fun r => (r *ᵥ m) 0).sum := by
  induction l with
  | nil => simp
  | cons r l ih => rw [List.sum_cons, Matrix.add_mulVec, Pi.add_apply, ih, List.map_cons, List.sum_cons]

end Verif
