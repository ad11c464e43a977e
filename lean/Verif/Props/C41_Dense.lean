import Verif.Model.Dense

/-!
# C41: the components of a dense kernel
-/

namespace Verif

/-- the summands of an expression, from left to right -/
inductive DenseSummands {α : Type} : DenseTree α → List (DenseTree α) → Prop
  | one {k : DenseTree α} (h : ∀ a b, k ≠ .sum a b) : DenseSummands k [k]
  | add {a b : DenseTree α} {l l' : List (DenseTree α)} (ha : DenseSummands a l) (hb : DenseSummands b l') : DenseSummands (.sum a b) (l ++ l')

/-- **C41.** `dense.extract_leaf_kernels(kernel)` is the list of the summands, in order; products stay whole. -/
theorem C41_dense_summands {α : Type} (k : DenseTree α) (l : List (DenseTree α)) : k.extractLeafKernels = l ↔ DenseSummands k l := by
  constructor
  · rintro rfl
    induction k with
    | leaf k => exact .one fun _ _ h => by cases h
    | sum a b ha hb => exact .add ha hb
    | prod a b => exact .one fun _ _ h => by cases h
  · intro h
    induction h with
    | @one k h =>
      cases k with
      | sum a b => exact absurd rfl (h a b)
      | _ => rfl
    | add _ _ ha hb => rw [← ha, ← hb]; rfl

/-- **C41, refuted** for `dense.extract_leaf_kernels(kernel, all=True)`: it splits the outermost operation, and below it sums only. In
`(a * b) * c` and in `a * b + c` the product `a * b` stays whole. -/
theorem C41_dense_all_refuted {α : Type} (a b c : α) :
    (DenseTree.prod (.prod (.leaf a) (.leaf b)) (.leaf c)).extractLeafKernels true = [.prod (.leaf a) (.leaf b), .leaf c] ∧
    (DenseTree.sum (.prod (.leaf a) (.leaf b)) (.leaf c)).extractLeafKernels true = [.prod (.leaf a) (.leaf b), .leaf c] := ⟨rfl, rfl⟩

/-- what it does: with `all=True` one outermost product is split into the summands of its factors, sums are split as without it -/
theorem C41_dense_all {α : Type} (a b : DenseTree α) :
    (DenseTree.prod a b).extractLeafKernels true = a.extractLeafKernels ++ b.extractLeafKernels ∧
    (DenseTree.sum a b).extractLeafKernels true = (DenseTree.sum a b).extractLeafKernels := ⟨rfl, rfl⟩

/-- `a + (b * (c + d) + a)` -/
example {α : Type} (a b c d : DenseTree α) (ha : ∀ x y, a ≠ .sum x y) :
    DenseSummands (.sum a (.sum (.prod b (.sum c d)) a)) [a, .prod b (.sum c d), a] :=
  .add (.one ha) (.add (.one fun _ _ h => by cases h) (.one ha))

end Verif
