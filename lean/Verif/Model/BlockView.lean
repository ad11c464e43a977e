import Verif.Model.GP

/-!
# `block_view` (`helpers.py:6-11`)

Arrays of any rank are a shape and the entries in row-major order, as NumPy stores them. `reshape` keeps the entries and
changes the shape; `transpose` permutes the axes and moves the entries.
-/

namespace Verif

/-- an array: its shape, and its entries in row-major order (those beyond the size are irrelevant) -/
structure NDArray (α : Type) where
  shape : List ℕ
  entry : ℕ → α

/-- the position of a multi-index in row-major order -/
def ravel : List ℕ → List ℕ → ℕ
  | _ :: shape, i :: idx => i * shape.prod + ravel shape idx
  | _, _ => 0

/-- the multi-index of a position -/
def unravel : List ℕ → ℕ → List ℕ
  | [], _ => []
  | _ :: shape, p => p / shape.prod :: unravel shape (p % shape.prod)

/-- `A[i, j, ..]` -/
def NDArray.get {α : Type} (A : NDArray α) (idx : List ℕ) : α := A.entry (ravel A.shape idx)

/-- `A.reshape(shape)`: fails unless the sizes agree -/
def NDArray.reshape {α : Type} (A : NDArray α) (shape : List ℕ) : Except PyErr (NDArray α) :=
  if A.shape.prod = shape.prod then .ok ⟨shape, A.entry⟩ else .error .typeError

/-- `A.transpose(0, 2, 1, 3)` of an array with four axes -/
def NDArray.transpose0213 {α : Type} (A : NDArray α) : Except PyErr (NDArray α) :=
  match A.shape with
  | [a, b, c, d] => .ok ⟨[a, c, b, d], fun p =>
      match unravel [a, c, b, d] p with
      | [i, j, k, l] => A.get [i, k, j, l]
      | _ => A.entry p⟩
  | _ => .error .valueError

/-- `block_view(A, b)` (`helpers.py:6-11`); `Nb % 0` raises `ZeroDivisionError` -/
def blockView {α : Type} (A : NDArray α) (b : ℕ) : Except PyErr (NDArray α) :=
  match A.shape with
  | [Nb, Mb] =>
    if b = 0 then .error .zeroDivisionError
    else if Nb % b = 0 ∧ Mb % b = 0 then do
      let B ← A.reshape [Nb / b, b, Mb / b, b]
      B.transpose0213
    else .error .assertionError
  | _ => .error .valueError

end Verif
