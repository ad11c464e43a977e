import Mathlib.Data.Real.Basic
import Mathlib.Data.List.Sort
import Mathlib.Data.Matrix.Mul

/-!
# JAX / numpy primitives used by smolgp

These definitions fix the reading of the library functions which `/repo/src/smolgp` calls.
Nothing here is smolgp code; it is part of the trusted reading (see DESIGN.md).
-/

namespace Verif

/-- A one-dimensional (leading axis) array: a length and an indexing function.
Reads at indices `≥ len` never occur in the modelled code on the paths we reason about. -/
structure Arr (α : Type*) where
  len : ℕ
  get : ℕ → α

namespace Arr
variable {α β γ : Type*}

/-- Two arrays are equal as arrays: same length, same entries within bounds. -/
def Same (a b : Arr α) : Prop := a.len = b.len ∧ ∀ i, i < a.len → a.get i = b.get i

/-- `a[-1]` -/
def last (a : Arr α) : α := a.get (a.len - 1)

/-- `a[::-1]` -/
def rev (a : Arr α) : Arr α := ⟨a.len, fun i => a.get (a.len - 1 - i)⟩

/-- `jnp.concatenate([a, b], axis=0)` / `jnp.vstack([a, b])` -/
def append (a b : Arr α) : Arr α :=
  ⟨a.len + b.len, fun i => if i < a.len then a.get i else b.get (i - a.len)⟩

/-- `x[None, ...]`: an array holding a single entry -/
def single (x : α) : Arr α := ⟨1, fun _ => x⟩

/-- `a[1:]` -/
def tail (a : Arr α) : Arr α := ⟨a.len - 1, fun i => a.get (i + 1)⟩

/-- `a[:-1]` -/
def init (a : Arr α) : Arr α := ⟨a.len - 1, a.get⟩

/-- `jnp.arange(n)` -/
def arange (n : ℕ) : Arr ℕ := ⟨n, id⟩

/-- `jnp.arange(n - 2, -1, -1)`: `n-2, n-3, ..., 0` (empty when `n < 2`) -/
def arangeDown (n : ℕ) : Arr ℕ := ⟨n - 1, fun i => n - 2 - i⟩

/-- `jax.vmap(f)(a)` -/
def map (f : α → β) (a : Arr α) : Arr β := ⟨a.len, fun i => f (a.get i)⟩

/-- `jax.vmap(f)(a, b)` -/
def map₂ (f : α → β → γ) (a : Arr α) (b : Arr β) : Arr γ := ⟨a.len, fun i => f (a.get i) (b.get i)⟩

/-- `jnp.take(a, idx)` / `a[idx]` -/
def take (a : Arr α) (idx : Arr ℕ) : Arr α := ⟨idx.len, fun i => a.get (idx.get i)⟩

/-- `jnp.diff(t)` -/
def diff (t : Arr ℝ) : Arr ℝ := ⟨t.len - 1, fun i => t.get (i + 1) - t.get i⟩

/-- `jnp.repeat(a, 2)` -/
def repeat2 (a : Arr α) : Arr α := ⟨2 * a.len, fun i => a.get (i / 2)⟩

/-- array from a list (with a default for out-of-range reads) -/
def ofList (d : α) (l : List α) : Arr α := ⟨l.length, fun i => l.getD i d⟩

/-- the entries as a list -/
def toList (a : Arr α) : List α := (List.range a.len).map a.get

end Arr

section scan
variable {C X Y : Type*}

/-- the carry of `jax.lax.scan(f, init, xs)` before step `k` -/
def scanCarry (f : C → X → C × Y) (init : C) (xs : Arr X) : ℕ → C
  | 0 => init
  | k + 1 => (f (scanCarry f init xs k) (xs.get k)).1

/-- `jax.lax.scan(f, init, xs)`: final carry and stacked outputs -/
def scan (f : C → X → C × Y) (init : C) (xs : Arr X) : C × Arr Y :=
  (scanCarry f init xs xs.len, ⟨xs.len, fun k => (f (scanCarry f init xs k) (xs.get k)).2⟩)

end scan

/-- `jnp.searchsorted(t, x, side="right")` for a non-decreasing `t`: the number of entries `≤ x`.
(For sorted `t` this is the insertion point after all entries `≤ x`.) -/
noncomputable def searchsortedRight (t : Arr ℝ) (x : ℝ) : ℕ :=
  ((List.range t.len).filter (fun i => decide (t.get i ≤ x))).length

/-- `jnp.nonzero(mask, size=n)[0]` for a mask with at least `n` true entries: indices of the
true entries in increasing order (padded with 0 when there are fewer, as JAX does; truncated to `n`). -/
def nonzeroSize (len : ℕ) (mask : ℕ → Bool) (n : ℕ) : Arr ℕ :=
  ⟨n, fun i => ((List.range len).filter mask).getD i 0⟩

/-- `jnp.argsort(a)` (stable) -/
def argsort (a : Arr ℕ) : Arr ℕ :=
  Arr.ofList 0 ((List.range a.len).mergeSort (fun i j => decide (a.get i ≤ a.get j)))

/-- `jnp.lexsort((minor, major))`: stable sort by `major`, ties by `minor`. -/
noncomputable def lexsort (minor : Arr ℤ) (major : Arr ℝ) : Arr ℕ :=
  Arr.ofList 0 ((List.range major.len).mergeSort
    (fun i j => decide (major.get i < major.get j ∨
      (major.get i = major.get j ∧ minor.get i ≤ minor.get j))))

/-- `jax.lax.associative_scan(fn, elems)`: the recursion `_scan` of
`jax/_src/lax/control_flow/loops.py`. Adjacent pairs are combined, the half-length array is scanned
recursively (these are the odd outputs), the even outputs are `elems[0]` and
`odd[i-1] * elems[2 i]`, and both are interleaved. -/
def assocScanGet {α : Type*} (f : α → α → α) : (n : ℕ) → (ℕ → α) → ℕ → α
  | n, e =>
    if h : n < 2 then e
    else
      let odd := assocScanGet f (n / 2) (fun i => f (e (2 * i)) (e (2 * i + 1)))
      let even := fun i => if i = 0 then e 0 else f (odd (i - 1)) (e (2 * i))
      fun j => if j % 2 = 0 then even (j / 2) else odd (j / 2)
  termination_by n => n
  decreasing_by omega

/-- `jax.lax.associative_scan(jax.vmap(f), elems, reverse=reverse)` -/
def associativeScan {α : Type*} (f : α → α → α) (elems : Arr α) (reverse : Bool := false) : Arr α :=
  if reverse then
    Arr.rev ⟨elems.len, assocScanGet f elems.len (Arr.rev elems).get⟩
  else ⟨elems.len, assocScanGet f elems.len elems.get⟩

end Verif
