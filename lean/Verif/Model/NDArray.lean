import Verif.Model.Blockwise
import Mathlib.Algebra.BigOperators.Group.List.Defs
/-! numpy arrays with any number of axes, and the decorators of `src/komm/_util/decorators.py` on them.  An array is its shape and its entries in
row-major order. -/
namespace Komm

/-- `np.ndarray`: `shape`, and the entries in row-major order. -/
structure NDArray (α : Type) where
  shape : List Nat
  data : List α
  deriving DecidableEq

namespace NDArray
variable {α β : Type}

/-- `arr.reshape(*left, -1, *right)`: the axis given as `-1` gets the length that fits; a zero among the known lengths, or a size that is not a
multiple of their product, raises `ValueError` (`none`). -/
def reshape (a : NDArray α) (left right : List Nat) : Option (NDArray α) :=
  let known := left.prod * right.prod
  if known = 0 then none
  else if a.data.length % known ≠ 0 then none
  else some ⟨left ++ (a.data.length / known) :: right, a.data⟩

/-- A function of the last axis applied to each of its slices: `f` takes `arr.shape[-1]` entries to `n` entries, or raises. -/
def alongLast (n : Nat) (f : List α → Option (List β)) (a : NDArray α) : Option (NDArray β) :=
  ((chunks (a.shape.getLastD 1) a.data).mapM f).map fun out => ⟨a.shape.dropLast ++ [n], out.flatten⟩

/-- `@vectorize` (decorators.py:16-25): `np.apply_along_axis(func, -1, arr)`, which raises when there is no slice. -/
def vectorize (n : Nat) (f : List α → Option (List β)) (a : NDArray α) : Option (NDArray β) :=
  if a.shape.dropLast.prod = 0 then none else alongLast n f a

/-- `func(blocks)` (decorators.py:43), with or without `@vectorize` below `@blockwise`. -/
def applyBlocks (vec : Bool) (n : Nat) (f : List α → Option (List β)) (blocks : NDArray α) : Option (NDArray β) :=
  if vec then vectorize n f blocks else alongLast n f blocks

/-- `@blockwise(m)` (decorators.py:28-48) around a function that acts along the last axis (`vec = false`: by array operations, as in
`BlockCode.encode`, block/base.py:79-81; `vec = true`: with `@vectorize` below `@blockwise`, as in `CyclicCode.encode`, CyclicCode.py:173-177).
`none` is a raised exception. -/
def blockwise (vec : Bool) (m n : Nat) (f : List α → Option (List β)) (a : NDArray α) : Option (NDArray β) :=
  match a.shape.getLast? with
  | none => none
  | some last =>
    if m = 0 then none
    else if last % m ≠ 0 then none
    else do
      let blocks ← a.reshape a.shape.dropLast [m]
      let processed ← applyBlocks vec n f blocks
      processed.reshape processed.shape.dropLast.dropLast []

end NDArray
end Komm
