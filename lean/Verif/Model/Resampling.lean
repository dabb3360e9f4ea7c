import Mathlib.Data.List.Basic
/-! Model of `sampling_rate_compress` and `sampling_rate_expand` (`src/komm/_util/signal_processing.py`).
The input is the list of its slices along `axis` (for a one-dimensional input: of its entries); `α` is the type of the slices. -/
namespace Komm

/-- The indices selected by `slice(start, stop, step)` on an axis of `stop` entries: `start, start + step, ...` below `stop`.
The fuel `stop` suffices for a positive step. -/
def sliceIndices (start stop step : Nat) : List Nat := go stop start
where
  go : Nat → Nat → List Nat
    | 0, _ => []
    | fuel + 1, i => if i < stop then i :: go fuel (i + step) else []

/-- `sampling_rate_compress(input, factor, offset)` (signal_processing.py:57-64); `none`: ValueError. -/
def compress {α : Type} [Zero α] (input : List α) (factor offset : Int) : Option (List α) :=
  if ¬ factor > 0 then none
  else if ¬ (0 ≤ offset ∧ offset < factor) then none
  else some ((sliceIndices offset.toNat input.length factor.toNat).map fun i : Nat => input.getD i 0)

/-- `output[slice] = input`: numpy's sliced assignment; `none` when the number of selected entries differs from the number of values
(numpy also broadcasts a single value, which cannot happen here). -/
def assignAt {α : Type} : List α → List Nat → List α → Option (List α)
  | out, [], [] => some out
  | out, i :: is, v :: vs => assignAt (out.set i v) is vs
  | _, _, _ => none

/-- `sampling_rate_expand(input, factor, offset)` (signal_processing.py:107-118). -/
def expand {α : Type} [Zero α] (input : List α) (factor offset : Int) : Option (List α) :=
  if ¬ factor > 0 then none
  else if ¬ (0 ≤ offset ∧ offset < factor) then none
  else
    let n := input.length * factor.toNat
    assignAt (List.replicate n 0) (sliceIndices offset.toNat n factor.toNat) input

end Komm
