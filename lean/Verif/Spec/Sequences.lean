import Mathlib.Algebra.BigOperators.Group.Finset.Basic
import Mathlib.Algebra.BigOperators.Intervals
import Mathlib.Algebra.Ring.Int.Defs
/-! Specification: a finite sequence as a function on the integers. -/
namespace Komm

/-- The sequence extended by zeros to all integer positions. -/
def extend {R : Type} [Zero R] (x : List R) (i : Int) : R := if 0 ≤ i then x.getD i.toNat 0 else 0

/-- The periodic extension of the sequence. -/
def periodic {R : Type} [Zero R] (x : List R) (i : Int) : R := x.getD (i % (x.length : Int)).toNat 0

/-- The number of positions where consecutive entries differ. -/
def signChanges (x : List Int) : Nat := ((List.range (x.length - 1)).filter fun i : Nat => x.getD i 0 ≠ x.getD (i + 1) 0).length

end Komm
