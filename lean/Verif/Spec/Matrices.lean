import Mathlib.Data.ZMod.Basic

/-! Specification: reduced row echelon form over GF(2). -/
namespace Komm

/-- `(i, j)` is the position of the first non-zero entry of row `i`. -/
def Leading {k n : Nat} (R : Fin k → Fin n → ZMod 2) (i : Fin k) (j : Fin n) : Prop :=
  R i j ≠ 0 ∧ ∀ j' < j, R i j' = 0

/-- Reduced row echelon form: leading positions move strictly to the right from row to row (so zero rows
come last), and a leading entry is the only non-zero entry of its column. -/
structure IsRREF {k n : Nat} (R : Fin k → Fin n → ZMod 2) : Prop where
  staircase : ∀ i i' j', i < i' → Leading R i' j' → ∃ j < j', Leading R i j
  column : ∀ i j, Leading R i j → ∀ i' ≠ i, R i' j = 0

end Komm
