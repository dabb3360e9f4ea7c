import Verif.Model.Constellations
import Mathlib.Data.Int.Log
/-
Model of IEEE 754 binary64 arithmetic (numpy's `float64` and Python's `float`), rounding to nearest with ties to even.  Exponents are not bounded above: the theorems that
use this model bound their operands, so that no operation overflows.  Nothing in /repo is modelled here; the modules that use it cite the operations of /repo that are evaluated in this
arithmetic.
-/
namespace Komm

section
variable {K : Type} [Field K] [LinearOrder K] [IsStrictOrderedRing K] [FloorRing K]

/-- The exponent of the last place of the significand of `x`: 53 significant bits, but never below the subnormal exponent. -/
def ulpExp (x : K) : ℤ := max (Int.log 2 |x| - 52) (-1074)

/-- Rounding to the nearest double, ties to even. -/
def rnd (x : K) : K := (npRound (x / 2 ^ ulpExp x) : K) * 2 ^ ulpExp x

end

/-- The finite doubles (with unbounded exponent): integers of at most 53 bits times a power of two. -/
def IsDouble (x : ℝ) : Prop := ∃ m e : ℤ, |m| < 2 ^ 53 ∧ -1074 ≤ e ∧ x = m * 2 ^ e

example : rnd (1 / 10 : ℚ) = 3602879701896397 / 2 ^ 55 := by decide +kernel
example : rnd (rnd (1 / 10 : ℚ) + rnd (1 / 5)) = 1351079888211149 / 2 ^ 52 ∧ rnd (3 / 10 : ℚ) = 5404319552844595 / 2 ^ 54 := by decide +kernel
example : rnd (2 ^ 53 + 1 : ℚ) = 2 ^ 53 ∧ rnd (2 ^ 53 + 3 : ℚ) = 2 ^ 53 + 4 := by decide +kernel
example : rnd (1 / 2 ^ 1075 : ℚ) = 0 ∧ rnd (3 / 2 ^ 1075 : ℚ) = 1 / 2 ^ 1073 := by decide +kernel

end Komm
