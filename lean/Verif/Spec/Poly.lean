import Mathlib.Algebra.Polynomial.Basic
import Mathlib.Algebra.Polynomial.Coeff
import Mathlib.Data.ZMod.Basic

/-! Specification: the polynomial over GF(2) denoted by a non-negative integer. -/
namespace Komm
open Polynomial

/-- The polynomial over GF(2) whose coefficient of `X^i` is the `i`-th binary digit of `n`. -/
noncomputable def toPoly (n : Nat) : (ZMod 2)[X] :=
  ∑ i ∈ Finset.range n, if n.testBit i then X ^ i else 0

end Komm
