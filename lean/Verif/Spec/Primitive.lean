import Mathlib.RingTheory.AdjoinRoot
import Mathlib.GroupTheory.OrderOfElement
import Mathlib.Data.ZMod.Basic

/-! Specification of primitive polynomials over GF(2). -/
namespace Komm
open Polynomial

/-- `f` is primitive: irreducible, and the class of `X` in `GF(2)[X]/(f)` has multiplicative order
`2^deg f - 1` (the size of the multiplicative group). -/
def IsPrimitivePoly (f : (ZMod 2)[X]) : Prop :=
  Irreducible f ∧ orderOf (AdjoinRoot.root f) = 2 ^ f.natDegree - 1

end Komm
