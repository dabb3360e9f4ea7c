import Verif.Spec.Poly
import Verif.Model.FiniteBifield
import Mathlib.RingTheory.Localization.FractionRing
import Mathlib.Algebra.Field.ZMod
import Mathlib.Algebra.Polynomial.FieldDivision

/-! Specification of `BinaryPolynomialFraction`: rational functions over GF(2). -/
namespace Komm
open Polynomial
namespace BPFraction

/-- The rational function denoted by a stored pair. -/
noncomputable def value (x : BPFraction) : FractionRing (ZMod 2)[X] :=
  algebraMap _ _ (toPoly x.numerator) / algebraMap _ _ (toPoly x.denominator)

/-- The stored pair is in lowest terms. -/
def Canonical (x : BPFraction) : Prop :=
  x.denominator ≠ 0 ∧ ∀ p : (ZMod 2)[X], p ∣ toPoly x.numerator → p ∣ toPoly x.denominator → p = 1

end BPFraction
end Komm
