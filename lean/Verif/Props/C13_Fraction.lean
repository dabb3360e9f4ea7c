import Verif.Lemmas.Fraction

/-! C13: `BinaryPolynomialFraction`.  `value` is the rational function over GF(2) denoted by the stored
pair, `Canonical` says the pair is in lowest terms (Spec/Fraction.lean). -/
namespace Komm
open Polynomial

/-- The constructor raises exactly for a zero denominator; otherwise it stores a coprime pair denoting
the same rational function. -/
theorem C13_constructor (n d : Nat) :
    (d = 0 → BPFraction.create n d = none) ∧
    (d ≠ 0 → ∃ x, BPFraction.create n d = some x ∧ x.Canonical ∧
      toPoly x.numerator * toPoly d = toPoly n * toPoly x.denominator) :=
  ⟨fun h => by simp [BPFraction.create, h], BPFraction.create_spec n d⟩

/-- Equality test: two constructed fractions compare equal iff `n1*d2 = n2*d1`. -/
theorem C13_equality {n₁ d₁ n₂ d₂ : Nat} {x y : BPFraction} (hx : BPFraction.create n₁ d₁ = some x)
    (hy : BPFraction.create n₂ d₂ = some y) :
    BPFraction.eq x y = true ↔ toPoly n₁ * toPoly d₂ = toPoly n₂ * toPoly d₁ := by
  obtain ⟨hd1, hc1, hv1⟩ := BPFraction.create_value hx
  obtain ⟨hd2, hc2, hv2⟩ := BPFraction.create_value hy
  have h : BPFraction.eq x y = true ↔ x.value = y.value := by
    constructor
    · intro h
      simp only [BPFraction.eq, Bool.and_eq_true, beq_iff_eq] at h
      rw [BPFraction.value, BPFraction.value, h.1, h.2]
    · intro h
      have := BPFraction.value_injective hc1 hc2 h
      simp [BPFraction.eq, this]
  rw [h, hv1, hv2, div_eq_div_iff (BPFraction.algebraMap_ne_zero hd1) (BPFraction.algebraMap_ne_zero hd2),
    ← map_mul, ← map_mul]
  exact (FaithfulSMul.algebraMap_injective (ZMod 2)[X] (FractionRing (ZMod 2)[X])).eq_iff

/-- Sum and product never raise, are again in lowest terms, and are those of the field of rational
functions. -/
theorem C13_ring_operations {x y : BPFraction} (hx : x.Canonical) (hy : y.Canonical) :
    (∃ z, BPFraction.add x y = some z ∧ z.Canonical ∧ z.value = x.value + y.value) ∧
    (∃ z, BPFraction.mul x y = some z ∧ z.Canonical ∧ z.value = x.value * y.value) := by
  constructor
  · obtain ⟨z, hz⟩ := BPFraction.add_isSome hx hy
    exact ⟨z, hz, BPFraction.value_add hx hy hz⟩
  · obtain ⟨z, hz⟩ := BPFraction.mul_isSome hx hy
    exact ⟨z, hz, BPFraction.value_mul hz⟩

/-- Quotients and inverses: raise exactly on a zero divisor, else are those of the field. -/
theorem C13_division {x y : BPFraction} (hx : x.Canonical) (hy : y.Canonical) :
    (y.value = 0 → BPFraction.truediv x y = none ∧ BPFraction.inverse y = none) ∧
    (y.value ≠ 0 → (∃ z, BPFraction.truediv x y = some z ∧ z.Canonical ∧ z.value = x.value / y.value) ∧
      (∃ z, BPFraction.inverse y = some z ∧ z.Canonical ∧ z.value = y.value⁻¹)) := by
  constructor
  · intro h
    constructor
    · rw [← Option.not_isSome_iff_eq_none, Option.isSome_iff_exists, BPFraction.truediv_isSome_iff hx hy]
      simpa using h
    · rw [← Option.not_isSome_iff_eq_none, Option.isSome_iff_exists, BPFraction.inverse_isSome_iff hy]
      simpa using h
  · intro h
    obtain ⟨z, hz⟩ := (BPFraction.truediv_isSome_iff hx hy).mpr h
    obtain ⟨w, hw⟩ := (BPFraction.inverse_isSome_iff hy).mpr h
    exact ⟨⟨z, hz, BPFraction.value_truediv hz⟩, ⟨w, hw, BPFraction.value_inverse hw⟩⟩

/-- Powers, negative exponents included. -/
theorem C13_power {x : BPFraction} (hx : x.Canonical) (n : Int) :
    (0 ≤ n ∨ x.value ≠ 0 → ∃ z, BPFraction.pow x n = some z ∧ z.Canonical ∧ z.value = x.value ^ n) ∧
    (n < 0 → x.value = 0 → BPFraction.pow x n = none) :=
  ⟨BPFraction.pow_spec hx n, BPFraction.pow_zero_neg hx n⟩

/-- Non-vacuity: `(X^2+1)/(X^2+X) = (X+1)/X`, and its inverse square. -/
example : BPFraction.create 0b101 0b110 = some ⟨0b11, 0b10⟩ ∧
    BPFraction.pow ⟨0b11, 0b10⟩ (-2) = some ⟨0b100, 0b101⟩ ∧
    BPFraction.add ⟨0b11, 0b10⟩ ⟨0b1, 0b10⟩ = some ⟨0b1, 0b1⟩ := by decide +kernel
example : ∃ x, BPFraction.create 0b101 0b110 = some x ∧ x.Canonical ∧ x.value ≠ 0 := by
  obtain ⟨x, hx, hc, _⟩ := BPFraction.create_spec 0b101 0b110 (by decide)
  refine ⟨x, hx, hc, ?_⟩
  rw [Ne, BPFraction.value_eq_zero_iff hc]
  have : BPFraction.create 0b101 0b110 = some ⟨0b11, 0b10⟩ := by decide +kernel
  rw [this] at hx; cases hx; decide

end Komm
