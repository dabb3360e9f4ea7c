import Verif.Lemmas.BitOps

/-! C01: integer/bit conversions are mutually inverse, for both bit orders.
Specification: the `i`-th entry of the LSB-first list is the `i`-th binary digit of the integer, the
MSB-first list is its reverse. -/
namespace Komm

/-- `int_to_bits(n, width)` has `width` entries, each 0 or 1. -/
theorem C01_int_to_bits_shape (o : BitOrder) (n w : Nat) :
    (intToBits o n w).length = w ∧ ∀ b ∈ intToBits o n w, b = 0 ∨ b = 1 :=
  ⟨intToBits_length o n w, fun b hb => by have := intToBits_lt o n w b hb; omega⟩

/-- `bits_to_int(int_to_bits(n, width)) == n mod 2**width`. -/
theorem C01_bits_of_int_roundtrip_mod (o : BitOrder) (n w : Nat) :
    bitsToInt o (intToBits o n w) = n % 2 ^ w := bitsToInt_intToBits o n w

/-- `bits_to_int(int_to_bits(n, width)) == n` for `n < 2**width`. -/
theorem C01_bits_of_int_roundtrip (o : BitOrder) (n w : Nat) (h : n < 2 ^ w) :
    bitsToInt o (intToBits o n w) = n := by
  rw [bitsToInt_intToBits, Nat.mod_eq_of_lt h]

/-- `int_to_bits(bits_to_int(b), len(b)) == b` for every 0/1 list. -/
theorem C01_int_of_bits_roundtrip (o : BitOrder) (l : List Nat) (h : ∀ b ∈ l, b = 0 ∨ b = 1) :
    intToBits o (bitsToInt o l) l.length = l :=
  intToBits_bitsToInt o l fun b hb => by have := h b hb; omega

/-- The two orders are mirror images, and LSB-first means: entry `i` is binary digit `i`. -/
theorem C01_orders (n w : Nat) :
    intToBits .msbFirst n w = (intToBits .lsbFirst n w).reverse ∧
    ∀ i < w, (intToBits .lsbFirst n w)[i]? = some (n / 2 ^ i % 2) :=
  ⟨intToBits_msb n w, fun i hi => by simp [intToBits, hi, Nat.shiftRight_eq_div_pow]⟩

example : (0b1011 : Nat) < 2 ^ 5 ∧ intToBits .msbFirst 0b1011 5 = [0, 1, 0, 1, 1] := by decide
example : ∀ b ∈ [1, 0, 0, 1, 1, 1], b = 0 ∨ b = 1 := by decide

end Komm
