/-
Model of /repo/src/komm/_util/bit_operations.py.

Bits are natural numbers 0/1 held in lists (the last axis of a numpy array).  Multi-dimensional inputs
are handled by numpy by applying the 1D/0D case along the last axis; only that case is modelled.
-/
namespace Komm

/-- The two admissible values of the `bit_order` argument (bit_operations.py:10, 51).  Any other
string raises `ValueError` in Python and is unrepresentable here. -/
inductive BitOrder where
  | lsbFirst
  | msbFirst
deriving DecidableEq, Repr

/-- `np.packbits(input, bitorder="little")` followed by `int.from_bytes(..., "little")`
(bit_operations.py:43-44): any non-zero entry counts as a set bit.  -/
def packLE : List Nat → Nat
  | [] => 0
  | b :: bs => (if b = 0 then 0 else 1) + 2 * packLE bs

/-- `bits_to_int` for a one-dimensional input (bit_operations.py:36-44).  For `"LSB-first"` the entries are converted to `uint8` first (line 38); the model is for entries below 256, the
only caller with others, `from_exponents`, reduces them itself (Model/BinaryPolynomial). -/
def bitsToInt (order : BitOrder) (input : List Nat) : Nat :=
  match order with
  | .lsbFirst => packLE input
  | .msbFirst => packLE input.reverse

/-- `int_to_bits` for a scalar non-negative input (bit_operations.py:85-93). -/
def intToBits (order : BitOrder) (n width : Nat) : List Nat :=
  match order with
  | .lsbFirst => (List.range width).map fun i => (n >>> i) % 2
  | .msbFirst => (List.range width).map fun i => (n >>> (width - 1 - i)) % 2

end Komm
