import Verif.Model.BinaryPolynomial
import Mathlib.Algebra.Ring.Int.Defs
import Mathlib.Algebra.BigOperators.Group.List.Basic
/-
Model of /repo/src/komm/_sequences_binary/*.py, /repo/src/komm/_sequences_complex/ComplexSequence.py and
/repo/src/komm/_util/sequences.py.
-/
namespace Komm

/-! ### autocorrelation -/

/-- `np.dot` of two one-dimensional arrays of the same size. -/
def dot {R : Type} [Semiring R] (x y : List R) : R := (List.zipWith (· * ·) x y).sum

/-- One entry of `autocorrelation` (_util/sequences.py:38-47); `conj` is `np.conj` on the entries (the identity for real sequences).
`x[:-a]` is `x.take (x.length - a)` and `x[a:]` is `x.drop a`, for `a > 0`. -/
def autocorrelation {R : Type} [Semiring R] (conj : R → R) (x : List R) (shift : Int) : R :=
  if shift < 0 then dot (x.take (x.length - shift.natAbs)) ((x.map conj).drop shift.natAbs)
  else if shift > 0 then dot (x.drop shift.natAbs) ((x.map conj).take (x.length - shift.natAbs))
  else dot x (x.map conj)

/-- `np.roll(x, shift)`: entry `i` of the result is entry `i - shift` (cyclically) of `x`. -/
def roll {R : Type} [Zero R] (x : List R) (shift : Int) : List R :=
  (List.range x.length).map fun i : Nat => x.getD (((i : Int) - shift) % (x.length : Int)).toNat 0

/-- One entry of `cyclic_autocorrelation` (_util/sequences.py:80). -/
def cyclicAutocorrelation {R : Type} [Semiring R] (conj : R → R) (x : List R) (shift : Int) : R :=
  dot x ((roll x shift).map conj)

/-- The energy by which both functions divide when `normalized` (_util/sequences.py:48, 81). -/
def sequenceEnergy {R : Type} [Semiring R] (conj : R → R) (x : List R) : R := dot x (x.map conj)

/-! ### binary sequences -/

/-- `polar_sequence` computed from `bit_sequence`: `(-1) ** bits` (BinarySequence.py:40). -/
def polarOfBits (bits : List Nat) : List Int := bits.map fun b : Nat => (-1 : Int) ^ b

/-- `bit_sequence` computed from `polar_sequence`: `1 * (polar < 0)` (BinarySequence.py:43). -/
def bitsOfPolar (polar : List Int) : List Nat := polar.map fun p : Int => if p < 0 then 1 else 0

/-- `barker_sequence` and the check of `BarkerSequence.__init__` (sequences.py:7-18, BarkerSequence.py:30-34); `none` is `ValueError`. -/
def barkerSequence : Nat → Option (List Nat)
  | 2 => some [0, 1]
  | 3 => some [0, 0, 1]
  | 4 => some [0, 0, 1, 0]
  | 5 => some [0, 0, 0, 1, 0]
  | 7 => some [0, 0, 0, 1, 1, 0, 1]
  | 11 => some [0, 0, 0, 1, 1, 1, 0, 1, 1, 0, 1]
  | 13 => some [0, 0, 0, 0, 0, 1, 1, 0, 0, 1, 0, 1, 0]
  | _ => none

/-- `np.kron(h, [[1, 1], [1, -1]])` (sequences.py:23-25): the row `2 i + a` is row `i` of `h` with every entry `x` replaced by
`x g[a][0], x g[a][1]`. -/
def kronStep (h : List (List Int)) : List (List Int) :=
  (h.map fun row : List Int =>
    [(row.map fun x : Int => [x * 1, x * 1]).flatten, (row.map fun x : Int => [x * 1, x * (-1)]).flatten]).flatten

/-- The loop of `hadamard_matrix` (sequences.py:24-25). -/
def hadamardLoop : Nat → List (List Int) → List (List Int)
  | 0, h => h
  | n + 1, h => hadamardLoop n (kronStep h)

/-- `hadamard_matrix(length)` (sequences.py:21-26). -/
def hadamardMatrix (length : Nat) : List (List Int) := hadamardLoop (bitLength length - 1) [[1]]

/-- The `ordering` argument (WalshHadamardSequence.py:80); other strings raise `ValueError`. -/
inductive WalshOrdering where
  | natural
  | sequency
  | dyadic

/-- `natural_index` (WalshHadamardSequence.py:90-97); `none` is `NotImplementedError`. -/
def walshNaturalIndex (length : Nat) (ordering : WalshOrdering) (index : Nat) : Option Nat :=
  match ordering with
  | .natural => some index
  | .sequency => some (bitsToInt .lsbFirst (intToBits .msbFirst (index ^^^ (index >>> 1)) (bitLength (length - 1))))
  | .dyadic => none

/-- `WalshHadamardSequence(length, ordering, index).polar_sequence` (WalshHadamardSequence.py:77-101).  For `length = 0` the index check
fails, so the truncated subtraction is harmless. -/
def walshHadamard (length : Nat) (ordering : WalshOrdering) (index : Nat) : Option (List Int) :=
  if length &&& (length - 1) ≠ 0 then none
  else if ¬ index < length then none
  else match walshNaturalIndex length ordering index with
    | none => none
    | some i => (hadamardMatrix length)[i]?

/-- One iteration of the LFSR (sequences.py:39-40): the last cell receives the parity of the tapped cells, then `np.roll(state, 1)`.
The cell of tap `t` is `state[t - 1]`, which for `t = 0` is the last one. -/
def lfsrStep (taps : List Nat) (state : List Nat) : List Nat :=
  let fb := (taps.countP fun t : Nat => state.getD (if t = 0 then state.length - 1 else t - 1) 0 ≠ 0) % 2
  fb :: state.dropLast

/-- The loop of `lfsr_sequence` (sequences.py:37-40). -/
def lfsrLoop (taps : List Nat) : Nat → List Nat → List Nat
  | 0, _ => []
  | n + 1, state => state.getLastD 0 :: lfsrLoop taps n (lfsrStep taps state)

/-- `lfsr_sequence` (sequences.py:29-41); `none` is the `IndexError` of `taps[-1]` when the feedback polynomial is 1.  (For the feedback
polynomial 0 the sequence is empty, and the state is not used.) -/
def lfsrSequence (feedback start : Nat) : Option (List Nat) :=
  match (BP.exponents (BP.add feedback 1)).getLast? with
  | none => none
  | some t => some (lfsrLoop (BP.exponents (BP.add feedback 1)) (2 ^ t - 1) (BP.coefficients start (some (BP.degree feedback).toNat)))

/-- `LFSRSequence.maximum_length_sequence(degree, start)` (LFSRSequence.py:58-77); outer `none` when the degree is not supported. -/
def maximumLengthSequence (degree : Int) (start : Nat := 1) : Option (List Nat) :=
  (BP.defaultPrimitivePolynomial degree).bind fun p => lfsrSequence p start

/-- `LFSRSequence(0b100101)`, `BarkerSequence`, documented values. -/
example : lfsrSequence 0b100101 1 =
    some [0, 0, 0, 0, 1, 0, 1, 0, 1, 1, 1, 0, 1, 1, 0, 0, 0, 1, 1, 1, 1, 1, 0, 0, 1, 1, 0, 1, 0, 0, 1] := by decide +kernel
example : walshHadamard 8 .natural 5 = some [1, -1, 1, -1, -1, 1, -1, 1] ∧
    walshHadamard 8 .sequency 5 = some [1, -1, -1, 1, -1, 1, 1, -1] ∧ walshHadamard 8 .dyadic 5 = none ∧
    walshHadamard 6 .natural 5 = none ∧ walshHadamard 8 .natural 8 = none := by decide +kernel

end Komm
