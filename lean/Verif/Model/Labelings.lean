import Verif.Model.BitOps
import Verif.Model.Blockwise
import Mathlib.Data.Nat.Bitwise
/-
Model of /repo/src/komm/_labelings.  One-dimensional inputs only (numpy applies the same operation along
the last axis).  `none` is a raised exception.  Index inputs are Python integers (`Int`); bit inputs are
Python integers too.
-/
namespace Komm

/-- The data every labeling object exposes through `matrix`, `num_bits` and `cardinality`
(_labelings/base.py:12-35). -/
structure Lab where
  matrix : List (List Nat)
  numBits : Nat
  cardinality : Nat
deriving DecidableEq, Repr

namespace Lab

/-- `inverse_mapping` (base.py:43): in a dict comprehension the last row with a given key wins. -/
def inverseMapping (L : Lab) (row : List Nat) : Option Nat :=
  (L.matrix.zipIdx.reverse.find? fun p => p.1 == row).map Prod.snd

/-- `indices_to_bits` of the base class (base.py:56-61). -/
def indicesToBits (L : Lab) (indices : List Int) : Option (List Nat) :=
  if ¬ ((∀ i ∈ indices, 0 ≤ i) ∧ ∀ i ∈ indices, i < L.cardinality) then none
  else (indices.mapM fun i => L.matrix[i.toNat]?).map List.flatten

/-- `bits_to_indices` of the base class (base.py:74-88).  `np.apply_along_axis` raises when there is no row
to iterate on (empty input); a missing key raises `KeyError`. -/
def bitsToIndices (L : Lab) (bits : List Int) : Option (List Nat) :=
  if L.numBits = 0 then none -- ZeroDivisionError
  else if bits.length % L.numBits ≠ 0 then none
  else if ¬ ∀ b ∈ bits, b = 0 ∨ b = 1 then none
  else if bits = [] then none
  else (chunks L.numBits (bits.map Int.toNat)).mapM L.inverseMapping

end Lab

/-- `Labeling.__init__` (Labeling.py:15-26) on a two-dimensional integer array of width `m`; `num_bits` and
`cardinality` are read off the shape (base.py:27, 35). -/
def labelingNew (rows : List (List Int)) (m : Nat) : Option Lab :=
  if rows.length ≠ 2 ^ m then none
  else if ∃ row ∈ rows, ∃ b ∈ row, b < 0 ∨ 1 < b then none
  else if rows.dedup.length ≠ rows.length then none
  else some ⟨rows.map fun r => r.map Int.toNat, m, rows.length⟩

/-- `NaturalLabeling(m)`: matrix, number of bits and cardinality (NaturalLabeling.py:16-21, 38-40, 50, 60-61). -/
def naturalLab (m : Nat) : Option Lab :=
  if m < 1 then none
  else some ⟨(List.range (1 <<< m)).map fun i => intToBits .msbFirst i m, m, 2 ^ m⟩

/-- `NaturalLabeling.indices_to_bits` (NaturalLabeling.py:84-87) for non-negative indices: there is no range
check. -/
def naturalIndicesToBits (m : Nat) (indices : List Nat) : List Nat :=
  indices.flatMap fun i => intToBits .msbFirst i m

/-- `NaturalLabeling.bits_to_indices` (NaturalLabeling.py:99-103): there is no 0/1 check; `reshape` rejects
other lengths, `np.apply_along_axis` (inside `bits_to_int`) rejects the empty input. -/
def naturalBitsToIndices (m : Nat) (bits : List Nat) : Option (List Nat) :=
  if bits.length % m ≠ 0 then none
  else if bits = [] then none
  else some ((chunks m bits).map (bitsToInt .msbFirst))

/-- `ReflectedLabeling(m)`: matrix, number of bits and cardinality (ReflectedLabeling.py:15-20, 37-39, 49, 59-60). -/
def reflectedLab (m : Nat) : Option Lab :=
  if m < 1 then none
  else some ⟨(List.range (1 <<< m)).map fun i => intToBits .msbFirst (i ^^^ (i >>> 1)) m, m, 2 ^ m⟩

/-- `ReflectedLabeling.indices_to_bits` (ReflectedLabeling.py:83-86). -/
def reflectedIndicesToBits (m : Nat) (indices : List Nat) : List Nat :=
  indices.flatMap fun i => intToBits .msbFirst (i ^^^ (i >>> 1)) m

/-- The loop `for shift in range(m): indices ^= nat_indices >> shift` (ReflectedLabeling.py:101-103). -/
def grayInverse (m n : Nat) : Nat := (List.range m).foldl (fun acc shift => acc ^^^ (n >>> shift)) 0

/-- `ReflectedLabeling.bits_to_indices` (ReflectedLabeling.py:98-104). -/
def reflectedBitsToIndices (m : Nat) (bits : List Nat) : Option (List Nat) :=
  if bits.length % m ≠ 0 then none
  else if bits = [] then none
  else some ((chunks m bits).map fun row => grayInverse m (bitsToInt .msbFirst row))

/-- `[np.hstack(comb) for comb in itertools.product(*matrices)]` (ProductLabeling.py:129-131). -/
def productRows : List (List (List Nat)) → List (List Nat)
  | [] => [[]]
  | M :: Ms => M.flatMap fun row => (productRows Ms).map (row ++ ·)

/-- `ProductLabeling(*labelings, repeat=repeat)` (ProductLabeling.py:62-67, 128-131, 144, 157). -/
def productLab (labelings : List Lab) (rep : Nat := 1) : Option Lab :=
  if labelings.length < 1 then none
  else if rep < 1 then none
  else
    let labs := (List.replicate rep labelings).flatten
    some ⟨productRows (labs.map Lab.matrix), (labs.map Lab.numBits).sum, (labs.map Lab.cardinality).prod⟩

/-- `ReflectedRectangularLabeling((mi, mq))` (ReflectedRectangularLabeling.py:27-31, 60-62, 72-73, 83-84). -/
def rectangularLab (mi mq : Nat) : Option Lab :=
  if ¬ (1 ≤ mi ∧ 1 ≤ mq) then none
  else
    match reflectedLab mi, reflectedLab mq with
    | some A, some B => (productLab [A, B]).map fun P => ⟨P.matrix, mi + mq, 2 ^ (mi + mq)⟩
    | _, _ => none

/-- `ReflectedRectangularLabeling(num_bits)` with a single integer (ReflectedRectangularLabeling.py:21-26). -/
def rectangularLabSquare (numBits : Nat) : Option Lab :=
  if ¬ (0 < numBits ∧ numBits % 2 = 0) then none else rectangularLab (numBits / 2) (numBits / 2)

end Komm
