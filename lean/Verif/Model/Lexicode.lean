import Verif.Model.BlockFamilies
/-
Model of /repo/src/komm/_error_control_block/Lexicode.py.  `none` is a raised `ValueError`.
-/
namespace Komm

/-- `int.bit_count`. -/
def bitCount (x : Nat) : Nat := (List.range (x.log2 + 1)).countP fun i => x.testBit i

/-- Body of the loop (Lexicode.py:57-62) on the pair `(codewords, basis)`. -/
def lexStep (d : Nat) (st : List Nat × List Nat) (i : Nat) : List Nat × List Nat :=
  if st.1.reverse.all fun c => bitCount (c ^^^ i) ≥ d then
    (st.1 ++ [i], if bitCount st.1.length = 1 then st.2 ++ [i] else st.2)
  else st

/-- The loop (Lexicode.py:55-62): `range(1, 2**n)`. -/
def lexLoop (n d : Nat) : List Nat × List Nat := (List.range' 1 (2 ^ n - 1)).foldl (lexStep d) ([0], [])

/-- The local variable `basis` after the loop. -/
def lexBasis (n d : Nat) : List Nat := (lexLoop n d).2

/-- `lexicode_generator_matrix(n, d)` (Lexicode.py:54-64): `int_to_bits(basis, width=n, bit_order="MSB-first")`. -/
def lexGenerator (n d : Nat) : BMat (lexBasis n d).length n :=
  fun r j => ((intToBits .msbFirst (lexBasis n d)[r] n).getD j 0 : Nat)

/-- `Lexicode(n, d)` (Lexicode.py:38-43). -/
def lexicode (n d : Nat) : Option (LinCode (lexBasis n d).length (n - (lexBasis n d).length) n) :=
  if ¬ (1 ≤ d ∧ d ≤ n) then none else blockCodeOfGenerator (lexGenerator n d)

/-- `Lexicode.minimum_distance` (Lexicode.py:49-51). -/
def lexicodeMinimumDistance (_n d : Nat) : Nat := d

end Komm
