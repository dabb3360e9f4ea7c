import Mathlib.Data.Finset.Prod
import Mathlib.Data.List.Sort
import Mathlib.Data.Finset.Union
/-
Model of /repo/src/komm/_lossless_coding/util.py.  A word (`tuple[int, ...]`) is a `List Nat`; a Python
`set` of words is a `Finset`; a Python `dict` is an association list whose keys are distinct (insertion
order); exceptions are `none`.
-/
namespace Komm

/-- `Word` (util.py:7). -/
abbrev Word := List Nat

/-- `is_prefix_of` (util.py:10-11). -/
def isPrefixOf (w1 w2 : Word) : Bool :=
  decide (w1.length ≤ w2.length) && decide (w2.take w1.length = w1)

/-- The double loop of `is_prefix_free` (util.py:17-21) on the sorted list. -/
def noEarlierPrefix : List Word → Bool
  | [] => true
  | w1 :: ws => (ws.all fun w2 => !isPrefixOf w1 w2) && noEarlierPrefix ws

/-- `is_prefix_free` (util.py:14-21); `sorted(key=len)` is a stable sort by length. -/
def isPrefixFree (words : List Word) : Bool :=
  let words := words.filter fun w => w.length > 0
  let words := words.insertionSort fun a b => a.length ≤ b.length
  noEarlierPrefix words

/-- The dangling suffixes of one round (util.py:31-38). -/
def danglingSuffixes (words augmented : Finset Word) : Finset Word :=
  (words ×ˢ augmented).biUnion fun p =>
    if p.1 = p.2 then ∅
    else if isPrefixOf p.1 p.2 then {p.2.drop p.1.length}
    else if isPrefixOf p.2 p.1 then {p.1.drop p.2.length}
    else ∅

/-- The `while True` loop of `is_uniquely_parsable` (util.py:30-43); `none` when the fuel is used up. -/
def sardinasLoop (words : Finset Word) : (fuel : Nat) → (augmented : Finset Word) → Option Bool
  | 0, _ => none
  | fuel + 1, augmented =>
    let dangling := danglingSuffixes words augmented
    if (dangling ∩ words).Nonempty then some false
    else if dangling ⊆ augmented then some true
    else sardinasLoop words fuel (augmented ∪ dangling)

/-- `is_uniquely_parsable` (util.py:24-43).  Every round that does not return adds a new suffix of a word,
so the number of suffixes bounds the loop (`sardinasLoop_terminates`). -/
def isUniquelyParsable (words : List Word) : Option Bool :=
  let words := words.filter fun w => w.length > 0
  if words.toFinset.card < words.length then some false
  else sardinasLoop words.toFinset (((words.map List.length).sum) + 2) words.toFinset

/-- `symbol in node.children` for the trie of `is_fully_covering` (util.py:52-60): a trie node is identified
with the word spelled on its path, and a node exists iff it is a prefix of some word. -/
def trieHas (words : List Word) (path : Word) : Bool := words.any fun w => isPrefixOf path w

/-- The search of `is_fully_covering` (util.py:62-74) below the node `path`, as a recursion instead of an
explicit stack (the result does not depend on the order of the visits; `visited` never matters in a tree).
`fuel` bounds the depth. -/
def coverFrom (words : List Word) (cardinality : Nat) : (fuel : Nat) → (path : Word) → Bool
  | 0, _ => false
  | fuel + 1, path =>
    (List.range cardinality).all fun symbol =>
      trieHas words (path ++ [symbol]) &&
        (decide (path ++ [symbol] ∈ words) || coverFrom words cardinality fuel (path ++ [symbol]))

/-- `is_fully_covering` (util.py:46-74). -/
def isFullyCovering (words : List Word) (cardinality : Nat) : Bool :=
  coverFrom words cardinality ((words.map List.length).sum + 1) []

/-- Dictionary lookup. -/
def dictGet (d : List (Word × Word)) (key : Word) : Option Word := (d.find? fun p => p.1 == key).map Prod.snd

/-- The loop of `parse_fixed_length` (util.py:88-92): split into blocks of size `b` and translate. -/
def parseBlocks (d : List (Word × Word)) (b : Nat) : (fuel : Nat) → Word → Option Word
  | 0, _ => some []
  | fuel + 1, input => do
    let head ← dictGet d (input.take b)
    let rest ← parseBlocks d b fuel (input.drop b)
    return head ++ rest

/-- `parse_fixed_length` (util.py:77-95); `none` is `ValueError` (and `ZeroDivisionError` for block size
zero, which the constructors exclude). -/
def parseFixedLength (input : Word) (d : List (Word × Word)) (blockSize : Nat) : Option Word :=
  if blockSize = 0 then none
  else if input.length % blockSize ≠ 0 then none
  else parseBlocks d blockSize (input.length / blockSize) input

/-- The loop of `parse_prefix_free` (util.py:103-109): `key` is `input[i : j]`. -/
def parseLoop (d : List (Word × Word)) : (input key output : Word) → Word × Word
  | [], key, output => (key, output)
  | a :: input, key, output =>
    match dictGet d (key ++ [a]) with
    | some v => parseLoop d input [] (output ++ v)
    | none => parseLoop d input (key ++ [a]) output

/-- `parse_prefix_free` (util.py:98-122). -/
def parsePrefixFree (input : Word) (d : List (Word × Word)) (allowIncomplete : Bool) : Option Word :=
  let (remainder, output) := parseLoop d input [] []
  if remainder = [] then some output
  else if !allowIncomplete then none
  else (d.find? fun p => isPrefixOf remainder p.1).map fun p => output ++ p.2

/-- `infer_block_size` (util.py:125-135): the loop, with fuel. -/
def inferBlockSizeLoop (size cardinality : Nat) : (fuel k power : Nat) → Nat × Nat
  | 0, k, power => (k, power)
  | fuel + 1, k, power =>
    if power < size then inferBlockSizeLoop size cardinality fuel (k + 1) (power * cardinality) else (k, power)

/-- `infer_block_size` (util.py:125-135); called with `cardinality ≥ 2` only. -/
def inferBlockSize (size cardinality : Nat) : Option Nat :=
  let (k, power) := inferBlockSizeLoop size cardinality size 1 cardinality
  if power ≠ size then none else some k

/-- `integer_to_symbols` (util.py:180-185): most significant symbol first. -/
def integerToSymbols (integer base : Nat) : (width : Nat) → Word
  | 0 => []
  | width + 1 => integerToSymbols (integer / base) base width ++ [integer % base]

/-- `symbols_to_integer` (util.py:188-195). -/
def symbolsToInteger (symbols : Word) (base : Nat) : Nat :=
  symbols.foldl (fun integer s => integer * base + s) 0

/-- `counts` (util.py:161): occurrences of a positive length. -/
def lengthCount (lengths : List Nat) (l : Nat) : Nat := if l = 0 then 0 else lengths.count l

/-- `integers[l]` before the assignment loop (util.py:162-164). -/
def firstCode (lengths : List Nat) (base : Nat) : Nat → Nat
  | 0 => 0
  | l + 1 => (firstCode lengths base l + lengthCount lengths l) * base

/-- The assignment loop (util.py:172-175): `used` are the lengths already treated, so `integers[l]` has been
incremented once per earlier occurrence of `l`. -/
def assignCodewords (lengths : List Nat) (base : Nat) : (used rest : List Nat) → List Word
  | _, [] => []
  | used, l :: rest =>
    integerToSymbols (firstCode lengths base l + used.count l) base l ::
      assignCodewords lengths base (used ++ [l]) rest

/-- `canonical_code` (util.py:138-177); `none` is `ValueError` (also raised by `max` of an empty list).
Lengths are natural numbers, so the non-negativity check is built in. -/
def canonicalCode (lengths : List Nat) (base : Nat := 2) : Option (List Word) :=
  if base < 2 then none
  else if lengths = [] then none
  else
    let lmax := lengths.foldr max 0
    if firstCode lengths base lmax + lengthCount lengths lmax > base ^ lmax then none
    else some (assignCodewords lengths base [] lengths)

end Komm
