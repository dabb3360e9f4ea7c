import Verif.Model.LosslessUtil
import Mathlib.Algebra.Order.Field.Rat
/-
Model of /repo/src/komm/_lossless_coding/FixedToVariableCode.py and VariableToFixedCode.py.
A Python dict is an association list with distinct keys in insertion order.
-/
namespace Komm

/-- `product(range(q), repeat=k)`, lexicographic order. -/
def allWords (q : Nat) : Nat → List Word
  | 0 => [[]]
  | k + 1 => (List.range q).flatMap fun a => (allWords q k).map (a :: ·)

/-- `d[key] = value`: replaces the value in place or appends a new item. -/
def dictInsert (d : List (Word × Word)) (p : Word × Word) : List (Word × Word) :=
  if d.any fun e => e.1 == p.1 then d.map fun e => if e.1 = p.1 then p else e else d ++ [p]

/-- `dict(pairs)`: later pairs override earlier ones. -/
def dictOfPairs (pairs : List (Word × Word)) : List (Word × Word) := pairs.foldl dictInsert []

/-- `{y: x for x, y in d.items()}` (FixedToVariableCode.py:304-306, VariableToFixedCode.py:235-237). -/
def dictInverse (d : List (Word × Word)) : List (Word × Word) := dictOfPairs (d.map fun e => (e.2, e.1))

/-- `FixedToVariableCode` (FixedToVariableCode.py:29-40): the stored attributes. -/
structure FVCode where
  sourceCardinality : Nat
  targetCardinality : Nat
  sourceBlockSize : Nat
  encMapping : List (Word × Word)
deriving DecidableEq

namespace FVCode

/-- `FixedToVariableCode.__init__`/`__post_init__` (FixedToVariableCode.py:29-55); `none` is `ValueError`.
Note that empty codewords are accepted here. -/
def create (calX calY k : Nat) (enc : List (Word × Word)) : Option FVCode :=
  if calX < 2 then none
  else if calY < 2 then none
  else if k < 1 then none
  else if ¬ (enc.map Prod.fst).toFinset = (allWords calX k).toFinset then none
  else if ¬ (∀ e ∈ enc, ∀ x ∈ e.2, x < calY) then none
  else some ⟨calX, calY, k, enc⟩

/-- `codewords` (FixedToVariableCode.py:308-322). -/
def codewords (c : FVCode) : List Word := c.encMapping.map Prod.snd

/-- `from_codewords` (FixedToVariableCode.py:105-162). -/
def fromCodewords (codewords : List Word) (sourceCardinality : Option Nat := none) : Option FVCode :=
  if codewords.any fun w => w.length = 0 then none
  else
    let calX := sourceCardinality.getD codewords.length
    if calX < 2 then none
    else if codewords = [] then none -- `max()` of an empty sequence
    else
      let calY := (codewords.map fun w => w.foldr max 0).foldr max 0 + 1
      match inferBlockSize codewords.length calX with
      | none => none
      | some k => create calX calY k (dictOfPairs ((allWords calX k).zip codewords))

/-- `from_lengths` (FixedToVariableCode.py:164-240). -/
def fromLengths (lengths : List Nat) (sourceCardinality : Option Nat := none) (calY : Nat := 2) :
    Option FVCode :=
  let calX := sourceCardinality.getD lengths.length
  if calX < 2 then none
  else if calY < 2 then none
  else
    match inferBlockSize lengths.length calX with
    | none => none
    | some k =>
      match canonicalCode lengths calY with
      | none => none
      | some codewords =>
        if codewords.any fun w => w.length = 0 then none
        else create calX calY k (dictOfPairs ((allWords calX k).zip codewords))

/-- `is_uniquely_decodable` (FixedToVariableCode.py:340-358). -/
def isUniquelyDecodable (c : FVCode) : Option Bool := isUniquelyParsable c.codewords

/-- `is_prefix_free` (FixedToVariableCode.py:360-378). -/
def prefixFree (c : FVCode) : Bool := isPrefixFree c.codewords

/-- `encode` (FixedToVariableCode.py:478-481). -/
def encode (c : FVCode) (input : Word) : Option Word :=
  if c.isUniquelyDecodable ≠ some true then none
  else parseFixedLength input c.encMapping c.sourceBlockSize

/-- `decode` (FixedToVariableCode.py:518-525). -/
def decode (c : FVCode) (input : Word) : Option Word :=
  if c.isUniquelyDecodable ≠ some true then none
  else if !c.prefixFree then none
  else parsePrefixFree input (dictInverse c.encMapping) false

/-- `[np.prod(ps) for ps in product(pmf, repeat=k)]` (FixedToVariableCode.py:437), over the rationals. -/
def blockProbabilities (pmf : List ℚ) : (k : Nat) → List ℚ
  | 0 => [1]
  | k + 1 => pmf.flatMap fun p => (blockProbabilities pmf k).map (p * ·)

/-- `rate` (FixedToVariableCode.py:415-439), in exact arithmetic; `none` when `np.dot` rejects the shapes. -/
def rate (c : FVCode) (pmf : List ℚ) : Option ℚ :=
  let probabilities := blockProbabilities pmf c.sourceBlockSize
  let lengths := c.codewords.map List.length
  if lengths.length ≠ probabilities.length then none
  else some ((List.zipWith (fun (l : Nat) (p : ℚ) => l * p) lengths probabilities).sum / c.sourceBlockSize)

end FVCode

/-- `VariableToFixedCode` (VariableToFixedCode.py:28-39): the stored attributes. -/
structure VFCode where
  targetCardinality : Nat
  sourceCardinality : Nat
  targetBlockSize : Nat
  decMapping : List (Word × Word)
deriving DecidableEq

namespace VFCode

/-- `VariableToFixedCode.__init__`/`__post_init__` (VariableToFixedCode.py:28-56). -/
def create (calY calX n : Nat) (dec : List (Word × Word)) : Option VFCode :=
  if calY < 2 then none
  else if calX < 2 then none
  else if n < 1 then none
  else if ¬ (dec.map Prod.fst).toFinset ⊆ (allWords calY n).toFinset then none
  else if ¬ (∀ e ∈ dec, (∀ x ∈ e.2, x < calX) ∧ e.2.length > 0) then none
  else some ⟨calY, calX, n, dec⟩

/-- `sourcewords` (VariableToFixedCode.py:239-253). -/
def sourcewords (c : VFCode) : List Word := c.decMapping.map Prod.snd

/-- `is_fully_covering` (VariableToFixedCode.py:267-289). -/
def fullyCovering (c : VFCode) : Bool := isFullyCovering c.sourcewords c.sourceCardinality

/-- `is_uniquely_encodable` (VariableToFixedCode.py:291-313). -/
def isUniquelyEncodable (c : VFCode) : Option Bool := isUniquelyParsable c.sourcewords

/-- `is_prefix_free` (VariableToFixedCode.py:315-337). -/
def prefixFree (c : VFCode) : Bool := isPrefixFree c.sourcewords

/-- `encode` (VariableToFixedCode.py:409-418). -/
def encode (c : VFCode) (input : Word) : Option Word :=
  if !c.fullyCovering then none
  else if c.isUniquelyEncodable ≠ some true then none
  else if !c.prefixFree then none
  else parsePrefixFree input (dictInverse c.decMapping) true

/-- `decode` (VariableToFixedCode.py:461-466). -/
def decode (c : VFCode) (input : Word) : Option Word :=
  if !c.fullyCovering then none
  else if c.isUniquelyEncodable ≠ some true then none
  else parseFixedLength input c.decMapping c.targetBlockSize

end VFCode
end Komm
