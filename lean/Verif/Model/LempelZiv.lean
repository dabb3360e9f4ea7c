import Verif.Model.LosslessUtil
/-
Model of /repo/src/komm/_lossless_coding/LempelZiv77Code.py, LempelZivSSCode.py, LempelZiv78Code.py and
LempelZivWelchCode.py.

The field widths `ceil(log(n, calY))` are computed by the library in floating point.  They are modelled by an
arbitrary function `width : Nat → Nat` (the target cardinality is fixed); the theorems say what they need of
it (`n ≤ calY ^ width n`: the field is wide enough for `n` values), which exact arithmetic guarantees.
`none` stands for a raised exception.
-/
namespace Komm

/-! ### LZW -/

/-- The `for symbol in input` loop of `encode` and the final `if word` (LempelZivWelchCode.py:64-77).  The
dictionary is the list of its words in order of insertion (`dictionary[word]` is the position).  Returns the
output symbols; `none` is a `KeyError`. -/
def lzwEncodeLoop (calY : Nat) (width : Nat → Nat) : (dictionary : List Word) → (word : Word) → (input : List Nat) →
    Option (List Nat)
  | dictionary, word, [] =>
    if word = [] then some []
    else
      match dictionary.idxOf? word with
      | none => none
      | some pointer => some (integerToSymbols pointer calY (width dictionary.length))
  | dictionary, word, symbol :: input =>
    if word ++ [symbol] ∈ dictionary then lzwEncodeLoop calY width dictionary (word ++ [symbol]) input
    else
      match dictionary.idxOf? word with
      | none => none
      | some pointer =>
        match lzwEncodeLoop calY width (dictionary ++ [word ++ [symbol]]) [symbol] input with
        | none => none
        | some output => some (integerToSymbols pointer calY (width dictionary.length) ++ output)

/-- `LempelZivWelchCode.encode` (LempelZivWelchCode.py:39-79). -/
def lzwEncode (calX calY : Nat) (width : Nat → Nat) (input : List Nat) : Option (List Nat) :=
  if ¬ (∀ s ∈ input, s < calX) then none
  else lzwEncodeLoop calY width ((List.range calX).map fun s => [s]) [] input

/-- The `while True` loop of `decode` (LempelZivWelchCode.py:116-126) on the remaining input; fuel bounds the
number of iterations (`none` when it is used up, i.e. when the loop does not end). -/
def lzwDecodeLoop (calY : Nat) (width : Nat → Nat) : (fuel : Nat) → (dictionary : List Word) → (old : Word) →
    (input : List Nat) → Option (List Nat)
  | 0, _, _, _ => none
  | fuel + 1, dictionary, old, input =>
    let k := width (dictionary.length + 1)
    if k > input.length then some []
    else
      let pointer := symbolsToInteger (input.take k) calY
      let word := (dictionary[pointer]?).getD (old ++ old.take 1)
      match lzwDecodeLoop calY width fuel (dictionary ++ [old ++ word.take 1]) word (input.drop k) with
      | none => none
      | some output => some (word ++ output)

/-- `LempelZivWelchCode.decode` (LempelZivWelchCode.py:81-129). -/
def lzwDecode (calX calY : Nat) (width : Nat → Nat) (input : List Nat) : Option (List Nat) :=
  if input.length = 0 then some []
  else
    let dictionary := (List.range calX).map fun s => [s]
    let k := width calX
    match dictionary[symbolsToInteger (input.take k) calY]? with
    | none => none
    | some old =>
      match lzwDecodeLoop calY width (input.length + 1) dictionary old (input.drop k) with
      | none => none
      | some output => some (old ++ output)

/-! ### LZ78 -/

/-- The loop of `source_to_tokens` (LempelZiv78Code.py:52-65).  A token is a pair (pointer, symbol), with symbol
`-1` for the last incomplete phrase. -/
def lz78TokensLoop : (dictionary : List Word) → (word : Word) → (source : List Nat) → Option (List (Nat × Int))
  | dictionary, word, [] =>
    if word = [] then some []
    else
      match dictionary.idxOf? word with
      | none => none
      | some p => some [(p, -1)]
  | dictionary, word, symbol :: source =>
    if word ++ [symbol] ∈ dictionary then lz78TokensLoop dictionary (word ++ [symbol]) source
    else
      match dictionary.idxOf? word with
      | none => none
      | some p =>
        match lz78TokensLoop (dictionary ++ [word ++ [symbol]]) [] source with
        | none => none
        | some tokens => some ((p, (symbol : Int)) :: tokens)

/-- `source_to_tokens` (LempelZiv78Code.py:42-65). -/
def lz78SourceToTokens (calX : Nat) (source : List Nat) : Option (List (Nat × Int)) :=
  if ¬ (∀ s ∈ source, s < calX) then none else lz78TokensLoop [[]] [] source

/-- The loop of `tokens_to_source` (LempelZiv78Code.py:76-84); `none` is a `KeyError`. -/
def lz78SourceLoop : (dictionary : List (List Int)) → (tokens : List (Nat × Int)) → Option (List Int)
  | _, [] => some []
  | dictionary, (p, x) :: tokens =>
    match dictionary[p]? with
    | none => none
    | some word =>
      match lz78SourceLoop (dictionary ++ [word ++ [x]]) tokens with
      | none => none
      | some source => some (word ++ (if 0 ≤ x then [x] else []) ++ source)

/-- `tokens_to_source` (LempelZiv78Code.py:67-84). -/
def lz78TokensToSource (tokens : List (Nat × Int)) : Option (List Int) := lz78SourceLoop [[]] tokens

/-- The loop of `tokens_to_target` (LempelZiv78Code.py:98-102), starting at index `i`. -/
def lz78TargetLoop (calY : Nat) (width : Nat → Nat) (M : Nat) : (i : Nat) → List (Nat × Int) → List Nat
  | _, [] => []
  | i, (p, x) :: tokens =>
    integerToSymbols p calY (width (i + 1)) ++
      (if 0 ≤ x then integerToSymbols x.toNat calY M else []) ++ lz78TargetLoop calY width M (i + 1) tokens

/-- `tokens_to_target` (LempelZiv78Code.py:86-103). -/
def lz78TokensToTarget (calX calY : Nat) (width : Nat → Nat) (tokens : List (Nat × Int)) : List Nat :=
  lz78TargetLoop calY width (width calX) 0 tokens

/-- The `while i < target.size` loop of `target_to_tokens` (LempelZiv78Code.py:119-128) on the remaining target;
`n` is `len(tokens)`. -/
def lz78ParseLoop (calY : Nat) (width : Nat → Nat) (M : Nat) : (fuel : Nat) → (n : Nat) → (target : List Nat) →
    Option (List (Nat × Int))
  | _, _, [] => some []
  | 0, _, _ :: _ => none
  | fuel + 1, n, a :: target =>
    let k := width (n + 1)
    let p := symbolsToInteger ((a :: target).take k) calY
    let rest := (a :: target).drop k
    let x : Int := if rest ≠ [] then (symbolsToInteger (rest.take M) calY : Int) else -1
    match lz78ParseLoop calY width M fuel (n + 1) (rest.drop M) with
    | none => none
    | some tokens => some ((p, x) :: tokens)

/-- `target_to_tokens` (LempelZiv78Code.py:105-129). -/
def lz78TargetToTokens (calX calY : Nat) (width : Nat → Nat) (target : List Nat) : Option (List (Nat × Int)) :=
  lz78ParseLoop calY width (width calX) target.length 0 target

/-- `LempelZiv78Code.encode` (LempelZiv78Code.py:131-152). -/
def lz78Encode (calX calY : Nat) (width : Nat → Nat) (input : List Nat) : Option (List Nat) :=
  (lz78SourceToTokens calX input).map (lz78TokensToTarget calX calY width)

/-- `LempelZiv78Code.decode` (LempelZiv78Code.py:154-175). -/
def lz78Decode (calX calY : Nat) (width : Nat → Nat) (input : List Nat) : Option (List Int) :=
  (lz78TargetToTokens calX calY width input).bind lz78TokensToSource

/-! ### LZ77 and LZSS -/

/-- `buffer[a:b]` for `0 ≤ a`, `0 ≤ b`. -/
def slice (buffer : List Nat) (a b : Nat) : List Nat := (buffer.take b).drop a

/-- Positions `p, p-1, …, 0`: the first at which `needle` occurs in `hay`. -/
def rfindFrom (hay needle : List Nat) : (p : Nat) → Option Nat
  | 0 => if (hay.take needle.length) = needle then some 0 else none
  | p + 1 => if ((hay.drop (p + 1)).take needle.length) = needle then some (p + 1) else rfindFrom hay needle p

/-- `bytes.rfind`: the last occurrence of `needle` in `hay` (`none` for `-1`). -/
def rfind (hay needle : List Nat) : Option Nat :=
  if needle.length ≤ hay.length then rfindFrom hay needle (hay.length - needle.length) else none

/-- The inner `while True` loop (LempelZiv77Code.py:115-119, LempelZivSSCode.py:131-135): returns `(p, l)`. -/
def lzMatch (buffer : List Nat) (ss i : Nat) : (l : Nat) → Option (Nat × Nat)
  | 0 => (rfind (slice buffer (i - ss) (i + 0 - 1)) (slice buffer i (i + 0))).map fun p => (p, 0)
  | l + 1 =>
    match rfind (slice buffer (i - ss) (i + (l + 1) - 1)) (slice buffer i (i + (l + 1))) with
    | some p => some (p, l + 1)
    | none => lzMatch buffer ss i l

/-- Parameters (LempelZiv77Code.py:36-67, LempelZivSSCode.py:37-68). -/
structure LZParams where
  searchSize : Nat
  lookaheadSize : Nat
  sourceCardinality : Nat
  targetCardinality : Nat
  searchBuffer : List Nat
deriving DecidableEq

/-- The constructor (LempelZiv77Code.py:45-67, LempelZivSSCode.py:46-68).  (The entries of `search_buffer` are
taken to be non-negative; negative ones make `bytes` raise.) -/
def LZParams.create (searchSize lookaheadSize sourceCardinality targetCardinality : Nat)
    (searchBuffer : Option (List Nat)) : Option LZParams :=
  if ¬ 1 ≤ searchSize then none
  else if ¬ 1 ≤ lookaheadSize then none
  else if ¬ 2 ≤ sourceCardinality then none
  else if ¬ 2 ≤ targetCardinality then none
  else
    match searchBuffer with
    | none => some ⟨searchSize, lookaheadSize, sourceCardinality, targetCardinality, List.replicate searchSize 0⟩
    | some b =>
      if b.length ≠ searchSize then none
      else some ⟨searchSize, lookaheadSize, sourceCardinality, targetCardinality, b⟩

/-- The outer loop of `source_to_tokens` (LempelZiv77Code.py:113-122). -/
def lz77Loop (c : LZParams) (buffer : List Nat) : (fuel : Nat) → (i : Nat) → Option (List (Nat × Nat × Nat))
  | fuel, i =>
    if ¬ i < buffer.length then some []
    else
      match fuel with
      | 0 => none
      | fuel + 1 =>
        match lzMatch buffer c.searchSize i (min c.lookaheadSize (buffer.length - i) - 1) with
        | none => none
        | some (p, l) =>
          match buffer[i + l]? with
          | none => none
          | some x =>
            match lz77Loop c buffer fuel (i + (l + 1)) with
            | none => none
            | some tokens => some ((p, l, x) :: tokens)

/-- `source_to_tokens` (LempelZiv77Code.py:92-124); `bytes` rejects symbols above 255. -/
def lz77SourceToTokens (c : LZParams) (source : List Nat) : Option (List (Nat × Nat × Nat)) :=
  if ¬ (∀ s ∈ source, s < c.sourceCardinality) then none
  else if ¬ (∀ s ∈ c.searchBuffer ++ source, s < 256) then none
  else lz77Loop c (c.searchBuffer ++ source) source.length c.searchSize

/-- `for j in range(l): buffer.append(buffer[start + j])` (LempelZiv77Code.py:144-145). -/
def copyFrom (start : Nat) : (l j : Nat) → (buffer : List Nat) → Option (List Nat)
  | 0, _, buffer => some buffer
  | l + 1, j, buffer =>
    match buffer[start + j]? with
    | none => none
    | some x => copyFrom start l (j + 1) (buffer ++ [x])

/-- The loop of `tokens_to_source` (LempelZiv77Code.py:142-146). -/
def lz77Expand (ss : Nat) : (tokens : List (Nat × Nat × Nat)) → (buffer : List Nat) → Option (List Nat)
  | [], buffer => some buffer
  | (p, l, x) :: tokens, buffer =>
    match copyFrom (buffer.length - ss + p) l 0 buffer with
    | none => none
    | some buffer => lz77Expand ss tokens (buffer ++ [x])

/-- `tokens_to_source` (LempelZiv77Code.py:126-148). -/
def lz77TokensToSource (c : LZParams) (tokens : List (Nat × Nat × Nat)) : Option (List Nat) :=
  (lz77Expand c.searchSize tokens c.searchBuffer).map (List.drop c.searchSize)

/-- `tokens_to_target` (LempelZiv77Code.py:150-171). -/
def lz77TokensToTarget (c : LZParams) (width : Nat → Nat) (tokens : List (Nat × Nat × Nat)) : List Nat :=
  tokens.flatMap fun (p, l, x) =>
    integerToSymbols p c.targetCardinality (width c.searchSize) ++
      (integerToSymbols l c.targetCardinality (width c.lookaheadSize) ++
        integerToSymbols x c.targetCardinality (width c.sourceCardinality))

/-- The loop of `target_to_tokens` (LempelZiv77Code.py:192-199). -/
def lz77ParseLoop (calY pw lw xw : Nat) : (fuel : Nat) → (target : List Nat) → Option (List (Nat × Nat × Nat))
  | fuel, target =>
    if ¬ pw + lw + xw ≤ target.length then some []
    else
      match fuel with
      | 0 => none
      | fuel + 1 =>
        let p := symbolsToInteger (target.take pw) calY
        let l := symbolsToInteger ((target.drop pw).take lw) calY
        let x := symbolsToInteger (((target.drop pw).drop lw).take xw) calY
        match lz77ParseLoop calY pw lw xw fuel (((target.drop pw).drop lw).drop xw) with
        | none => none
        | some tokens => some ((p, l, x) :: tokens)

/-- `target_to_tokens` (LempelZiv77Code.py:173-200). -/
def lz77TargetToTokens (c : LZParams) (width : Nat → Nat) (target : List Nat) : Option (List (Nat × Nat × Nat)) :=
  lz77ParseLoop c.targetCardinality (width c.searchSize) (width c.lookaheadSize) (width c.sourceCardinality)
    target.length target

/-- `LempelZiv77Code.encode` (LempelZiv77Code.py:202-224). -/
def lz77Encode (c : LZParams) (width : Nat → Nat) (input : List Nat) : Option (List Nat) :=
  (lz77SourceToTokens c input).map (lz77TokensToTarget c width)

/-- `LempelZiv77Code.decode` (LempelZiv77Code.py:226-248). -/
def lz77Decode (c : LZParams) (width : Nat → Nat) (input : List Nat) : Option (List Nat) :=
  (lz77TargetToTokens c width input).bind (lz77TokensToSource c)

/-- A token of LZSS (LempelZivSSCode.py:11): `(0, x)` or `(1, p, l)`. -/
inductive SSToken where
  | literal (x : Nat)
  | reference (p l : Nat)
deriving DecidableEq

/-- `break_even` (LempelZivSSCode.py:94-106), with exact division. -/
def lzssBreakEven (c : LZParams) (width : Nat → Nat) : Nat :=
  (1 + width c.searchSize + width c.lookaheadSize + width c.sourceCardinality) / (1 + width c.sourceCardinality)

/-- The outer loop of `source_to_tokens` (LempelZivSSCode.py:129-143). -/
def lzssLoop (c : LZParams) (breakEven : Nat) (buffer : List Nat) : (fuel : Nat) → (i : Nat) → Option (List SSToken)
  | fuel, i =>
    if ¬ i < buffer.length then some []
    else
      match fuel with
      | 0 => none
      | fuel + 1 =>
        match lzMatch buffer c.searchSize i (min c.lookaheadSize (buffer.length - i)) with
        | none => none
        | some (p, l) =>
          if l ≥ breakEven then
            match lzssLoop c breakEven buffer fuel (i + l) with
            | none => none
            | some tokens => some (.reference (c.searchSize - p) l :: tokens)
          else
            match buffer[i]? with
            | none => none
            | some x =>
              match lzssLoop c breakEven buffer fuel (i + 1) with
              | none => none
              | some tokens => some (.literal x :: tokens)

/-- `source_to_tokens` (LempelZivSSCode.py:108-146). -/
def lzssSourceToTokens (c : LZParams) (width : Nat → Nat) (source : List Nat) : Option (List SSToken) :=
  if ¬ (∀ s ∈ source, s < c.sourceCardinality) then none
  else if ¬ (∀ s ∈ c.searchBuffer ++ source, s < 256) then none
  else lzssLoop c (lzssBreakEven c width) (c.searchBuffer ++ source) source.length c.searchSize

/-- `for _ in range(l): buffer.append(buffer[-p])` (LempelZivSSCode.py:167-168); `buffer[-0]` is `buffer[0]`. -/
def copyBack (p : Nat) : (l : Nat) → (buffer : List Nat) → Option (List Nat)
  | 0, buffer => some buffer
  | l + 1, buffer =>
    if p > buffer.length then none
    else
      match buffer[if p = 0 then 0 else buffer.length - p]? with
      | none => none
      | some x => copyBack p l (buffer ++ [x])

/-- The loop of `tokens_to_source` (LempelZivSSCode.py:164-172). -/
def lzssExpand : (tokens : List SSToken) → (buffer : List Nat) → Option (List Nat)
  | [], buffer => some buffer
  | .reference p l :: tokens, buffer =>
    match copyBack p l buffer with
    | none => none
    | some buffer => lzssExpand tokens buffer
  | .literal x :: tokens, buffer => lzssExpand tokens (buffer ++ [x])

/-- `tokens_to_source` (LempelZivSSCode.py:148-175). -/
def lzssTokensToSource (c : LZParams) (tokens : List SSToken) : Option (List Nat) :=
  (lzssExpand tokens c.searchBuffer).map (List.drop c.searchSize)

/-- One token of `tokens_to_target` (LempelZivSSCode.py:194-202).  (`p - 1` and `l - 1` are truncated at 0; the
encoder only produces `p ≥ 1`, `l ≥ 1`.) -/
def lzssTokenSymbols (c : LZParams) (width : Nat → Nat) : SSToken → List Nat
  | .reference p l =>
    1 :: (integerToSymbols (p - 1) c.targetCardinality (width c.searchSize) ++
      integerToSymbols (l - 1) c.targetCardinality (width c.lookaheadSize))
  | .literal x => 0 :: integerToSymbols x c.targetCardinality (width c.sourceCardinality)

/-- `tokens_to_target` (LempelZivSSCode.py:177-206). -/
def lzssTokensToTarget (c : LZParams) (width : Nat → Nat) (tokens : List SSToken) : List Nat :=
  tokens.flatMap (lzssTokenSymbols c width)

/-- The loop of `target_to_tokens` (LempelZivSSCode.py:227-241). -/
def lzssParseLoop (calY pw lw xw : Nat) : (fuel : Nat) → (target : List Nat) → Option (List SSToken)
  | _, [] => some []
  | 0, _ :: _ => none
  | fuel + 1, flag :: target =>
    if flag = 1 then
      if pw + lw ≤ target.length then
        let p := symbolsToInteger (target.take pw) calY + 1
        let l := symbolsToInteger ((target.drop pw).take lw) calY + 1
        match lzssParseLoop calY pw lw xw fuel ((target.drop pw).drop lw) with
        | none => none
        | some tokens => some (.reference p l :: tokens)
      else lzssParseLoop calY pw lw xw fuel target
    else if xw ≤ target.length then
      let x := symbolsToInteger (target.take xw) calY
      match lzssParseLoop calY pw lw xw fuel (target.drop xw) with
      | none => none
      | some tokens => some (.literal x :: tokens)
    else lzssParseLoop calY pw lw xw fuel target

/-- `target_to_tokens` (LempelZivSSCode.py:208-243). -/
def lzssTargetToTokens (c : LZParams) (width : Nat → Nat) (target : List Nat) : Option (List SSToken) :=
  lzssParseLoop c.targetCardinality (width c.searchSize) (width c.lookaheadSize) (width c.sourceCardinality)
    target.length target

/-- `LempelZivSSCode.encode` (LempelZivSSCode.py:245-266). -/
def lzssEncode (c : LZParams) (width : Nat → Nat) (input : List Nat) : Option (List Nat) :=
  (lzssSourceToTokens c width input).map (lzssTokensToTarget c width)

/-- `LempelZivSSCode.decode` (LempelZivSSCode.py:268-289). -/
def lzssDecode (c : LZParams) (width : Nat → Nat) (input : List Nat) : Option (List Nat) :=
  (lzssTargetToTokens c width input).bind (lzssTokensToSource c)

end Komm
