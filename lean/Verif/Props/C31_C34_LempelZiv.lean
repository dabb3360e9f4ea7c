import Verif.Lemmas.LempelZiv2
import Mathlib.Data.Nat.Log

/-! C31–C34: the Lempel–Ziv codes.

`width n` is the number of target symbols the library uses for a field with `n` values; the library computes it
as `ceil(log(n, calY))` in floating point.  The theorems hold for every `width` that is wide enough
(`n ≤ calY ^ width n`); `Nat.clog calY` is the exact value and is one such function. -/
namespace Komm

theorem clog_sufficient {calY : Nat} (h : 2 ≤ calY) : ∀ n, 1 ≤ n → n ≤ calY ^ Nat.clog calY n :=
  fun n _ => Nat.le_pow_clog (by omega) n

theorem create_facts {ss ls calX calY : Nat} {sb : Option (List Nat)} {c : LZParams}
    (h : LZParams.create ss ls calX calY sb = some c) :
    1 ≤ c.searchSize ∧ 1 ≤ c.lookaheadSize ∧ 2 ≤ c.sourceCardinality ∧ 2 ≤ c.targetCardinality ∧
      c.searchBuffer.length = c.searchSize ∧ c.searchSize = ss ∧ c.lookaheadSize = ls ∧
      c.sourceCardinality = calX ∧ c.targetCardinality = calY ∧
      c.searchBuffer = sb.getD (List.replicate ss 0) := by
  unfold LZParams.create at h
  split at h; · exact absurd h (by simp)
  split at h; · exact absurd h (by simp)
  split at h; · exact absurd h (by simp)
  split at h; · exact absurd h (by simp)
  cases sb with
  | none => cases h; simp; omega
  | some b =>
    simp only at h
    split at h
    · exact absurd h (by simp)
    · cases h; simp at *; omega

/-! ### C31 -/

/-- LZ77, token level and target level, for every accepted parameter set (with a search buffer of bytes) and
every source sequence over the alphabet (symbols below 256): the encoder terminates, every token is in range,
the tokens expand to the source, and the target symbols parse back to the tokens. -/
theorem C31_lz77_layers {ss ls calX calY : Nat} {sb : Option (List Nat)} {c : LZParams}
    (hc : LZParams.create ss ls calX calY sb = some c) (hsb : ∀ b ∈ c.searchBuffer, b < 256)
    (width : Nat → Nat) (hw : ∀ n, 1 ≤ n → n ≤ calY ^ width n)
    (source : List Nat) (h1 : ∀ s ∈ source, s < calX) (h2 : ∀ s ∈ source, s < 256) :
    ∃ tokens, lz77SourceToTokens c source = some tokens ∧
      (∀ t ∈ tokens, t.1 < ss ∧ t.2.1 < ls ∧ t.2.2 < calX) ∧
      lz77TokensToSource c tokens = some source ∧
      lz77TargetToTokens c width (lz77TokensToTarget c width tokens) = some tokens := by
  obtain ⟨f1, f2, f3, f4, f5, rfl, rfl, rfl, rfl, -⟩ := create_facts hc
  obtain ⟨tokens, t1, t2, t3⟩ := lz77_loop c (c.searchBuffer ++ source) f1 f2 (by
    intro j x hj hx
    rw [List.getElem?_append_right (by omega)] at hx
    exact h1 x (List.mem_of_getElem? hx)) source.length c.searchSize le_rfl (by simp; omega) (by simp; omega)
  refine ⟨tokens, ?_, t2, ?_, ?_⟩
  · unfold lz77SourceToTokens
    rw [if_neg (by rw [not_not]; exact h1), if_neg, t1]
    rw [not_not]
    intro s hs
    rcases List.mem_append.mp hs with h | h
    · exact hsb s h
    · exact h2 s h
  · unfold lz77TokensToSource
    rw [List.take_left' f5] at t3
    rw [t3, Option.map_some, List.drop_left' f5]
  · unfold lz77TargetToTokens lz77TokensToTarget
    refine lz77_parse _ _ _ _ tokens (Sufficient.pos hw f3) _ ?_ le_rfl
    intro t ht
    obtain ⟨a1, a2, a3⟩ := t2 t ht
    exact ⟨lt_of_lt_of_le a1 (hw _ f1), lt_of_lt_of_le a2 (hw _ f2), lt_of_lt_of_le a3 (hw _ (by omega))⟩

/-- `decode(encode(x)) == x`. -/
theorem C31_lz77_roundtrip {ss ls calX calY : Nat} {sb : Option (List Nat)} {c : LZParams}
    (hc : LZParams.create ss ls calX calY sb = some c) (hsb : ∀ b ∈ c.searchBuffer, b < 256)
    (width : Nat → Nat) (hw : ∀ n, 1 ≤ n → n ≤ calY ^ width n)
    (source : List Nat) (h1 : ∀ s ∈ source, s < calX) (h2 : ∀ s ∈ source, s < 256) :
    ∃ target, lz77Encode c width source = some target ∧ lz77Decode c width target = some source := by
  obtain ⟨tokens, t1, -, t3, t4⟩ := C31_lz77_layers hc hsb width hw source h1 h2
  exact ⟨_, by rw [lz77Encode, t1, Option.map_some], by rw [lz77Decode, t4, Option.bind_some, t3]⟩

/-- Sequences with symbols outside the alphabet are rejected, and so are symbols above 255 (also when the
alphabet has them). -/
theorem C31_lz77_rejects (c : LZParams) (width : Nat → Nat) (source : List Nat)
    (h : ∃ s ∈ source, c.sourceCardinality ≤ s ∨ 256 ≤ s) : lz77Encode c width source = none := by
  obtain ⟨s, hs, h⟩ := h
  unfold lz77Encode lz77SourceToTokens
  rw [Option.map_eq_none_iff]
  split
  · rfl
  · rename_i h1
    rw [not_not] at h1
    have := h1 s hs
    rw [if_pos]
    intro hall
    have := hall s (by simp [hs])
    omega

/-- Non-vacuity (documented example of LempelZiv77Code.py). -/
example : ∃ c, LZParams.create 9 9 3 3 none = some c ∧
    lz77SourceToTokens c [0, 0, 1, 0, 1, 0, 2, 1, 0, 2, 1, 0, 2, 1, 2] = some [(8, 2, 1), (7, 3, 2), (6, 7, 2)] ∧
    lz77Encode c (Nat.clog 3) [0, 0, 1, 0, 1, 0, 2, 1, 0, 2, 1, 0, 2, 1, 2] =
      some [2, 2, 0, 2, 1, 2, 1, 1, 0, 2, 2, 0, 2, 1, 2] ∧
    lz77Decode c (Nat.clog 3) [2, 2, 0, 2, 1, 2, 1, 1, 0, 2, 2, 0, 2, 1, 2] =
      some [0, 0, 1, 0, 1, 0, 2, 1, 0, 2, 1, 0, 2, 1, 2] :=
  ⟨⟨9, 9, 3, 3, List.replicate 9 0⟩, by decide +kernel, by decide +kernel, by decide +kernel, by decide +kernel⟩

/-! ### C32 -/

/-- LZSS, token level and target level. -/
theorem C32_lzss_layers {ss ls calX calY : Nat} {sb : Option (List Nat)} {c : LZParams}
    (hc : LZParams.create ss ls calX calY sb = some c) (hsb : ∀ b ∈ c.searchBuffer, b < 256)
    (width : Nat → Nat) (hw : ∀ n, 1 ≤ n → n ≤ calY ^ width n)
    (source : List Nat) (h1 : ∀ s ∈ source, s < calX) (h2 : ∀ s ∈ source, s < 256) :
    ∃ tokens, lzssSourceToTokens c width source = some tokens ∧
      lzssTokensToSource c tokens = some source ∧
      lzssTargetToTokens c width (lzssTokensToTarget c width tokens) = some tokens ∧
      (lzssTokensToTarget c width tokens).length ≤ source.length * (1 + width calX) := by
  obtain ⟨f1, f2, f3, f4, f5, rfl, rfl, rfl, rfl, -⟩ := create_facts hc
  have hbe : 1 ≤ lzssBreakEven c width := by
    unfold lzssBreakEven
    rw [Nat.le_div_iff_mul_le (by omega)]; omega
  obtain ⟨tokens, t1, t2, tc, t3⟩ := lzss_loop c (lzssBreakEven c width) (c.searchBuffer ++ source) hbe f1 (by
    intro j x hj hx
    rw [List.getElem?_append_right (by omega)] at hx
    exact h1 x (List.mem_of_getElem? hx)) source.length c.searchSize le_rfl (by simp; omega) (by simp; omega)
  refine ⟨tokens, ?_, ?_, ?_, ?_⟩
  · unfold lzssSourceToTokens
    rw [if_neg (by rw [not_not]; exact h1), if_neg, t1]
    rw [not_not]
    intro s hs
    rcases List.mem_append.mp hs with h | h
    · exact hsb s h
    · exact h2 s h
  · unfold lzssTokensToSource
    rw [List.take_left' f5] at t3
    rw [t3, Option.map_some, List.drop_left' f5]
  · unfold lzssTargetToTokens lzssTokensToTarget
    exact lzss_parse c width hw f1 f2 tokens _ (fun t ht => (t2 t ht).1) le_rfl
  · have hsum : source.length = (tokens.map SSToken.count).sum := by rw [tc]; simp; omega
    rw [hsum]
    unfold lzssTokensToTarget
    clear t1 t3 tc hsum
    induction tokens with
    | nil => simp
    | cons t tokens ih =>
      have ih := ih (fun x hx => t2 x (by simp [hx]))
      rw [List.flatMap_cons, List.length_append, List.map_cons, List.sum_cons, Nat.add_mul]
      refine Nat.add_le_add ?_ ih
      have ht := t2 t (by simp)
      cases t with
      | literal x => simp [lzssTokenSymbols, SSToken.count, integerToSymbols_length]; omega
      | reference p l =>
        simp only [lzssTokenSymbols, SSToken.count, List.length_cons, List.length_append, integerToSymbols_length]
        have hl : lzssBreakEven c width ≤ l := ht.2
        unfold lzssBreakEven at hl
        have := Nat.lt_mul_of_div_lt (Nat.lt_succ_of_le hl) (by omega : 0 < 1 + width c.sourceCardinality)
        rw [Nat.succ_mul] at this
        omega

/-- `decode(encode(x)) == x`, and the encoding is never longer than one flag and one symbol field per source
symbol. -/
theorem C32_lzss_roundtrip {ss ls calX calY : Nat} {sb : Option (List Nat)} {c : LZParams}
    (hc : LZParams.create ss ls calX calY sb = some c) (hsb : ∀ b ∈ c.searchBuffer, b < 256)
    (width : Nat → Nat) (hw : ∀ n, 1 ≤ n → n ≤ calY ^ width n)
    (source : List Nat) (h1 : ∀ s ∈ source, s < calX) (h2 : ∀ s ∈ source, s < 256) :
    ∃ target, lzssEncode c width source = some target ∧ lzssDecode c width target = some source ∧
      target.length ≤ source.length * (1 + width calX) := by
  obtain ⟨tokens, t1, t3, t4, t5⟩ := C32_lzss_layers hc hsb width hw source h1 h2
  exact ⟨_, by rw [lzssEncode, t1, Option.map_some], by rw [lzssDecode, t4, Option.bind_some, t3], t5⟩

theorem C32_lzss_rejects (c : LZParams) (width : Nat → Nat) (source : List Nat)
    (h : ∃ s ∈ source, c.sourceCardinality ≤ s ∨ 256 ≤ s) : lzssEncode c width source = none := by
  obtain ⟨s, hs, h⟩ := h
  unfold lzssEncode lzssSourceToTokens
  rw [Option.map_eq_none_iff]
  split
  · rfl
  · rename_i h1
    rw [not_not] at h1
    have := h1 s hs
    rw [if_pos]
    intro hall
    have := hall s (by simp [hs])
    omega

/-- Non-vacuity: references and literals both occur. -/
example : ∃ c, LZParams.create 8 8 2 2 none = some c ∧
    lzssSourceToTokens c (Nat.clog 2) [1,0,1,1,0,1,1,0,1] = some [.literal 1, .literal 0, .literal 1, .reference 3 6] ∧
    lzssDecode c (Nat.clog 2) ((lzssEncode c (Nat.clog 2) [1,0,1,1,0,1,1,0,1]).getD []) =
      some [1,0,1,1,0,1,1,0,1] :=
  ⟨⟨8, 8, 2, 2, List.replicate 8 0⟩, by decide +kernel, by decide +kernel, by decide +kernel⟩

/-- The documented example of LempelZivSSCode.py. -/
example : ∃ c, LZParams.create 8 4 4 2 none = some c ∧
    lzssSourceToTokens c (Nat.clog 2) [3, 0, 0, 0, 3, 2, 0, 3] =
      some [.literal 3, .reference 4 4, .literal 2, .reference 3 2] ∧
    lzssEncode c (Nat.clog 2) [3, 0, 0, 0, 3, 2, 0, 3] =
      some [0, 1, 1, 1, 0, 1, 1, 1, 1, 0, 1, 0, 1, 0, 1, 0, 0, 1] :=
  ⟨⟨8, 4, 4, 2, List.replicate 8 0⟩, by decide +kernel, by decide +kernel, by decide +kernel⟩

/-! ### C33 -/

/-- LZ78, token level and target level, for every source sequence over the alphabet. -/
theorem C33_lz78_layers {calX calY : Nat} (hX : 2 ≤ calX) (width : Nat → Nat)
    (hw : ∀ n, 1 ≤ n → n ≤ calY ^ width n) (source : List Nat) (h1 : ∀ s ∈ source, s < calX) :
    ∃ tokens, lz78SourceToTokens calX source = some tokens ∧
      lz78TokensToSource tokens = some (source.map fun n : Nat => (n : Int)) ∧
      lz78TargetToTokens calX calY width (lz78TokensToTarget calX calY width tokens) = some tokens := by
  obtain ⟨tokens, t1, t2, t3⟩ := lz78_tokens calX source [[]] [] h1 (by simp) (by simp)
  refine ⟨tokens, ?_, t3, ?_⟩
  · unfold lz78SourceToTokens
    rw [if_neg (by rw [not_not]; exact h1), t1]
  · exact lz78_parse hX hw tokens 0 _ t2 le_rfl

/-- `decode(encode(x)) == x`. -/
theorem C33_lz78_roundtrip {calX calY : Nat} (hX : 2 ≤ calX) (width : Nat → Nat)
    (hw : ∀ n, 1 ≤ n → n ≤ calY ^ width n) (source : List Nat) (h1 : ∀ s ∈ source, s < calX) :
    ∃ target, lz78Encode calX calY width source = some target ∧
      lz78Decode calX calY width target = some (source.map fun n : Nat => (n : Int)) := by
  obtain ⟨tokens, t1, t3, t4⟩ := C33_lz78_layers hX width hw source h1
  exact ⟨_, by rw [lz78Encode, t1, Option.map_some], by rw [lz78Decode, t4, Option.bind_some, t3]⟩

theorem C33_lz78_rejects {calX calY : Nat} (width : Nat → Nat) (source : List Nat)
    (h : ∃ s ∈ source, calX ≤ s) : lz78Encode calX calY width source = none := by
  obtain ⟨s, hs, h⟩ := h
  unfold lz78Encode lz78SourceToTokens
  rw [Option.map_eq_none_iff, if_pos]
  intro hall
  exact absurd (hall s hs) (by omega)

/-- Non-vacuity: the documented examples of LempelZiv78Code.py, and an incomplete last phrase. -/
example : lz78SourceToTokens 2 [1, 0, 1, 1, 0, 1, 0, 1, 0, 0, 0] =
      some [(0, 1), (0, 0), (1, 1), (2, 1), (4, 0), (2, 0)] ∧
    lz78Encode 2 2 (Nat.clog 2) [1, 0, 1, 1, 0, 1, 0, 1, 0, 0, 0] =
      some [1, 0, 0, 0, 1, 1, 1, 0, 1, 1, 0, 0, 0, 0, 1, 0, 0] ∧
    lz78Encode 2 8 (Nat.clog 8) (List.replicate 15 0) = some [0, 1, 0, 2, 0, 3, 0, 4, 0] ∧
    lz78SourceToTokens 2 [1, 0, 1, 1, 0, 1, 0, 1] = some [(0, 1), (0, 0), (1, 1), (2, 1), (4, -1)] := by
  decide +kernel

/-! ### C34 -/

/-- LZW: `decode(encode(x)) == x` for every source sequence over the alphabet. -/
theorem C34_lzw_roundtrip {calX calY : Nat} (hX : 2 ≤ calX) (width : Nat → Nat)
    (hw : ∀ n, 1 ≤ n → n ≤ calY ^ width n) (source : List Nat) (h1 : ∀ s ∈ source, s < calX) :
    ∃ target, lzwEncode calX calY width source = some target ∧ lzwDecode calX calY width target = some source :=
  lzw_roundtrip hX hw source h1

theorem C34_lzw_rejects {calX calY : Nat} (width : Nat → Nat) (source : List Nat)
    (h : ∃ s ∈ source, calX ≤ s) : lzwEncode calX calY width source = none := by
  obtain ⟨s, hs, h⟩ := h
  unfold lzwEncode
  rw [if_pos]
  intro hall
  exact absurd (hall s hs) (by omega)

/-- Non-vacuity: a sequence for which the decoder meets a pointer that is not yet in its dictionary. -/
example : lzwEncode 2 2 (Nat.clog 2) [0, 0, 0, 0, 0, 0, 0] = some [0, 1, 0, 1, 1, 0, 0, 0] ∧
    lzwDecode 2 2 (Nat.clog 2) [0, 1, 0, 1, 1, 0, 0, 0] = some [0, 0, 0, 0, 0, 0, 0] := by decide +kernel

/-- The documented examples of LempelZivWelchCode.py. -/
example : lzwEncode 2 2 (Nat.clog 2) (List.replicate 15 0) = some [0, 1, 0, 1, 1, 1, 0, 0, 1, 0, 1] ∧
    lzwEncode 2 8 (Nat.clog 8) (List.replicate 15 0) = some [0, 2, 3, 4, 5] ∧
    lzwDecode 2 8 (Nat.clog 8) [0, 2, 3, 4, 5] = some (List.replicate 15 0) := by decide +kernel

/-- The hypothesis on the widths cannot be dropped: with fields that are too narrow (`width 3 = 1` binary
symbol) the round trip fails. -/
theorem C34_width_needed : ∃ width : Nat → Nat,
    lzwDecode 2 2 width ((lzwEncode 2 2 width [0, 1, 0, 1]).getD []) ≠ some [0, 1, 0, 1] :=
  ⟨fun _ => 1, by decide +kernel⟩

end Komm
