import Verif.Lemmas.Canonical

/-! C20–C25: word sets, canonical codes, fixed-to-variable and variable-to-fixed codes. -/
namespace Komm

/-! ### C20 -/

/-- `is_uniquely_parsable` terminates and decides unique parsability of a list of non-empty words (repeated
words count as ambiguous). -/
theorem C20_is_uniquely_parsable (words : List Word) (hne : ∀ w ∈ words, w ≠ []) :
    ∃ b, isUniquelyParsable words = some b ∧ (b = true ↔ words.Nodup ∧ UniquelyParsable words) := by
  obtain ⟨b, h1, h2⟩ := isUniquelyParsable_spec words
  have : (words.filter fun w => w.length > 0) = words :=
    List.filter_eq_self.mpr (fun w hw => by simpa using List.length_pos_iff.mpr (hne w hw))
  refine ⟨b, h1, ?_⟩
  rw [h2, this]

/-- Without the assumption: empty words are ignored. -/
theorem C20_empty_words_ignored (words : List Word) :
    ∃ b, isUniquelyParsable words = some b ∧
      (b = true ↔ (words.filter fun w => w.length > 0).Nodup ∧
        UniquelyParsable (words.filter fun w => w.length > 0)) :=
  isUniquelyParsable_spec words

/-- A prefix-free code is uniquely parsable. -/
theorem C20_prefix_free_parsable (words : List Word) (hne : ∀ w ∈ words, w ≠ [])
    (h : isPrefixFree words = true) : isUniquelyParsable words = some true :=
  isUniquelyParsable_of_prefixFree ((isPrefixFree_iff _).mp h) hne

/-- Non-vacuity: a uniquely parsable code that is not prefix-free, and an ambiguous one. -/
example : isUniquelyParsable [[0], [0, 1], [1, 1]] = some true ∧ isPrefixFree [[0], [0, 1], [1, 1]] = false ∧
    isUniquelyParsable [[0], [0, 1], [1, 0]] = some false := by decide +kernel

/-! ### C21 -/

/-- `is_prefix_free` decides prefix-freeness (empty words are ignored, as in the code). -/
theorem C21_is_prefix_free (words : List Word) : isPrefixFree words = true ↔ PrefixFree words :=
  isPrefixFree_iff words

/-- `is_prefix_of` decides the prefix relation. -/
theorem C21_is_prefix_of (w1 w2 : Word) : isPrefixOf w1 w2 = true ↔ ∃ t, w1 ++ t = w2 := isPrefixOf_iff w1 w2

example : isPrefixFree [[1, 0], [0], [1, 1]] = true ∧ isPrefixFree [[1, 0], [0], [1, 0, 1]] = false ∧
    isPrefixFree [[1], [1]] = false := by decide +kernel

/-! ### C22 -/

/-- `is_fully_covering` decides whether every infinite sequence starts with a word. -/
theorem C22_is_fully_covering (words : List Word) (cardinality : Nat) :
    isFullyCovering words cardinality = true ↔ FullyCovering words cardinality :=
  isFullyCovering_iff words cardinality

example : isFullyCovering [[0, 0], [1], [0, 1]] 2 = true ∧ isFullyCovering [[0, 0], [1]] 2 = false ∧
    isFullyCovering [[0], [1]] 3 = false := by decide +kernel

/-! ### C23 -/

/-- `canonical_code(lengths, base)` succeeds exactly when the Kraft inequality holds. -/
theorem C23_kraft (lengths : List Nat) (b : Nat) (hb : 2 ≤ b) :
    (∃ cs, canonicalCode lengths b = some cs) ↔ lengths ≠ [] ∧ kraftSum lengths b ≤ 1 :=
  canonicalCode_isSome_iff lengths b hb

/-- The words of `canonical_code` have the requested lengths, use symbols below `base`, and are
prefix-free. -/
theorem C23_canonical {lengths : List Nat} {b : Nat} {cs : List Word}
    (h : canonicalCode lengths b = some cs) :
    cs.map List.length = lengths ∧ (∀ w ∈ cs, ∀ a ∈ w, a < b) ∧ PrefixFree cs :=
  (canonicalCode_spec h).2.2.2

/-- `from_lengths`: the constructor succeeds exactly when all lengths are positive, satisfy the Kraft
inequality, and their number is a positive power of the source cardinality; the resulting code is prefix-free
(hence uniquely decodable) and its codewords have the given lengths in source-block order. -/
theorem C23_from_lengths (lengths : List Nat) (sc : Option Nat) (calY : Nat) :
    ((∃ c, FVCode.fromLengths lengths sc calY = some c) ↔
      2 ≤ sc.getD lengths.length ∧ 2 ≤ calY ∧ (∃ k, 1 ≤ k ∧ lengths.length = (sc.getD lengths.length) ^ k) ∧
        (∀ l ∈ lengths, l ≠ 0) ∧ kraftSum lengths calY ≤ 1) ∧
    (∀ c, FVCode.fromLengths lengths sc calY = some c →
      c.codewords.map List.length = lengths ∧ PrefixFree c.codewords ∧ UniquelyParsable c.codewords ∧
      c.encMapping.map Prod.fst = allWords (sc.getD lengths.length) c.sourceBlockSize ∧
      c.sourceCardinality = sc.getD lengths.length ∧ c.targetCardinality = calY) := by
  constructor
  · constructor
    · rintro ⟨c, h⟩
      obtain ⟨h1, h2, k, cs, h3, h4, h5, h6, _⟩ := (fromLengths_iff _ _ _ _).mp h
      exact ⟨h1, h2, ⟨k, h3, h4⟩, h6, (canonicalCode_spec h5).2.2.1⟩
    · rintro ⟨h1, h2, ⟨k, h3, h4⟩, h5, h6⟩
      have hne : lengths ≠ [] := by
        rintro rfl
        simp only [List.length_nil] at h4
        have : 0 < (sc.getD 0) ^ k := Nat.pow_pos (by simp at h1; omega)
        omega
      obtain ⟨cs, hcs⟩ := (canonicalCode_isSome_iff lengths calY h2).mpr ⟨hne, h6⟩
      exact ⟨_, (fromLengths_iff _ _ _ _).mpr ⟨h1, h2, k, cs, h3, h4, hcs, h5, rfl⟩⟩
  · intro c h
    obtain ⟨h1, h2, k, cs, h3, h4, h5, h6, rfl⟩ := (fromLengths_iff _ _ _ _).mp h
    obtain ⟨_, _, _, hlen, hlt, hpf⟩ := canonicalCode_spec h5
    have hlen2 : (allWords (sc.getD lengths.length) k).length = cs.length := by
      rw [allWords_length, ← h4, ← hlen, List.length_map]
    have hcw : FVCode.codewords ⟨sc.getD lengths.length, calY, k, (allWords (sc.getD lengths.length) k).zip cs⟩ = cs :=
      List.map_snd_zip hlen2.ge
    have hne : ∀ w ∈ cs, w ≠ [] := by
      intro w hw h0
      apply h6 w.length (by rw [← hlen]; exact List.mem_map_of_mem hw)
      rw [h0]; rfl
    rw [hcw]
    exact ⟨hlen, hpf, UniquelyParsable.of_prefixFree hpf hne, List.map_fst_zip hlen2.le, rfl, rfl⟩

example : canonicalCode [2, 1, 2] 2 = some [[1, 0], [0], [1, 1]] ∧ canonicalCode [1, 1, 2] 2 = none ∧
    canonicalCode [1, 2, 1, 2, 2] 3 = some [[0], [2, 0], [1], [2, 1], [2, 2]] := by decide +kernel

/-! ### C24 -/

/-- For every prefix-free code without an empty codeword: `encode(x)` yields `y` exactly when `decode(y)`
yields `x`.  (Both round trips, and `decode` fails on everything that is not an encoding.) -/
theorem C24_encode_iff_decode {calX calY k : Nat} {enc : List (Word × Word)} {c : FVCode}
    (h : FVCode.create calX calY k enc = some c) (hd : (enc.map Prod.fst).Nodup)
    (hpf : PrefixFree c.codewords) (hne : ∀ w ∈ c.codewords, w ≠ []) (x y : Word) :
    c.encode x = some y ↔ c.decode y = some x :=
  FVCode.encode_decode_iff h hd hpf hne x y

/-- `encode` of a uniquely decodable code succeeds exactly on sequences over the source alphabet whose length
is a multiple of the block size. -/
theorem C24_encode_defined {calX calY k : Nat} {enc : List (Word × Word)} {c : FVCode}
    (h : FVCode.create calX calY k enc = some c) (hd : (enc.map Prod.fst).Nodup)
    (hud : c.isUniquelyDecodable = some true) (x : Word) :
    (∃ y, c.encode x = some y) ↔ k ∣ x.length ∧ ∀ a ∈ x, a < calX :=
  FVCode.encode_isSome_iff h hd hud x

/-- The round trip, spelled out. -/
theorem C24_round_trip {calX calY k : Nat} {enc : List (Word × Word)} {c : FVCode}
    (h : FVCode.create calX calY k enc = some c) (hd : (enc.map Prod.fst).Nodup)
    (hpf : c.prefixFree = true) (hne : ∀ w ∈ c.codewords, w ≠ []) (x : Word) (hx : k ∣ x.length)
    (hxs : ∀ a ∈ x, a < calX) : (c.encode x >>= c.decode) = some x := by
  have hpf := (isPrefixFree_iff _).mp hpf
  obtain ⟨y, hy⟩ := (FVCode.encode_isSome_iff h hd (isUniquelyParsable_of_prefixFree hpf hne) x).mpr ⟨hx, hxs⟩
  rw [hy]
  exact (FVCode.encode_decode_iff h hd hpf hne x y).mp hy

/-- Finding: with an empty codeword (which the constructor accepts) the round trip fails although the code
reports itself uniquely decodable and prefix-free. -/
theorem C24_empty_codeword_witness :
    ∃ c, FVCode.create 2 2 1 [([0], []), ([1], [1])] = some c ∧ c.isUniquelyDecodable = some true ∧
      c.prefixFree = true ∧ c.encode [0, 1] = some [1] ∧ c.decode [1] = some [1] :=
  ⟨⟨2, 2, 1, [([0], []), ([1], [1])]⟩, by decide +kernel⟩

example : ∃ c, FVCode.create 2 2 2 [([0, 0], [0]), ([0, 1], [1, 1, 1]), ([1, 0], [1, 0]), ([1, 1], [1, 1, 0])] = some c ∧
    c.prefixFree = true ∧ c.encode [0, 0, 1, 0, 0, 1] = some [0, 1, 0, 1, 1, 1] ∧
    c.decode [0, 1, 0, 1, 1, 1] = some [0, 0, 1, 0, 0, 1] ∧ c.decode [0, 1, 1] = none :=
  ⟨⟨2, 2, 2, [([0, 0], [0]), ([0, 1], [1, 1, 1]), ([1, 0], [1, 0]), ([1, 1], [1, 1, 0])]⟩, by decide +kernel⟩

/-! ### C25 -/

/-- For a prefix-free and fully covering dictionary `encode` never fails, outputs whole target blocks, and
`decode` recovers the source followed by a padding; a non-empty padding completes the last, incomplete
sourceword. -/
theorem C25_round_trip {calY calX n : Nat} {dec : List (Word × Word)} {c : VFCode}
    (h : VFCode.create calY calX n dec = some c) (hd : (dec.map Prod.fst).Nodup)
    (hpf : c.prefixFree = true) (hcov : c.fullyCovering = true)
    (x : Word) (hx : ∀ a ∈ x, a < calX) :
    ∃ y, c.encode x = some y ∧ n ∣ y.length ∧
      ∃ pad, c.decode y = some (x ++ pad) ∧
        (pad ≠ [] → ∃ pre rem, x = pre ++ rem ∧ rem ≠ [] ∧ rem ++ pad ∈ c.sourcewords ∧
          c.encode pre = some (y.take (y.length - n))) :=
  VFCode.encode_spec h hd ((isPrefixFree_iff _).mp hpf)
    (by
      have := (isFullyCovering_iff _ _).mp hcov
      rwa [(VFCode.create_spec h).1] at this ⊢) x hx

example : ∃ c, VFCode.create 2 2 2 [([0, 0], [0, 0]), ([0, 1], [0, 1]), ([1, 0], [1])] = some c ∧
    c.prefixFree = true ∧ c.fullyCovering = true ∧ c.encode [1, 0, 1, 0] = some [1, 0, 0, 1, 0, 0] ∧
    c.decode [1, 0, 0, 1, 0, 0] = some [1, 0, 1, 0, 0] :=
  ⟨⟨2, 2, 2, [([0, 0], [0, 0]), ([0, 1], [0, 1]), ([1, 0], [1])]⟩, by decide +kernel⟩

end Komm
