import Verif.Model.LempelZiv
import Verif.Lemmas.Canonical

namespace Komm

/-- The field width of `n` values is sufficient. -/
def Sufficient (calY : Nat) (width : Nat → Nat) : Prop := ∀ n, 1 ≤ n → n ≤ calY ^ width n

theorem Sufficient.pos {calY : Nat} {width : Nat → Nat} (h : Sufficient calY width) {n : Nat} (hn : 2 ≤ n) :
    1 ≤ width n := by
  have := h n (by omega)
  rcases Nat.eq_zero_or_pos (width n) with h0 | h0
  · rw [h0] at this; simp at this; omega
  · exact h0

theorem read_field (n b w : Nat) (rest : List Nat) (hn : n < b ^ w) :
    symbolsToInteger ((integerToSymbols n b w ++ rest).take w) b = n := by
  rw [List.take_left' (integerToSymbols_length n b w), symbolsToInteger_integerToSymbols, Nat.mod_eq_of_lt hn]

theorem drop_field (n b w : Nat) (rest : List Nat) :
    (integerToSymbols n b w ++ rest).drop w = rest :=
  List.drop_left' (integerToSymbols_length n b w)

theorem idxOf?_of_mem {β : Type} [BEq β] [LawfulBEq β] {l : List β} {a : β} (h : a ∈ l) :
    ∃ i, l.idxOf? a = some i ∧ i < l.length ∧ l[i]? = some a := by
  obtain ⟨i, hi⟩ := Option.isSome_iff_exists.mp (List.isSome_idxOf?.mpr h)
  obtain ⟨h1, h2, -⟩ := List.idxOf?_eq_some_iff.mp hi
  exact ⟨i, hi, h1, by rw [List.getElem?_eq_getElem h1, h2]⟩

/-! ### LZW -/

theorem lzw_step {calY : Nat} {width : Nat → Nat} (hw : Sufficient calY width) (calX : Nat) (hX : 2 ≤ calX)
    (input : List Nat) : ∀ (D : List Word) (old word : Word) (s0 : Nat) (fuel : Nat),
      (∀ s ∈ input, s < calX) → old ≠ [] → calX ≤ D.length →
      (∀ s < calX, [s] ∈ D) → word ∈ D ++ [old ++ [s0]] → word.take 1 = [s0] →
      ∃ out, lzwEncodeLoop calY width (D ++ [old ++ [s0]]) word input = some out ∧ out ≠ [] ∧
        (out.length < fuel → lzwDecodeLoop calY width fuel D old out = some (word ++ input)) := by
  induction input with
  | nil =>
    intro D old word s0 fuel _ hold hlen _ hword hw1
    have hne : word ≠ [] := by rintro rfl; simp at hw1
    obtain ⟨i, hi1, hi2, hi3⟩ := idxOf?_of_mem hword
    have hwpos : 1 ≤ width (D.length + 1) := hw.pos (by omega)
    refine ⟨integerToSymbols i calY (width (D ++ [old ++ [s0]]).length), ?_, ?_, ?_⟩
    · rw [lzwEncodeLoop, if_neg hne, hi1]
    · intro h
      have := congrArg List.length h
      rw [integerToSymbols_length] at this
      simp at this; omega
    · intro hf
      rw [integerToSymbols_length] at hf
      rw [List.length_append, List.length_singleton] at hf hi2 ⊢
      obtain ⟨fuel, rfl⟩ : ∃ f, fuel = f + 1 := ⟨fuel - 1, by omega⟩
      obtain ⟨fuel, rfl⟩ : ∃ f, fuel = f + 1 := ⟨fuel - 1, by omega⟩
      have hib : i < calY ^ width (D.length + 1) := lt_of_lt_of_le hi2 (hw _ (by omega))
      have hpt : symbolsToInteger ((integerToSymbols i calY (width (D.length + 1))).take (width (D.length + 1))) calY = i := by
        have := read_field i calY (width (D.length + 1)) [] hib
        rwa [List.append_nil] at this
      have hdrop : (integerToSymbols i calY (width (D.length + 1))).drop (width (D.length + 1)) = [] := by
        have := drop_field i calY (width (D.length + 1)) []
        rwa [List.append_nil] at this
      have hwd : (D[i]?).getD (old ++ old.take 1) = word := by
        rcases Nat.lt_or_ge i D.length with h | h
        · rw [List.getElem?_append_left h] at hi3; rw [hi3]; rfl
        · have hiD : i = D.length := by omega
          rw [hiD, List.getElem?_append_right le_rfl] at hi3
          simp at hi3
          rw [hiD, List.getElem?_eq_none le_rfl, Option.getD_none]
          rw [← hi3] at hw1 ⊢
          cases old with
          | nil => exact absurd rfl hold
          | cons a t => simp at hw1; subst hw1; simp
      rw [lzwDecodeLoop]
      simp only [integerToSymbols_length, hpt, hdrop, hwd, gt_iff_lt, lt_irrefl, if_false]
      rw [lzwDecodeLoop]
      have : 1 ≤ width ((D ++ [old ++ word.take 1]).length + 1) := hw.pos (by simp)
      simp only [List.length_nil, gt_iff_lt]
      rw [if_pos (by omega)]
  | cons s input ih =>
    intro D old word s0 fuel hin hold hlen hsing hword hw1
    have hne : word ≠ [] := by rintro rfl; simp at hw1
    have hin' : ∀ s ∈ input, s < calX := fun x hx => hin x (by simp [hx])
    by_cases hmem : word ++ [s] ∈ D ++ [old ++ [s0]]
    · obtain ⟨out, h1, h2, h3⟩ := ih D old (word ++ [s]) s0 fuel hin' hold hlen hsing hmem (by
        cases word with
        | nil => exact absurd rfl hne
        | cons a t => simpa using hw1)
      refine ⟨out, ?_, h2, ?_⟩
      · rw [lzwEncodeLoop, if_pos hmem, h1]
      · intro hf; rw [h3 hf]; simp
    · obtain ⟨i, hi1, hi2, hi3⟩ := idxOf?_of_mem hword
      obtain ⟨out, h1, h2, h3⟩ := ih (D ++ [old ++ [s0]]) word [s] s (fuel - 1) hin' hne (by simp; omega)
        (fun x hx => by simp [hsing x hx]) (by simp [hsing s (hin s (by simp))]) rfl
      refine ⟨integerToSymbols i calY (width (D ++ [old ++ [s0]]).length) ++ out, ?_, by simp [h2], ?_⟩
      · rw [lzwEncodeLoop, if_neg hmem, hi1]
        simp only [h1]
      · intro hf
        rw [List.length_append, integerToSymbols_length] at hf
        rw [List.length_append, List.length_singleton] at hf hi2 ⊢
        have hwpos : 1 ≤ width (D.length + 1) := hw.pos (by omega)
        obtain ⟨fuel, rfl⟩ : ∃ f, fuel = f + 1 := ⟨fuel - 1, by omega⟩
        have hib : i < calY ^ width (D.length + 1) := lt_of_lt_of_le hi2 (hw _ (by omega))
        have hwd : (D[i]?).getD (old ++ old.take 1) = word := by
          rcases Nat.lt_or_ge i D.length with h | h
          · rw [List.getElem?_append_left h] at hi3; rw [hi3]; rfl
          · have hiD : i = D.length := by omega
            rw [hiD, List.getElem?_append_right le_rfl] at hi3
            simp at hi3
            rw [hiD, List.getElem?_eq_none le_rfl, Option.getD_none]
            rw [← hi3] at hw1 ⊢
            cases old with
            | nil => exact absurd rfl hold
            | cons a t => simp at hw1; subst hw1; simp
        rw [lzwDecodeLoop]
        simp only [read_field i calY _ out hib, drop_field, hwd, List.length_append, integerToSymbols_length]
        rw [if_neg (by omega), hw1, Nat.add_sub_cancel] at *
        rw [h3 (by omega)]
        simp

theorem lzw_roundtrip {calX calY : Nat} {width : Nat → Nat} (hX : 2 ≤ calX) (hw : Sufficient calY width)
    (input : List Nat) (hin : ∀ s ∈ input, s < calX) :
    ∃ out, lzwEncode calX calY width input = some out ∧ lzwDecode calX calY width out = some input := by
  unfold lzwEncode
  rw [if_neg (by rw [not_not]; exact hin)]
  have hsing : ∀ s < calX, [s] ∈ (List.range calX).map fun s => [s] := fun s hs => by simp [hs]
  cases input with
  | nil => exact ⟨[], by simp [lzwEncodeLoop], by simp [lzwDecode]⟩
  | cons s input =>
    -- the first symbols of a known word
    have key : ∀ (input : List Nat) (D : List Word) (word : Word), D = ((List.range calX).map fun s => [s]) →
        (∀ s ∈ input, s < calX) → word ≠ [] → word ∈ D →
        ∃ out, lzwEncodeLoop calY width D word input = some out ∧ lzwDecode calX calY width out = some (word ++ input) := by
      intro input
      induction input with
      | nil =>
        intro D word hD _ hne hword
        obtain ⟨i, hi1, hi2, hi3⟩ := idxOf?_of_mem hword
        have hl : D.length = calX := by rw [hD]; simp
        rw [hl] at hi2
        have hwpos : 1 ≤ width calX := hw.pos hX
        have hib : i < calY ^ width calX := lt_of_lt_of_le hi2 (hw _ (by omega))
        refine ⟨integerToSymbols i calY (width calX), ?_, ?_⟩
        · rw [lzwEncodeLoop, if_neg hne, hi1, hl]
        · unfold lzwDecode
          rw [integerToSymbols_length, if_neg (by omega)]
          have h1 := read_field i calY (width calX) [] hib
          have h2 := drop_field i calY (width calX) []
          rw [List.append_nil] at h1 h2
          simp only [h1, h2, ← hD, hi3, lzwDecodeLoop]
          have : 1 ≤ width (D.length + 1) := hw.pos (by omega)
          simp only [List.length_nil, gt_iff_lt]
          rw [if_pos (by omega)]
      | cons s input ih =>
        intro D word hD hin hne hword
        obtain ⟨i, hi1, hi2, hi3⟩ := idxOf?_of_mem hword
        have hl : D.length = calX := by rw [hD]; simp
        have hnm : word ++ [s] ∉ D := by
          rw [hD]
          intro hc
          obtain ⟨x, _, hx⟩ := List.mem_map.mp hc
          have h1 := congrArg List.length hx
          have h2 := List.length_pos_of_ne_nil hne
          rw [List.length_append, List.length_singleton, List.length_singleton] at h1
          omega
        obtain ⟨out, h1, h2, h3⟩ := lzw_step hw calX hX input D word [s] s
          ((integerToSymbols i calY (width D.length) ++ (lzwEncodeLoop calY width (D ++ [word ++ [s]]) [s] input).getD []).length + 1)
          (fun x hx => hin x (by simp [hx])) hne (by omega) (by rw [hD]; exact hsing) (by
            rw [List.mem_append]; left; rw [hD]; exact hsing s (hin s (by simp))) rfl
        refine ⟨integerToSymbols i calY (width D.length) ++ out, ?_, ?_⟩
        · rw [lzwEncodeLoop, if_neg hnm, hi1]
          simp only [h1]
        · rw [h1, Option.getD_some] at h3
          have h3 := h3 (by rw [List.length_append]; omega)
          have hib : i < calY ^ width calX := lt_of_lt_of_le (hl ▸ hi2) (hw _ (by omega))
          have hwpos : 1 ≤ width calX := hw.pos hX
          unfold lzwDecode
          rw [if_neg (by rw [List.length_append, integerToSymbols_length, hl]; omega)]
          rw [hl] at h3 ⊢
          simp only [read_field i calY _ out hib, drop_field, ← hD, hi3, h3]
          simp
    obtain ⟨out, h1, h2⟩ := key input _ [s] rfl (fun x hx => hin x (by simp [hx])) (by simp)
      (hsing s (hin s (by simp)))
    refine ⟨out, ?_, h2⟩
    rw [lzwEncodeLoop, List.nil_append, if_pos (hsing s (hin s (by simp))), h1]

/-! ### LZ78 -/

/-- Shape of the token list produced by the encoder when `n` phrases are in the dictionary. -/
def LZ78OK (calX : Nat) : Nat → List (Nat × Int) → Prop
  | _, [] => True
  | n, (p, x) :: ts =>
    p < n ∧ ((x = -1 ∧ ts = [] ∧ 2 ≤ n) ∨ ∃ s : Nat, s < calX ∧ x = s) ∧ LZ78OK calX (n + 1) ts

def castWord (w : Word) : List Int := w.map fun n : Nat => (n : Int)

theorem castWord_append (u v : Word) : castWord (u ++ v) = castWord u ++ castWord v := by simp [castWord]

theorem lz78_tokens (calX : Nat) (source : List Nat) : ∀ (D : List Word) (word : Word),
    (∀ s ∈ source, s < calX) → word ∈ D → [] ∈ D →
    ∃ tokens, lz78TokensLoop D word source = some tokens ∧ LZ78OK calX D.length tokens ∧
      lz78SourceLoop (D.map castWord) tokens = some (castWord (word ++ source)) := by
  induction source with
  | nil =>
    intro D word _ hword hnil
    by_cases hne : word = []
    · subst hne
      exact ⟨[], by simp [lz78TokensLoop], trivial, by simp [lz78SourceLoop, castWord]⟩
    · obtain ⟨i, hi1, hi2, hi3⟩ := idxOf?_of_mem hword
      refine ⟨[(i, -1)], ?_, ?_, ?_⟩
      · rw [lz78TokensLoop, if_neg hne, hi1]
      · refine ⟨hi2, Or.inl ⟨rfl, rfl, ?_⟩, trivial⟩
        obtain ⟨a, b, hab⟩ := List.append_of_mem hnil
        rcases Nat.lt_or_ge D.length 2 with h | h
        · rw [hab] at h hword
          simp at h
          obtain ⟨rfl, rfl⟩ : a = [] ∧ b = [] := ⟨List.length_eq_zero_iff.mp (by omega), List.length_eq_zero_iff.mp (by omega)⟩
          simp at hword; exact absurd hword hne
        · exact h
      · rw [lz78SourceLoop, List.getElem?_map, hi3]
        simp [lz78SourceLoop]
  | cons s source ih =>
    intro D word hin hword hnil
    have hin' : ∀ s ∈ source, s < calX := fun x hx => hin x (by simp [hx])
    by_cases hmem : word ++ [s] ∈ D
    · obtain ⟨tokens, h1, h2, h3⟩ := ih D (word ++ [s]) hin' hmem hnil
      refine ⟨tokens, ?_, h2, ?_⟩
      · rw [lz78TokensLoop, if_pos hmem, h1]
      · rw [h3]; simp
    · obtain ⟨i, hi1, hi2, hi3⟩ := idxOf?_of_mem hword
      obtain ⟨tokens, h1, h2, h3⟩ := ih (D ++ [word ++ [s]]) [] hin' (by simp [hnil]) (by simp [hnil])
      refine ⟨(i, (s : Int)) :: tokens, ?_, ?_, ?_⟩
      · rw [lz78TokensLoop, if_neg hmem, hi1]
        simp only [h1]
      · refine ⟨hi2, Or.inr ⟨s, hin s (by simp), rfl⟩, ?_⟩
        rwa [List.length_append, List.length_singleton] at h2
      · rw [lz78SourceLoop, List.getElem?_map, hi3]
        simp only [Option.map_some]
        rw [List.map_append, List.map_singleton, castWord_append] at h3
        have : castWord [s] = [(s : Int)] := rfl
        rw [this] at h3
        rw [h3]
        simp [castWord]

theorem lz78_parse {calX calY : Nat} {width : Nat → Nat} (hX : 2 ≤ calX) (hw : Sufficient calY width)
    (tokens : List (Nat × Int)) : ∀ (i fuel : Nat), LZ78OK calX (i + 1) tokens →
      (lz78TargetLoop calY width (width calX) i tokens).length ≤ fuel →
      lz78ParseLoop calY width (width calX) fuel i (lz78TargetLoop calY width (width calX) i tokens) = some tokens := by
  induction tokens with
  | nil => intro i fuel _ _; simp [lz78TargetLoop, lz78ParseLoop]
  | cons t tokens ih =>
    obtain ⟨p, x⟩ := t
    intro i fuel hok hf
    obtain ⟨hp, hx, hok⟩ := hok
    have hpb : p < calY ^ width (i + 1) := lt_of_lt_of_le hp (hw _ (by omega))
    rw [lz78TargetLoop, List.append_assoc] at hf ⊢
    have hM : 1 ≤ width calX := hw.pos hX
    generalize hrest : (if 0 ≤ x then integerToSymbols x.toNat calY (width calX) else []) ++
      lz78TargetLoop calY width (width calX) (i + 1) tokens = rest at *
    have hlen : 1 ≤ (integerToSymbols p calY (width (i + 1)) ++ rest).length := by
      rw [List.length_append, integerToSymbols_length]
      rcases hx with ⟨rfl, rfl, h2⟩ | ⟨s, hs, rfl⟩
      · have := hw.pos h2; omega
      · rw [← hrest, if_pos (by omega), List.length_append, integerToSymbols_length]; omega
    obtain ⟨fuel, rfl⟩ : ∃ f, fuel = f + 1 := ⟨fuel - 1, by omega⟩
    have hcons : ∃ a t, integerToSymbols p calY (width (i + 1)) ++ rest = a :: t := by
      cases h : integerToSymbols p calY (width (i + 1)) ++ rest with
      | nil => rw [h] at hlen; simp at hlen
      | cons a t => exact ⟨a, t, rfl⟩
    obtain ⟨a, t, hat⟩ := hcons
    have hunf : lz78ParseLoop calY width (width calX) (fuel + 1) i (integerToSymbols p calY (width (i + 1)) ++ rest) =
        match lz78ParseLoop calY width (width calX) fuel (i + 1) (rest.drop (width calX)) with
        | none => none
        | some tokens => some ((p, if rest ≠ [] then (symbolsToInteger (rest.take (width calX)) calY : Int) else -1) :: tokens) := by
      rw [hat, lz78ParseLoop]
      simp only [← hat, read_field p calY _ rest hpb, drop_field]
      rfl
    rw [hunf]
    rw [List.length_append, integerToSymbols_length] at hf hlen
    rcases hx with ⟨rfl, rfl, h2⟩ | ⟨s, hs, rfl⟩
    · have : rest = [] := by rw [← hrest]; simp [lz78TargetLoop]
      subst this
      simp [lz78ParseLoop]
    · have hsb : s < calY ^ width calX := lt_of_lt_of_le hs (hw _ (by omega))
      rw [if_pos (by omega), Int.toNat_natCast] at hrest
      subst hrest
      rw [drop_field, read_field s calY _ _ hsb, ih (i + 1) fuel hok (by
        rw [List.length_append, integerToSymbols_length] at hf; omega)]
      have : integerToSymbols s calY (width calX) ++ lz78TargetLoop calY width (width calX) (i + 1) tokens ≠ [] := by
        intro h
        have := congrArg List.length h
        rw [List.length_append, integerToSymbols_length, List.length_nil] at this
        omega
      simp [this]

end Komm
