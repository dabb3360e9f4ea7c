import Verif.Lemmas.LempelZiv

namespace Komm

theorem rfindFrom_some {hay needle : List Nat} {q p : Nat} (h : rfindFrom hay needle q = some p) :
    p ≤ q ∧ (hay.drop p).take needle.length = needle := by
  induction q with
  | zero =>
    rw [rfindFrom] at h
    split at h
    · rename_i h1; cases h; exact ⟨le_rfl, by simpa using h1⟩
    · exact absurd h (by simp)
  | succ q ih =>
    rw [rfindFrom] at h
    split at h
    · rename_i h1; cases h; exact ⟨le_rfl, h1⟩
    · obtain ⟨h1, h2⟩ := ih h; exact ⟨by omega, h2⟩

theorem rfind_some {hay needle : List Nat} {p : Nat} (h : rfind hay needle = some p) :
    p + needle.length ≤ hay.length ∧ (hay.drop p).take needle.length = needle := by
  unfold rfind at h
  split at h
  · obtain ⟨h1, h2⟩ := rfindFrom_some h; exact ⟨by omega, h2⟩
  · exact absurd h (by simp)

theorem rfind_nil (hay : List Nat) : rfind hay [] = some hay.length := by
  unfold rfind
  rw [if_pos (by simp)]
  simp only [List.length_nil, Nat.sub_zero]
  cases hay.length <;> simp [rfindFrom]

theorem slice_length (B : List Nat) (a b : Nat) (hb : b ≤ B.length) : (slice B a b).length = b - a := by
  unfold slice; rw [List.length_drop, List.length_take]; omega

theorem slice_getElem? (B : List Nat) (a b j : Nat) (h : a + j < b) : (slice B a b)[j]? = B[a + j]? := by
  unfold slice; rw [List.getElem?_drop, List.getElem?_take, if_pos h]

theorem match_of_rfind {B : List Nat} {ss i l p : Nat} (hss : 1 ≤ ss) (hi : ss ≤ i) (hl : i + l ≤ B.length)
    (h : rfind (slice B (i - ss) (i + l - 1)) (slice B i (i + l)) = some p) :
    p < ss ∧ ∀ j < l, B[i - ss + p + j]? = B[i + j]? := by
  obtain ⟨h1, h2⟩ := rfind_some h
  rw [slice_length _ _ _ (by omega), slice_length _ _ _ (by omega)] at h1
  refine ⟨by omega, ?_⟩
  intro j hj
  have h3 := congrArg (fun t => t[j]?) h2
  beta_reduce at h3
  rw [slice_length _ _ _ (by omega), List.getElem?_take, if_pos (by omega), List.getElem?_drop,
    slice_getElem? _ _ _ _ (by omega), slice_getElem? _ _ _ _ (by omega)] at h3
  rw [← h3]; congr 1; omega

theorem lzMatch_spec {B : List Nat} {ss i : Nat} (hss : 1 ≤ ss) (hi : ss ≤ i) (l0 : Nat) (hl : i + l0 ≤ B.length) :
    ∃ p l, lzMatch B ss i l0 = some (p, l) ∧ l ≤ l0 ∧ p < ss ∧ ∀ j < l, B[i - ss + p + j]? = B[i + j]? := by
  induction l0 with
  | zero =>
    have hs : slice B i (i + 0) = [] := by
      apply List.eq_nil_of_length_eq_zero; rw [slice_length _ _ _ hl]; omega
    refine ⟨(slice B (i - ss) (i + 0 - 1)).length, 0, ?_, le_rfl, ?_, by simp⟩
    · rw [lzMatch, hs, rfind_nil]; rfl
    · rw [slice_length _ _ _ (by omega)]; omega
  | succ l ih =>
    rw [lzMatch]
    cases h : rfind (slice B (i - ss) (i + (l + 1) - 1)) (slice B i (i + (l + 1))) with
    | some p =>
      obtain ⟨h1, h2⟩ := match_of_rfind hss hi hl h
      exact ⟨p, l + 1, rfl, le_rfl, h1, h2⟩
    | none =>
      obtain ⟨p, l', h1, h2, h3⟩ := ih (by omega)
      exact ⟨p, l', h1, by omega, h3⟩

theorem take_snoc {B : List Nat} {i x : Nat} (h : B[i]? = some x) : B.take i ++ [x] = B.take (i + 1) := by
  rw [List.take_add_one, h]; rfl

theorem copyFrom_spec {B : List Nat} {start i : Nat} (hs : start < i) (l : Nat) : ∀ j, i + j + l ≤ B.length →
    (∀ j' < j + l, B[start + j']? = B[i + j']?) →
    copyFrom start l j (B.take (i + j)) = some (B.take (i + j + l)) := by
  induction l with
  | zero => intro j _ _; rfl
  | succ l ih =>
    intro j hl hm
    have h1 : (B.take (i + j))[start + j]? = B[i + j]? := by
      rw [List.getElem?_take, if_pos (by omega), hm j (by omega)]
    have h2 : B[i + j]? = some B[i + j] := List.getElem?_eq_getElem (by omega)
    rw [copyFrom, h1, h2]
    simp only
    rw [take_snoc h2, show i + j + 1 = i + (j + 1) by ring, ih (j + 1) (by omega) (fun j' hj' => hm j' (by omega))]
    congr 2; omega

theorem lz77_loop (c : LZParams) (B : List Nat) (hss : 1 ≤ c.searchSize) (hls : 1 ≤ c.lookaheadSize)
    (hB : ∀ j x, c.searchSize ≤ j → B[j]? = some x → x < c.sourceCardinality) :
    ∀ fuel i, c.searchSize ≤ i → i ≤ B.length → B.length - i ≤ fuel →
    ∃ tokens, lz77Loop c B fuel i = some tokens ∧
      (∀ t ∈ tokens, t.1 < c.searchSize ∧ t.2.1 < c.lookaheadSize ∧ t.2.2 < c.sourceCardinality) ∧
      lz77Expand c.searchSize tokens (B.take i) = some B := by
  intro fuel
  induction fuel with
  | zero =>
    intro i h1 h2 h3
    refine ⟨[], ?_, by simp, ?_⟩
    · rw [lz77Loop, if_pos (by omega)]
    · rw [lz77Expand, List.take_of_length_le (by omega)]
  | succ fuel ih =>
    intro i h1 h2 h3
    by_cases hi : i < B.length
    · obtain ⟨p, l, m1, m2, m3, m4⟩ := lzMatch_spec hss h1 (min c.lookaheadSize (B.length - i) - 1) (B := B) (by omega)
      have hx : B[i + l]? = some B[i + l] := List.getElem?_eq_getElem (by omega)
      obtain ⟨tokens, t1, t2, t3⟩ := ih (i + (l + 1)) (by omega) (by omega) (by omega)
      refine ⟨(p, l, B[i + l]) :: tokens, ?_, ?_, ?_⟩
      · rw [lz77Loop, if_neg (by omega)]
        simp only [m1, hx, t1]
      · intro t ht
        rcases List.mem_cons.mp ht with rfl | ht
        · exact ⟨m3, by simp only; omega, hB _ _ (by omega) hx⟩
        · exact t2 t ht
      · rw [lz77Expand]
        have hlen : (B.take i).length = i := by rw [List.length_take]; omega
        have hc := copyFrom_spec (B := B) (start := i - c.searchSize + p) (i := i) (by omega) l 0 (by omega)
          (fun j hj => m4 j (by omega))
        rw [Nat.add_zero] at hc
        simp only [hlen, hc]
        rw [take_snoc hx, show i + l + 1 = i + (l + 1) by ring, t3]
    · refine ⟨[], ?_, by simp, ?_⟩
      · rw [lz77Loop, if_pos hi]
      · rw [lz77Expand, List.take_of_length_le (by omega)]

theorem lz77_parse (calY pw lw xw : Nat) (tokens : List (Nat × Nat × Nat)) (hxw : 1 ≤ xw) : ∀ (fuel : Nat),
    (∀ t ∈ tokens, t.1 < calY ^ pw ∧ t.2.1 < calY ^ lw ∧ t.2.2 < calY ^ xw) →
    (tokens.flatMap fun (t : Nat × Nat × Nat) => integerToSymbols t.1 calY pw ++
      (integerToSymbols t.2.1 calY lw ++ integerToSymbols t.2.2 calY xw)).length ≤ fuel →
    lz77ParseLoop calY pw lw xw fuel (tokens.flatMap fun (t : Nat × Nat × Nat) => integerToSymbols t.1 calY pw ++
      (integerToSymbols t.2.1 calY lw ++ integerToSymbols t.2.2 calY xw)) = some tokens := by
  induction tokens with
  | nil =>
    intro fuel _ _
    cases fuel <;> rw [lz77ParseLoop, if_pos (by simp; omega)]
  | cons t tokens ih =>
    intro fuel ht hf
    obtain ⟨b1, b2, b3⟩ := ht t (by simp)
    rw [List.flatMap_cons] at hf ⊢
    generalize hr : (tokens.flatMap fun (t : Nat × Nat × Nat) => integerToSymbols t.1 calY pw ++
      (integerToSymbols t.2.1 calY lw ++ integerToSymbols t.2.2 calY xw)) = rest at *
    simp only [List.length_append, integerToSymbols_length] at hf
    obtain ⟨fuel, rfl⟩ : ∃ f, fuel = f + 1 := ⟨fuel - 1, by omega⟩
    rw [lz77ParseLoop, if_neg (by simp only [List.length_append, integerToSymbols_length]; omega)]
    simp only [List.append_assoc, read_field _ _ _ _ b1, drop_field, read_field _ _ _ _ b2, read_field _ _ _ _ b3]
    rw [ih fuel (fun t h => ht t (by simp [h])) (by omega)]

/-! ### LZSS -/

theorem copyBack_spec {B : List Nat} {p i : Nat} (hp : 1 ≤ p) (hpi : p ≤ i) (l : Nat) : ∀ j, i + j + l ≤ B.length →
    (∀ j' < j + l, B[i - p + j']? = B[i + j']?) →
    copyBack p l (B.take (i + j)) = some (B.take (i + j + l)) := by
  induction l with
  | zero => intro j _ _; rfl
  | succ l ih =>
    intro j hl hm
    have hlen : (B.take (i + j)).length = i + j := by rw [List.length_take]; omega
    have h1 : (B.take (i + j))[i + j - p]? = B[i + j]? := by
      rw [List.getElem?_take, if_pos (by omega), show i + j - p = i - p + j by omega, hm j (by omega)]
    have h2 : B[i + j]? = some B[i + j] := List.getElem?_eq_getElem (by omega)
    rw [copyBack, hlen, if_neg (by omega), if_neg (by omega), h1, h2]
    simp only
    rw [take_snoc h2, show i + j + 1 = i + (j + 1) by ring, ih (j + 1) (by omega) (fun j' hj' => hm j' (by omega))]
    congr 2; omega

/-- Shape of the LZSS tokens. -/
def SSOK (c : LZParams) : SSToken → Prop
  | .literal x => x < c.sourceCardinality
  | .reference p l => 1 ≤ p ∧ p ≤ c.searchSize ∧ 1 ≤ l ∧ l ≤ c.lookaheadSize

/-- Number of source symbols of a token. -/
def SSToken.count : SSToken → Nat
  | .literal _ => 1
  | .reference _ l => l

/-- References are at least as long as the threshold. -/
def SSLong (be : Nat) : SSToken → Prop
  | .literal _ => True
  | .reference _ l => be ≤ l

theorem lzss_loop (c : LZParams) (be : Nat) (B : List Nat) (hbe : 1 ≤ be) (hss : 1 ≤ c.searchSize)
    (hB : ∀ j x, c.searchSize ≤ j → B[j]? = some x → x < c.sourceCardinality) :
    ∀ fuel i, c.searchSize ≤ i → i ≤ B.length → B.length - i ≤ fuel →
    ∃ tokens, lzssLoop c be B fuel i = some tokens ∧ (∀ t ∈ tokens, SSOK c t ∧ SSLong be t) ∧
      (tokens.map SSToken.count).sum = B.length - i ∧
      lzssExpand tokens (B.take i) = some B := by
  intro fuel
  induction fuel with
  | zero =>
    intro i h1 h2 h3
    refine ⟨[], ?_, by simp, by simp; omega, ?_⟩
    · rw [lzssLoop, if_pos (by omega)]
    · rw [lzssExpand, List.take_of_length_le (by omega)]
  | succ fuel ih =>
    intro i h1 h2 h3
    by_cases hi : i < B.length
    · obtain ⟨p, l, m1, m2, m3, m4⟩ := lzMatch_spec hss h1 (min c.lookaheadSize (B.length - i)) (B := B) (by omega)
      rw [lzssLoop, if_neg (by omega)]
      simp only [m1]
      by_cases hl : l ≥ be
      · obtain ⟨tokens, t1, t2, tc, t3⟩ := ih (i + l) (by omega) (by omega) (by omega)
        refine ⟨.reference (c.searchSize - p) l :: tokens, ?_, ?_, ?_, ?_⟩
        · rw [if_pos hl, t1]
        · intro t ht
          rcases List.mem_cons.mp ht with rfl | ht
          · exact ⟨⟨by omega, by omega, by omega, by omega⟩, hl⟩
          · exact t2 t ht
        · rw [List.map_cons, List.sum_cons, tc, SSToken.count]; omega
        · rw [lzssExpand]
          have hc := copyBack_spec (B := B) (p := c.searchSize - p) (i := i) (by omega) (by omega) l 0 (by omega)
            (fun j hj => by
              rw [← m4 j (by omega)]; congr 1; omega)
          rw [Nat.add_zero] at hc
          simp only [hc, t3]
      · have hx : B[i]? = some B[i] := List.getElem?_eq_getElem (by omega)
        obtain ⟨tokens, t1, t2, tc, t3⟩ := ih (i + 1) (by omega) (by omega) (by omega)
        refine ⟨.literal B[i] :: tokens, ?_, ?_, ?_, ?_⟩
        · rw [if_neg hl, hx]; simp only [t1]
        · intro t ht
          rcases List.mem_cons.mp ht with rfl | ht
          · exact ⟨hB _ _ (by omega) hx, trivial⟩
          · exact t2 t ht
        · rw [List.map_cons, List.sum_cons, tc, SSToken.count]; omega
        · rw [lzssExpand, take_snoc hx, t3]
    · refine ⟨[], ?_, by simp, by simp; omega, ?_⟩
      · rw [lzssLoop, if_pos hi]
      · rw [lzssExpand, List.take_of_length_le (by omega)]

theorem lzss_parse (c : LZParams) (width : Nat → Nat) (hw : Sufficient c.targetCardinality width)
    (hss : 1 ≤ c.searchSize) (hls : 1 ≤ c.lookaheadSize) (tokens : List SSToken) : ∀ (fuel : Nat),
    (∀ t ∈ tokens, SSOK c t) → (tokens.flatMap (lzssTokenSymbols c width)).length ≤ fuel →
    lzssParseLoop c.targetCardinality (width c.searchSize) (width c.lookaheadSize) (width c.sourceCardinality) fuel
      (tokens.flatMap (lzssTokenSymbols c width)) = some tokens := by
  induction tokens with
  | nil => intro fuel _ _; simp [lzssParseLoop]
  | cons t tokens ih =>
    intro fuel ht hf
    have ht0 := ht t (by simp)
    rw [List.flatMap_cons] at hf ⊢
    generalize hr : (tokens.flatMap (lzssTokenSymbols c width)) = rest at *
    cases t with
    | literal x =>
      rw [lzssTokenSymbols, List.cons_append] at hf ⊢
      simp only [List.length_append, List.length_cons, integerToSymbols_length] at hf
      obtain ⟨fuel, rfl⟩ : ∃ f, fuel = f + 1 := ⟨fuel - 1, by omega⟩
      simp only [SSOK] at ht0
      have hb : x < c.targetCardinality ^ width c.sourceCardinality := lt_of_lt_of_le ht0 (hw _ (by omega))
      rw [lzssParseLoop, if_neg (by simp), if_pos (by simp only [List.length_append, integerToSymbols_length]; omega)]
      simp only [read_field _ _ _ _ hb, drop_field]
      rw [ih fuel (fun t h => ht t (by simp [h])) (by omega)]
    | reference p l =>
      rw [lzssTokenSymbols, List.cons_append, List.append_assoc] at hf ⊢
      simp only [List.length_append, List.length_cons, integerToSymbols_length] at hf
      obtain ⟨fuel, rfl⟩ : ∃ f, fuel = f + 1 := ⟨fuel - 1, by omega⟩
      obtain ⟨h1, h2, h3, h4⟩ := ht0
      have hb1 : p - 1 < c.targetCardinality ^ width c.searchSize := lt_of_lt_of_le (by omega) (hw _ hss)
      have hb2 : l - 1 < c.targetCardinality ^ width c.lookaheadSize := lt_of_lt_of_le (by omega) (hw _ hls)
      rw [lzssParseLoop, if_pos rfl, if_pos (by simp only [List.length_append, integerToSymbols_length]; omega)]
      simp only [read_field _ _ _ _ hb1, read_field _ _ _ _ hb2, drop_field]
      rw [ih fuel (fun t h => ht t (by simp [h])) (by omega), Nat.sub_add_cancel h1, Nat.sub_add_cancel h3]

end Komm
