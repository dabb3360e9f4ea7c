import Mathlib.Data.List.GetD
import Verif.Model.LosslessCodes
import Verif.Lemmas.LosslessUtil

namespace Komm

/-! ### dictionaries -/

theorem dictGet_eq_some {d : List (Word × Word)} (hd : (d.map Prod.fst).Nodup) (k v : Word) :
    dictGet d k = some v ↔ (k, v) ∈ d := by
  unfold dictGet
  induction d with
  | nil => simp
  | cons e d ih =>
    rw [List.map_cons, List.nodup_cons] at hd
    rw [List.find?_cons]
    obtain ⟨k', v'⟩ := e
    by_cases h : k' = k
    · subst h
      simp only [beq_self_eq_true, Option.map_some, Option.some.injEq, List.mem_cons, Prod.mk.injEq, true_and]
      constructor
      · rintro rfl; exact Or.inl rfl
      · rintro (h | h)
        · exact h.symm
        · exact absurd (List.mem_map_of_mem (f := Prod.fst) h) hd.1
    · simp only [beq_eq_false_iff_ne.mpr h]
      rw [ih hd.2, List.mem_cons, Prod.mk.injEq]
      constructor
      · exact Or.inr
      · rintro (⟨h', _⟩ | h')
        · exact absurd h'.symm h
        · exact h'

theorem dictGet_eq_none {d : List (Word × Word)} (k : Word) :
    dictGet d k = none ↔ k ∉ d.map Prod.fst := by
  unfold dictGet
  rw [Option.map_eq_none_iff, List.find?_eq_none, List.mem_map]
  simp only [Prod.forall, beq_iff_eq, Prod.exists, exists_and_right, exists_eq_right, not_exists]
  constructor
  · intro h x hx; exact h k x hx rfl
  · rintro h a b hab rfl; exact h b hab

theorem dictInsert_foldl_nodup (ps : List (Word × Word)) (d : List (Word × Word))
    (h : ((d ++ ps).map Prod.fst).Nodup) : ps.foldl dictInsert d = d ++ ps := by
  induction ps generalizing d with
  | nil => simp
  | cons p ps ih =>
    rw [List.foldl_cons]
    have hp : dictInsert d p = d ++ [p] := by
      unfold dictInsert
      rw [if_neg]
      rw [Bool.not_eq_true, List.any_eq_false]
      intro e he
      rw [List.map_append, List.nodup_append] at h
      have := h.2.2 e.1 (List.mem_map_of_mem he) p.1 (by simp)
      simpa using this
    rw [hp, ih]
    · simp
    · simpa using h

theorem dictOfPairs_nodup (ps : List (Word × Word)) (h : (ps.map Prod.fst).Nodup) : dictOfPairs ps = ps := by
  have := dictInsert_foldl_nodup ps [] (by simpa using h)
  simpa [dictOfPairs] using this

theorem dictInverse_nodup (d : List (Word × Word)) (h : (d.map Prod.snd).Nodup) :
    dictInverse d = d.map fun e => (e.2, e.1) := by
  apply dictOfPairs_nodup
  rw [List.map_map]; exact h

theorem dictInverse_get (d : List (Word × Word)) (h1 : (d.map Prod.fst).Nodup) (h : (d.map Prod.snd).Nodup)
    (k v : Word) : dictGet (dictInverse d) k = some v ↔ dictGet d v = some k := by
  have h2 : ((d.map fun e => (e.2, e.1)).map Prod.fst).Nodup := by
    rw [List.map_map]; exact h
  rw [dictInverse_nodup d h, dictGet_eq_some h2, dictGet_eq_some h1, List.mem_map]
  constructor
  · rintro ⟨⟨a, b⟩, hab, he⟩; cases he; exact hab
  · intro h; exact ⟨(v, k), h, rfl⟩

theorem mem_allWords (q k : Nat) (w : Word) : w ∈ allWords q k ↔ w.length = k ∧ ∀ a ∈ w, a < q := by
  induction k generalizing w with
  | zero => simp only [allWords, List.mem_singleton]; constructor
            · rintro rfl; simp
            · rintro ⟨h, _⟩; exact List.length_eq_zero_iff.mp h
  | succ k ih =>
    simp only [allWords, List.mem_flatMap, List.mem_range, List.mem_map]
    constructor
    · rintro ⟨a, ha, v, hv, rfl⟩
      rw [ih] at hv
      refine ⟨by simp [hv.1], ?_⟩
      intro x hx
      rcases List.mem_cons.mp hx with rfl | hx
      · exact ha
      · exact hv.2 x hx
    · rintro ⟨h1, h2⟩
      cases w with
      | nil => simp at h1
      | cons a v =>
        exact ⟨a, h2 a (by simp), v, (ih v).mpr ⟨by simpa using h1, fun x hx => h2 x (by simp [hx])⟩, rfl⟩

theorem allWords_nodup (q k : Nat) : (allWords q k).Nodup := by
  induction k with
  | zero => simp [allWords]
  | succ k ih =>
    rw [allWords, List.nodup_flatMap]
    refine ⟨fun a _ => ih.map (List.cons_injective), ?_⟩
    apply List.Pairwise.imp_of_mem _ (List.nodup_range (n := q))
    intro a b _ _ hab
    intro w h1 h2
    rw [List.mem_map] at h1 h2
    obtain ⟨v1, _, rfl⟩ := h1
    obtain ⟨v2, _, h⟩ := h2
    exact hab (List.cons.inj h).1.symm

theorem allWords_length (q k : Nat) : (allWords q k).length = q ^ k := by
  induction k with
  | zero => simp [allWords]
  | succ k ih =>
    rw [allWords, List.length_flatMap]
    simp [ih, Nat.pow_succ, Nat.mul_comm]

/-! ### fixed-length parsing -/

theorem parseBlocks_spec (d : List (Word × Word)) (b : Nat) (n : Nat) (x y : Word) (hx : x.length = n * b) :
    parseBlocks d b n x = some y ↔
      ∃ es : List (Word × Word), es.length = n ∧ (∀ e ∈ es, dictGet d e.1 = some e.2 ∧ e.1.length = b) ∧
        x = (es.map Prod.fst).flatten ∧ y = (es.map Prod.snd).flatten := by
  induction n generalizing x y with
  | zero =>
    have hx0 : x = [] := List.length_eq_zero_iff.mp (by simpa using hx)
    subst hx0
    rw [parseBlocks]
    constructor
    · rintro h; cases h; exact ⟨[], by simp⟩
    · rintro ⟨es, h1, _, _, h4⟩
      have : es = [] := List.length_eq_zero_iff.mp h1
      subst this; simp [h4]
  | succ n ih =>
    have hlen1 : (x.take b).length = b := by
      rw [List.length_take, hx, Nat.min_eq_left]; exact Nat.le_mul_of_pos_left b (by omega)
    have hlen2 : (x.drop b).length = n * b := by
      rw [List.length_drop, hx, Nat.succ_mul]; omega
    rw [parseBlocks]
    constructor
    · intro h
      simp only [Option.bind_eq_bind, Option.bind_eq_some_iff, Option.pure_def, Option.some.injEq] at h
      obtain ⟨v, hv, r, hr, rfl⟩ := h
      obtain ⟨es, h1, h2, h3, h4⟩ := (ih _ r hlen2).mp hr
      refine ⟨(x.take b, v) :: es, by simp [h1], ?_, ?_, ?_⟩
      · intro e he
        rcases List.mem_cons.mp he with rfl | he
        · exact ⟨hv, hlen1⟩
        · exact h2 e he
      · rw [List.map_cons, List.flatten_cons, ← h3, List.take_append_drop]
      · rw [List.map_cons, List.flatten_cons, ← h4]
    · rintro ⟨es, h1, h2, h3, h4⟩
      cases es with
      | nil => simp at h1
      | cons e es =>
        have he := h2 e (by simp)
        have e1 : x.take b = e.1 := by rw [h3, List.map_cons, List.flatten_cons, List.take_left' he.2]
        have e2 : x.drop b = (es.map Prod.fst).flatten := by
          rw [h3, List.map_cons, List.flatten_cons, List.drop_left' he.2]
        rw [e1, he.1]
        have := (ih (x.drop b) ((es.map Prod.snd).flatten) hlen2).mpr
          ⟨es, by simpa using h1, fun e he => h2 e (by simp [he]), e2, rfl⟩
        simp [this, h4]

theorem flatten_length_of {es : List (Word × Word)} {b : Nat} (h : ∀ e ∈ es, e.1.length = b) :
    ((es.map Prod.fst).flatten).length = es.length * b := by
  induction es with
  | nil => simp
  | cons e es ih =>
    rw [List.map_cons, List.flatten_cons, List.length_append, ih (fun e he => h e (by simp [he])),
      h e (by simp), List.length_cons, Nat.succ_mul]
    omega

theorem parseFixedLength_spec (d : List (Word × Word)) (b : Nat) (hb : b ≠ 0) (x y : Word) :
    parseFixedLength x d b = some y ↔
      ∃ es : List (Word × Word), (∀ e ∈ es, dictGet d e.1 = some e.2 ∧ e.1.length = b) ∧
        x = (es.map Prod.fst).flatten ∧ y = (es.map Prod.snd).flatten := by
  unfold parseFixedLength
  rw [if_neg hb]
  split
  · rename_i hmod
    simp only [reduceCtorEq, false_iff, not_exists]
    rintro es ⟨h1, h2, _⟩
    apply hmod
    rw [h2, flatten_length_of (fun e he => (h1 e he).2)]
    exact Nat.mul_mod_left _ _
  · rename_i hmod
    have hx : x.length = x.length / b * b := by
      have := Nat.div_add_mod x.length b
      have : x.length % b = 0 := by omega
      rw [Nat.div_mul_cancel (Nat.dvd_of_mod_eq_zero this)]
    rw [parseBlocks_spec d b _ x y hx]
    constructor
    · rintro ⟨es, _, h⟩; exact ⟨es, h⟩
    · rintro ⟨es, h1, h2, h3⟩
      refine ⟨es, ?_, h1, h2, h3⟩
      rw [h2, flatten_length_of (fun e he => (h1 e he).2), Nat.mul_div_cancel _ (Nat.pos_of_ne_zero hb)]

/-! ### prefix-free parsing -/

theorem parseLoop_sound (d : List (Word × Word)) (input key out rem out' : Word)
    (h : parseLoop d input key out = (rem, out')) (hkey : ∀ p, p ≠ [] → p <+: key → dictGet d p = none) :
    (∃ es : List (Word × Word), (∀ e ∈ es, dictGet d e.1 = some e.2) ∧
      key ++ input = (es.map Prod.fst).flatten ++ rem ∧ out' = out ++ (es.map Prod.snd).flatten) ∧
    (∀ p, p ≠ [] → p <+: rem → dictGet d p = none) := by
  induction input generalizing key out with
  | nil =>
    rw [parseLoop] at h
    cases h
    exact ⟨⟨[], by simp⟩, hkey⟩
  | cons a input ih =>
    rw [parseLoop] at h
    split at h
    · rename_i v hv
      obtain ⟨⟨es, h1, h2, h3⟩, h4⟩ := ih [] (out ++ v) h (fun p hp hpp => absurd (List.prefix_nil.mp hpp) hp)
      refine ⟨⟨(key ++ [a], v) :: es, ?_, ?_, ?_⟩, h4⟩
      · intro e he
        rcases List.mem_cons.mp he with rfl | he
        · exact hv
        · exact h1 e he
      · rw [List.map_cons, List.flatten_cons, List.append_assoc (key ++ [a]), ← h2]; simp
      · rw [h3]; simp
    · rename_i hv
      obtain ⟨⟨es, h1, h2, h3⟩, h4⟩ := ih (key ++ [a]) out h (by
        intro p hp hpp
        rcases List.prefix_concat_iff.mp hpp with h' | h'
        · rw [h']; exact hv
        · exact hkey p hp h')
      exact ⟨⟨es, h1, by rw [← h2]; simp, h3⟩, h4⟩

theorem parseLoop_word (d : List (Word × Word)) (w v : Word) (hw : dictGet d w = some v)
    (hpf : ∀ p, p ≠ [] → p <+: w → p ≠ w → dictGet d p = none) (t rest : Word) :
    ∀ key out, t ≠ [] → key ++ t = w →
      parseLoop d (t ++ rest) key out = parseLoop d rest [] (out ++ v) := by
  induction t with
  | nil => intro _ _ h; exact absurd rfl h
  | cons a t ih =>
    intro key out _ he
    rw [List.cons_append, parseLoop]
    by_cases ht : t = []
    · subst ht
      rw [he, hw]; simp
    · have hne : key ++ [a] ≠ w := by
        rw [← he]; intro h
        have := List.append_cancel_left h
        simp at this; exact ht this
      rw [hpf (key ++ [a]) (by simp) ⟨t, by rw [← he]; simp⟩ hne]
      exact ih (key ++ [a]) out ht (by rw [← he]; simp)

theorem parseLoop_complete (d : List (Word × Word))
    (hpf : ∀ w v, dictGet d w = some v → w ≠ [] ∧ ∀ p, p ≠ [] → p <+: w → p ≠ w → dictGet d p = none)
    (es : List (Word × Word)) (hes : ∀ e ∈ es, dictGet d e.1 = some e.2) (rest out : Word) :
    parseLoop d ((es.map Prod.fst).flatten ++ rest) [] out =
      parseLoop d rest [] (out ++ (es.map Prod.snd).flatten) := by
  induction es generalizing out with
  | nil => simp
  | cons e es ih =>
    have he := hes e (by simp)
    obtain ⟨h1, h2⟩ := hpf _ _ he
    rw [List.map_cons, List.flatten_cons, List.append_assoc,
      parseLoop_word d e.1 e.2 he h2 e.1 _ [] out h1 rfl, ih (fun e he => hes e (by simp [he]))]
    simp

theorem parsePrefixFree_spec (d : List (Word × Word))
    (hpf : ∀ w v, dictGet d w = some v → w ≠ [] ∧ ∀ p, p ≠ [] → p <+: w → p ≠ w → dictGet d p = none)
    (x y : Word) :
    parsePrefixFree x d false = some y ↔
      ∃ es : List (Word × Word), (∀ e ∈ es, dictGet d e.1 = some e.2) ∧
        x = (es.map Prod.fst).flatten ∧ y = (es.map Prod.snd).flatten := by
  unfold parsePrefixFree
  constructor
  · intro h
    generalize hp : parseLoop d x [] [] = r at h
    obtain ⟨rem, out'⟩ := r
    obtain ⟨⟨es, h1, h2, h3⟩, _⟩ := parseLoop_sound d x [] [] rem out' hp
      (fun p hp hpp => absurd (List.prefix_nil.mp hpp) hp)
    simp only [Bool.not_false, if_true] at h
    split at h
    · rename_i hr
      cases h
      exact ⟨es, h1, by simpa [hr] using h2, by simpa using h3⟩
    · simp at h
  · rintro ⟨es, h1, h2, h3⟩
    have := parseLoop_complete d hpf es h1 [] []
    rw [List.append_nil, ← h2] at this
    rw [this]
    simp [parseLoop, h3]

/-- Prefix-freeness of the values of a dictionary as seen by the inverse dictionary. -/
theorem inverse_prefix (d : List (Word × Word)) (h1 : (d.map Prod.fst).Nodup)
    (hpf : PrefixFree (d.map Prod.snd)) (hne : ∀ w ∈ d.map Prod.snd, w ≠ []) (w v : Word)
    (hw : dictGet (dictInverse d) w = some v) :
    w ≠ [] ∧ ∀ p, p ≠ [] → p <+: w → p ≠ w → dictGet (dictInverse d) p = none := by
  have hnd := hpf.nodup hne
  have hmem : ∀ w v, dictGet (dictInverse d) w = some v → w ∈ d.map Prod.snd := by
    intro w v h
    rw [dictInverse_get d h1 hnd, dictGet_eq_some h1] at h
    exact List.mem_map_of_mem (f := Prod.snd) h
  refine ⟨hne w (hmem w v hw), fun p hp hpw hpne => ?_⟩
  by_contra hc
  obtain ⟨v', hv'⟩ := Option.ne_none_iff_exists'.mp hc
  obtain ⟨i, hi, hiw⟩ := List.mem_iff_getElem.mp (hmem p v' hv')
  obtain ⟨j, hj, hjw⟩ := List.mem_iff_getElem.mp (hmem w v hw)
  have hij : i ≠ j := by rintro rfl; exact hpne (hiw.symm.trans hjw)
  apply hpf i j hi hj hij (hne _ (List.getElem_mem _)) (hne _ (List.getElem_mem _))
  rw [hiw, hjw]; exact hpw

theorem swap_es (es : List (Word × Word)) :
    ((es.map fun e => (e.2, e.1)).map Prod.fst) = es.map Prod.snd ∧
    ((es.map fun e => (e.2, e.1)).map Prod.snd) = es.map Prod.fst := by
  constructor <;> rw [List.map_map] <;> rfl

/-! ### fixed-to-variable codes -/

theorem FVCode.create_spec {calX calY k : Nat} {enc : List (Word × Word)} {c : FVCode}
    (h : FVCode.create calX calY k enc = some c) :
    c = ⟨calX, calY, k, enc⟩ ∧ 2 ≤ calX ∧ 2 ≤ calY ∧ 1 ≤ k ∧
      (∀ w, w ∈ enc.map Prod.fst ↔ w.length = k ∧ ∀ a ∈ w, a < calX) ∧
      (∀ e ∈ enc, ∀ x ∈ e.2, x < calY) := by
  unfold FVCode.create at h
  split at h; · simp at h
  split at h; · simp at h
  split at h; · simp at h
  split at h; · simp at h
  rename_i h4
  split at h; · simp at h
  rename_i h5
  cases h
  refine ⟨rfl, by omega, by omega, by omega, ?_, not_not.mp h5⟩
  intro w
  have := not_not.mp h4
  rw [← mem_allWords]
  have h6 : w ∈ (enc.map Prod.fst).toFinset ↔ w ∈ (allWords calX k).toFinset := by rw [this]
  rwa [List.mem_toFinset, List.mem_toFinset] at h6

theorem FVCode.encode_decode_iff {calX calY k : Nat} {enc : List (Word × Word)} {c : FVCode}
    (h : FVCode.create calX calY k enc = some c) (hd : (enc.map Prod.fst).Nodup)
    (hpf : PrefixFree c.codewords) (hne : ∀ w ∈ c.codewords, w ≠ []) (x y : Word) :
    c.encode x = some y ↔ c.decode y = some x := by
  obtain ⟨rfl, hX, hY, hk, hdom, _⟩ := FVCode.create_spec h
  have hud : FVCode.isUniquelyDecodable ⟨calX, calY, k, enc⟩ = some true :=
    isUniquelyParsable_of_prefixFree hpf hne
  have hpf' : FVCode.prefixFree ⟨calX, calY, k, enc⟩ = true := (isPrefixFree_iff _).mpr hpf
  unfold FVCode.encode FVCode.decode
  rw [hud, hpf']
  simp only [ne_eq, not_true_eq_false, if_false, Bool.not_true, Bool.false_eq_true]
  have hnd : (enc.map Prod.snd).Nodup := hpf.nodup hne
  rw [parseFixedLength_spec enc k (by omega), parsePrefixFree_spec _
    (fun w v hw => inverse_prefix enc hd hpf hne w v hw)]
  constructor
  · rintro ⟨es, h1, h2, h3⟩
    refine ⟨es.map fun e => (e.2, e.1), ?_, ?_, ?_⟩
    · intro e he
      obtain ⟨e', he', rfl⟩ := List.mem_map.mp he
      exact (dictInverse_get enc hd hnd _ _).mpr (h1 e' he').1
    · rw [(swap_es es).1]; exact h3
    · rw [(swap_es es).2]; exact h2
  · rintro ⟨es, h1, h2, h3⟩
    refine ⟨es.map fun e => (e.2, e.1), ?_, ?_, ?_⟩
    · intro e he
      obtain ⟨e', he', rfl⟩ := List.mem_map.mp he
      have hg := (dictInverse_get enc hd hnd _ _).mp (h1 e' he')
      refine ⟨hg, ?_⟩
      have := (dictGet_eq_some hd _ _).mp hg
      exact ((hdom e'.2).mp (List.mem_map_of_mem (f := Prod.fst) this)).1
    · rw [(swap_es es).1]; exact h3
    · rw [(swap_es es).2]; exact h2

theorem exists_blocks (b : Nat) (P : Word → Prop) (n : Nat) (x : Word) (hx : x.length = n * b)
    (hP : ∀ w : Word, w.length = b → (∀ a ∈ w, a ∈ x) → P w) :
    ∃ bs : List Word, bs.flatten = x ∧ ∀ w ∈ bs, w.length = b ∧ P w := by
  induction n generalizing x with
  | zero =>
    have : x = [] := List.length_eq_zero_iff.mp (by simpa using hx)
    exact ⟨[], by simp [this]⟩
  | succ n ih =>
    have hlen1 : (x.take b).length = b := by
      rw [List.length_take, hx, Nat.min_eq_left]; exact Nat.le_mul_of_pos_left b (by omega)
    have hlen2 : (x.drop b).length = n * b := by
      rw [List.length_drop, hx, Nat.succ_mul]; omega
    obtain ⟨bs, h1, h2⟩ := ih (x.drop b) hlen2 (fun w hw ha => hP w hw fun a h => List.mem_of_mem_drop (ha a h))
    refine ⟨x.take b :: bs, by rw [List.flatten_cons, h1, List.take_append_drop], ?_⟩
    intro w hw
    rcases List.mem_cons.mp hw with rfl | hw
    · exact ⟨hlen1, hP _ hlen1 fun a h => List.mem_of_mem_take h⟩
    · exact h2 w hw

theorem FVCode.encode_isSome_iff {calX calY k : Nat} {enc : List (Word × Word)} {c : FVCode}
    (h : FVCode.create calX calY k enc = some c) (hd : (enc.map Prod.fst).Nodup)
    (hud : c.isUniquelyDecodable = some true) (x : Word) :
    (∃ y, c.encode x = some y) ↔ k ∣ x.length ∧ ∀ a ∈ x, a < calX := by
  obtain ⟨rfl, hX, hY, hk, hdom, _⟩ := FVCode.create_spec h
  unfold FVCode.encode
  rw [hud]
  simp only [ne_eq, not_true_eq_false, if_false]
  constructor
  · rintro ⟨y, hy⟩
    obtain ⟨es, h1, h2, h3⟩ := (parseFixedLength_spec enc k (by omega) x y).mp hy
    refine ⟨⟨es.length, ?_⟩, ?_⟩
    · rw [h2, flatten_length_of (fun e he => (h1 e he).2), Nat.mul_comm]
    · intro a ha
      rw [h2, List.mem_flatten] at ha
      obtain ⟨w, hw, haw⟩ := ha
      obtain ⟨e, he, rfl⟩ := List.mem_map.mp hw
      have := (dictGet_eq_some hd _ _).mp (h1 e he).1
      exact ((hdom e.1).mp (List.mem_map_of_mem (f := Prod.fst) this)).2 a haw
  · rintro ⟨⟨n, hn⟩, ha⟩
    obtain ⟨bs, h1, h2⟩ := exists_blocks k (fun w => ∃ v, dictGet enc w = some v) n x
      (by rw [hn, Nat.mul_comm]) (by
        intro w hw hwa
        have : w ∈ enc.map Prod.fst := (hdom w).mpr ⟨hw, fun a h => ha a (hwa a h)⟩
        rw [List.mem_map] at this
        obtain ⟨e, he, rfl⟩ := this
        exact ⟨e.2, (dictGet_eq_some hd _ _).mpr he⟩)
    have hex : ∃ es : List (Word × Word), es.map Prod.fst = bs ∧
        ∀ e ∈ es, dictGet enc e.1 = some e.2 ∧ e.1.length = k := by
      clear h1
      induction bs with
      | nil => exact ⟨[], by simp⟩
      | cons w bs ih =>
        obtain ⟨es, e1, e2⟩ := ih (fun w hw => h2 w (by simp [hw]))
        obtain ⟨hw1, v, hv⟩ := h2 w (by simp)
        refine ⟨(w, v) :: es, by simp [e1], ?_⟩
        intro e he
        rcases List.mem_cons.mp he with rfl | he
        · exact ⟨hv, hw1⟩
        · exact e2 e he
    obtain ⟨es, e1, e2⟩ := hex
    exact ⟨_, (parseFixedLength_spec enc k (by omega) x _).mpr ⟨es, e2, by rw [e1, h1], rfl⟩⟩

/-! ### variable-to-fixed codes -/

theorem VFCode.create_spec {calY calX n : Nat} {dec : List (Word × Word)} {c : VFCode}
    (h : VFCode.create calY calX n dec = some c) :
    c = ⟨calY, calX, n, dec⟩ ∧ 2 ≤ calY ∧ 2 ≤ calX ∧ 1 ≤ n ∧
      (∀ w ∈ dec.map Prod.fst, w.length = n ∧ ∀ a ∈ w, a < calY) ∧
      (∀ e ∈ dec, (∀ x ∈ e.2, x < calX) ∧ e.2 ≠ []) := by
  unfold VFCode.create at h
  split at h; · simp at h
  split at h; · simp at h
  split at h; · simp at h
  split at h; · simp at h
  rename_i h4
  split at h; · simp at h
  rename_i h5
  cases h
  refine ⟨rfl, by omega, by omega, by omega, ?_, ?_⟩
  · intro w hw
    have := not_not.mp h4 (List.mem_toFinset.mpr hw)
    rw [List.mem_toFinset, mem_allWords] at this
    exact this
  · intro e he
    have := not_not.mp h5 e he
    exact ⟨this.1, List.length_pos_iff.mp this.2⟩

theorem VFCode.encode_spec {calY calX n : Nat} {dec : List (Word × Word)} {c : VFCode}
    (h : VFCode.create calY calX n dec = some c) (hd : (dec.map Prod.fst).Nodup)
    (hpf : PrefixFree c.sourcewords) (hcov : FullyCovering c.sourcewords calX)
    (x : Word) (hx : ∀ a ∈ x, a < calX) :
    ∃ y, c.encode x = some y ∧ n ∣ y.length ∧
      ∃ pad, c.decode y = some (x ++ pad) ∧
        (pad ≠ [] → ∃ pre rem, x = pre ++ rem ∧ rem ≠ [] ∧ rem ++ pad ∈ c.sourcewords ∧
          c.encode pre = some (y.take (y.length - n))) := by
  obtain ⟨rfl, hY, hX, hn, hdom, hcod⟩ := VFCode.create_spec h
  have hne : ∀ w ∈ dec.map Prod.snd, w ≠ [] := by
    intro w hw
    obtain ⟨e, he, rfl⟩ := List.mem_map.mp hw
    exact (hcod e he).2
  have hud : VFCode.isUniquelyEncodable ⟨calY, calX, n, dec⟩ = some true :=
    isUniquelyParsable_of_prefixFree hpf hne
  have hpf' : VFCode.prefixFree ⟨calY, calX, n, dec⟩ = true := (isPrefixFree_iff _).mpr hpf
  have hcov' : VFCode.fullyCovering ⟨calY, calX, n, dec⟩ = true := (isFullyCovering_iff _ _).mpr hcov
  have hnd : (dec.map Prod.snd).Nodup := hpf.nodup hne
  unfold VFCode.encode VFCode.decode
  rw [hud, hpf', hcov']
  simp only [ne_eq, not_true_eq_false, if_false, Bool.not_true, Bool.false_eq_true]
  have hdl : ∀ k v, dictGet (dictInverse dec) k = some v → dictGet dec v = some k ∧ v.length = n := by
    intro k v hkv
    have h1 := (dictInverse_get dec hd hnd k v).mp hkv
    exact ⟨h1, (hdom v (List.mem_map_of_mem (f := Prod.fst) ((dictGet_eq_some hd _ _).mp h1))).1⟩
  -- decoding of a list of entries
  have hdec : ∀ es : List (Word × Word), (∀ e ∈ es, dictGet (dictInverse dec) e.1 = some e.2) →
      parseFixedLength ((es.map Prod.snd).flatten) dec n = some ((es.map Prod.fst).flatten) ∧
      ((es.map Prod.snd).flatten).length = es.length * n := by
    intro es hes
    constructor
    · rw [parseFixedLength_spec dec n (by omega)]
      refine ⟨es.map fun e => (e.2, e.1), ?_, by rw [(swap_es es).1], by rw [(swap_es es).2]⟩
      intro e he
      obtain ⟨e', he', rfl⟩ := List.mem_map.mp he
      exact hdl _ _ (hes e' he')
    · have := flatten_length_of (es := es.map fun e => (e.2, e.1)) (b := n) (by
        intro e he
        obtain ⟨e', he', rfl⟩ := List.mem_map.mp he
        exact (hdl _ _ (hes e' he')).2)
      rw [(swap_es es).1] at this
      simpa using this
  have hpfd := fun w v hw => inverse_prefix dec hd hpf hne w v hw
  generalize hp : parseLoop (dictInverse dec) x [] [] = r
  obtain ⟨rem, out⟩ := r
  obtain ⟨⟨es, h1, h2, h3⟩, h4⟩ := parseLoop_sound _ x [] [] rem out hp
    (fun p hp hpp => absurd (List.prefix_nil.mp hpp) hp)
  simp only [List.nil_append] at h2 h3
  by_cases hrem : rem = []
  · refine ⟨out, by unfold parsePrefixFree; rw [hp]; simp [hrem], ?_, [], ?_, by simp⟩
    · rw [h3, (hdec es h1).2]; exact Dvd.intro_left _ rfl
    · rw [h3, (hdec es h1).1, h2, hrem]; simp
  · -- some sourceword extends the remainder
    have hremlt : ∀ a ∈ rem, a < calX := fun a ha => hx a (by rw [h2]; exact List.mem_append_right _ ha)
    obtain ⟨w, hw, hw0, hwf⟩ := hcov (fun i => rem.getD i 0) (by
      intro i
      by_cases hi : i < rem.length
      · simp only [List.getD_eq_getElem _ _ hi]; exact hremlt _ (List.getElem_mem _)
      · simp only [List.getD_eq_default _ _ (not_lt.mp hi)]; omega)
    have hwget : ∃ v, dictGet (dictInverse dec) w = some v := by
      obtain ⟨e, he, hew⟩ := List.mem_map.mp (show w ∈ dec.map Prod.snd from hw)
      refine ⟨e.1, (dictInverse_get dec hd hnd _ _).mpr ((dictGet_eq_some hd _ _).mpr ?_)⟩
      rw [← hew]; exact he
    obtain ⟨v, hv⟩ := hwget
    have hremw : rem <+: w := by
      rcases Nat.lt_or_ge rem.length w.length with hl | hl
      · rw [List.prefix_iff_getElem?]
        intro i hi
        have hiw : i < w.length := by omega
        rw [List.getElem?_eq_getElem hiw]
        congr 1
        have : w[i] = ((List.range w.length).map fun i => rem.getD i 0)[i]'(by simpa using hiw) := by
          congr 1
        rw [this]; simp [hi]
      · exfalso
        have hpre : w <+: rem := by
          rw [List.prefix_iff_getElem?]
          intro i hi
          rw [List.getElem?_eq_getElem (by omega : i < rem.length)]
          congr 1
          have : w[i] = ((List.range w.length).map fun i => rem.getD i 0)[i]'(by simpa using hi) := by
            congr 1
          rw [this]
          have hir : i < rem.length := by omega
          simp [hir]
        have := h4 w hw0 hpre
        rw [this] at hv
        exact absurd hv (by simp)
    have hfind : ∃ e, (dictInverse dec).find? (fun p => isPrefixOf rem p.1) = some e := by
      have hmem : (w, v) ∈ dictInverse dec := by
        rw [dictInverse_nodup dec hnd]
        rw [List.mem_map]
        exact ⟨(v, w), (dictGet_eq_some hd _ _).mp ((dictInverse_get dec hd hnd _ _).mp hv), rfl⟩
      have : ((dictInverse dec).find? (fun p => isPrefixOf rem p.1)).isSome := by
        rw [List.find?_isSome]
        exact ⟨(w, v), hmem, (isPrefixOf_iff _ _).mpr hremw⟩
      exact Option.isSome_iff_exists.mp this
    obtain ⟨e, he⟩ := hfind
    have heg : dictGet (dictInverse dec) e.1 = some e.2 := by
      have hm := List.mem_of_find?_eq_some he
      have hndi : ((dictInverse dec).map Prod.fst).Nodup := by
        rw [dictInverse_nodup dec hnd, List.map_map]; exact hnd
      exact (dictGet_eq_some hndi _ _).mpr hm
    have hpe : rem <+: e.1 := (isPrefixOf_iff _ _).mp (by simpa using List.find?_some he)
    obtain ⟨pad, hpad⟩ := hpe
    have hes' : ∀ e' ∈ es ++ [e], dictGet (dictInverse dec) e'.1 = some e'.2 := by
      intro e' he'
      rcases List.mem_append.mp he' with h | h
      · exact h1 e' h
      · rw [List.mem_singleton.mp h]; exact heg
    have hd1 := hdec (es ++ [e]) hes'
    simp only [List.map_append, List.map_cons, List.map_nil, List.flatten_append, List.flatten_cons,
      List.flatten_nil, List.append_nil, List.length_append, List.length_cons, List.length_nil] at hd1
    refine ⟨out ++ e.2, ?_, ?_, pad, ?_, ?_⟩
    · unfold parsePrefixFree; rw [hp]; simp [hrem, he]
    · rw [h3, List.length_append, hd1.2]; exact Dvd.intro_left _ rfl
    · rw [h3, hd1.1, h2, ← hpad]; simp
    · intro _
      refine ⟨(es.map Prod.fst).flatten, rem, h2, hrem, ?_, ?_⟩
      · rw [hpad]
        have := (dictGet_eq_some hd _ _).mp ((dictInverse_get dec hd hnd _ _).mp heg)
        exact List.mem_map_of_mem (f := Prod.snd) this
      · have hc := parseLoop_complete _ hpfd es h1 [] []
        rw [List.append_nil] at hc
        unfold parsePrefixFree
        rw [hc]
        have hl : (out ++ e.2).length - n = out.length := by
          rw [List.length_append, (hdl _ _ heg).2]; omega
        rw [hl]
        simp [parseLoop, h3]

end Komm
