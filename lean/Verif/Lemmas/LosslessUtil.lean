import Verif.Model.LosslessUtil
import Verif.Spec.Codes
import Mathlib.Data.List.Perm.Basic
import Mathlib.Data.List.Pairwise
import Mathlib.Data.Finset.Card
import Mathlib.Tactic.Ring

namespace Komm

theorem isPrefixOf_iff (w1 w2 : Word) : isPrefixOf w1 w2 = true ↔ w1 <+: w2 := by
  unfold isPrefixOf
  rw [Bool.and_eq_true, decide_eq_true_eq, decide_eq_true_eq]
  constructor
  · rintro ⟨_, h⟩
    rw [← h]; exact List.take_prefix _ _
  · intro h
    exact ⟨h.length_le, (List.prefix_iff_eq_take.mp h).symm⟩

/-! ### prefix-freeness -/

theorem noEarlierPrefix_iff (ws : List Word) : noEarlierPrefix ws = true ↔ ws.Pairwise (fun a b => ¬ a <+: b) := by
  induction ws with
  | nil => simp [noEarlierPrefix]
  | cons w ws ih =>
    rw [noEarlierPrefix, Bool.and_eq_true, ih, List.pairwise_cons, List.all_eq_true]
    apply and_congr_left'
    apply forall_congr'; intro a
    apply imp_congr_right; intro _
    rw [Bool.not_eq_true', ← Bool.not_eq_true, isPrefixOf_iff]

theorem prefixFree_iff_pairwise (words : List Word) :
    PrefixFree words ↔ (words.filter fun w => w.length > 0).Pairwise (fun a b => ¬ a <+: b ∧ ¬ b <+: a) := by
  rw [List.pairwise_filter, List.pairwise_iff_getElem]
  constructor
  · intro h i j hi hj hij h1 h2
    have h1 : words[i] ≠ [] := by simpa [List.length_pos_iff] using h1
    have h2 : words[j] ≠ [] := by simpa [List.length_pos_iff] using h2
    exact ⟨h i j hi hj (by omega) h1 h2, h j i hj hi (by omega) h2 h1⟩
  · intro h i j hi hj hij h1 h2
    have h1' : decide (words[i].length > 0) = true := by simpa [List.length_pos_iff] using h1
    have h2' : decide (words[j].length > 0) = true := by simpa [List.length_pos_iff] using h2
    rcases Nat.lt_or_gt_of_ne hij with hlt | hgt
    · exact (h i j hi hj hlt h1' h2').1
    · exact (h j i hj hi hgt h2' h1').2

theorem isPrefixFree_iff (words : List Word) : isPrefixFree words = true ↔ PrefixFree words := by
  rw [prefixFree_iff_pairwise]
  unfold isPrefixFree
  simp only []
  set ws := words.filter fun w => w.length > 0
  rw [noEarlierPrefix_iff]
  have hperm := List.perm_insertionSort (fun a b : Word => a.length ≤ b.length) ws
  have : Std.Total (fun a b : Word => a.length ≤ b.length) := ⟨fun a b => le_total _ _⟩
  have : IsTrans Word (fun a b : Word => a.length ≤ b.length) := ⟨fun a b c => le_trans⟩
  have hsorted := List.pairwise_insertionSort (fun a b : Word => a.length ≤ b.length) ws
  have hsym : ∀ a b : Word, (¬ a <+: b ∧ ¬ b <+: a) → (¬ b <+: a ∧ ¬ a <+: b) := fun a b h => ⟨h.2, h.1⟩
  rw [← hperm.pairwise_iff (fun {a b} => hsym a b)]
  constructor
  · intro h
    have := h.and hsorted
    refine this.imp ?_
    rintro a b ⟨h1, h2⟩
    refine ⟨h1, fun h3 => h1 ?_⟩
    have h2 : a.length ≤ b.length := by simpa using h2
    rw [h3.eq_of_length (le_antisymm h3.length_le h2)]
  · intro h; exact h.imp (fun h => h.1)

/-! ### Sardinas–Patterson -/

theorem mem_dangling (C A : Finset Word) (d : Word) :
    d ∈ danglingSuffixes C A ↔ ∃ c ∈ C, ∃ s ∈ A, c ≠ s ∧ (s = c ++ d ∨ c = s ++ d) := by
  unfold danglingSuffixes
  simp only [Finset.mem_biUnion, Finset.mem_product, Prod.exists]
  constructor
  · rintro ⟨c, s, ⟨hc, hs⟩, h⟩
    refine ⟨c, hc, s, hs, ?_⟩
    split at h
    · simp at h
    · rename_i hne
      refine ⟨hne, ?_⟩
      split at h
      · rename_i hp
        rw [Finset.mem_singleton] at h
        obtain ⟨t, rfl⟩ := (isPrefixOf_iff _ _).mp hp
        left; rw [h, List.drop_left]
      · split at h
        · rename_i hp
          rw [Finset.mem_singleton] at h
          obtain ⟨t, rfl⟩ := (isPrefixOf_iff _ _).mp hp
          right; rw [h, List.drop_left]
        · simp at h
  · rintro ⟨c, hc, s, hs, hne, h⟩
    refine ⟨c, s, ⟨hc, hs⟩, ?_⟩
    rw [if_neg hne]
    rcases h with rfl | rfl
    · rw [if_pos ((isPrefixOf_iff _ _).mpr (List.prefix_append _ _))]; simp
    · have hd : d ≠ [] := by rintro rfl; simp at hne
      have : ¬ isPrefixOf (s ++ d) s = true := by
        rw [isPrefixOf_iff]
        intro h
        have h1 := h.length_le
        have h2 := List.length_pos_iff.mpr hd
        rw [List.length_append] at h1; omega
      rw [if_neg this, if_pos ((isPrefixOf_iff _ _).mpr (List.prefix_append _ _))]; simp

/-- A dangling suffix: what is left when one sequence of words overtakes another that starts with a
different word. -/
def Dangling (C : Finset Word) (d : Word) : Prop :=
  d ≠ [] ∧ ∃ (c₁ c₂ : Word) (l₁ l₂ : List Word), c₁ ≠ c₂ ∧ c₁ ∈ C ∧ c₂ ∈ C ∧ (∀ w ∈ l₁, w ∈ C) ∧
    (∀ w ∈ l₂, w ∈ C) ∧ (c₁ :: l₁).flatten ++ d = (c₂ :: l₂).flatten

theorem dangling_step (C A : Finset Word) (hA : ∀ s ∈ A, s ∈ C ∨ Dangling C s) (d : Word)
    (hd : d ∈ danglingSuffixes C A) : Dangling C d := by
  obtain ⟨c, hc, s, hs, hne, h⟩ := (mem_dangling C A d).mp hd
  have hd0 : d ≠ [] := by rintro rfl; rcases h with rfl | rfl <;> simp at hne
  refine ⟨hd0, ?_⟩
  rcases hA s hs with hsC | ⟨_, c₁, c₂, l₁, l₂, h1, h2, h3, h4, h5, h6⟩
  · rcases h with rfl | rfl
    · exact ⟨c, c ++ d, [], [], hne, hc, hsC, by simp, by simp, by simp⟩
    · exact ⟨s, s ++ d, [], [], Ne.symm hne, hsC, hc, by simp, by simp, by simp⟩
  · rcases h with rfl | rfl
    · refine ⟨c₁, c₂, l₁ ++ [c], l₂, h1, h2, h3, ?_, h5, ?_⟩
      · intro w hw
        rcases List.mem_append.mp hw with hw | hw
        · exact h4 w hw
        · rw [List.mem_singleton.mp hw]; exact hc
      · rw [← h6]; simp
    · refine ⟨c₂, c₁, l₂, l₁ ++ [s ++ d], Ne.symm h1, h3, h2, h5, ?_, ?_⟩
      · intro w hw
        rcases List.mem_append.mp hw with hw | hw
        · exact h4 w hw
        · rw [List.mem_singleton.mp hw]; exact hc
      · rw [← h6]; simp

/-- Unique parsability of a set. -/
def UP (C : Finset Word) : Prop :=
  ∀ l₁ l₂ : List Word, (∀ w ∈ l₁, w ∈ C) → (∀ w ∈ l₂, w ∈ C) → l₁.flatten = l₂.flatten → l₁ = l₂

theorem not_UP_of_dangling_mem (C : Finset Word) (d : Word) (h : Dangling C d) (hd : d ∈ C) : ¬ UP C := by
  obtain ⟨_, c₁, c₂, l₁, l₂, h1, h2, h3, h4, h5, h6⟩ := h
  intro hU
  have := hU (c₁ :: (l₁ ++ [d])) (c₂ :: l₂) ?_ ?_ (by rw [← h6]; simp)
  · exact h1 (List.cons.inj this).1
  · intro w hw
    rcases List.mem_cons.mp hw with rfl | hw
    · exact h2
    · rcases List.mem_append.mp hw with hw | hw
      · exact h4 w hw
      · rw [List.mem_singleton.mp hw]; exact hd
  · intro w hw
    rcases List.mem_cons.mp hw with rfl | hw
    · exact h3
    · exact h5 w hw

theorem prefix_cases {a b c d : Word} (h : a ++ b = c ++ d) : (∃ t, c = a ++ t ∧ b = t ++ d) ∨
    (∃ t, a = c ++ t ∧ d = t ++ b) := by
  rcases List.append_eq_append_iff.mp h with ⟨t, h1, h2⟩ | ⟨t, h1, h2⟩
  · exact Or.inl ⟨t, h1, h2⟩
  · exact Or.inr ⟨t, h1, h2⟩

theorem no_completion (C A : Finset Word) (hcl : danglingSuffixes C A ⊆ A)
    (hdis : ¬ (danglingSuffixes C A ∩ C).Nonempty) (m : Nat) :
    ∀ (s : Word) (l₁ l₂ : List Word), l₁.length + l₂.length ≤ m → s ∈ danglingSuffixes C A → s ≠ [] →
      (∀ w ∈ l₁, w ∈ C) → (∀ w ∈ l₂, w ∈ C) → s ++ l₁.flatten ≠ l₂.flatten := by
  induction m with
  | zero =>
    intro s l₁ l₂ hm hs hs0 h1 h2 he
    have : l₂ = [] := by cases l₂ <;> simp_all
    subst this
    simp at he; exact hs0 he.1
  | succ m ih =>
    intro s l₁ l₂ hm hs hs0 h1 h2 he
    cases l₂ with
    | nil => simp at he; exact hs0 he.1
    | cons c l₂ =>
      have hc : c ∈ C := h2 c (by simp)
      have hsc : c ≠ s := by
        rintro rfl; exact hdis ⟨c, Finset.mem_inter.mpr ⟨hs, hc⟩⟩
      rw [List.flatten_cons] at he
      rcases prefix_cases he with ⟨d, h3, h4⟩ | ⟨d, h3, h4⟩
      · -- c = s ++ d
        have hd0 : d ≠ [] := by rintro rfl; simp at h3; exact hsc h3
        have hd : d ∈ danglingSuffixes C A :=
          (mem_dangling C A d).mpr ⟨c, hc, s, hcl hs, hsc, Or.inr h3⟩
        exact ih d l₂ l₁ (by simp at hm; omega) hd hd0 (fun w hw => h2 w (by simp [hw])) h1 h4.symm
      · have hd0 : d ≠ [] := by rintro rfl; simp at h3; exact hsc h3.symm
        have hd : d ∈ danglingSuffixes C A :=
          (mem_dangling C A d).mpr ⟨c, hc, s, hcl hs, hsc, Or.inl h3⟩
        exact ih d l₁ l₂ (by simp at hm; omega) hd hd0 h1 (fun w hw => h2 w (by simp [hw])) h4.symm

theorem UP_of_closed (C A : Finset Word) (hCA : C ⊆ A) (hcl : danglingSuffixes C A ⊆ A)
    (hdis : ¬ (danglingSuffixes C A ∩ C).Nonempty) (hne : ∀ c ∈ C, c ≠ []) : UP C := by
  intro l₁
  induction l₁ with
  | nil =>
    intro l₂ _ h2 he
    cases l₂ with
    | nil => rfl
    | cons c l₂ => simp at he; exact absurd he.1 (hne c (h2 c (by simp)))
  | cons c₁ l₁ ih =>
    intro l₂ h1 h2 he
    cases l₂ with
    | nil => simp at he; exact absurd he.1 (hne c₁ (h1 c₁ (by simp)))
    | cons c₂ l₂ =>
      have hc1 := h1 c₁ (by simp)
      have hc2 := h2 c₂ (by simp)
      by_cases hcc : c₁ = c₂
      · subst hcc
        rw [List.flatten_cons, List.flatten_cons, List.append_cancel_left_eq] at he
        rw [ih l₂ (fun w hw => h1 w (by simp [hw])) (fun w hw => h2 w (by simp [hw])) he]
      · exfalso
        rw [List.flatten_cons, List.flatten_cons] at he
        rcases prefix_cases he with ⟨d, h3, h4⟩ | ⟨d, h3, h4⟩
        · have hd0 : d ≠ [] := by rintro rfl; simp at h3; exact hcc h3.symm
          have hd : d ∈ danglingSuffixes C A :=
            (mem_dangling C A d).mpr ⟨c₁, hc1, c₂, hCA hc2, hcc, Or.inl h3⟩
          exact no_completion C A hcl hdis _ d l₂ l₁ le_rfl hd hd0 (fun w hw => h2 w (by simp [hw]))
            (fun w hw => h1 w (by simp [hw])) h4.symm
        · have hd0 : d ≠ [] := by rintro rfl; simp at h3; exact hcc h3
          have hd : d ∈ danglingSuffixes C A :=
            (mem_dangling C A d).mpr ⟨c₂, hc2, c₁, hCA hc1, Ne.symm hcc, Or.inl h3⟩
          exact no_completion C A hcl hdis _ d l₁ l₂ le_rfl hd hd0 (fun w hw => h1 w (by simp [hw]))
            (fun w hw => h2 w (by simp [hw])) h4.symm

/-- The set of suffixes of words. -/
def sufSet (words : List Word) : Finset Word := (words.flatMap List.tails).toFinset

theorem sufSet_card_le (words : List Word) :
    (sufSet words).card ≤ (words.map List.length).sum + words.length := by
  refine le_trans (List.toFinset_card_le _) ?_
  rw [List.length_flatMap]
  induction words with
  | nil => simp
  | cons w ws ih => simp at ih ⊢; omega

theorem mem_sufSet (words : List Word) (d : Word) : d ∈ sufSet words ↔ ∃ w ∈ words, d <:+ w := by
  simp [sufSet]

theorem dangling_sub_sufSet (words : List Word) (A : Finset Word) (hA : A ⊆ sufSet words) :
    danglingSuffixes words.toFinset A ⊆ sufSet words := by
  intro d hd
  obtain ⟨c, hc, s, hs, _, h⟩ := (mem_dangling _ _ d).mp hd
  rw [mem_sufSet]
  rcases h with rfl | rfl
  · obtain ⟨w, hw, hsw⟩ := (mem_sufSet _ _).mp (hA hs)
    exact ⟨w, hw, (List.suffix_append _ _).trans hsw⟩
  · exact ⟨_, List.mem_toFinset.mp hc, List.suffix_append _ _⟩

theorem sardinasLoop_spec (words : List Word) (hne : ∀ c ∈ words, c ≠ []) (fuel : Nat) :
    ∀ A : Finset Word, words.toFinset ⊆ A → A ⊆ sufSet words →
      (∀ s ∈ A, s ∈ words.toFinset ∨ Dangling words.toFinset s) → (sufSet words).card < fuel + A.card →
      ∃ b, sardinasLoop words.toFinset fuel A = some b ∧ (b = true ↔ UP words.toFinset) := by
  induction fuel with
  | zero =>
    intro A _ h2 _ h4
    have := Finset.card_le_card h2
    omega
  | succ fuel ih =>
    intro A h1 h2 h3 h4
    rw [sardinasLoop]
    split
    · rename_i hx
      obtain ⟨d, hd⟩ := hx
      rw [Finset.mem_inter] at hd
      refine ⟨false, rfl, ?_⟩
      have := not_UP_of_dangling_mem _ d (dangling_step _ A h3 d hd.1) hd.2
      simp [this]
    · rename_i hx
      split
      · rename_i hcl
        refine ⟨true, rfl, ?_⟩
        simp only [true_iff]
        exact UP_of_closed _ A h1 hcl hx (fun c hc => hne c (List.mem_toFinset.mp hc))
      · rename_i hcl
        apply ih
        · exact h1.trans Finset.subset_union_left
        · exact Finset.union_subset h2 (dangling_sub_sufSet words A h2)
        · intro s hs
          rcases Finset.mem_union.mp hs with hs | hs
          · exact h3 s hs
          · exact Or.inr (dangling_step _ A h3 s hs)
        · have : A.card < (A ∪ danglingSuffixes words.toFinset A).card := by
            apply Finset.card_lt_card
            rw [Finset.ssubset_iff_subset_ne]
            refine ⟨Finset.subset_union_left, fun he => hcl ?_⟩
            intro x hx
            have h := Finset.mem_union_right A hx
            rwa [← he] at h
          omega

theorem UP_toFinset (words : List Word) : UP words.toFinset ↔ UniquelyParsable words := by
  unfold UP UniquelyParsable
  have : ∀ w : Word, w ∈ words.toFinset ↔ w ∈ words := fun w => List.mem_toFinset
  simp only [this]

theorem isUniquelyParsable_spec (words : List Word) :
    ∃ b, isUniquelyParsable words = some b ∧
      (b = true ↔ (words.filter fun w => w.length > 0).Nodup ∧
        UniquelyParsable (words.filter fun w => w.length > 0)) := by
  unfold isUniquelyParsable
  simp only []
  generalize hws : (words.filter fun w => decide (w.length > 0)) = ws
  have hne : ∀ c ∈ ws, c ≠ [] := by
    intro c hc
    rw [← hws, List.mem_filter] at hc
    simpa [List.length_pos_iff] using hc.2
  split
  · rename_i h
    refine ⟨false, rfl, ?_⟩
    simp only [Bool.false_eq_true, false_iff, not_and]
    intro hnd
    rw [List.toFinset_card_of_nodup hnd] at h
    omega
  · rename_i h
    have hnd : List.Nodup ws := by
      have h1 := List.toFinset_card_le ws
      have h2 : ws.dedup.length = ws.length := by
        rw [List.card_toFinset] at h h1; omega
      exact List.dedup_eq_self.mp ((List.dedup_sublist ws).eq_of_length h2)
    obtain ⟨b, hb, hb2⟩ := sardinasLoop_spec ws hne ((ws.map List.length).sum + 2) ws.toFinset
      (Finset.Subset.refl _) (by
        intro w hw
        exact (mem_sufSet _ _).mpr ⟨w, List.mem_toFinset.mp hw, List.suffix_refl w⟩)
      (fun s hs => Or.inl hs) (by
        have := sufSet_card_le ws
        rw [List.toFinset_card_of_nodup hnd]
        omega)
    refine ⟨b, hb, ?_⟩
    rw [hb2, UP_toFinset]
    exact ⟨fun h => ⟨hnd, h⟩, fun h => h.2⟩

/-- Prefix-free sets of non-empty words are uniquely parsable. -/
theorem UniquelyParsable.of_prefixFree {words : List Word} (h : PrefixFree words) (hne : ∀ w ∈ words, w ≠ []) :
    UniquelyParsable words := by
  have key : ∀ a ∈ words, ∀ b ∈ words, a <+: b → a = b := by
    intro a ha b hb hab
    obtain ⟨i, hi, rfl⟩ := List.mem_iff_getElem.mp ha
    obtain ⟨j, hj, rfl⟩ := List.mem_iff_getElem.mp hb
    by_cases hij : i = j
    · subst hij; rfl
    · exact absurd hab (h i j hi hj hij (hne _ ha) (hne _ hb))
  intro l₁
  induction l₁ with
  | nil =>
    intro l₂ _ h2 he
    cases l₂ with
    | nil => rfl
    | cons c l₂ => simp at he; exact absurd he.1 (hne c (h2 c (by simp)))
  | cons c₁ l₁ ih =>
    intro l₂ h1 h2 he
    cases l₂ with
    | nil => simp at he; exact absurd he.1 (hne c₁ (h1 c₁ (by simp)))
    | cons c₂ l₂ =>
      rw [List.flatten_cons, List.flatten_cons] at he
      have hcc : c₁ = c₂ := by
        rcases prefix_cases he with ⟨d, h3, _⟩ | ⟨d, h3, _⟩
        · exact key _ (h1 _ (by simp)) _ (h2 _ (by simp)) ⟨d, h3.symm⟩
        · exact (key _ (h2 _ (by simp)) _ (h1 _ (by simp)) ⟨d, h3.symm⟩).symm
      subst hcc
      rw [List.append_cancel_left_eq] at he
      rw [ih l₂ (fun w hw => h1 w (by simp [hw])) (fun w hw => h2 w (by simp [hw])) he]

theorem PrefixFree.nodup {words : List Word} (h : PrefixFree words) (hne : ∀ w ∈ words, w ≠ []) :
    words.Nodup := by
  rw [List.nodup_iff_injective_getElem]
  intro i j hij
  by_contra hc
  apply h i j i.is_lt j.is_lt (fun h => hc (Fin.ext h)) (hne _ (List.getElem_mem _)) (hne _ (List.getElem_mem _))
  have hij : words[(i : Nat)] = words[(j : Nat)] := hij
  rw [hij]

theorem isUniquelyParsable_of_prefixFree {words : List Word} (h : PrefixFree words)
    (hne : ∀ w ∈ words, w ≠ []) : isUniquelyParsable words = some true := by
  obtain ⟨b, hb, hb2⟩ := isUniquelyParsable_spec words
  have hf : (words.filter fun w => decide (w.length > 0)) = words := by
    rw [List.filter_eq_self]; intro w hw; simpa [List.length_pos_iff] using hne w hw
  rw [hf] at hb2
  rw [hb, hb2.mpr ⟨h.nodup hne, UniquelyParsable.of_prefixFree h hne⟩]

/-! ### covering -/

theorem trieHas_iff (words : List Word) (path : Word) : trieHas words path = true ↔ ∃ w ∈ words, path <+: w := by
  simp [trieHas, isPrefixOf_iff]

/-- Sequence `path` followed by `f`. -/
theorem coverFrom_true (words : List Word) (card : Nat) (fuel : Nat) :
    ∀ path, coverFrom words card fuel path = true → ∀ f : Nat → Nat, (∀ i, f i < card) →
      ∃ m, 1 ≤ m ∧ path ++ (List.range m).map f ∈ words := by
  induction fuel with
  | zero => intro path h; simp [coverFrom] at h
  | succ fuel ih =>
    intro path h f hf
    rw [coverFrom, List.all_eq_true] at h
    have h0 := h (f 0) (List.mem_range.mpr (hf 0))
    rw [Bool.and_eq_true, Bool.or_eq_true, decide_eq_true_eq] at h0
    rcases h0.2 with h1 | h1
    · exact ⟨1, le_rfl, by simpa using h1⟩
    · obtain ⟨m, hm, hw⟩ := ih _ h1 (fun i => f (i + 1)) (fun i => hf (i + 1))
      refine ⟨m + 1, by omega, ?_⟩
      rw [List.range_succ_eq_map, List.map_cons, List.map_map]
      simpa [Function.comp_def] using hw

theorem coverFrom_false (words : List Word) (card : Nat) (fuel : Nat) :
    ∀ path, coverFrom words card fuel path = false → (∀ w ∈ words, w.length < path.length + fuel) →
      (fuel = 0 → 0 < card) →
      ∃ f : Nat → Nat, (∀ i, f i < card) ∧ ∀ m, 1 ≤ m → path ++ (List.range m).map f ∉ words := by
  induction fuel with
  | zero =>
    intro path _ hlen hc
    refine ⟨fun _ => 0, fun _ => hc rfl, fun m hm hw => ?_⟩
    have := hlen _ hw
    simp at this
  | succ fuel ih =>
    intro path h hlen _
    rw [coverFrom, List.all_eq_false] at h
    obtain ⟨s, hs, h⟩ := h
    rw [List.mem_range] at hs
    simp only [Bool.and_eq_true, Bool.or_eq_true, decide_eq_true_eq, not_and, not_or, Bool.not_eq_true] at h
    by_cases ht : trieHas words (path ++ [s]) = true
    · obtain ⟨h1, h2⟩ := h ht
      obtain ⟨f, hf, hno⟩ := ih _ h2 (fun w hw => by have := hlen w hw; simp; omega) (fun _ => by omega)
      refine ⟨fun i => if i = 0 then s else f (i - 1), ?_, ?_⟩
      · intro i; dsimp only; split
        · exact hs
        · exact hf _
      · intro m hm hw
        obtain ⟨m, rfl⟩ : ∃ m', m = m' + 1 := ⟨m - 1, by omega⟩
        rw [List.range_succ_eq_map, List.map_cons, List.map_map] at hw
        have hfn : ((fun i => if i = 0 then s else f (i - 1)) ∘ Nat.succ) = f := by
          funext i; simp
        rw [hfn, if_pos rfl] at hw
        rcases Nat.eq_zero_or_pos m with h0 | hp
        · subst h0; exact h1 (by simpa using hw)
        · exact hno m hp (by simpa using hw)
    · refine ⟨fun i => if i = 0 then s else 0, ?_, ?_⟩
      · intro i; dsimp only; split <;> omega
      · intro m hm hw
        apply ht
        rw [trieHas_iff]
        refine ⟨_, hw, ?_⟩
        obtain ⟨m, rfl⟩ : ∃ m', m = m' + 1 := ⟨m - 1, by omega⟩
        rw [List.range_succ_eq_map, List.map_cons, if_pos rfl]
        exact ⟨_, by simp; rfl⟩

theorem length_le_sum {words : List Word} {w : Word} (hw : w ∈ words) :
    w.length ≤ (words.map List.length).sum := by
  induction words with
  | nil => simp at hw
  | cons v vs ih =>
    rcases List.mem_cons.mp hw with rfl | h
    · simp
    · have := ih h; simp; omega

theorem isFullyCovering_iff (words : List Word) (card : Nat) :
    isFullyCovering words card = true ↔ FullyCovering words card := by
  constructor
  · intro h f hf
    obtain ⟨m, hm, hw⟩ := coverFrom_true words card _ [] h f hf
    refine ⟨_, hw, ?_, ?_⟩
    · intro h0
      have := congrArg List.length h0
      simp at this; omega
    · simp
  · intro h
    by_contra hc
    obtain ⟨f, hf, hno⟩ := coverFrom_false words card _ [] (by simpa [isFullyCovering] using hc)
      (fun w hw => by have := length_le_sum hw; simp; omega) (fun h => by omega)
    obtain ⟨w, hw, hw0, he⟩ := h f hf
    apply hno w.length (List.length_pos_iff.mpr hw0)
    rw [← he]; simpa using hw

end Komm
