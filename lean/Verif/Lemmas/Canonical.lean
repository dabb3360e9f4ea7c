import Verif.Lemmas.LosslessCodes
import Mathlib.Algebra.BigOperators.Group.List.Basic
import Mathlib.Algebra.Order.Field.Rat
import Mathlib.Tactic.FieldSimp
import Mathlib.Tactic.Ring
import Mathlib.Tactic.Linarith
import Mathlib.Tactic.Positivity
import Mathlib.Tactic.NormNum

namespace Komm

/-! ### digits -/

theorem integerToSymbols_length (n b w : Nat) : (integerToSymbols n b w).length = w := by
  induction w generalizing n with
  | zero => rfl
  | succ w ih => simp [integerToSymbols, ih]

theorem integerToSymbols_lt (n b w : Nat) (hb : 0 < b) : ∀ x ∈ integerToSymbols n b w, x < b := by
  induction w generalizing n with
  | zero => simp [integerToSymbols]
  | succ w ih =>
    intro x hx
    simp only [integerToSymbols, List.mem_append, List.mem_singleton] at hx
    rcases hx with hx | rfl
    · exact ih _ x hx
    · exact Nat.mod_lt _ hb

theorem symbolsToInteger_append_singleton (s : Word) (a b : Nat) :
    symbolsToInteger (s ++ [a]) b = symbolsToInteger s b * b + a := by
  simp [symbolsToInteger, List.foldl_append]

theorem symbolsToInteger_integerToSymbols (n b w : Nat) :
    symbolsToInteger (integerToSymbols n b w) b = n % b ^ w := by
  induction w generalizing n with
  | zero => simp [integerToSymbols, symbolsToInteger, Nat.mod_one]
  | succ w ih =>
    rw [integerToSymbols, symbolsToInteger_append_singleton, ih, pow_succ']
    rw [Nat.mod_mul, mul_comm b, add_comm]

theorem symbolsToInteger_lt (s : Word) (b : Nat) (hs : ∀ x ∈ s, x < b) :
    symbolsToInteger s b < b ^ s.length := by
  induction s using List.reverseRecOn with
  | nil => simp [symbolsToInteger]
  | append_singleton s a ih =>
    rw [symbolsToInteger_append_singleton, List.length_append, List.length_singleton, pow_succ]
    have h1 := ih (fun x hx => hs x (by simp [hx]))
    have h2 := hs a (by simp)
    calc symbolsToInteger s b * b + a < symbolsToInteger s b * b + b := by omega
      _ = (symbolsToInteger s b + 1) * b := by ring
      _ ≤ b ^ s.length * b := Nat.mul_le_mul_right _ h1

theorem integerToSymbols_symbolsToInteger (s : Word) (b : Nat) (hs : ∀ x ∈ s, x < b) :
    integerToSymbols (symbolsToInteger s b) b s.length = s := by
  induction s using List.reverseRecOn with
  | nil => rfl
  | append_singleton s a ih =>
    have h2 := hs a (by simp)
    have hb : 0 < b := by omega
    rw [symbolsToInteger_append_singleton, List.length_append, List.length_singleton, integerToSymbols]
    rw [show (symbolsToInteger s b * b + a) / b = symbolsToInteger s b by
      rw [mul_comm, Nat.mul_add_div hb, Nat.div_eq_of_lt h2, add_zero]]
    rw [ih (fun x hx => hs x (by simp [hx]))]
    congr 2
    rw [mul_comm, Nat.mul_add_mod, Nat.mod_eq_of_lt h2]

theorem integerToSymbols_inj {b w n m : Nat} (hn : n < b ^ w) (hm : m < b ^ w)
    (h : integerToSymbols n b w = integerToSymbols m b w) : n = m := by
  have := congrArg (symbolsToInteger · b) h
  simpa [symbolsToInteger_integerToSymbols, Nat.mod_eq_of_lt hn, Nat.mod_eq_of_lt hm] using this

theorem integerToSymbols_add (n b v w : Nat) :
    integerToSymbols n b (w + v) = integerToSymbols (n / b ^ v) b w ++ integerToSymbols n b v := by
  induction v generalizing n with
  | zero => simp [integerToSymbols]
  | succ v ih =>
    rw [← add_assoc, integerToSymbols, ih, integerToSymbols, List.append_assoc, Nat.div_div_eq_div_mul,
      pow_succ']

/-! ### canonical codes -/

theorem firstCode_mono (lengths : List Nat) (b : Nat) (l d : Nat) :
    (firstCode lengths b l + lengthCount lengths l) * b ^ (d + 1) ≤ firstCode lengths b (l + d + 1) := by
  induction d with
  | zero => simp [firstCode]
  | succ d ih =>
    rw [firstCode, pow_succ, ← mul_assoc]
    exact Nat.mul_le_mul_right _ (ih.trans (Nat.le_add_right _ _))

theorem firstCode_eq_sum (lengths : List Nat) (b l : Nat) :
    firstCode lengths b l + lengthCount lengths l =
      ((lengths.filter fun i => 0 < i ∧ i ≤ l).map fun i => b ^ (l - i)).sum := by
  induction l with
  | zero =>
    simp only [firstCode, lengthCount]
    rw [List.filter_eq_nil_iff.mpr (by intro a _; simp; omega)]; rfl
  | succ l ih =>
    rw [firstCode, ih, lengthCount, if_neg (Nat.succ_ne_zero _)]
    clear ih
    induction lengths with
    | nil => simp
    | cons a s ih =>
      rw [List.count_cons]
      by_cases h0 : 0 < a
      · by_cases h1 : a ≤ l
        · rw [List.filter_cons_of_pos (by simp [h0, h1]), List.filter_cons_of_pos (by simp [h0]; omega)]
          simp only [List.map_cons, List.sum_cons, add_mul]
          rw [if_neg (by simp; omega), ← ih, ← pow_succ, show l + 1 - a = l - a + 1 by omega]
          ring
        · by_cases h2 : a = l + 1
          · rw [List.filter_cons_of_neg (by simp [h1]), List.filter_cons_of_pos (by simp [h0]; omega)]
            simp only [List.map_cons, List.sum_cons]
            rw [if_pos (by simp [h2]), ← ih, h2]; simp; ring
          · rw [List.filter_cons_of_neg (by simp [h1]), List.filter_cons_of_neg (by simp; omega)]
            rw [if_neg (by simp [h2]), ← ih]; simp
      · rw [List.filter_cons_of_neg (by simp [h0]), List.filter_cons_of_neg (by simp [h0])]
        rw [if_neg (by simp; omega), ← ih]; simp

theorem le_lmax (lengths : List Nat) : ∀ l ∈ lengths, l ≤ lengths.foldr max 0 := by
  induction lengths with
  | nil => simp
  | cons a s ih =>
    intro l hl
    rcases List.mem_cons.mp hl with rfl | hl
    · simp
    · exact (ih l hl).trans (by simp)

theorem kraft_iff (lengths : List Nat) (b : Nat) (hb : 2 ≤ b) :
    firstCode lengths b (lengths.foldr max 0) + lengthCount lengths (lengths.foldr max 0) ≤
      b ^ (lengths.foldr max 0) ↔ kraftSum lengths b ≤ 1 := by
  rw [firstCode_eq_sum]
  set L := lengths.foldr max 0 with hL
  have hle := le_lmax lengths
  rw [← hL] at hle
  have hb' : (0 : ℚ) < (b : ℚ) := by exact_mod_cast (by omega : 0 < b)
  have key : ∀ s : List Nat, (∀ l ∈ s, l ≤ L) →
      (((s.filter fun i => 0 < i ∧ i ≤ L).map fun i => b ^ (L - i)).sum : ℚ) =
        (b : ℚ) ^ L * ((s.filter fun l => 0 < l).map fun l => (1 : ℚ) / (b : ℚ) ^ l).sum := by
    intro s hs
    induction s with
    | nil => simp
    | cons a s ih =>
      have ha := hs a (by simp)
      have ih := ih (fun l hl => hs l (by simp [hl]))
      by_cases h0 : 0 < a
      · rw [List.filter_cons_of_pos (by simp [h0, ha]), List.filter_cons_of_pos (by simp [h0])]
        simp only [List.map_cons, List.sum_cons, Nat.cast_add, mul_add, ih]
        congr 1
        rw [Nat.cast_pow, pow_sub₀ _ hb'.ne' ha]
        field_simp
      · rw [List.filter_cons_of_neg (by simp [h0]), List.filter_cons_of_neg (by simp [h0])]
        exact ih
  have hk := key lengths hle
  have hp : (0 : ℚ) < (b : ℚ) ^ L := by positivity
  unfold kraftSum
  constructor
  · intro h
    have h2 : (((lengths.filter fun i => 0 < i ∧ i ≤ L).map fun i => b ^ (L - i)).sum : ℚ) ≤ (b : ℚ) ^ L := by
      exact_mod_cast h
    rw [hk] at h2
    exact le_of_mul_le_mul_left (by simpa using h2) hp
  · intro h
    have h2 : (((lengths.filter fun i => 0 < i ∧ i ≤ L).map fun i => b ^ (L - i)).sum : ℚ) ≤ (b : ℚ) ^ L := by
      rw [hk]; nlinarith
    exact_mod_cast h2

theorem assignCodewords_length (lengths : List Nat) (b : Nat) (used rest : List Nat) :
    (assignCodewords lengths b used rest).length = rest.length := by
  induction rest generalizing used with
  | nil => rfl
  | cons l rest ih => simp [assignCodewords, ih]

theorem assignCodewords_getElem (lengths : List Nat) (b : Nat) (used rest : List Nat) (i : Nat)
    (hi : i < rest.length) :
    (assignCodewords lengths b used rest)[i]'(by rw [assignCodewords_length]; exact hi) =
      integerToSymbols (firstCode lengths b rest[i] + (used ++ rest.take i).count rest[i]) b rest[i] := by
  induction rest generalizing used i with
  | nil => simp at hi
  | cons l rest ih =>
    cases i with
    | zero => simp [assignCodewords]
    | succ i =>
      simp only [assignCodewords, List.getElem_cons_succ]
      rw [ih (used ++ [l]) i (by simpa using hi)]
      simp

theorem assignCodewords_map_length (lengths : List Nat) (b : Nat) (used rest : List Nat) :
    (assignCodewords lengths b used rest).map List.length = rest := by
  induction rest generalizing used with
  | nil => rfl
  | cons l rest ih => simp [assignCodewords, ih, integerToSymbols_length]

theorem count_take_lt {l : List Nat} {i : Nat} (hi : i < l.length) :
    (l.take i).count l[i] + 1 ≤ l.count l[i] := by
  have h : l.count l[i] = (l.take i).count l[i] + (l.drop i).count l[i] := by
    rw [← List.count_append, List.take_append_drop]
  have : 0 < (l.drop i).count l[i] := by
    rw [List.count_pos_iff, List.drop_eq_getElem_cons hi]; exact List.mem_cons_self
  omega

theorem count_take_lt' {l : List Nat} {i j : Nat} (hij : i < j) (hj : j < l.length) (h : l[i] = l[j]) :
    (l.take i).count l[i] < (l.take j).count l[j] := by
  have hi : i < (l.take j).length := by rw [List.length_take]; omega
  have := count_take_lt (l := l.take j) hi
  rw [List.getElem_take, List.take_take, min_eq_left hij.le] at this
  rw [← h]; omega

/-- Values assigned by the canonical code are below `b ^ l`. -/
theorem canonical_value_lt {lengths : List Nat} {b L : Nat} (hL : ∀ l ∈ lengths, l ≤ L) (hb : 2 ≤ b)
    (hk : firstCode lengths b L + lengthCount lengths L ≤ b ^ L) {l : Nat} (hl : l ≤ L) :
    firstCode lengths b l + lengthCount lengths l ≤ b ^ l := by
  rcases Nat.lt_or_ge l L with h | h
  · obtain ⟨d, rfl⟩ : ∃ d, L = l + d + 1 := ⟨L - l - 1, by omega⟩
    have h1 := firstCode_mono lengths b l d
    have h2 : (firstCode lengths b l + lengthCount lengths l) * b ^ (d + 1) ≤ b ^ l * b ^ (d + 1) := by
      rw [← pow_add]; exact h1.trans ((Nat.le_add_right _ _).trans hk)
    exact Nat.le_of_mul_le_mul_right h2 (by positivity)
  · obtain rfl : l = L := le_antisymm hl h
    exact hk

theorem canonicalCode_spec {lengths : List Nat} {b : Nat} {cs : List Word}
    (h : canonicalCode lengths b = some cs) :
    2 ≤ b ∧ lengths ≠ [] ∧ kraftSum lengths b ≤ 1 ∧ cs.map List.length = lengths ∧
      (∀ w ∈ cs, ∀ a ∈ w, a < b) ∧ PrefixFree cs := by
  unfold canonicalCode at h
  split at h; · simp at h
  rename_i hb
  split at h; · simp at h
  rename_i hne
  dsimp only at h
  split at h; · simp at h
  rename_i hk
  have hb : 2 ≤ b := by omega
  have hk := not_lt.mp hk
  obtain rfl := (Option.some.inj h).symm
  have hL := le_lmax lengths
  refine ⟨hb, hne, (kraft_iff lengths b hb).mp hk, assignCodewords_map_length _ _ _ _, ?_, ?_⟩
  · intro w hw
    obtain ⟨i, hi, rfl⟩ := List.getElem_of_mem hw
    rw [assignCodewords_length] at hi
    rw [assignCodewords_getElem _ _ _ _ i hi]
    exact integerToSymbols_lt _ _ _ (by omega)
  · intro i j hi hj hij hi0 hj0 hpre
    rw [assignCodewords_length] at hi hj
    rw [assignCodewords_getElem _ _ _ _ i hi] at hpre hi0
    rw [assignCodewords_getElem _ _ _ _ j hj] at hpre hj0
    simp only [List.nil_append] at hpre hi0 hj0
    have hlen := hpre.length_le
    rw [integerToSymbols_length, integerToSymbols_length] at hlen
    have hip : lengths[i] ≠ 0 := by
      intro h0; rw [h0] at hi0; exact hi0 rfl
    have hjp : lengths[j] ≠ 0 := by
      intro h0; rw [h0] at hj0; exact hj0 rfl
    have hvi : firstCode lengths b lengths[i] + (lengths.take i).count lengths[i] <
        firstCode lengths b lengths[i] + lengthCount lengths lengths[i] := by
      rw [lengthCount, if_neg hip]; have := count_take_lt hi; omega
    have hvj : firstCode lengths b lengths[j] + (lengths.take j).count lengths[j] <
        firstCode lengths b lengths[j] + lengthCount lengths lengths[j] := by
      rw [lengthCount, if_neg hjp]; have := count_take_lt hj; omega
    have hbi := canonical_value_lt hL hb hk (hL _ (List.getElem_mem hi))
    have hbj := canonical_value_lt hL hb hk (hL _ (List.getElem_mem hj))
    rcases Nat.lt_or_ge lengths[i] lengths[j] with hlt | hge
    · obtain ⟨d, hd⟩ : ∃ d, lengths[j] = lengths[i] + (d + 1) := ⟨lengths[j] - lengths[i] - 1, by omega⟩
      have hm := firstCode_mono lengths b lengths[i] d
      rw [show lengths[i] + d + 1 = lengths[j] by omega] at hm
      generalize hv : firstCode lengths b lengths[j] + (lengths.take j).count lengths[j] = v at *
      generalize hu : firstCode lengths b lengths[i] + (lengths.take i).count lengths[i] = u at *
      rw [hd, integerToSymbols_add] at hpre
      have heq : integerToSymbols u b lengths[i] = integerToSymbols (v / b ^ (d + 1)) b lengths[i] := by
        apply (List.prefix_of_prefix_length_le hpre (List.prefix_append _ _) ?_).eq_of_length
        · simp [integerToSymbols_length]
        · simp [integerToSymbols_length]
      have hpos : 0 < b ^ (d + 1) := by positivity
      have := integerToSymbols_inj (by omega) (by
        rw [Nat.div_lt_iff_lt_mul hpos, ← pow_add, ← hd]; omega) heq
      have h3 : firstCode lengths b lengths[i] + lengthCount lengths lengths[i] ≤ v / b ^ (d + 1) := by
        rw [Nat.le_div_iff_mul_le hpos]; omega
      omega
    · have hll : lengths[i] = lengths[j] := by omega
      have heq := hpre.eq_of_length (by simp [integerToSymbols_length, hll])
      rw [hll] at heq
      have hh := integerToSymbols_inj (by rw [hll] at hbi hvi; omega) (by omega) heq
      rcases Nat.lt_or_gt_of_ne hij with hlt | hgt
      · have := count_take_lt' hlt hj hll; rw [hll] at this; omega
      · have := count_take_lt' hgt hi hll.symm; rw [hll] at this; omega

theorem canonicalCode_isSome_iff (lengths : List Nat) (b : Nat) (hb : 2 ≤ b) :
    (∃ cs, canonicalCode lengths b = some cs) ↔ lengths ≠ [] ∧ kraftSum lengths b ≤ 1 := by
  constructor
  · rintro ⟨cs, h⟩
    have := canonicalCode_spec h
    exact ⟨this.2.1, this.2.2.1⟩
  · rintro ⟨h1, h2⟩
    refine ⟨assignCodewords lengths b [] lengths, ?_⟩
    unfold canonicalCode
    rw [if_neg (by omega), if_neg h1]
    dsimp only
    rw [if_neg (by rw [not_lt]; exact (kraft_iff lengths b hb).mpr h2)]

/-! ### block size -/

theorem inferBlockSizeLoop_spec (size q : Nat) (hq : 2 ≤ q) (fuel k p : Nat) (hp : p = q ^ k)
    (hfuel : size < fuel + 2 ^ k + 1 ∨ size ≤ p) (hk : 1 ≤ k) (hmin : k = 1 ∨ q ^ (k - 1) < size) :
    ∃ k', 1 ≤ k' ∧ inferBlockSizeLoop size q fuel k p = (k', q ^ k') ∧ size ≤ q ^ k' ∧
      (k' = 1 ∨ q ^ (k' - 1) < size) := by
  induction fuel generalizing k p with
  | zero =>
    refine ⟨k, hk, by simp [inferBlockSizeLoop, hp], ?_, hmin⟩
    rcases hfuel with h | h
    · have : 2 ^ k ≤ q ^ k := Nat.pow_le_pow_left hq k
      omega
    · rw [← hp]; exact h
  | succ fuel ih =>
    rw [inferBlockSizeLoop]
    split
    · rename_i hlt
      refine ih (k + 1) (p * q) (by rw [hp, pow_succ]) ?_ (by omega) (Or.inr (by simpa [← hp] using hlt))
      rcases hfuel with h | h
      · left
        have : 2 ^ k ≥ 1 := Nat.one_le_two_pow
        rw [pow_succ]; omega
      · omega
    · exact ⟨k, hk, by rw [hp], by omega, hmin⟩

theorem inferBlockSize_iff (size q : Nat) (hq : 2 ≤ q) (k : Nat) :
    inferBlockSize size q = some k ↔ 1 ≤ k ∧ size = q ^ k := by
  obtain ⟨k', h1, h2, h3, h4⟩ := inferBlockSizeLoop_spec size q hq size 1 q (by simp)
    (Or.inl (by omega)) le_rfl (Or.inl rfl)
  unfold inferBlockSize
  rw [h2]
  dsimp only
  constructor
  · intro h
    split at h
    · simp at h
    · rename_i h5
      rw [not_not] at h5
      obtain rfl := Option.some.inj h
      exact ⟨h1, h5.symm⟩
  · rintro ⟨hk, rfl⟩
    have : k = k' := by
      have h5 : k ≤ k' := (Nat.pow_le_pow_iff_right (by omega)).mp h3
      rcases h4 with h4 | h4
      · omega
      · have := (Nat.pow_lt_pow_iff_right (by omega)).mp h4
        omega
    rw [← this, if_neg (by simp)]

theorem fromLengths_iff (lengths : List Nat) (sc : Option Nat) (calY : Nat) (c : FVCode) :
    FVCode.fromLengths lengths sc calY = some c ↔
      2 ≤ sc.getD lengths.length ∧ 2 ≤ calY ∧ ∃ k cs, 1 ≤ k ∧ lengths.length = (sc.getD lengths.length) ^ k ∧
        canonicalCode lengths calY = some cs ∧ (∀ l ∈ lengths, l ≠ 0) ∧
        c = ⟨sc.getD lengths.length, calY, k, (allWords (sc.getD lengths.length) k).zip cs⟩ := by
  unfold FVCode.fromLengths
  dsimp only
  generalize hX : sc.getD lengths.length = X
  by_cases h1 : X < 2
  · rw [if_pos h1]; constructor
    · simp
    · rintro ⟨h, _⟩; omega
  rw [if_neg h1]
  by_cases h2 : calY < 2
  · rw [if_pos h2]; constructor
    · simp
    · rintro ⟨_, h, _⟩; omega
  rw [if_neg h2]
  cases hk : inferBlockSize lengths.length X with
  | none =>
    constructor
    · simp
    · rintro ⟨_, _, k, cs, h3, h4, _⟩
      have := (inferBlockSize_iff lengths.length X (by omega) k).mpr ⟨h3, h4⟩
      rw [hk] at this; simp at this
  | some k =>
    have hk' := (inferBlockSize_iff lengths.length X (by omega) k).mp hk
    have hkuniq : ∀ k', 1 ≤ k' → lengths.length = X ^ k' → k' = k := by
      intro k' h3 h4
      have := (inferBlockSize_iff lengths.length X (by omega) k').mpr ⟨h3, h4⟩
      rw [hk] at this; exact (Option.some.inj this).symm
    dsimp only
    cases hc : canonicalCode lengths calY with
    | none =>
      constructor
      · simp
      · rintro ⟨_, _, k, cs, _, _, h, _⟩
        simp at h
    | some cs =>
      obtain ⟨hb, _, _, hlen, hlt, hpf⟩ := canonicalCode_spec hc
      have hlen2 : (allWords X k).length = cs.length := by
        rw [allWords_length, ← hk'.2, ← hlen, List.length_map]
      have hnd : (((allWords X k).zip cs).map Prod.fst).Nodup := by
        rw [List.map_fst_zip hlen2.le]; exact allWords_nodup X k
      have hcreate : FVCode.create X calY k (dictOfPairs ((allWords X k).zip cs)) =
          some ⟨X, calY, k, (allWords X k).zip cs⟩ := by
        rw [dictOfPairs_nodup _ hnd]
        unfold FVCode.create
        rw [if_neg h1, if_neg h2, if_neg (by omega), if_neg (by rw [not_not, List.map_fst_zip hlen2.le]),
          if_neg]
        rw [not_not]
        intro e he
        exact hlt e.2 (List.of_mem_zip he).2
      dsimp only
      have hz : (cs.any fun w => decide (w.length = 0)) = true ↔ ¬ ∀ l ∈ lengths, l ≠ 0 := by
        rw [← hlen]; simp
      by_cases hzero : ∀ l ∈ lengths, l ≠ 0
      · rw [if_neg (by rw [hz, not_not]; exact hzero), hcreate]
        constructor
        · intro h
          exact ⟨by omega, by omega, k, cs, hk'.1, hk'.2, rfl, hzero, (Option.some.inj h).symm⟩
        · rintro ⟨_, _, k', cs', h3, h4, h5, _, rfl⟩
          rw [hkuniq k' h3 h4, Option.some.inj h5]
      · rw [if_pos (hz.mpr hzero)]
        constructor
        · simp
        · rintro ⟨_, _, _, _, _, _, _, h, _⟩
          exact absurd h hzero

end Komm
