import Verif.Model.Labelings
import Verif.Spec.Labelings
import Verif.Lemmas.Blockwise
import Verif.Lemmas.BitOps
import Mathlib.Data.List.Dedup
import Mathlib.Data.List.Nodup
import Mathlib.Data.List.GetD
import Mathlib.Algebra.BigOperators.Group.List.Lemmas
import Mathlib.Tactic.Linarith
namespace Komm

/-! ### Gray code -/

theorem foldl_xor_acc (f : Nat → Nat) (l : List Nat) (a : Nat) :
    l.foldl (fun acc s => acc ^^^ f s) a = a ^^^ l.foldl (fun acc s => acc ^^^ f s) 0 := by
  induction l generalizing a with
  | nil => simp
  | cons x l ih => rw [List.foldl_cons, List.foldl_cons, ih, ih (0 ^^^ f x), Nat.zero_xor, Nat.xor_assoc]

theorem grayInverse_succ (m n : Nat) : grayInverse (m + 1) n = grayInverse m n ^^^ (n >>> m) := by
  simp [grayInverse, List.range_succ]

theorem xor_shift (a b s : Nat) : (a ^^^ b) >>> s = (a >>> s) ^^^ (b >>> s) := by
  apply Nat.eq_of_testBit_eq
  intro i
  simp [Nat.testBit_xor, Nat.testBit_shiftRight]

theorem grayInverse_gray (m i : Nat) : grayInverse m (i ^^^ (i >>> 1)) = i ^^^ (i >>> m) := by
  induction m with
  | zero => simp [grayInverse]
  | succ m ih =>
    rw [grayInverse_succ, ih, xor_shift, ← Nat.shiftRight_add, Nat.add_comm 1 m]
    apply Nat.eq_of_testBit_eq
    intro j
    simp only [Nat.testBit_xor]
    cases Nat.testBit i j <;> cases Nat.testBit (i >>> m) j <;> simp

theorem gray_grayInverse (m n : Nat) : grayInverse m n ^^^ (grayInverse m n >>> 1) = n ^^^ (n >>> m) := by
  induction m with
  | zero => simp [grayInverse]
  | succ m ih =>
    rw [grayInverse_succ, xor_shift, ← Nat.shiftRight_add]
    have : grayInverse m n ^^^ n >>> m ^^^ (grayInverse m n >>> 1 ^^^ n >>> (m + 1)) =
        (grayInverse m n ^^^ grayInverse m n >>> 1) ^^^ (n >>> m ^^^ n >>> (m + 1)) := by
      apply Nat.eq_of_testBit_eq
      intro j
      simp only [Nat.testBit_xor]
      cases Nat.testBit (grayInverse m n) j <;> cases Nat.testBit (n >>> m) j <;> simp
    rw [this, ih]
    apply Nat.eq_of_testBit_eq
    intro j
    simp only [Nat.testBit_xor]
    cases Nat.testBit n j <;> cases Nat.testBit (n >>> m) j <;> simp

theorem shiftRight_of_lt (n m : Nat) (h : n < 2 ^ m) : n >>> m = 0 := by
  rw [Nat.shiftRight_eq_div_pow, Nat.div_eq_of_lt h]

theorem gray_lt (m i : Nat) (h : i < 2 ^ m) : i ^^^ (i >>> 1) < 2 ^ m :=
  Nat.xor_lt_two_pow h (lt_of_le_of_lt (by rw [Nat.shiftRight_eq_div_pow]; exact Nat.div_le_self _ _) h)

theorem grayInverse_lt (m n : Nat) (h : n < 2 ^ m) : grayInverse m n < 2 ^ m := by
  have : ∀ l : List Nat, ∀ a < 2 ^ m, l.foldl (fun acc s => acc ^^^ (n >>> s)) a < 2 ^ m := by
    intro l
    induction l with
    | nil => intro a ha; simpa using ha
    | cons x l ih =>
      intro a ha
      exact ih _ (Nat.xor_lt_two_pow ha
        (lt_of_le_of_lt (by rw [Nat.shiftRight_eq_div_pow]; exact Nat.div_le_self _ _) h))
  exact this _ _ (Nat.two_pow_pos m)

theorem xor_succ_form (i : Nat) : ∃ t, i ^^^ (i + 1) = 2 ^ (t + 1) - 1 ∧ 2 ^ t ≤ i + 1 := by
  induction i using Nat.strong_induction_on with
  | _ i ih =>
    rcases Nat.even_or_odd' i with ⟨k, rfl | rfl⟩
    · refine ⟨0, ?_, by simp⟩
      apply Nat.eq_of_testBit_eq
      intro j
      cases j with
      | zero => simp [Nat.testBit_xor]
      | succ j =>
        have : (2 * k + 1) / 2 = k := by omega
        have e2 : (2 * k) / 2 = k := by omega
        rw [Nat.testBit_xor, Nat.testBit_succ, Nat.testBit_succ, this, e2]
        simp [Nat.testBit_succ]
    · obtain ⟨t, h1, h2⟩ := ih k (by omega)
      refine ⟨t + 1, ?_, by rw [pow_succ]; omega⟩
      apply Nat.eq_of_testBit_eq
      intro j
      cases j with
      | zero =>
        have : (2 ^ (t + 1 + 1) - 1) % 2 = 1 := by have := Nat.two_pow_pos t; rw [pow_succ, pow_succ]; omega
        simp [Nat.testBit_xor, Nat.testBit_zero, this]; omega
      | succ j =>
        have e1 : (2 * k + 1) / 2 = k := by omega
        have e2 : (2 * k + 1 + 1) / 2 = k + 1 := by omega
        have e3 : (2 ^ (t + 1 + 1) - 1) / 2 = 2 ^ (t + 1) - 1 := by
          have := Nat.two_pow_pos t; rw [pow_succ, pow_succ]; omega
        rw [Nat.testBit_xor, Nat.testBit_succ, Nat.testBit_succ, Nat.testBit_succ, e1, e2, e3, ← h1,
          Nat.testBit_xor]

/-- Consecutive Gray codes differ in exactly one binary digit. -/
theorem gray_succ_xor (i : Nat) :
    ∃ t, (i ^^^ (i >>> 1)) ^^^ ((i + 1) ^^^ ((i + 1) >>> 1)) = 2 ^ t ∧ 2 ^ t ≤ i + 1 := by
  obtain ⟨t, h1, h2⟩ := xor_succ_form i
  refine ⟨t, ?_, h2⟩
  have e : (i ^^^ (i >>> 1)) ^^^ ((i + 1) ^^^ ((i + 1) >>> 1)) =
      (i ^^^ (i + 1)) ^^^ ((i ^^^ (i + 1)) >>> 1) := by
    rw [xor_shift]
    apply Nat.eq_of_testBit_eq
    intro j
    simp only [Nat.testBit_xor]
    cases Nat.testBit i j <;> cases Nat.testBit (i + 1) j <;> simp
  rw [e, h1]
  apply Nat.eq_of_testBit_eq
  intro j
  rw [Nat.testBit_xor, Nat.testBit_shiftRight, Nat.testBit_two_pow_sub_one, Nat.testBit_two_pow_sub_one,
    Nat.testBit_two_pow]
  by_cases h : j < t
  · simp [show j < t + 1 by omega, show 1 + j < t + 1 by omega, show t ≠ j by omega]
  · by_cases h' : j = t
    · subst h'; simp; omega
    · simp [show ¬ j < t + 1 by omega, show ¬ 1 + j < t + 1 by omega, show t ≠ j by omega]

theorem wordDist_append (a b c d : List Nat) (h : a.length = c.length) :
    wordDist (a ++ b) (c ++ d) = wordDist a c + wordDist b d := by
  induction a generalizing c with
  | nil => obtain rfl : c = [] := List.length_eq_zero_iff.mp h.symm; simp [wordDist]
  | cons x a ih =>
    cases c with
    | nil => simp at h
    | cons y c => simp only [List.cons_append, wordDist, ih c (by simpa using h)]; omega

theorem wordDist_self (a : List Nat) : wordDist a a = 0 := by
  induction a with
  | nil => rfl
  | cons x a ih => simp [wordDist, ih]

theorem wordDist_reverse (a b : List Nat) (h : a.length = b.length) :
    wordDist a.reverse b.reverse = wordDist a b := by
  induction a generalizing b with
  | nil => obtain rfl : b = [] := List.length_eq_zero_iff.mp h.symm; simp [wordDist]
  | cons x a ih =>
    cases b with
    | nil => simp at h
    | cons y b =>
      rw [List.reverse_cons, List.reverse_cons, wordDist_append _ _ _ _ (by simpa using h),
        ih b (by simpa using h)]
      simp [wordDist]; omega

theorem wordDist_lsb (a b t w : Nat) (h : a ^^^ b = 2 ^ t) (ht : t < w) :
    wordDist (intToBits .lsbFirst a w) (intToBits .lsbFirst b w) = 1 := by
  induction w generalizing a b t with
  | zero => omega
  | succ w ih =>
    rw [intToBits_lsb_succ, intToBits_lsb_succ, wordDist]
    cases t with
    | zero =>
      have h0 : (a ^^^ b).testBit 0 = true := by simp [h]
      have hq : a / 2 = b / 2 := by
        apply Nat.eq_of_testBit_eq
        intro j
        have : (a ^^^ b).testBit (j + 1) = false := by rw [h, Nat.testBit_two_pow]; simp
        rw [Nat.testBit_xor, Nat.testBit_succ, Nat.testBit_succ] at this
        simpa using this
      rw [hq, wordDist_self, if_neg]
      intro e
      simp [Nat.testBit_xor, Nat.testBit_zero, e] at h0
      omega
    | succ t =>
      have h0 : (a ^^^ b).testBit 0 = false := by rw [h, Nat.testBit_two_pow]; simp
      have e : a % 2 = b % 2 := by
        simp only [Nat.testBit_xor, Nat.testBit_zero] at h0
        have := Nat.mod_two_eq_zero_or_one a
        have := Nat.mod_two_eq_zero_or_one b
        by_contra hne
        have h1 : a % 2 = 1 ∧ b % 2 = 0 ∨ a % 2 = 0 ∧ b % 2 = 1 := by omega
        rcases h1 with ⟨h1, h2⟩ | ⟨h1, h2⟩ <;> simp [h1, h2] at h0 <;> omega
      rw [if_pos e, ih (a / 2) (b / 2) t _ (by omega), Nat.zero_add]
      apply Nat.eq_of_testBit_eq
      intro j
      have : (a ^^^ b).testBit (j + 1) = (2 ^ (t + 1)).testBit (j + 1) := by rw [h]
      rw [Nat.testBit_xor, Nat.testBit_succ, Nat.testBit_succ] at this
      rw [Nat.testBit_xor, this, Nat.testBit_two_pow, Nat.testBit_two_pow]
      simp

theorem wordDist_msb (a b t w : Nat) (h : a ^^^ b = 2 ^ t) (ht : t < w) :
    wordDist (intToBits .msbFirst a w) (intToBits .msbFirst b w) = 1 := by
  rw [intToBits_msb, intToBits_msb, wordDist_reverse _ _ (by simp [intToBits_length])]
  exact wordDist_lsb a b t w h ht

/-! ### Tables -/

theorem naturalTable (m : Nat) :
    IsLabelTable m ((List.range (1 <<< m)).map fun i => intToBits .msbFirst i m) := by
  rw [Nat.one_shiftLeft]
  constructor
  · apply List.Nodup.map_on _ List.nodup_range
    intro i hi j hj h
    have := congrArg (bitsToInt .msbFirst) h
    rwa [bitsToInt_intToBits, bitsToInt_intToBits, Nat.mod_eq_of_lt (by simpa using hi),
      Nat.mod_eq_of_lt (by simpa using hj)] at this
  · intro w
    constructor
    · intro h
      obtain ⟨i, _, rfl⟩ := List.mem_map.mp h
      exact ⟨intToBits_length _ _ _, fun b hb => by have := intToBits_lt _ _ _ b hb; omega⟩
    · rintro ⟨rfl, hb⟩
      refine List.mem_map.mpr ⟨bitsToInt .msbFirst w, List.mem_range.mpr (bitsToInt_lt _ _), ?_⟩
      exact intToBits_bitsToInt _ _ fun b h => by have := hb b h; omega

theorem reflectedTable (m : Nat) :
    IsLabelTable m ((List.range (1 <<< m)).map fun i => intToBits .msbFirst (i ^^^ (i >>> 1)) m) := by
  rw [Nat.one_shiftLeft]
  constructor
  · apply List.Nodup.map_on _ List.nodup_range
    intro i hi j hj h
    have hi : i < 2 ^ m := by simpa using hi
    have hj : j < 2 ^ m := by simpa using hj
    have := congrArg (bitsToInt .msbFirst) h
    rw [bitsToInt_intToBits, bitsToInt_intToBits, Nat.mod_eq_of_lt (gray_lt m i hi),
      Nat.mod_eq_of_lt (gray_lt m j hj)] at this
    have := congrArg (grayInverse m) this
    rwa [grayInverse_gray, grayInverse_gray, shiftRight_of_lt _ _ hi, shiftRight_of_lt _ _ hj, Nat.xor_zero,
      Nat.xor_zero] at this
  · intro w
    constructor
    · intro h
      obtain ⟨i, _, rfl⟩ := List.mem_map.mp h
      exact ⟨intToBits_length _ _ _, fun b hb => by have := intToBits_lt _ _ _ b hb; omega⟩
    · rintro ⟨rfl, hb⟩
      have hlt := bitsToInt_lt .msbFirst w
      refine List.mem_map.mpr ⟨grayInverse w.length (bitsToInt .msbFirst w),
        List.mem_range.mpr (grayInverse_lt _ _ hlt), ?_⟩
      rw [gray_grayInverse, shiftRight_of_lt _ _ hlt, Nat.xor_zero]
      exact intToBits_bitsToInt _ _ fun b h => by have := hb b h; omega

theorem productRows_cons_mem (M : List (List Nat)) (Ms : List (List (List Nat))) (w : List Nat) :
    w ∈ productRows (M :: Ms) ↔ ∃ a ∈ M, ∃ b ∈ productRows Ms, a ++ b = w := by
  simp [productRows, List.mem_flatMap]

theorem productTable_cons (m n : Nat) (M : List (List Nat)) (Ms : List (List (List Nat)))
    (h1 : IsLabelTable m M) (h2 : IsLabelTable n (productRows Ms)) :
    IsLabelTable (m + n) (productRows (M :: Ms)) := by
  constructor
  · rw [productRows, List.nodup_flatMap]
    refine ⟨fun a _ => h2.1.map fun x y h => by simpa using h, ?_⟩
    apply h1.1.imp_of_mem
    intro a b ha hb hab
    rw [Function.onFun, List.disjoint_left]
    intro x hx hy
    obtain ⟨u, _, rfl⟩ := List.mem_map.mp hx
    obtain ⟨v, _, h⟩ := List.mem_map.mp hy
    exact hab (List.append_inj_left h (by rw [((h1.2 a).mp ha).1, ((h1.2 b).mp hb).1])).symm
  · intro w
    rw [productRows_cons_mem]
    constructor
    · rintro ⟨a, ha, b, hb, rfl⟩
      obtain ⟨ha1, ha2⟩ := (h1.2 a).mp ha
      obtain ⟨hb1, hb2⟩ := (h2.2 b).mp hb
      refine ⟨by simp [ha1, hb1], ?_⟩
      intro x hx
      rcases List.mem_append.mp hx with hx | hx
      · exact ha2 x hx
      · exact hb2 x hx
    · rintro ⟨hl, hb⟩
      refine ⟨w.take m, (h1.2 _).mpr ⟨by rw [List.length_take]; omega, fun b h => hb b (List.mem_of_mem_take h)⟩,
        w.drop m, (h2.2 _).mpr ⟨by rw [List.length_drop]; omega, fun b h => hb b (List.mem_of_mem_drop h)⟩,
        List.take_append_drop _ _⟩

theorem productTable (labs : List Lab) (h : ∀ L ∈ labs, IsLabelTable L.numBits L.matrix) :
    IsLabelTable (labs.map Lab.numBits).sum (productRows (labs.map Lab.matrix)) := by
  induction labs with
  | nil =>
    refine ⟨by simp [productRows], fun w => ?_⟩
    simp only [List.map_nil, productRows, List.mem_singleton, List.sum_nil]
    constructor
    · rintro rfl; simp
    · rintro ⟨h, _⟩; exact List.length_eq_zero_iff.mp h
  | cons L labs ih =>
    exact productTable_cons _ _ _ _ (h L (by simp)) (ih fun L' h' => h L' (by simp [h']))

theorem table_length (m : Nat) (rows : List (List Nat)) (h : IsLabelTable m rows) : rows.length = 2 ^ m := by
  have h' := naturalTable m
  have : rows.Perm ((List.range (1 <<< m)).map fun i => intToBits .msbFirst i m) :=
    (List.perm_ext_iff_of_nodup h.1 h'.1).mpr fun w => (h.2 w).trans (h'.2 w).symm
  rw [this.length_eq]; simp [Nat.one_shiftLeft]

/-- Conversely `2^m` distinct binary rows of width `m` are all of them. -/
theorem table_of_length (m : Nat) (rows : List (List Nat)) (hnd : rows.Nodup) (hlen : rows.length = 2 ^ m)
    (hw : ∀ w ∈ rows, w.length = m ∧ ∀ b ∈ w, b = 0 ∨ b = 1) : IsLabelTable m rows := by
  refine ⟨hnd, fun w => ⟨hw w, fun h => ?_⟩⟩
  have h' := naturalTable m
  have hsub : rows ⊆ (List.range (1 <<< m)).map fun i => intToBits .msbFirst i m :=
    fun x hx => (h'.2 x).mpr (hw x hx)
  have hp : rows.Perm ((List.range (1 <<< m)).map fun i => intToBits .msbFirst i m) :=
    (List.subperm_of_subset hnd hsub).perm_of_length_le (by rw [table_length m _ h', hlen])
  exact hp.mem_iff.mpr ((h'.2 w).mpr h)

theorem inverseMapping_get (L : Lab) (hnd : L.matrix.Nodup) (i : Nat) (hi : i < L.matrix.length) :
    L.inverseMapping L.matrix[i] = some i := by
  unfold Lab.inverseMapping
  cases hf : L.matrix.zipIdx.reverse.find? fun p => p.1 == L.matrix[i] with
  | none =>
    rw [List.find?_eq_none] at hf
    exact absurd (hf (L.matrix[i], i) (by
      rw [List.mem_reverse, List.mem_zipIdx_iff_getElem?]; simp)) (by simp)
  | some p =>
    have h1 := List.find?_some hf
    have h2 := List.mem_of_find?_eq_some hf
    rw [List.mem_reverse, List.mem_zipIdx_iff_getElem?] at h2
    have h1' : p.1 = L.matrix[i] := by simpa using h1
    obtain ⟨h3, h4⟩ := List.getElem?_eq_some_iff.mp h2
    simp only [Option.map_some, Option.some_inj]
    exact (List.Nodup.getElem_inj_iff hnd).mp (h4.trans h1')

end Komm
