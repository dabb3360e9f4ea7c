import Verif.Lemmas.Sequences
import Verif.Lemmas.BitOps
import Mathlib.Algebra.BigOperators.Group.Finset.Piecewise
import Mathlib.Tactic.Linarith
/-! The Hadamard matrix of the library, row by row. -/
namespace Komm

/-- The matrix after `m` Kronecker steps. -/
def had (m : Nat) : List (List Int) := hadamardLoop m [[1]]

theorem had_succ (m : Nat) : had (m + 1) = kronStep (had m) := by
  have : ∀ (m : Nat) h, hadamardLoop (m + 1) h = kronStep (hadamardLoop m h) := by
    intro m
    induction m with
    | zero => intro h; rfl
    | succ m ih => intro h; rw [hadamardLoop, ih]; rfl
  exact this m _

theorem pairs_even {α β : Type} (l : List α) (f g : α → β) (i : Nat) :
    ((l.map fun x : α => [f x, g x]).flatten)[2 * i]? = (l[i]?).map f := by
  induction l generalizing i with
  | nil => simp
  | cons a l ih =>
    cases i with
    | zero => simp
    | succ i =>
      rw [show 2 * (i + 1) = 2 * i + 2 by ring]
      simp only [List.map_cons, List.flatten_cons, List.cons_append, List.nil_append, List.getElem?_cons_succ]
      exact ih i

theorem pairs_odd {α β : Type} (l : List α) (f g : α → β) (i : Nat) :
    ((l.map fun x : α => [f x, g x]).flatten)[2 * i + 1]? = (l[i]?).map g := by
  induction l generalizing i with
  | nil => simp
  | cons a l ih =>
    cases i with
    | zero => simp
    | succ i =>
      rw [show 2 * (i + 1) + 1 = (2 * i + 1) + 2 by ring]
      simp only [List.map_cons, List.flatten_cons, List.cons_append, List.nil_append, List.getElem?_cons_succ]
      exact ih i

theorem pairs_length {α β : Type} (l : List α) (f g : α → β) : ((l.map fun x : α => [f x, g x]).flatten).length = 2 * l.length := by
  induction l with
  | nil => rfl
  | cons a l ih =>
    simp only [List.map_cons, List.flatten_cons, List.length_append, ih, List.length_cons, List.length_nil]; ring

/-- Row `i` of the matrix. -/
def hrow (m i : Nat) : List Int := (had m).getD i []

theorem had_length (m : Nat) : (had m).length = 2 ^ m := by
  induction m with
  | zero => rfl
  | succ m ih => rw [had_succ, kronStep, pairs_length, ih, pow_succ, mul_comm]

theorem hrow_even (m r : Nat) (hr : r < 2 ^ m) : hrow (m + 1) (2 * r) = ((hrow m r).map fun x : Int => [x * 1, x * 1]).flatten := by
  have hl : r < (had m).length := by rw [had_length]; exact hr
  rw [hrow, hrow, had_succ, kronStep, List.getD_eq_getElem?_getD, pairs_even, List.getD_eq_getElem?_getD, List.getElem?_eq_getElem hl]
  rfl

theorem hrow_odd (m r : Nat) (hr : r < 2 ^ m) : hrow (m + 1) (2 * r + 1) = ((hrow m r).map fun x : Int => [x * 1, x * (-1)]).flatten := by
  have hl : r < (had m).length := by rw [had_length]; exact hr
  rw [hrow, hrow, had_succ, kronStep, List.getD_eq_getElem?_getD, pairs_odd, List.getD_eq_getElem?_getD, List.getElem?_eq_getElem hl]
  rfl

theorem hrow_length (m r : Nat) (hr : r < 2 ^ m) : (hrow m r).length = 2 ^ m := by
  induction m generalizing r with
  | zero => obtain rfl : r = 0 := by omega
            rfl
  | succ m ih =>
    rw [pow_succ] at hr
    rcases Nat.even_or_odd' r with ⟨q, rfl | rfl⟩
    · rw [hrow_even m q (by omega), pairs_length, ih q (by omega), pow_succ, mul_comm]
    · rw [hrow_odd m q (by omega), pairs_length, ih q (by omega), pow_succ, mul_comm]

/-- The sign by which row `2 r + a` modifies the second entry of each pair. -/
theorem hrow_entries (m q a j : Nat) (hq : q < 2 ^ m) (ha : a < 2) :
    (hrow (m + 1) (2 * q + a)).getD (2 * j) 0 = (hrow m q).getD j 0 ∧
    (hrow (m + 1) (2 * q + a)).getD (2 * j + 1) 0 = (hrow m q).getD j 0 * (if a = 0 then 1 else -1) := by
  have : a = 0 ∨ a = 1 := by omega
  rcases this with rfl | rfl
  · rw [show 2 * q + 0 = 2 * q from rfl, hrow_even m q hq]
    simp only [List.getD_eq_getElem?_getD]
    rw [pairs_even, pairs_odd]
    cases (hrow m q)[j]? <;> simp
  · rw [hrow_odd m q hq]
    simp only [List.getD_eq_getElem?_getD]
    rw [pairs_even, pairs_odd]
    cases (hrow m q)[j]? <;> simp

theorem sum_pairs {M : Type} [AddCommMonoid M] (f : Nat → M) (n : Nat) :
    ∑ k ∈ Finset.range (2 * n), f k = ∑ j ∈ Finset.range n, (f (2 * j) + f (2 * j + 1)) := by
  induction n with
  | zero => rfl
  | succ n ih => rw [show 2 * (n + 1) = 2 * n + 1 + 1 by ring, Finset.sum_range_succ, Finset.sum_range_succ, ih, Finset.sum_range_succ, add_assoc]

theorem hrow_dot (m i j : Nat) (hi : i < 2 ^ m) (hj : j < 2 ^ m) :
    ∑ k ∈ Finset.range (2 ^ m), (hrow m i).getD k 0 * (hrow m j).getD k 0 = if i = j then 2 ^ m else 0 := by
  induction m generalizing i j with
  | zero =>
    obtain rfl : i = 0 := by omega
    obtain rfl : j = 0 := by omega
    rfl
  | succ m ih =>
    rw [pow_succ] at hi hj
    obtain ⟨q, a, ha, rfl⟩ : ∃ q a, a < 2 ∧ i = 2 * q + a := ⟨i / 2, i % 2, Nat.mod_lt _ (by norm_num), by omega⟩
    obtain ⟨r, b, hb, rfl⟩ : ∃ q a, a < 2 ∧ j = 2 * q + a := ⟨j / 2, j % 2, Nat.mod_lt _ (by norm_num), by omega⟩
    rw [pow_succ, mul_comm (2 ^ m) 2, sum_pairs]
    have hterm : ∀ k ∈ Finset.range (2 ^ m),
        ((hrow (m + 1) (2 * q + a)).getD (2 * k) 0 * (hrow (m + 1) (2 * r + b)).getD (2 * k) 0 +
          (hrow (m + 1) (2 * q + a)).getD (2 * k + 1) 0 * (hrow (m + 1) (2 * r + b)).getD (2 * k + 1) 0) =
        (1 + (if a = 0 then 1 else -1) * (if b = 0 then 1 else -1)) * ((hrow m q).getD k 0 * (hrow m r).getD k 0) := by
      intro k _
      rw [(hrow_entries m q a k (by omega) ha).1, (hrow_entries m q a k (by omega) ha).2,
        (hrow_entries m r b k (by omega) hb).1, (hrow_entries m r b k (by omega) hb).2]
      ring
    rw [Finset.sum_congr rfl hterm, ← Finset.mul_sum, ih q r (by omega) (by omega)]
    have ha' : a = 0 ∨ a = 1 := by omega
    have hb' : b = 0 ∨ b = 1 := by omega
    by_cases hqr : q = r
    · subst hqr
      rw [if_pos rfl]
      rcases ha' with rfl | rfl <;> rcases hb' with rfl | rfl
      · rw [if_pos rfl, if_pos rfl, pow_succ]; ring
      · rw [if_neg (by omega : ¬ 2 * q + 0 = 2 * q + 1)]; simp
      · rw [if_neg (by omega : ¬ 2 * q + 1 = 2 * q + 0)]; simp
      · rw [if_pos rfl, pow_succ]; simp; ring
    · rw [if_neg hqr, if_neg (by omega : ¬ 2 * q + a = 2 * r + b), mul_zero]

theorem hrow_sign (m i k : Nat) (hi : i < 2 ^ m) (hk : k < 2 ^ m) : (hrow m i).getD k 0 = 1 ∨ (hrow m i).getD k 0 = -1 := by
  induction m generalizing i k with
  | zero =>
    obtain rfl : i = 0 := by omega
    obtain rfl : k = 0 := by omega
    exact Or.inl rfl
  | succ m ih =>
    rw [pow_succ] at hi hk
    obtain ⟨q, a, ha, rfl⟩ : ∃ q a, a < 2 ∧ i = 2 * q + a := ⟨i / 2, i % 2, Nat.mod_lt _ (by norm_num), by omega⟩
    rcases Nat.even_or_odd' k with ⟨j, rfl | rfl⟩
    · rw [(hrow_entries m q a j (by omega) ha).1]
      exact ih q j (by omega) (by omega)
    · rw [(hrow_entries m q a j (by omega) ha).2]
      have ha' : a = 0 ∨ a = 1 := by omega
      rcases ih q j (by omega) (by omega) with h | h <;> rcases ha' with rfl | rfl <;> rw [h] <;> simp

/-! ### sign changes -/

theorem signChanges_eq (x : List Int) :
    signChanges x = ∑ k ∈ Finset.range (x.length - 1), if x.getD k 0 ≠ x.getD (k + 1) 0 then 1 else 0 := by
  rw [signChanges, ← List.countP_eq_length_filter]
  generalize x.length - 1 = n
  induction n with
  | zero => rfl
  | succ n ih =>
    rw [List.range_succ, List.countP_append, Finset.sum_range_succ, ih]
    congr 1
    by_cases h : x.getD n 0 = x.getD (n + 1) 0 <;> simp [h]

theorem signChanges_hrow (m q a : Nat) (hq : q < 2 ^ m) (ha : a < 2) :
    (signChanges (hrow (m + 1) (2 * q + a)) : Int) =
      if a = 0 then (signChanges (hrow m q) : Int) else 2 ^ (m + 1) - 1 - signChanges (hrow m q) := by
  obtain ⟨N, hN⟩ : ∃ N, 2 ^ m = N + 1 := ⟨2 ^ m - 1, by have := Nat.two_pow_pos m; omega⟩
  have hpos : 2 * q + a < 2 ^ (m + 1) := by rw [pow_succ]; omega
  rw [signChanges_eq, signChanges_eq, hrow_length (m + 1) _ hpos, hrow_length m q hq]
  have e : 2 ^ (m + 1) - 1 = 2 * N + 1 := by rw [pow_succ]; omega
  rw [e, hN, Nat.add_sub_cancel, Finset.sum_range_succ, sum_pairs]
  have hz : ∀ j, j < N + 1 → (hrow m q).getD j 0 ≠ 0 := by
    intro j hj
    rcases hrow_sign m q j hq (by omega) with h | h <;> rw [h] <;> decide
  have ha' : a = 0 ∨ a = 1 := by omega
  rcases ha' with rfl | rfl
  · rw [if_pos rfl]
    have h1 : ∀ j ∈ Finset.range N, ((if (hrow (m + 1) (2 * q + 0)).getD (2 * j) 0 ≠ (hrow (m + 1) (2 * q + 0)).getD (2 * j + 1) 0 then 1 else 0) +
        if (hrow (m + 1) (2 * q + 0)).getD (2 * j + 1) 0 ≠ (hrow (m + 1) (2 * q + 0)).getD (2 * j + 1 + 1) 0 then 1 else 0) =
        if (hrow m q).getD j 0 ≠ (hrow m q).getD (j + 1) 0 then 1 else 0 := by
      intro j _
      rw [show 2 * j + 1 + 1 = 2 * (j + 1) by ring, (hrow_entries m q 0 j hq ha).1, (hrow_entries m q 0 j hq ha).2,
        (hrow_entries m q 0 (j + 1) hq ha).1]
      simp
    rw [Finset.sum_congr rfl h1, (hrow_entries m q 0 N hq ha).1, (hrow_entries m q 0 N hq ha).2]
    simp
  · rw [if_neg (by norm_num : ¬ (1 : Nat) = 0)]
    have h1 : ∀ j ∈ Finset.range N, ((if (hrow (m + 1) (2 * q + 1)).getD (2 * j) 0 ≠ (hrow (m + 1) (2 * q + 1)).getD (2 * j + 1) 0 then 1 else 0) +
        if (hrow (m + 1) (2 * q + 1)).getD (2 * j + 1) 0 ≠ (hrow (m + 1) (2 * q + 1)).getD (2 * j + 1 + 1) 0 then 1 else 0) +
        (if (hrow m q).getD j 0 ≠ (hrow m q).getD (j + 1) 0 then 1 else 0) = 2 := by
      intro j hj
      rw [Finset.mem_range] at hj
      rw [show 2 * j + 1 + 1 = 2 * (j + 1) by ring, (hrow_entries m q 1 j hq ha).1, (hrow_entries m q 1 j hq ha).2,
        (hrow_entries m q 1 (j + 1) hq ha).1]
      rcases hrow_sign m q j hq (by omega) with h | h <;> rcases hrow_sign m q (j + 1) hq (by omega) with h' | h' <;>
        rw [h, h'] <;> decide
    have h2 := Finset.sum_congr (rfl : Finset.range N = Finset.range N) h1
    rw [Finset.sum_add_distrib, Finset.sum_const, Finset.card_range, smul_eq_mul] at h2
    have h3 : (if (hrow (m + 1) (2 * q + 1)).getD (2 * N) 0 ≠ (hrow (m + 1) (2 * q + 1)).getD (2 * N + 1) 0 then 1 else 0) = 1 := by
      rw [(hrow_entries m q 1 N hq ha).1, (hrow_entries m q 1 N hq ha).2, if_pos]
      rcases hrow_sign m q N hq (by omega) with h | h <;> rw [h] <;> decide
    rw [h3]
    have h4 : (2 : Int) ^ (m + 1) = ((2 ^ (m + 1) : Nat) : Int) := by push_cast; rfl
    have h5 : 2 ^ (m + 1) = 2 * N + 2 := by rw [pow_succ, hN]; ring
    rw [h4, h5]
    omega

/-! ### the sequency index -/

/-- Bit reversal of the `m` low bits. -/
def bitrev (m g : Nat) : Nat := bitsToInt .lsbFirst (intToBits .msbFirst g m)

theorem bitrev_succ (m g : Nat) : bitrev (m + 1) g = 2 * bitrev m g + (g >>> m) % 2 := by
  rw [bitrev, bitrev, bitsToInt, bitsToInt, intToBits, intToBits]
  simp only [List.range_succ_eq_map, List.map_cons, List.map_map, packLE, Nat.sub_zero, Nat.add_sub_cancel]
  have h1 : (if (g >>> m) % 2 = 0 then 0 else 1) = (g >>> m) % 2 := by split <;> omega
  rw [h1, Nat.add_comm]
  congr 2
  congr 1
  apply List.map_congr_left
  intro i _
  simp only [Function.comp]
  rw [show m - (i + 1) = m - 1 - i by omega]

theorem bitrev_lt (m g : Nat) : bitrev m g < 2 ^ m := by
  have := bitsToInt_lt .lsbFirst (intToBits .msbFirst g m)
  rwa [intToBits_length] at this

theorem bitrev_congr (m g g' : Nat) (h : ∀ k < m, g.testBit k = g'.testBit k) : bitrev m g = bitrev m g' := by
  induction m with
  | zero => rfl
  | succ m ih =>
    rw [bitrev_succ, bitrev_succ, ih (fun k hk => h k (by omega))]
    have := h m (by omega)
    have h2 : ∀ x : Nat, (x >>> m) % 2 = (x.testBit m).toNat := by
      intro x
      rw [Nat.testBit, Nat.shiftRight_eq_div_pow, Nat.one_and_eq_mod_two]
      rcases Nat.mod_two_eq_zero_or_one (x / 2 ^ m) with h | h <;> rw [h] <;> rfl
    rw [h2, h2, this]

/-- The row of sequency index `i` has `i` sign changes. -/
theorem signChanges_sequency (m i : Nat) (hi : i < 2 ^ m) : signChanges (hrow m (bitrev m (i ^^^ (i >>> 1)))) = i := by
  induction m generalizing i with
  | zero =>
    obtain rfl : i = 0 := by omega
    rfl
  | succ m ih =>
    have hb : ∀ (x k : Nat), (x ^^^ (x >>> 1)).testBit k = (x.testBit k ^^ x.testBit (k + 1)) := by
      intro x k
      rw [Nat.testBit_xor, Nat.testBit_shiftRight, Nat.add_comm 1 k]
    have hmod : ((i ^^^ (i >>> 1)) >>> m) % 2 = (i.testBit m).toNat := by
      have h2 : ∀ x : Nat, (x >>> m) % 2 = (x.testBit m).toNat := by
        intro x
        rw [Nat.testBit, Nat.shiftRight_eq_div_pow, Nat.one_and_eq_mod_two]
        rcases Nat.mod_two_eq_zero_or_one (x / 2 ^ m) with h | h <;> rw [h] <;> rfl
      rw [h2, hb, Nat.testBit_lt_two_pow hi, Bool.xor_false]
    have hs := signChanges_hrow m (bitrev m (i ^^^ (i >>> 1))) (((i ^^^ (i >>> 1)) >>> m) % 2) (bitrev_lt _ _) (Nat.mod_lt _ (by norm_num))
    rw [← bitrev_succ, hmod] at hs
    rw [pow_succ] at hi
    by_cases hlt : i < 2 ^ m
    · rw [Nat.testBit_lt_two_pow hlt] at hs
      rw [Bool.toNat_false, if_pos rfl, ih i hlt] at hs
      exact_mod_cast hs
    · obtain ⟨i', rfl⟩ : ∃ i', i = 2 ^ m + i' := ⟨i - 2 ^ m, by omega⟩
      have hi' : i' < 2 ^ m := by omega
      have htop : (2 ^ m + i').testBit m = true := by
        rw [Nat.testBit_two_pow_add_eq, Nat.testBit_lt_two_pow hi']; rfl
      rw [htop, Bool.toNat_true, if_neg (by norm_num)] at hs
      have hrefl : bitrev m ((2 ^ m + i') ^^^ ((2 ^ m + i') >>> 1)) =
          bitrev m ((2 ^ m - (i' + 1)) ^^^ ((2 ^ m - (i' + 1)) >>> 1)) := by
        apply bitrev_congr
        intro k hk
        rw [hb, hb, Nat.testBit_two_pow_sub_succ hi', Nat.testBit_two_pow_sub_succ hi', Nat.testBit_two_pow_add_gt hk]
        by_cases hk1 : k + 1 < m
        · rw [Nat.testBit_two_pow_add_gt hk1]
          simp only [hk, hk1, decide_true, Bool.true_and]
          cases i'.testBit k <;> cases i'.testBit (k + 1) <;> rfl
        · have : k + 1 = m := by omega
          rw [this, htop]
          simp only [hk, decide_true, Bool.true_and, Nat.lt_irrefl, decide_false, Bool.false_and]
          cases i'.testBit k <;> rfl
      rw [hrefl, ih _ (by omega)] at hs
      have h4 : (2 : Int) ^ (m + 1) = ((2 ^ m : Nat) : Int) * 2 := by rw [pow_succ]; push_cast; rfl
      rw [h4] at hs
      omega

end Komm
