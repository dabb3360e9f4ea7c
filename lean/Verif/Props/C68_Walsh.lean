import Verif.Lemmas.Walsh
import Verif.Lemmas.Poly
/-! C68: Walsh–Hadamard sequences. -/
namespace Komm

theorem bitLength_two_pow (m : Nat) : bitLength (2 ^ m) = m + 1 := by
  apply Nat.le_antisymm
  · rw [bitLength_le_iff]; exact Nat.pow_lt_pow_right (by norm_num) (by omega)
  · by_contra h
    have : bitLength (2 ^ m) ≤ m := by omega
    rw [bitLength_le_iff] at this
    exact absurd this (lt_irrefl _)

theorem bitLength_two_pow_sub_one (m : Nat) : bitLength (2 ^ m - 1) = m := by
  apply Nat.le_antisymm
  · rw [bitLength_le_iff]; have := Nat.two_pow_pos m; omega
  · by_contra h
    obtain ⟨k, rfl⟩ : ∃ k, m = k + 1 := ⟨m - 1, by omega⟩
    have : bitLength (2 ^ (k + 1) - 1) ≤ k := by omega
    rw [bitLength_le_iff, pow_succ] at this
    have := Nat.two_pow_pos k
    omega

theorem hadamardMatrix_two_pow (m : Nat) : hadamardMatrix (2 ^ m) = had m := by
  rw [hadamardMatrix, bitLength_two_pow, Nat.add_sub_cancel, had]

/-- Row of the Hadamard matrix used for sequence `i`. -/
def walshRow (m : Nat) (ord : WalshOrdering) (i : Nat) : Nat :=
  match ord with
  | .sequency => bitrev m (i ^^^ (i >>> 1))
  | _ => i

theorem walshRow_lt (m : Nat) (ord : WalshOrdering) (i : Nat) (hi : i < 2 ^ m) : walshRow m ord i < 2 ^ m := by
  cases ord
  · exact hi
  · exact bitrev_lt _ _
  · exact hi

theorem walsh_eq (m : Nat) (ord : WalshOrdering) (i : Nat) (hi : i < 2 ^ m) (ho : ord ≠ .dyadic) :
    walshHadamard (2 ^ m) ord i = some (hrow m (walshRow m ord i)) := by
  have hp : (2 ^ m &&& (2 ^ m - 1)) = 0 := (Nat.and_sub_one_eq_zero_iff_isPowerOfTwo (Nat.two_pow_pos m).ne').mpr ⟨m, rfl⟩
  have hl : walshRow m ord i < (had m).length := by rw [had_length]; exact walshRow_lt m ord i hi
  have hk : walshNaturalIndex (2 ^ m) ord i = some (walshRow m ord i) := by
    cases ord
    · rfl
    · rw [walshNaturalIndex, bitLength_two_pow_sub_one]; rfl
    · exact absurd rfl ho
  rw [walshHadamard, if_neg (by rw [hp]; simp), if_neg (by omega), hk, hadamardMatrix_two_pow]
  dsimp only
  rw [hrow, List.getD_eq_getElem?_getD, List.getElem?_eq_getElem hl]
  rfl

/-- The constructor accepts exactly the powers of two, the indices below the length and the two implemented orderings. -/
theorem C68_accepts (length : Nat) (ord : WalshOrdering) (i : Nat) :
    (walshHadamard length ord i).isSome ↔ (∃ m, length = 2 ^ m) ∧ i < length ∧ ord ≠ .dyadic := by
  constructor
  · intro h
    by_cases hi : i < length
    · by_cases hp : length &&& (length - 1) = 0
      · refine ⟨(Nat.and_sub_one_eq_zero_iff_isPowerOfTwo (by omega)).mp hp, hi, ?_⟩
        rintro rfl
        rw [walshHadamard, if_neg (by rw [hp]; simp), if_neg (by omega), walshNaturalIndex] at h
        exact absurd h (by simp)
      · rw [walshHadamard, if_pos hp] at h
        exact absurd h (by decide)
    · rw [walshHadamard, if_pos hi, ite_self] at h
      exact absurd h (by decide)
  · rintro ⟨⟨m, rfl⟩, hi, ho⟩
    rw [walsh_eq m ord i hi ho]
    rfl

/-- Every sequence has `length` entries, each `+1` or `-1`. -/
theorem C68_polar (length : Nat) (ord : WalshOrdering) (i : Nat) (x : List Int) (h : walshHadamard length ord i = some x) :
    x.length = length ∧ ∀ v ∈ x, v = 1 ∨ v = -1 := by
  obtain ⟨⟨m, rfl⟩, hi, ho⟩ := (C68_accepts length ord i).mp (by rw [h]; rfl)
  rw [walsh_eq m ord i hi ho, Option.some.injEq] at h
  have hlt := walshRow_lt m ord i hi
  have hl := hrow_length m _ hlt
  rw [← h]
  refine ⟨hl, fun v hv => ?_⟩
  obtain ⟨k, hk, rfl⟩ := List.mem_iff_getElem.mp hv
  have := hrow_sign m _ k hlt (by omega)
  rwa [List.getD_eq_getElem?_getD, List.getElem?_eq_getElem hk] at this

theorem walshRow_injective (m : Nat) (ord : WalshOrdering) (i j : Nat) (hi : i < 2 ^ m) (hj : j < 2 ^ m)
    (h : walshRow m ord i = walshRow m ord j) : i = j := by
  cases ord
  · exact h
  · rw [← signChanges_sequency m i hi, ← signChanges_sequency m j hj]
    rw [walshRow, walshRow] at h
    rw [h]
  · exact h

/-- Two sequences of the same length and ordering are orthogonal, and each has energy `length`. -/
theorem C68_orthogonal (length : Nat) (ord : WalshOrdering) (i j : Nat) (x y : List Int)
    (hx : walshHadamard length ord i = some x) (hy : walshHadamard length ord j = some y) :
    (List.zipWith (· * ·) x y).sum = if i = j then (length : Int) else 0 := by
  obtain ⟨⟨m, rfl⟩, hi, ho⟩ := (C68_accepts length ord i).mp (by rw [hx]; rfl)
  obtain ⟨_, hj, _⟩ := (C68_accepts _ ord j).mp (by rw [hy]; rfl)
  rw [walsh_eq m ord i hi ho, Option.some.injEq] at hx
  rw [walsh_eq m ord j hj ho, Option.some.injEq] at hy
  have hd := hrow_dot m _ _ (walshRow_lt m ord i hi) (walshRow_lt m ord j hj)
  have hl1 := hrow_length m _ (walshRow_lt m ord i hi)
  have hl2 := hrow_length m _ (walshRow_lt m ord j hj)
  rw [hx, hy] at hd
  rw [hx] at hl1
  rw [hy] at hl2
  have hsum : ∀ (n : Nat) (x y : List Int), x.length = n → y.length = n →
      (List.zipWith (· * ·) x y).sum = ∑ k ∈ Finset.range n, x.getD k 0 * y.getD k 0 := by
    intro n
    induction n with
    | zero =>
      intro x y h1 h2
      rw [List.length_eq_zero_iff] at h1 h2
      subst h1 h2
      rfl
    | succ n ih =>
      intro x y h1 h2
      obtain ⟨a, x, rfl⟩ := List.exists_cons_of_length_eq_add_one h1
      obtain ⟨b, y, rfl⟩ := List.exists_cons_of_length_eq_add_one h2
      rw [List.length_cons, Nat.succ_inj] at h1 h2
      rw [List.zipWith_cons_cons, List.sum_cons, ih x y h1 h2, Finset.sum_range_succ', add_comm]
      rfl
  rw [hsum _ x y hl1 hl2, hd]
  by_cases hij : i = j
  · rw [if_pos hij, if_pos (by rw [hij])]
    push_cast
    rfl
  · rw [if_neg hij, if_neg (fun h => hij (walshRow_injective m ord i j hi hj h))]

/-- In sequency ordering sequence `i` has exactly `i` sign changes. -/
theorem C68_sequency (length i : Nat) (x : List Int) (h : walshHadamard length .sequency i = some x) : signChanges x = i := by
  obtain ⟨⟨m, rfl⟩, hi, ho⟩ := (C68_accepts length _ i).mp (by rw [h]; rfl)
  rw [walsh_eq m _ i hi ho, Option.some.injEq] at h
  rw [← h]
  exact signChanges_sequency m i hi

/-- In natural ordering the sequences are the rows of Sylvester's matrix: entry `k` of sequence `i` is `(-1) ^ (number of common ones of
the binary expansions of `i` and `k`)`. -/
theorem C68_natural (length i k : Nat) (x : List Int) (h : walshHadamard length .natural i = some x) (hk : k < length) :
    x.getD k 0 = (-1) ^ (∑ b ∈ Finset.range length, if i.testBit b && k.testBit b then 1 else 0) := by
  obtain ⟨⟨m, rfl⟩, hi, ho⟩ := (C68_accepts length _ i).mp (by rw [h]; rfl)
  rw [walsh_eq m _ i hi ho, Option.some.injEq] at h
  rw [← h]
  change (hrow m i).getD k 0 = _
  have hmain : ∀ (m i k : Nat), i < 2 ^ m → k < 2 ^ m →
      (hrow m i).getD k 0 = (-1) ^ (∑ b ∈ Finset.range m, if i.testBit b && k.testBit b then 1 else 0) := by
    intro m
    induction m with
    | zero =>
      intro i k hi hk
      obtain rfl : i = 0 := by omega
      obtain rfl : k = 0 := by omega
      rfl
    | succ m ih =>
      intro i k hi hk
      rw [pow_succ] at hi hk
      obtain ⟨q, a, ha, rfl⟩ : ∃ q a, a < 2 ∧ i = 2 * q + a := ⟨i / 2, i % 2, Nat.mod_lt _ (by norm_num), by omega⟩
      have hq : (2 * q + a) / 2 = q := by omega
      have he := hrow_entries m q a (k / 2) (by omega) ha
      have hrec := ih q (k / 2) (by omega) (by omega)
      rw [Finset.sum_range_succ', pow_add]
      simp only [Nat.testBit_succ, hq]
      rw [← hrec]
      have hk' : k = 2 * (k / 2) ∨ k = 2 * (k / 2) + 1 := by omega
      have ha' : a = 0 ∨ a = 1 := by omega
      rcases hk' with hk' | hk'
      · have h0 : k.testBit 0 = false := by rw [Nat.testBit_zero]; simp; omega
        rw [h0, Bool.and_false, if_neg (by simp), pow_zero, mul_one]
        rw [← hk'] at he
        exact he.1
      · have h0 : k.testBit 0 = true := by rw [Nat.testBit_zero]; simp; omega
        rw [h0, Bool.and_true]
        rw [← hk'] at he
        rw [he.2]
        rcases ha' with rfl | rfl
        · rw [if_pos rfl, if_neg (by rw [Nat.testBit_zero]; simp)]; simp
        · rw [if_neg (by norm_num), if_pos (by rw [Nat.testBit_zero]; simp)]; simp
  rw [hmain m i k hi hk]
  congr 1
  have hlt : m ≤ 2 ^ m := Nat.lt_two_pow_self.le
  refine Finset.sum_subset (Finset.range_mono hlt) fun b _ hb => ?_
  rw [Finset.mem_range, not_lt] at hb
  rw [Nat.testBit_lt_two_pow (lt_of_lt_of_le hi (Nat.pow_le_pow_right (by norm_num) hb)), Bool.false_and, if_neg (by simp)]

/-- Non-vacuity: two distinct sequences of length 8 in sequency ordering. -/
example : ∃ x y, walshHadamard 8 .sequency 5 = some x ∧ walshHadamard 8 .sequency 3 = some y ∧ x ≠ y ∧ signChanges x = 5 := by
  exact ⟨[1, -1, -1, 1, -1, 1, 1, -1], [1, 1, -1, -1, 1, 1, -1, -1] , by decide +kernel, by decide +kernel, by decide, by decide +kernel⟩

end Komm
