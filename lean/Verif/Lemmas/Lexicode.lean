import Verif.Model.Lexicode
import Verif.Lemmas.ReedMuller2
import Verif.Lemmas.BitOps
import Mathlib.Data.Nat.Bitwise
import Mathlib.Order.ConditionallyCompleteLattice.Finset
import Mathlib.Data.Nat.Lattice
import Mathlib.FieldTheory.Finiteness

namespace Komm

/-! ### bit counts -/

theorem bitCount_eq (N x : Nat) (hx : x < 2 ^ N) : bitCount x = ∑ i ∈ Finset.range N, (x.testBit i).toNat := by
  have key : ∀ M, (List.range M).countP (fun i => x.testBit i) = ∑ i ∈ Finset.range M, (x.testBit i).toNat := by
    intro M
    induction M with
    | zero => rfl
    | succ M ih =>
      rw [List.range_succ, List.countP_append, ih, Finset.sum_range_succ]
      cases h : x.testBit M <;> simp [h]
  have big : ∀ M, x < 2 ^ M → ∀ b, M ≤ b → (x.testBit b).toNat = 0 := by
    intro M hM b hb
    rw [Nat.testBit_lt_two_pow (lt_of_lt_of_le hM (Nat.pow_le_pow_right (by omega) hb))]
    rfl
  rw [bitCount, key]
  have hl : x < 2 ^ (x.log2 + 1) := Nat.lt_log2_self
  rcases Nat.le_total N (x.log2 + 1) with h | h
  · symm
    apply Finset.sum_subset (Finset.range_mono h)
    intro b _ hb
    exact big N hx b (by simpa using hb)
  · apply Finset.sum_subset (Finset.range_mono h)
    intro b _ hb
    exact big _ hl b (by simpa using hb)

theorem bitCount_two_pow_add (p s : Nat) (hs : s < 2 ^ p) : bitCount (2 ^ p + s) = bitCount s + 1 := by
  have hf : s.testBit p = false := Nat.testBit_lt_two_pow hs
  rw [bitCount_eq (p + 1) (2 ^ p + s) (by rw [pow_succ]; omega), bitCount_eq p s hs, Finset.sum_range_succ, Nat.add_comm (2 ^ p)]
  rw [testBit_add_two_pow _ _ _ hf]
  simp only [hf, decide_true, Bool.or_true, Bool.toNat_true]
  congr 1
  apply Finset.sum_congr rfl
  intro i hi
  rw [testBit_add_two_pow _ _ _ hf]
  have : p ≠ i := by rw [Finset.mem_range] at hi; omega
  simp [this]

theorem bitCount_zero : bitCount 0 = 0 := by decide

theorem bitCount_pos {x : Nat} (h : x ≠ 0) : 0 < bitCount x := by
  obtain ⟨i, hi⟩ := Nat.exists_testBit_of_ne_zero h
  have hx : x < 2 ^ (x.log2 + 1) := Nat.lt_log2_self
  rw [bitCount_eq _ x hx]
  apply Finset.sum_pos' (fun _ _ => Nat.zero_le _)
  refine ⟨i, ?_, by rw [hi]; simp⟩
  rw [Finset.mem_range]
  by_contra hc
  rw [Nat.testBit_lt_two_pow (lt_of_lt_of_le hx (Nat.pow_le_pow_right (by omega) (by omega)))] at hi
  simp at hi

theorem bitCount_two_pow (r : Nat) : bitCount (2 ^ r) = 1 := by
  have := bitCount_two_pow_add r 0 (by positivity)
  rwa [bitCount_zero] at this

theorem bitCount_between {r m : Nat} (h1 : 2 ^ r < m) (h2 : m < 2 ^ (r + 1)) : bitCount m ≠ 1 := by
  have e : m = 2 ^ r + (m - 2 ^ r) := by omega
  rw [e, bitCount_two_pow_add r _ (by rw [pow_succ] at h2; omega)]
  have := bitCount_pos (x := m - 2 ^ r) (by omega)
  omega

/-! ### the Grundy function of the underlying coin-turning game -/

/-- XOR of `G q` over the binary digits `q < N` of `x`. -/
def hN (G : Nat → Nat) : Nat → Nat → Nat
  | 0, _ => 0
  | N + 1, x => hN G N x ^^^ (if x.testBit N then G N else 0)

theorem hN_xor (G : Nat → Nat) (N x y : Nat) : hN G N (x ^^^ y) = hN G N x ^^^ hN G N y := by
  induction N with
  | zero => simp [hN]
  | succ N ih =>
    simp only [hN, ih, Nat.testBit_xor]
    apply Nat.eq_of_testBit_eq
    intro i
    cases x.testBit N <;> cases y.testBit N <;> simp [Nat.testBit_xor]
    · cases (hN G N x).testBit i <;> cases (hN G N y).testBit i <;> cases (G N).testBit i <;> rfl
    · cases (hN G N x).testBit i <;> cases (hN G N y).testBit i <;> cases (G N).testBit i <;> rfl

theorem hN_congr {G G' : Nat → Nat} (N x : Nat) (h : ∀ q < N, G q = G' q) : hN G N x = hN G' N x := by
  induction N with
  | zero => rfl
  | succ N ih => rw [hN, hN, ih fun q hq => h q (by omega), h N (by omega)]

theorem hN_low (G : Nat → Nat) (p N x : Nat) (hx : x < 2 ^ p) (hp : p ≤ N) : hN G N x = hN G p x := by
  induction N with
  | zero => obtain rfl : p = 0 := by omega
            rfl
  | succ N ih =>
    rcases Nat.eq_or_lt_of_le hp with rfl | h
    · rfl
    · rw [hN, ih (by omega), Nat.testBit_lt_two_pow (lt_of_lt_of_le hx (Nat.pow_le_pow_right (by omega) (by omega)))]
      simp

theorem hN_zero (G : Nat → Nat) (N : Nat) : hN G N 0 = 0 := by
  induction N with
  | zero => rfl
  | succ N ih => simp [hN, ih]

theorem hN_two_pow_add (G : Nat → Nat) (p N s : Nat) (hs : s < 2 ^ p) (hp : p < N) :
    hN G N (2 ^ p + s) = hN G p s ^^^ G p := by
  have hf : s.testBit p = false := Nat.testBit_lt_two_pow hs
  rw [hN_low G (p + 1) N _ (by rw [pow_succ]; omega) (by omega), hN]
  have e : 2 ^ p + s = s ^^^ 2 ^ p := by
    apply Nat.eq_of_testBit_eq
    intro i
    rw [Nat.add_comm, testBit_add_two_pow _ _ _ hf, Nat.testBit_xor, Nat.testBit_two_pow]
    by_cases h : p = i
    · subst h; simp [hf]
    · simp [h]
  have hb : (2 ^ p + s).testBit p = true := by rw [Nat.add_comm, testBit_add_two_pow _ _ _ hf]; simp
  rw [hb, if_pos rfl, e, hN_xor]
  have : hN G p (2 ^ p) = 0 := by
    have : ∀ M ≤ p, hN G M (2 ^ p) = 0 := by
      intro M
      induction M with
      | zero => intro _; rfl
      | succ M ih =>
        intro h
        rw [hN, ih (by omega), Nat.testBit_two_pow]
        have : p ≠ M := by omega
        simp [this]
    exact this p le_rfl
  rw [this, Nat.xor_zero]

/-- Values reachable from the coin `p`. -/
def moves (d : Nat) (G : Nat → Nat) (p : Nat) : Finset Nat :=
  ((Finset.range (2 ^ p)).filter fun s => bitCount s + 2 ≤ d).image (hN G p)

/-- Least natural number outside a finite set. -/
noncomputable def mex (S : Finset Nat) : Nat := sInf {v | v ∉ S}

theorem mex_notMem (S : Finset Nat) : mex S ∉ S :=
  Nat.sInf_mem (s := {v | v ∉ S}) (Infinite.exists_notMem_finset S)

theorem mem_of_lt_mex {S : Finset Nat} {v : Nat} (h : v < mex S) : v ∈ S := by
  by_contra hc
  exact Nat.notMem_of_lt_sInf h hc

/-- The Grundy values of single coins. -/
noncomputable def gf (d : Nat) : Nat → Nat → Nat
  | 0 => fun _ => 0
  | p + 1 => Function.update (gf d p) p (mex (moves d (gf d p) p))

noncomputable def grundy (d p : Nat) : Nat := gf d (p + 1) p

theorem gf_eq (d N q : Nat) (h : q < N) : gf d N q = grundy d q := by
  induction N with
  | zero => omega
  | succ N ih =>
    by_cases e : q = N
    · subst e; rfl
    · rw [gf, Function.update_of_ne e, ih (by omega)]

theorem grundy_eq (d p : Nat) : grundy d p = mex (moves d (grundy d) p) := by
  rw [grundy, gf, Function.update_self]
  congr 1
  unfold moves
  apply Finset.image_congr
  intro s _
  exact hN_congr p s fun q hq => gf_eq d p q hq

/-- Membership in the lexicode of length `n`. -/
def InL (n d x : Nat) : Prop := x < 2 ^ n ∧ hN (grundy d) n x = 0

variable {n d : Nat}

theorem InL.xor {x y : Nat} (hx : InL n d x) (hy : InL n d y) : InL n d (x ^^^ y) :=
  ⟨Nat.xor_lt_two_pow hx.1 hy.1, by rw [hN_xor, hx.2, hy.2, Nat.xor_self]⟩

theorem InL.zero : InL n d 0 := ⟨by positivity, hN_zero _ _⟩

theorem top_split {z : Nat} (hz : z ≠ 0) : z = 2 ^ z.log2 + (z - 2 ^ z.log2) ∧ z - 2 ^ z.log2 < 2 ^ z.log2 := by
  have h1 := Nat.log2_self_le hz
  have h2 : z < 2 ^ (z.log2 + 1) := Nat.lt_log2_self
  rw [pow_succ] at h2
  omega

/-- Distances inside the kernel. -/
theorem InL.weight {z : Nat} (hz : InL n d z) (h0 : z ≠ 0) : d ≤ bitCount z := by
  obtain ⟨e, hs⟩ := top_split h0
  set p := z.log2
  set s := z - 2 ^ p
  by_contra hc
  have hp : p < n := by rw [Nat.log2_lt h0]; exact hz.1
  rw [e, bitCount_two_pow_add p s hs] at hc
  have h1 := hz.2
  rw [e, hN_two_pow_add _ p n s hs hp] at h1
  have h2 : grundy d p = hN (grundy d) p s := by
    have : hN (grundy d) p s ^^^ grundy d p ^^^ grundy d p = 0 ^^^ grundy d p := by rw [h1]
    rw [Nat.xor_assoc, Nat.xor_self, Nat.xor_zero, Nat.zero_xor] at this
    exact this.symm
  have h3 : grundy d p ∈ moves d (grundy d) p := by
    rw [h2]
    exact Finset.mem_image.mpr ⟨s, by rw [Finset.mem_filter, Finset.mem_range]; omega, rfl⟩
  rw [grundy_eq] at h3
  exact mex_notMem _ (by rw [← grundy_eq] at h3 ⊢; exact h3)

theorem hN_bit (G : Nat → Nat) (N x b : Nat) (h : (hN G N x).testBit b = true) :
    ∃ p < N, x.testBit p = true ∧ (G p).testBit b = true := by
  induction N with
  | zero => simp [hN] at h
  | succ N ih =>
    rw [hN, Nat.testBit_xor] at h
    cases hb : (hN G N x).testBit b
    · rw [hb] at h
      by_cases hx : x.testBit N = true
      · rw [hx] at h; exact ⟨N, by omega, hx, by simpa using h⟩
      · simp only [hx] at h; simp at h
    · obtain ⟨p, hp, h1, h2⟩ := ih hb
      exact ⟨p, by omega, h1, h2⟩

/-- Every word outside the kernel is close to a smaller word of the kernel. -/
theorem exists_close {x : Nat} (hx : x < 2 ^ n) (hne : hN (grundy d) n x ≠ 0) :
    ∃ c, InL n d c ∧ c < x ∧ bitCount (c ^^^ x) < d := by
  set g := hN (grundy d) n x with hg
  have hb : g.testBit g.log2 = true := Nat.testBit_log2 hne
  obtain ⟨p, hp, hxp, hGp⟩ := hN_bit _ _ _ _ hb
  have hlt : grundy d p ^^^ g < grundy d p := by
    apply Nat.lt_of_testBit g.log2
    · rw [Nat.testBit_xor, hb, hGp]; rfl
    · exact hGp
    · intro j hj
      have : g.testBit j = false := by
        apply Nat.testBit_lt_two_pow
        exact lt_of_lt_of_le Nat.lt_log2_self (Nat.pow_le_pow_right (by omega) hj)
      rw [Nat.testBit_xor, this, Bool.xor_false]
  have hmem : grundy d p ^^^ g ∈ moves d (grundy d) p := by
    apply mem_of_lt_mex
    rw [← grundy_eq]; exact hlt
  obtain ⟨s, hs, hsv⟩ := Finset.mem_image.mp hmem
  rw [Finset.mem_filter, Finset.mem_range] at hs
  obtain ⟨hs1, hs2⟩ := hs
  have hsf : s.testBit p = false := Nat.testBit_lt_two_pow hs1
  have ht : 2 ^ p + s < 2 ^ n := by
    have : 2 ^ (p + 1) ≤ 2 ^ n := Nat.pow_le_pow_right (by omega) hp
    rw [pow_succ] at this; omega
  refine ⟨x ^^^ (2 ^ p + s), ⟨Nat.xor_lt_two_pow hx ht, ?_⟩, ?_, ?_⟩
  · rw [hN_xor, hN_two_pow_add _ p n s hs1 hp, hsv, ← hg]
    apply Nat.eq_of_testBit_eq
    intro i
    simp only [Nat.testBit_xor, Nat.zero_testBit]
    cases g.testBit i <;> cases (grundy d p).testBit i <;> rfl
  · apply Nat.lt_of_testBit p
    · rw [Nat.testBit_xor, hxp, Nat.add_comm, testBit_add_two_pow _ _ _ hsf]; simp
    · exact hxp
    · intro j hj
      rw [Nat.testBit_xor, Nat.add_comm, testBit_add_two_pow _ _ _ hsf,
        Nat.testBit_lt_two_pow (lt_of_lt_of_le hs1 (Nat.pow_le_pow_right (by omega) (by omega)))]
      have : p ≠ j := by omega
      simp [this]
  · have : x ^^^ (2 ^ p + s) ^^^ x = 2 ^ p + s := by
      rw [Nat.xor_comm, ← Nat.xor_assoc, Nat.xor_self, Nat.zero_xor]
    rw [this, bitCount_two_pow_add p s hs1]
    omega

/-! ### leaders -/

/-- The least codeword with its leading bit. -/
def Leader (n d i : Nat) : Prop := i ≠ 0 ∧ InL n d i ∧ ∀ j, InL n d j → j < i → j < 2 ^ i.log2

open Classical in
noncomputable def setL (n d N : Nat) : Finset Nat := (Finset.range N).filter (InL n d)
open Classical in
noncomputable def setB (n d N : Nat) : Finset Nat := (Finset.range N).filter (Leader n d)

theorem log2_eq {p i : Nat} (h1 : 2 ^ p ≤ i) (h2 : i < 2 ^ (p + 1)) : i.log2 = p := by
  have hi : i ≠ 0 := by have : 0 < 2 ^ p := by positivity
                        omega
  have := (Nat.log2_lt hi).mpr h2
  have := (Nat.le_log2 hi).mpr h1
  omega

theorem xor_top {p i j : Nat} (hi1 : 2 ^ p ≤ i) (hi2 : i < 2 ^ (p + 1)) (hj1 : 2 ^ p ≤ j) (hj2 : j < 2 ^ (p + 1)) :
    i ^^^ j < 2 ^ p := by
  apply Nat.lt_pow_two_of_testBit
  intro b hb
  rw [Nat.testBit_xor]
  have hi0 : i ≠ 0 := by have : 0 < 2 ^ p := by positivity
                         omega
  have hj0 : j ≠ 0 := by have : 0 < 2 ^ p := by positivity
                         omega
  by_cases e : b = p
  · subst e
    have h1 := Nat.testBit_log2 hi0
    have h2 := Nat.testBit_log2 hj0
    rw [log2_eq hi1 hi2] at h1
    rw [log2_eq hj1 hj2] at h2
    rw [h1, h2]; rfl
  · rw [Nat.testBit_lt_two_pow (lt_of_lt_of_le hi2 (Nat.pow_le_pow_right (by omega) (by omega))),
      Nat.testBit_lt_two_pow (lt_of_lt_of_le hj2 (Nat.pow_le_pow_right (by omega) (by omega)))]
    rfl

theorem card_setL_le (p : Nat) {j : Nat} (hj : InL n d j) (hj1 : 2 ^ p ≤ j) (hj2 : j < 2 ^ (p + 1)) :
    (setL n d (2 ^ (p + 1))).card = 2 * (setL n d (2 ^ p)).card := by
  classical
  have hdis : Disjoint (setL n d (2 ^ p)) ((setL n d (2 ^ p)).image fun x => x ^^^ j) := by
    rw [Finset.disjoint_left]
    intro a ha hb
    obtain ⟨x, hx, rfl⟩ := Finset.mem_image.mp hb
    simp only [setL, Finset.mem_filter, Finset.mem_range] at ha hx
    have : x ^^^ (x ^^^ j) < 2 ^ p := Nat.xor_lt_two_pow hx.1 ha.1
    rw [← Nat.xor_assoc, Nat.xor_self, Nat.zero_xor] at this
    omega
  have hun : setL n d (2 ^ (p + 1)) = setL n d (2 ^ p) ∪ (setL n d (2 ^ p)).image fun x => x ^^^ j := by
    ext a
    simp only [setL, Finset.mem_union, Finset.mem_image, Finset.mem_filter, Finset.mem_range]
    constructor
    · rintro ⟨h1, h2⟩
      by_cases h : a < 2 ^ p
      · exact Or.inl ⟨h, h2⟩
      · right
        refine ⟨a ^^^ j, ⟨xor_top (by omega) h1 hj1 hj2, h2.xor hj⟩, ?_⟩
        rw [Nat.xor_assoc, Nat.xor_self, Nat.xor_zero]
    · rintro (⟨h1, h2⟩ | ⟨x, ⟨h1, h2⟩, rfl⟩)
      · exact ⟨by rw [pow_succ]; omega, h2⟩
      · exact ⟨Nat.xor_lt_two_pow (by rw [pow_succ]; omega) hj2, h2.xor hj⟩
  rw [hun, Finset.card_union_of_disjoint hdis, Finset.card_image_of_injective, two_mul]
  intro x y e
  have : x ^^^ j ^^^ j = y ^^^ j ^^^ j := by simp only at e; rw [e]
  simpa [Nat.xor_assoc] using this

theorem card_setL (p : Nat) : (setL n d (2 ^ p)).card = 2 ^ (setB n d (2 ^ p)).card := by
  classical
  induction p with
  | zero =>
    have h1 : setL n d (2 ^ 0) = {0} := by
      ext a
      simp only [setL, Finset.mem_filter, Finset.mem_range, pow_zero, Finset.mem_singleton, Nat.lt_one_iff]
      constructor
      · exact fun h => h.1
      · rintro rfl; exact ⟨rfl, InL.zero⟩
    have h2 : setB n d (2 ^ 0) = ∅ := by
      ext a
      simp only [setB, Finset.mem_filter, Finset.mem_range, pow_zero, Nat.lt_one_iff, Finset.notMem_empty, iff_false]
      rintro ⟨rfl, h⟩
      exact h.1 rfl
    rw [h1, h2]; rfl
  | succ p ih =>
    by_cases h : ∃ j, InL n d j ∧ 2 ^ p ≤ j ∧ j < 2 ^ (p + 1)
    · obtain ⟨hb1, hb2, hb3⟩ := Nat.find_spec h
      have hmin : ∀ j, InL n d j → 2 ^ p ≤ j → j < 2 ^ (p + 1) → Nat.find h ≤ j :=
        fun j a b c => Nat.find_min' h ⟨a, b, c⟩
      set b := Nat.find h
      rw [card_setL_le p hb1 hb2 hb3, ih]
      have hpos : 0 < 2 ^ p := by positivity
      have : setB n d (2 ^ (p + 1)) = insert b (setB n d (2 ^ p)) := by
        ext i
        simp only [setB, Finset.mem_insert, Finset.mem_filter, Finset.mem_range]
        constructor
        · rintro ⟨h1, h2⟩
          by_cases hi : i < 2 ^ p
          · exact Or.inr ⟨hi, h2⟩
          · left
            have hle := hmin i h2.2.1 (by omega) h1
            by_contra hne
            have := h2.2.2 b hb1 (by omega)
            rw [log2_eq (by omega) h1] at this
            omega
        · rintro (rfl | ⟨h1, h2⟩)
          · refine ⟨hb3, by omega, hb1, ?_⟩
            intro j hj hlt
            rw [log2_eq hb2 hb3]
            by_contra hc
            have := hmin j hj (by omega) (by omega)
            omega
          · exact ⟨by rw [pow_succ]; omega, h2⟩
      rw [this, Finset.card_insert_of_notMem, pow_succ, mul_comm]
      simp only [setB, Finset.mem_filter, Finset.mem_range]
      omega
    · push Not at h
      have e1 : setL n d (2 ^ (p + 1)) = setL n d (2 ^ p) := by
        ext a
        simp only [setL, Finset.mem_filter, Finset.mem_range]
        constructor
        · rintro ⟨h1, h2⟩
          refine ⟨?_, h2⟩
          by_contra hc
          have := h a h2 (by omega)
          omega
        · rintro ⟨h1, h2⟩; exact ⟨by rw [pow_succ]; omega, h2⟩
      have e2 : setB n d (2 ^ (p + 1)) = setB n d (2 ^ p) := by
        ext a
        simp only [setB, Finset.mem_filter, Finset.mem_range]
        constructor
        · rintro ⟨h1, h2⟩
          refine ⟨?_, h2⟩
          by_contra hc
          have := h a h2.2.1 (by omega)
          omega
        · rintro ⟨h1, h2⟩; exact ⟨by rw [pow_succ]; omega, h2⟩
      rw [e1, e2, ih]

/-- The test "the number of codewords is a power of two" detects leaders. -/
theorem pow2_iff_leader {i : Nat} (hi0 : i ≠ 0) (hi : InL n d i) :
    bitCount (setL n d i).card = 1 ↔ Leader n d i := by
  classical
  set p := i.log2 with hp
  have hi1 : 2 ^ p ≤ i := Nat.log2_self_le hi0
  have hi2 : i < 2 ^ (p + 1) := Nat.lt_log2_self
  constructor
  · intro h
    by_contra hc
    have hex : ∃ j, InL n d j ∧ j < i ∧ ¬ j < 2 ^ p := by
      by_contra hne
      push Not at hne
      exact hc ⟨hi0, hi, fun j a b => hne j a b⟩
    obtain ⟨j, hj1, hj2, hj3⟩ := hex
    refine bitCount_between (r := (setB n d (2 ^ p)).card) ?_ ?_ h
    · rw [← card_setL]
      apply Finset.card_lt_card
      rw [Finset.ssubset_iff_of_subset]
      · exact ⟨j, by simp only [setL, Finset.mem_filter, Finset.mem_range]; exact ⟨hj2, hj1⟩,
          by simp only [setL, Finset.mem_filter, Finset.mem_range]; exact fun h => hj3 h.1⟩
      · intro a
        simp only [setL, Finset.mem_filter, Finset.mem_range]
        exact fun h => ⟨by omega, h.2⟩
    · rw [pow_succ, mul_comm, ← card_setL, ← card_setL_le p hi hi1 hi2]
      apply Finset.card_lt_card
      rw [Finset.ssubset_iff_of_subset]
      · exact ⟨i, by simp only [setL, Finset.mem_filter, Finset.mem_range]; exact ⟨hi2, hi⟩,
          by simp only [setL, Finset.mem_filter, Finset.mem_range]; exact fun h => lt_irrefl _ h.1⟩
      · intro a
        simp only [setL, Finset.mem_filter, Finset.mem_range]
        exact fun h => ⟨by omega, h.2⟩
  · intro h
    have : setL n d i = setL n d (2 ^ p) := by
      ext a
      simp only [setL, Finset.mem_filter, Finset.mem_range]
      exact ⟨fun ⟨h1, h2⟩ => ⟨h.2.2 a h2 h1, h2⟩, fun ⟨h1, h2⟩ => ⟨by omega, h2⟩⟩
    rw [this, card_setL, bitCount_two_pow]

open Classical in
theorem lexLoop_eq (n d : Nat) : ∀ m, m + 1 ≤ 2 ^ n →
    (List.range' 1 m).foldl (lexStep d) ([0], []) =
      ((List.range (m + 1)).filter (InL n d), (List.range (m + 1)).filter (Leader n d)) := by
  intro m
  induction m with
  | zero =>
    intro _
    have h1 : InL n d 0 := InL.zero
    have h2 : ¬ Leader n d 0 := fun h => h.1 rfl
    simp [h1, h2]
  | succ m ih =>
    intro hm
    rw [List.range'_concat, List.foldl_append, ih (by omega), List.foldl_cons, List.foldl_nil, one_mul, Nat.add_comm 1 m,
      List.range_succ (n := m + 1), List.filter_append, List.filter_append, lexStep]
    have hall : ((List.range (m + 1)).filter (InL n d)).reverse.all (fun c => bitCount (c ^^^ (m + 1)) ≥ d) = true ↔
        InL n d (m + 1) := by
      simp only [List.all_eq_true, List.mem_reverse, List.mem_filter, List.mem_range, decide_eq_true_eq]
      constructor
      · intro h
        by_contra hc
        obtain ⟨c, h1, h2, h3⟩ := exists_close (d := d) (show m + 1 < 2 ^ n by omega)
          (fun e => hc ⟨by omega, e⟩)
        have := h c ⟨h2, h1⟩
        omega
      · rintro h c ⟨h1, h2⟩
        apply (h2.xor h).weight
        intro e
        have : c = m + 1 := Nat.xor_eq_zero_iff.mp e
        omega
    have hlen : ((List.range (m + 1)).filter (InL n d)).length = (setL n d (m + 1)).card := by
      rw [← List.toFinset_card_of_nodup (List.nodup_range.filter _)]
      congr 1
      ext a
      simp [setL]
    by_cases hL : InL n d (m + 1)
    · rw [if_pos (hall.mpr hL)]
      simp only [hlen, pow2_iff_leader (show m + 1 ≠ 0 by omega) hL]
      by_cases hB : Leader n d (m + 1)
      · simp [hL, hB]
      · simp [hL, hB]
    · have hB : ¬ Leader n d (m + 1) := fun h => hL h.2.1
      rw [if_neg fun h => hL (hall.mp h)]
      simp [hL, hB]

open Classical in
theorem lexLoop_final (n d : Nat) :
    lexLoop n d = ((List.range (2 ^ n)).filter (InL n d), (List.range (2 ^ n)).filter (Leader n d)) := by
  have h : 0 < 2 ^ n := by positivity
  have := lexLoop_eq n d (2 ^ n - 1) (by omega)
  rw [show 2 ^ n - 1 + 1 = 2 ^ n by omega] at this
  exact this

/-! ### words -/

/-- `int_to_bits(x, width=n, bit_order="MSB-first")` as a word. -/
def lexWord (n x : Nat) : BVec n := fun j => if x.testBit (n - 1 - j) then 1 else 0

theorem lexGenerator_eq (r : Fin (lexBasis n d).length) : lexGenerator n d r = lexWord n (lexBasis n d)[r] := by
  funext j
  rw [lexGenerator, lexWord, intToBits_msb, List.getD_eq_getElem?_getD, List.getElem?_reverse
    (by rw [intToBits_length]; exact j.2), intToBits_length, ← List.getD_eq_getElem?_getD, intToBits_lsb_getD]
  have : n - 1 - (j : Nat) < n := by omega
  cases h : (lexBasis n d)[r].testBit (n - 1 - j) <;> simp [this, h]

theorem lexWord_xor (x y : Nat) : lexWord n (x ^^^ y) = lexWord n x + lexWord n y := by
  funext j
  simp only [lexWord, Nat.testBit_xor, Pi.add_apply]
  cases x.testBit (n - 1 - j) <;> cases y.testBit (n - 1 - j) <;> simp
  decide

theorem lexWord_inj {x y : Nat} (hx : x < 2 ^ n) (hy : y < 2 ^ n) (h : lexWord n x = lexWord n y) : x = y := by
  apply Nat.eq_of_testBit_eq
  intro i
  by_cases hi : i < n
  · have := congrFun h ⟨n - 1 - i, by omega⟩
    simp only [lexWord] at this
    rw [show n - 1 - (n - 1 - i) = i by omega] at this
    cases h1 : x.testBit i <;> cases h2 : y.testBit i <;> simp_all
  · rw [Nat.testBit_lt_two_pow (lt_of_lt_of_le hx (Nat.pow_le_pow_right (by omega) (by omega))),
      Nat.testBit_lt_two_pow (lt_of_lt_of_le hy (Nat.pow_le_pow_right (by omega) (by omega)))]

theorem lexWord_surj (v : BVec n) : ∃ x < 2 ^ n, lexWord n x = v := by
  refine ⟨vecToNat fun j : Fin n => v ⟨n - 1 - j, by omega⟩, vecToNat_lt _, ?_⟩
  funext j
  rw [lexWord, vecToNat_testBit, vget, dif_pos (by omega)]
  simp only [show n - 1 - (n - 1 - (j : Nat)) = j by omega]
  rcases zmod2_cases (v j) with h | h <;> simp [h]

theorem lexWord_zero : lexWord n 0 = 0 := by funext j; simp [lexWord]

theorem lexWord_norm {x : Nat} (hx : x < 2 ^ n) : hammingNorm (lexWord n x) = bitCount x := by
  rw [bitCount_eq n x hx, hammingNorm, Finset.card_filter, ← Finset.sum_range_reflect, Finset.sum_range]
  apply Finset.sum_congr rfl
  intro j _
  rw [lexWord]
  cases x.testBit (n - 1 - j) <;> simp

/-- The greedy code as a subspace. -/
def lexSpace (n d : Nat) : Submodule (ZMod 2) (BVec n) where
  carrier := {v | ∃ x, InL n d x ∧ lexWord n x = v}
  add_mem' := by
    rintro _ _ ⟨x, hx, rfl⟩ ⟨y, hy, rfl⟩
    exact ⟨x ^^^ y, hx.xor hy, lexWord_xor x y⟩
  zero_mem' := ⟨0, InL.zero, lexWord_zero⟩
  smul_mem' := by
    rintro a _ ⟨x, hx, rfl⟩
    rcases zmod2_cases a with rfl | rfl
    · exact ⟨0, InL.zero, by rw [zero_smul, lexWord_zero]⟩
    · exact ⟨x, hx, (one_smul _ _).symm⟩

theorem mem_lexBasis (i : Nat) : i ∈ lexBasis n d ↔ Leader n d i := by
  classical
  rw [lexBasis, lexLoop_final]
  simp only [List.mem_filter, List.mem_range, decide_eq_true_eq]
  exact ⟨fun h => h.2, fun h => ⟨h.2.1.1, h⟩⟩

theorem lexSpan : Submodule.span (ZMod 2) (Set.range (lexGenerator n d)) = lexSpace n d := by
  classical
  apply le_antisymm
  · rw [Submodule.span_le]
    rintro _ ⟨r, rfl⟩
    have : (lexBasis n d)[r] ∈ lexBasis n d := List.getElem_mem _
    rw [mem_lexBasis] at this
    exact ⟨_, this.2.1, (lexGenerator_eq r).symm⟩
  · rintro _ ⟨x, hx, rfl⟩
    induction x using Nat.strong_induction_on with
    | _ x ih =>
      by_cases h0 : x = 0
      · subst h0; rw [lexWord_zero]; exact Submodule.zero_mem _
      · set p := x.log2 with hp
        have hx1 : 2 ^ p ≤ x := Nat.log2_self_le h0
        have hx2 : x < 2 ^ (p + 1) := Nat.lt_log2_self
        have h : ∃ j, InL n d j ∧ 2 ^ p ≤ j ∧ j < 2 ^ (p + 1) := ⟨x, hx, hx1, hx2⟩
        obtain ⟨hb1, hb2, hb3⟩ := Nat.find_spec h
        have hmin : ∀ j, InL n d j → 2 ^ p ≤ j → j < 2 ^ (p + 1) → Nat.find h ≤ j :=
          fun j a b c => Nat.find_min' h ⟨a, b, c⟩
        set b := Nat.find h
        have hpos : 0 < 2 ^ p := by positivity
        have hlead : Leader n d b := by
          refine ⟨by omega, hb1, ?_⟩
          intro j hj hlt
          rw [log2_eq hb2 hb3]
          by_contra hc
          have := hmin j hj (by omega) (by omega)
          omega
        have hlt : x ^^^ b < x := lt_of_lt_of_le (xor_top hx1 hx2 hb2 hb3) hx1
        have h1 := ih _ hlt (hx.xor hb1)
        rw [lexWord_xor] at h1
        obtain ⟨r, hr, e⟩ := List.getElem_of_mem ((mem_lexBasis b).mpr hlead)
        have h2 : lexWord n b ∈ Submodule.span (ZMod 2) (Set.range (lexGenerator n d)) := by
          apply Submodule.subset_span
          exact ⟨⟨r, hr⟩, by rw [lexGenerator_eq]; exact congrArg _ e⟩
        have h3 := Submodule.add_mem _ h1 h2
        rwa [bvec_add_add] at h3

theorem lexBasis_length : (lexBasis n d).length = (setB n d (2 ^ n)).card := by
  classical
  rw [lexBasis, lexLoop_final]
  rw [← List.toFinset_card_of_nodup (List.nodup_range.filter _)]
  congr 1
  ext a
  simp [setB]

theorem lex_independent : LinearIndependent (ZMod 2) (lexGenerator n d) := by
  classical
  rw [linearIndependent_iff_card_eq_finrank_span, Fintype.card_fin, Set.finrank, lexSpan, lexBasis_length]
  have h1 : Nat.card (lexSpace n d) = 2 ^ (setB n d (2 ^ n)).card := by
    rw [← card_setL]
    have : (lexSpace n d : Set (BVec n)) = ((setL n d (2 ^ n)).image (lexWord n) : Finset (BVec n)) := by
      ext v
      simp only [SetLike.mem_coe, Finset.coe_image, Set.mem_image, setL, Finset.mem_filter, Finset.mem_range]
      constructor
      · rintro ⟨x, hx, rfl⟩; exact ⟨x, ⟨hx.1, hx⟩, rfl⟩
      · rintro ⟨x, hx, rfl⟩; exact ⟨x, hx.2, rfl⟩
    have h2 : Nat.card (lexSpace n d) = (lexSpace n d : Set (BVec n)).ncard := rfl
    rw [h2, this, Set.ncard_coe_finset, Finset.card_image_of_injOn]
    intro x hx y hy e
    simp only [setL, Finset.coe_filter, Finset.mem_range, Set.mem_setOf_eq] at hx hy
    exact lexWord_inj hx.1 hy.1 e
  have h3 := Module.natCard_eq_pow_finrank (K := ZMod 2) (V := lexSpace n d)
  rw [Nat.card_zmod, h1] at h3
  exact Nat.pow_right_injective le_rfl h3

end Komm
