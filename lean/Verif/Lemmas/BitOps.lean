import Verif.Model.BitOps
import Mathlib.Data.Nat.Bits
import Mathlib.Tactic.Ring
import Mathlib.Tactic.Linarith

namespace Komm

theorem intToBits_length (o : BitOrder) (n w : Nat) : (intToBits o n w).length = w := by
  cases o <;> simp [intToBits]

theorem intToBits_lt (o : BitOrder) (n w : Nat) : ∀ b ∈ intToBits o n w, b < 2 := by
  intro b hb
  cases o <;> simp only [intToBits, List.mem_map] at hb <;> obtain ⟨i, -, rfl⟩ := hb <;>
    exact Nat.mod_lt _ (by decide)

theorem intToBits_msb (n w : Nat) : intToBits .msbFirst n w = (intToBits .lsbFirst n w).reverse := by
  apply List.ext_getElem
  · simp [intToBits]
  · intro i h1 h2
    simp [intToBits]

theorem intToBits_lsb_succ (n w : Nat) :
    intToBits .lsbFirst n (w + 1) = n % 2 :: intToBits .lsbFirst (n / 2) w := by
  simp only [intToBits, List.range_succ_eq_map, List.map_cons, List.map_map, Nat.shiftRight_zero]
  congr 1
  apply List.map_congr_left
  intro i _
  simp only [Function.comp, Nat.succ_eq_add_one, Nat.shiftRight_eq_div_pow, pow_succ']
  rw [Nat.div_div_eq_div_mul]

theorem packLE_intToBits (n w : Nat) : packLE (intToBits .lsbFirst n w) = n % 2 ^ w := by
  induction w generalizing n with
  | zero => simp [intToBits, packLE, Nat.mod_one]
  | succ w ih =>
    rw [intToBits_lsb_succ, packLE, ih, pow_succ', Nat.mod_mul]
    split <;> omega

theorem packLE_lt (l : List Nat) : packLE l < 2 ^ l.length := by
  induction l with
  | nil => simp [packLE]
  | cons b bs ih => simp only [packLE, List.length_cons, pow_succ']; split <;> omega

theorem intToBits_packLE (l : List Nat) (h : ∀ b ∈ l, b < 2) :
    intToBits .lsbFirst (packLE l) l.length = l := by
  induction l with
  | nil => simp [intToBits]
  | cons b bs ih =>
    have hb : b < 2 := h b (by simp)
    rw [List.length_cons, intToBits_lsb_succ]
    have h1 : packLE (b :: bs) % 2 = b := by simp only [packLE]; split <;> omega
    have h2 : packLE (b :: bs) / 2 = packLE bs := by simp only [packLE]; split <;> omega
    rw [h1, h2, ih fun x hx => h x (by simp [hx])]

theorem packLE_append (a b : List Nat) : packLE (a ++ b) = packLE a + 2 ^ a.length * packLE b := by
  induction a with
  | nil => simp [packLE]
  | cons x a ih => simp only [List.cons_append, packLE, ih, List.length_cons, pow_succ']; ring

theorem bitsToInt_lt (o : BitOrder) (l : List Nat) : bitsToInt o l < 2 ^ l.length := by
  cases o
  · exact packLE_lt l
  · simpa [bitsToInt] using packLE_lt l.reverse

theorem bitsToInt_intToBits (o : BitOrder) (n w : Nat) :
    bitsToInt o (intToBits o n w) = n % 2 ^ w := by
  cases o
  · exact packLE_intToBits n w
  · simp only [bitsToInt, intToBits_msb, List.reverse_reverse, packLE_intToBits]

theorem intToBits_bitsToInt (o : BitOrder) (l : List Nat) (h : ∀ b ∈ l, b < 2) :
    intToBits o (bitsToInt o l) l.length = l := by
  cases o
  · exact intToBits_packLE l h
  · simp only [bitsToInt, intToBits_msb]
    have := intToBits_packLE l.reverse (by simpa using h)
    rw [List.length_reverse] at this
    rw [this, List.reverse_reverse]

theorem packLE_testBit (l : List Nat) (i : Nat) :
    (packLE l).testBit i = decide (l.getD i 0 ≠ 0) := by
  induction l generalizing i with
  | nil => simp [packLE]
  | cons b bs ih =>
    cases i with
    | zero =>
      simp only [packLE, Nat.testBit_zero, List.getD_cons_zero]
      congr 1
      split <;> simp_all
    | succ i =>
      rw [Nat.testBit_succ, List.getD_cons_succ, ← ih]
      congr 1
      simp only [packLE]; split <;> omega

theorem intToBits_lsb_getD (n w i : Nat) :
    (intToBits .lsbFirst n w).getD i 0 = if i < w ∧ n.testBit i then 1 else 0 := by
  by_cases h : i < w
  · simp [intToBits, h, Nat.testBit_eq_decide_div_mod_eq, Nat.shiftRight_eq_div_pow]
    have := Nat.mod_two_eq_zero_or_one (n / 2 ^ i)
    split <;> omega
  · simp [intToBits, h]

end Komm
