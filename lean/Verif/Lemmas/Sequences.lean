import Verif.Model.Sequences
import Verif.Spec.Sequences
import Mathlib.Algebra.BigOperators.Ring.Finset
import Mathlib.Algebra.BigOperators.Fin
import Mathlib.Tactic.Ring
import Mathlib.Tactic.LinearCombination
/-! Correlations as sums. -/
namespace Komm
variable {R : Type} [CommRing R]

theorem dot_eq (x y : List R) (h : x.length = y.length) : dot x y = ∑ i ∈ Finset.range x.length, x.getD i 0 * y.getD i 0 := by
  induction x generalizing y with
  | nil => simp [dot]
  | cons a x ih =>
    cases y with
    | nil => exact absurd h (by simp)
    | cons b y =>
      have : dot (a :: x) (b :: y) = a * b + dot x y := rfl
      rw [this, ih y (by simpa using h), List.length_cons, Finset.sum_range_succ']
      simp [add_comm]

theorem getD_map0 (conj : R → R) (h0 : conj 0 = 0) (x : List R) (i : Nat) : (x.map conj).getD i 0 = conj (x.getD i 0) := by
  rw [List.getD_eq_getElem?_getD, List.getD_eq_getElem?_getD, List.getElem?_map]
  cases x[i]? <;> simp [h0]

theorem getD_drop' (x : List R) (a i : Nat) : (x.drop a).getD i 0 = x.getD (a + i) 0 := by
  rw [List.getD_eq_getElem?_getD, List.getD_eq_getElem?_getD, List.getElem?_drop]

theorem getD_take' (x : List R) (a i : Nat) (h : i < a) : (x.take a).getD i 0 = x.getD i 0 := by
  rw [List.getD_eq_getElem?_getD, List.getD_eq_getElem?_getD, List.getElem?_take_of_lt h]

theorem extend_nat (x : List R) (i : Nat) : extend x (i : Int) = x.getD i 0 := by simp [extend]

theorem extend_of_le (x : List R) (i : Int) (h : (x.length : Int) ≤ i) : extend x i = 0 := by
  rw [extend]
  split
  · rw [List.getD_eq_getElem?_getD, List.getElem?_eq_none (by omega)]; rfl
  · rfl

theorem extend_neg (x : List R) (i : Int) (h : i < 0) : extend x i = 0 := by rw [extend, if_neg (by omega)]

/-- `autocorrelation` is the sum `Σ x[n] conj(x[n - ℓ])` over the positions of the sequence, zeros outside. -/
theorem autocorrelation_eq (conj : R → R) (h0 : conj 0 = 0) (x : List R) (l : Int) :
    autocorrelation conj x l = ∑ i ∈ Finset.range x.length, extend x (i : Int) * conj (extend x ((i : Int) - l)) := by
  rw [autocorrelation]
  split
  · rename_i hl
    obtain ⟨a, rfl⟩ : ∃ a : Nat, l = -(a : Int) := ⟨l.natAbs, by omega⟩
    simp only [Int.natAbs_neg, Int.natAbs_natCast]
    rw [dot_eq _ _ (by simp)]
    have hlen : (x.take (x.length - a)).length = x.length - a := by simp
    rw [hlen, ← Finset.sum_subset (Finset.range_subset_range.mpr (Nat.sub_le x.length a))]
    · apply Finset.sum_congr rfl
      intro i hi
      rw [Finset.mem_range] at hi
      rw [getD_take' _ _ _ hi, getD_drop', getD_map0 conj h0, extend_nat]
      have : (i : Int) - -(a : Int) = ((a + i : Nat) : Int) := by push_cast; ring
      rw [this, extend_nat]
    · intro i hi1 hi2
      rw [Finset.mem_range] at hi1 hi2
      rw [extend_of_le x ((i : Int) - -(a : Int)) (by omega), h0, mul_zero]
  · split
    · rename_i _ hl
      obtain ⟨a, rfl⟩ : ∃ a : Nat, l = (a : Int) := ⟨l.natAbs, by omega⟩
      simp only [Int.natAbs_natCast]
      rw [dot_eq _ _ (by simp)]
      have hlen : (x.drop a).length = x.length - a := by simp
      rw [hlen]
      by_cases hax : a ≤ x.length
      · have hs : ∀ f : Nat → R, (∀ i < a, f i = 0) → ∑ i ∈ Finset.range x.length, f i = ∑ i ∈ Finset.range (x.length - a), f (a + i) := by
          intro f hf
          have e : x.length = a + (x.length - a) := by omega
          rw [e, Finset.sum_range_add, Finset.sum_eq_zero (fun i hi => hf i (Finset.mem_range.mp hi)), zero_add,
            Nat.add_sub_cancel_left]
        rw [hs]
        · apply Finset.sum_congr rfl
          intro i hi
          rw [Finset.mem_range] at hi
          rw [getD_drop', getD_take' _ _ _ hi, getD_map0 conj h0, extend_nat]
          have : ((a + i : Nat) : Int) - (a : Int) = (i : Int) := by push_cast; ring
          rw [this, extend_nat]
        · intro i hi
          rw [extend_neg x ((i : Int) - (a : Int)) (by omega), h0, mul_zero]
      · rw [show x.length - a = 0 by omega, Finset.sum_range_zero]
        symm
        apply Finset.sum_eq_zero
        intro i hi
        rw [Finset.mem_range] at hi
        rw [extend_neg x ((i : Int) - (a : Int)) (by omega), h0, mul_zero]
    · have hl : l = 0 := by omega
      subst hl
      rw [dot_eq _ _ (by simp)]
      apply Finset.sum_congr rfl
      intro i _
      rw [getD_map0 conj h0, sub_zero, extend_nat]

theorem roll_length (x : List R) (l : Int) : (roll x l).length = x.length := by simp [roll]

theorem roll_getD (x : List R) (l : Int) (i : Nat) (hi : i < x.length) : (roll x l).getD i 0 = periodic x ((i : Int) - l) := by
  rw [roll, List.getD_eq_getElem?_getD, List.getElem?_map, List.getElem?_range hi]
  rfl

theorem periodic_nat (x : List R) (i : Nat) (hi : i < x.length) : periodic x (i : Int) = x.getD i 0 := by
  rw [periodic, Int.emod_eq_of_lt (by omega) (by omega), Int.toNat_natCast]

/-- `cyclic_autocorrelation` is the sum `Σ x[n] conj(x[n - ℓ])` over one period of the periodic extension. -/
theorem cyclicAutocorrelation_eq (conj : R → R) (h0 : conj 0 = 0) (x : List R) (l : Int) :
    cyclicAutocorrelation conj x l = ∑ i ∈ Finset.range x.length, periodic x (i : Int) * conj (periodic x ((i : Int) - l)) := by
  rw [cyclicAutocorrelation, dot_eq _ _ (by simp [roll_length])]
  apply Finset.sum_congr rfl
  intro i hi
  rw [Finset.mem_range] at hi
  rw [getD_map0 conj h0, roll_getD x l i hi, periodic_nat x i hi]

theorem periodic_add (x : List R) (i : Int) (k : Int) : periodic x (i + k * x.length) = periodic x i := by
  rw [periodic, periodic, Int.add_mul_emod_self_right]

theorem periodic_eq_extend (x : List R) (i : Int) (h1 : 0 ≤ i) (h2 : i < x.length) : periodic x i = extend x i := by
  obtain ⟨a, rfl⟩ : ∃ a : Nat, i = (a : Int) := ⟨i.toNat, by omega⟩
  rw [periodic_nat x a (by omega), extend_nat]

/-- A sum over a period does not depend on where the period starts. -/
theorem sum_period {M : Type} [AddCommMonoid M] (f : Int → M) (n : Nat) (hf : ∀ i, f (i + n) = f i) (a : Int) :
    ∑ i ∈ Finset.range n, f ((i : Int) + a) = ∑ i ∈ Finset.range n, f (i : Int) := by
  have step : ∀ a : Int, ∑ i ∈ Finset.range n, f ((i : Int) + (a + 1)) = ∑ i ∈ Finset.range n, f ((i : Int) + a) := by
    intro a
    cases n with
    | zero => simp
    | succ n =>
      rw [Finset.sum_range_succ, Finset.sum_range_succ']
      congr 1
      · apply Finset.sum_congr rfl
        intro i _
        congr 1
        push_cast; ring
      · rw [← hf (((0 : Nat) : Int) + a)]
        congr 1
        push_cast; ring
  have up : ∀ b : Nat, ∑ i ∈ Finset.range n, f ((i : Int) + b) = ∑ i ∈ Finset.range n, f (i : Int) := by
    intro b
    induction b with
    | zero => simp
    | succ b ih => rw [← ih, ← step (b : Int)]; simp
  have down : ∀ b : Nat, ∑ i ∈ Finset.range n, f ((i : Int) + -(b : Int)) = ∑ i ∈ Finset.range n, f (i : Int) := by
    intro b
    induction b with
    | zero => simp
    | succ b ih =>
      rw [← ih, ← step (-((b + 1 : Nat) : Int))]
      apply Finset.sum_congr rfl
      intro i _
      congr 1
      push_cast; ring
  rcases Int.le_total 0 a with h | h
  · obtain ⟨b, rfl⟩ : ∃ b : Nat, a = b := ⟨a.toNat, by omega⟩
    exact up b
  · obtain ⟨b, rfl⟩ : ∃ b : Nat, a = -(b : Int) := ⟨(-a).toNat, by omega⟩
    exact down b

end Komm
