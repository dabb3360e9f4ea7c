import Verif.Lemmas.Sequences
import Mathlib.Tactic.IntervalCases
import Mathlib.Algebra.Field.Basic
/-! C69, C70: correlations and Barker sequences.  The sequences are lists over any commutative ring; `conj` is any ring involution
(complex conjugation for `ComplexSequence`, the identity for real sequences). -/
namespace Komm
variable {R : Type} [CommRing R]

/-- `autocorrelation(x)[ℓ] = Σ x[n] conj(x[n - ℓ])`, where `x` is zero outside its support. -/
theorem C70_definition (conj : R →+* R) (x : List R) (l : Int) :
    autocorrelation conj x l = ∑ i ∈ Finset.range x.length, extend x (i : Int) * conj (extend x ((i : Int) - l)) :=
  autocorrelation_eq conj (map_zero conj) x l

/-- `cyclic_autocorrelation(x)[ℓ] = Σ x[n] conj(x[n - ℓ])` over one period, where `x` is extended periodically. -/
theorem C70_cyclic_definition (conj : R →+* R) (x : List R) (l : Int) :
    cyclicAutocorrelation conj x l = ∑ i ∈ Finset.range x.length, periodic x (i : Int) * conj (periodic x ((i : Int) - l)) :=
  cyclicAutocorrelation_eq conj (map_zero conj) x l

theorem extend_as_sum (x : List R) (i l : Int) :
    extend x (i - l) = ∑ j ∈ Finset.range x.length, if i - (j : Int) = l then x.getD j 0 else 0 := by
  by_cases h : 0 ≤ i - l ∧ i - l < x.length
  · rw [Finset.sum_eq_single (i - l).toNat]
    · rw [if_pos (by omega), extend, if_pos h.1]
    · intro j _ hj
      rw [if_neg (by omega)]
    · intro hn
      exact absurd (Finset.mem_range.mpr (by omega)) hn
  · have : extend x (i - l) = 0 := by
      by_cases h0 : 0 ≤ i - l
      · exact extend_of_le x _ (by omega)
      · exact extend_neg x _ (by omega)
    rw [this, Finset.sum_eq_zero]
    intro j hj
    rw [Finset.mem_range] at hj
    rw [if_neg (by omega)]

/-- Conjugate symmetry. -/
theorem C70_conjugate_symmetry (conj : R →+* R) (hinv : ∀ a, conj (conj a) = a) (x : List R) (l : Int) :
    autocorrelation conj x (-l) = conj (autocorrelation conj x l) := by
  have key : ∀ l : Int, autocorrelation conj x l = ∑ i ∈ Finset.range x.length, ∑ j ∈ Finset.range x.length,
      if (i : Int) - (j : Int) = l then x.getD i 0 * conj (x.getD j 0) else 0 := by
    intro l
    rw [C70_definition]
    apply Finset.sum_congr rfl
    intro i _
    rw [extend_nat, extend_as_sum, map_sum, Finset.mul_sum]
    apply Finset.sum_congr rfl
    intro j _
    split <;> simp
  rw [key, key, Finset.sum_comm, map_sum]
  apply Finset.sum_congr rfl
  intro i _
  rw [map_sum]
  apply Finset.sum_congr rfl
  intro j _
  by_cases h : (i : Int) - (j : Int) = l
  · rw [if_pos h, if_pos (by omega), map_mul, hinv, mul_comm]
  · rw [if_neg h, if_neg (by omega), map_zero]

/-- For a real sequence `autocorrelation` is even in the shift. -/
theorem C70_even (x : List R) (l : Int) : autocorrelation id x (-l) = autocorrelation id x l :=
  C70_conjugate_symmetry (RingHom.id R) (fun _ => rfl) x l

/-- It vanishes at shifts of magnitude at least the length. -/
theorem C70_vanishes (conj : R →+* R) (x : List R) (l : Int) (h : (x.length : Int) ≤ |l|) : autocorrelation conj x l = 0 := by
  rw [C70_definition]
  apply Finset.sum_eq_zero
  intro i hi
  rw [Finset.mem_range] at hi
  have : extend x ((i : Int) - l) = 0 := by
    rcases abs_cases l with ⟨h1, h2⟩ | ⟨h1, h2⟩
    · exact extend_neg x _ (by omega)
    · exact extend_of_le x _ (by omega)
  rw [this, map_zero, mul_zero]

/-- At shift 0 both correlations equal the energy, so that the normalised ones equal 1. -/
theorem C70_energy (conj : R →+* R) (x : List R) :
    autocorrelation conj x 0 = ∑ i ∈ Finset.range x.length, x.getD i 0 * conj (x.getD i 0) ∧
    cyclicAutocorrelation conj x 0 = autocorrelation conj x 0 ∧ sequenceEnergy conj x = autocorrelation conj x 0 := by
  have h1 : autocorrelation conj x 0 = ∑ i ∈ Finset.range x.length, x.getD i 0 * conj (x.getD i 0) := by
    rw [C70_definition]
    apply Finset.sum_congr rfl
    intro i _
    rw [sub_zero, extend_nat]
  refine ⟨h1, ?_, rfl⟩
  rw [h1, C70_cyclic_definition]
  apply Finset.sum_congr rfl
  intro i hi
  rw [sub_zero, periodic_nat x i (Finset.mem_range.mp hi)]

theorem C70_normalized {F : Type} [Field F] (conj : F →+* F) (x : List F) (h : sequenceEnergy conj x ≠ 0) :
    autocorrelation conj x 0 / sequenceEnergy conj x = 1 ∧ cyclicAutocorrelation conj x 0 / sequenceEnergy conj x = 1 := by
  obtain ⟨_, h2, h3⟩ := C70_energy conj x
  rw [h2, ← h3]
  exact ⟨div_self h, div_self h⟩

/-- `cyclic_autocorrelation` has period `L`. -/
theorem C70_cyclic_periodic (conj : R →+* R) (x : List R) (l k : Int) :
    cyclicAutocorrelation conj x (l + k * x.length) = cyclicAutocorrelation conj x l := by
  rw [C70_cyclic_definition, C70_cyclic_definition]
  apply Finset.sum_congr rfl
  intro i _
  rw [show (i : Int) - (l + k * x.length) = (i : Int) - l + (-k) * x.length by ring, periodic_add]

/-- Conjugate symmetry of the cyclic autocorrelation. -/
theorem C70_cyclic_conjugate_symmetry (conj : R →+* R) (hinv : ∀ a, conj (conj a) = a) (x : List R) (l : Int) :
    cyclicAutocorrelation conj x (-l) = conj (cyclicAutocorrelation conj x l) := by
  rw [C70_cyclic_definition, C70_cyclic_definition, map_sum]
  have := sum_period (fun i : Int => conj (periodic x i * conj (periodic x (i - l)))) x.length (by
    intro i
    have h1 := periodic_add x i 1
    have h2 := periodic_add x (i - l) 1
    rw [one_mul] at h1 h2
    rw [h1, show i + (x.length : Int) - l = i - l + x.length by ring, h2]) l
  rw [← this]
  apply Finset.sum_congr rfl
  intro i _
  rw [map_mul, hinv, sub_neg_eq_add, mul_comm, add_sub_cancel_right]

/-- The cyclic autocorrelation is the aperiodic one wrapped around. -/
theorem C70_cyclic_wraps (conj : R →+* R) (x : List R) (l : Int) (h0 : 0 ≤ l) (h1 : l < x.length) :
    cyclicAutocorrelation conj x l = autocorrelation conj x l + autocorrelation conj x (l - x.length) := by
  rw [C70_cyclic_definition, C70_definition, C70_definition, ← Finset.sum_add_distrib]
  apply Finset.sum_congr rfl
  intro i hi
  rw [Finset.mem_range] at hi
  rw [periodic_eq_extend x (i : Int) (by omega) (by omega), ← mul_add, ← map_add]
  congr 2
  by_cases hc : 0 ≤ (i : Int) - l
  · rw [periodic_eq_extend x _ hc (by omega), extend_of_le x ((i : Int) - (l - x.length)) (by omega), add_zero]
  · rw [extend_neg x ((i : Int) - l) (by omega), zero_add]
    have := periodic_add x ((i : Int) - l) 1
    rw [one_mul] at this
    rw [← this, periodic_eq_extend x _ (by omega) (by omega)]
    congr 1
    ring

/-- A sequence over the integers. -/
example : (autocorrelation id ([1, 1, -1, 1] : List Int) 1, autocorrelation id ([1, 1, -1, 1] : List Int) (-1),
    autocorrelation id ([1, 1, -1, 1] : List Int) 7, cyclicAutocorrelation id ([1, 2, -1, 1] : List Int) 5,
    cyclicAutocorrelation id ([1, 2, -1, 1] : List Int) 1) = (-1, -1, 0, 0, 0) := by decide +kernel

/-! ### binary sequences -/

/-- `BinarySequence(bit_sequence=b)` and `BinarySequence(polar_sequence=p)` agree: the conversions are mutually inverse on bits and
on ±1 entries. -/
theorem C69_polar (bits : List Nat) (hb : ∀ b ∈ bits, b < 2) (polar : List Int) (hp : ∀ p ∈ polar, p = 1 ∨ p = -1) :
    bitsOfPolar (polarOfBits bits) = bits ∧ polarOfBits (bitsOfPolar polar) = polar ∧
    (∀ p ∈ polarOfBits bits, p = 1 ∨ p = -1) := by
  refine ⟨?_, ?_, ?_⟩
  · rw [bitsOfPolar, polarOfBits, List.map_map]
    conv_rhs => rw [← List.map_id bits]
    apply List.map_congr_left
    intro b h
    have := hb b h
    interval_cases b <;> simp
  · rw [bitsOfPolar, polarOfBits, List.map_map]
    conv_rhs => rw [← List.map_id polar]
    apply List.map_congr_left
    intro p h
    rcases hp p h with rfl | rfl <;> simp
  · intro p h
    rw [polarOfBits, List.mem_map] at h
    obtain ⟨b, h1, rfl⟩ := h
    exact neg_one_pow_eq_or Int b

/-! ### C69 -/

/-- The lengths accepted, and the length of the sequence. -/
theorem C69_lengths (n : Nat) : ((barkerSequence n).isSome ↔ n ∈ ({2, 3, 4, 5, 7, 11, 13} : Finset Nat)) ∧
    ∀ b, barkerSequence n = some b → b.length = n ∧ ∀ x ∈ b, x = 0 ∨ x = 1 := by
  by_cases h : n < 14
  · interval_cases n <;> decide
  · have h1 : barkerSequence n = none := by
      rw [barkerSequence] <;> omega
    rw [h1]
    refine ⟨?_, by intro b hb; exact absurd hb (by simp)⟩
    simp only [Option.isSome_none, Bool.false_eq_true, false_iff, Finset.mem_insert, Finset.mem_singleton]
    omega

/-- Every Barker sequence has aperiodic autocorrelation of magnitude at most 1 at every non-zero shift, and `L` at shift 0. -/
theorem C69_barker (n : Nat) (b : List Nat) (h : barkerSequence n = some b) (l : Int) :
    (l = 0 → autocorrelation id (polarOfBits b) l = n) ∧ (l ≠ 0 → |autocorrelation id (polarOfBits b) l| ≤ 1) := by
  obtain ⟨h1, h2⟩ := C69_lengths n
  rw [h] at h1
  have hn : n ∈ ({2, 3, 4, 5, 7, 11, 13} : Finset Nat) := h1.mp rfl
  by_cases hl : (n : Int) ≤ |l|
  · have hlen : (polarOfBits b).length = n := by rw [polarOfBits, List.length_map, (h2 b h).1]
    have hz : autocorrelation id (polarOfBits b) l = 0 := C70_vanishes (RingHom.id Int) (polarOfBits b) l (by rw [hlen]; exact hl)
    rw [hz]
    refine ⟨?_, fun _ => by simp⟩
    rintro rfl
    simp only [abs_zero, Nat.cast_nonpos] at hl
    subst hl
    rfl
  · have hlt := not_le.mp hl
    rw [abs_lt] at hlt
    have key : ∀ n ∈ ({2, 3, 4, 5, 7, 11, 13} : Finset Nat), ∀ i : Fin (2 * n),
        (barkerSequence n).all (fun b => decide
          ((((i : Nat) : Int) - n = 0 → autocorrelation id (polarOfBits b) (((i : Nat) : Int) - n) = n) ∧
           (((i : Nat) : Int) - n ≠ 0 → |autocorrelation id (polarOfBits b) (((i : Nat) : Int) - n)| ≤ 1))) = true := by
      decide +kernel
    have := key n hn ⟨(l + n).toNat, by omega⟩
    rw [h, Option.all_some, decide_eq_true_eq] at this
    have e : (((l + n).toNat : Nat) : Int) - n = l := by omega
    simp only [e] at this
    exact this

end Komm
