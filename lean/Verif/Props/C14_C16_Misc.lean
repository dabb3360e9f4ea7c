import Verif.Lemmas.PolyMisc
import Verif.Lemmas.Ring
import Verif.Lemmas.Rabin
import Mathlib.Data.Nat.Factors

/-! C14 (representations of binary polynomials), C15 (generic ring algorithms), C16 (`prime_factors`). -/
namespace Komm
open Polynomial

/-! ### C14 -/

/-- `coefficients()` lists the coefficients (least degree first) and `from_coefficients` inverts it; in
the other direction every list of bits is the coefficient list, up to trailing zeros, of the polynomial
built from it. -/
theorem C14_coefficients (a : Nat) :
    BP.fromCoefficients (BP.coefficients a) = a ∧
    (∀ i, (((BP.coefficients a).getD i 0 : Nat) : ZMod 2) = (toPoly a).coeff i) ∧
    (∀ c ∈ BP.coefficients a, c = 0 ∨ c = 1) := by
  refine ⟨BP.fromCoefficients_coefficients a, fun i => ?_, fun c hc => ?_⟩
  · rw [BP.coefficients_getD, toPoly_coeff]; split <;> simp
  · obtain ⟨i, hi, rfl⟩ := List.mem_iff_getElem.mp hc
    have := BP.coefficients_getD a i
    rw [List.getD_eq_getElem _ _ hi] at this
    rw [this]; split <;> simp

/-- `from_coefficients(l)` is the polynomial `Σ l[i] X^i`. -/
theorem C14_from_coefficients (l : List Nat) (hl : ∀ c ∈ l, c = 0 ∨ c = 1) (i : Nat) :
    (toPoly (BP.fromCoefficients l)).coeff i = ((l.getD i 0 : Nat) : ZMod 2) := by
  rw [toPoly_coeff, BP.fromCoefficients, bitsToInt, packLE_testBit]
  by_cases h : i < l.length
  · have := hl (l[i]) (List.getElem_mem h)
    rw [List.getD_eq_getElem _ _ h]
    rcases this with h1 | h1 <;> simp [h1]
  · simp [List.getElem?_eq_none (not_lt.mp h)]

/-- `exponents()` lists, in increasing order, exactly the degrees of the non-zero terms. -/
theorem C14_exponents (a : Nat) :
    (BP.exponents a).Pairwise (· < ·) ∧ ∀ i, i ∈ BP.exponents a ↔ (toPoly a).coeff i ≠ 0 := by
  refine ⟨BP.exponents_sorted a, fun i => ?_⟩
  rw [BP.mem_exponents, toPoly_coeff]; split <;> simp_all

/-- `from_exponents(e)` is the polynomial with exactly the terms listed (repetitions count once, up to 255 of them), so it inverts
`exponents()`. -/
theorem C14_from_exponents (e : List Nat) (a i : Nat) (he : e.count i < 256) :
    (toPoly (BP.fromExponents e)).coeff i = (if i ∈ e then 1 else 0) ∧
    BP.fromExponents (BP.exponents a) = a := by
  have key : ∀ (e : List Nat) (i : Nat), e.count i < 256 → (BP.fromExponents e).testBit i = decide (i ∈ e) := by
    intro e i he
    rw [BP.fromExponents, bitsToInt, packLE_testBit]
    have hmax : ∀ e : List Nat, ∀ x ∈ e, x < e.foldr (fun x m => max (x + 1) m) 0 := by
      intro e
      induction e with
      | nil => simp
      | cons y e ih =>
        intro x hx
        rw [List.foldr_cons]
        rcases List.mem_cons.mp hx with rfl | hx
        · omega
        · have := ih x hx; omega
    by_cases h : i < e.foldr (fun x m => max (x + 1) m) 0
    · rw [List.getD_eq_getElem?_getD, List.getElem?_map, List.getElem?_range h]
      simp only [Option.map_some, Option.getD_some]
      by_cases hi : i ∈ e
      · have := List.count_pos_iff.mpr hi
        have : ¬ e.count i % 256 = 0 := by omega
        simp [hi, this]
      · have : e.count i = 0 := List.count_eq_zero.mpr hi
        simp [hi, this]
    · rw [List.getD_eq_default _ _ (by simpa using h)]
      have : i ∉ e := fun hi => h (hmax e i hi)
      simp [this]
  refine ⟨?_, ?_⟩
  · rw [toPoly_coeff, key e i he]; simp
  · apply Nat.eq_of_testBit_eq
    intro i
    rw [key _ i (by
      have : (BP.exponents a).Nodup := (BP.exponents_sorted a).imp fun h => Nat.ne_of_lt h
      have := List.nodup_iff_count_le_one.mp this i
      omega)]
    by_cases h : a.testBit i
    · simp [BP.mem_exponents, h]
    · simp [BP.mem_exponents, h]

/-- An exponent listed a multiple of 256 times is lost: the counts are converted to `uint8`. -/
theorem C14_from_exponents_overflow (e : List Nat) (i : Nat) (h : e.count i % 256 = 0) : (toPoly (BP.fromExponents e)).coeff i = 0 := by
  rw [toPoly_coeff, BP.fromExponents, bitsToInt, packLE_testBit, List.getD_eq_getElem?_getD, List.getElem?_map]
  generalize e.foldr (fun x m => max (x + 1) m) 0 = q
  by_cases hq : i < q
  · rw [List.getElem?_range hq, Option.map_some, Option.getD_some, h]
    simp
  · rw [List.getElem?_eq_none (by simpa using hq)]
    simp

example : 3 ∈ List.replicate 256 3 ∧ (List.replicate 256 3).count 3 % 256 = 0 := ⟨List.mem_replicate.mpr ⟨by omega, rfl⟩, by rw [List.count_replicate_self]⟩

/-- `coefficients(width)` for `width ≥ 1` has exactly `width` entries, the coefficients of degree below `width`. -/
theorem C14_coefficients_width (a w : Nat) (hw : 1 ≤ w) :
    (BP.coefficients a (some w)).length = w ∧
    ∀ i, i < w → (((BP.coefficients a (some w)).getD i 0 : Nat) : ZMod 2) = (toPoly a).coeff i := by
  obtain ⟨w, rfl⟩ : ∃ v, w = v + 1 := ⟨w - 1, by omega⟩
  constructor
  · simp [BP.coefficients, intToBits]
  · intro i hi
    have e : BP.coefficients a (some (w + 1)) = intToBits .lsbFirst a (w + 1) := rfl
    rw [toPoly_coeff, e, intToBits, List.getD_eq_getElem?_getD, List.getElem?_map, List.getElem?_range hi]
    simp only [Option.map_some, Option.getD_some, Nat.shiftRight_eq_div_pow, Nat.testBit_eq_decide_div_mod_eq]
    rcases Nat.mod_two_eq_zero_or_one (a / 2 ^ i) with h | h <;> simp [h]

/-- `reciprocal()` is the reversed polynomial `X^deg(p) p(1/X)`. -/
theorem C14_reciprocal (a : Nat) (i : Nat) :
    toPoly (BP.reciprocal a) = (toPoly a).reverse ∧
    (i ≤ (toPoly a).natDegree →
      (toPoly (BP.reciprocal a)).coeff i = (toPoly a).coeff ((toPoly a).natDegree - i)) := by
  refine ⟨BP.reciprocal_spec a, fun hi => ?_⟩
  rw [BP.reciprocal_spec, coeff_reverse, revAt_le hi]

/-- `evaluate(x)` in any commutative ring is the sum of the powers of `x` selected by the coefficients. -/
theorem C14_evaluate {R : Type} [CommRing R] (x : R) (a : Nat) :
    BP.binaryHorner 0 1 (· + ·) (· * ·) (BP.coefficients a) x = ((BP.exponents a).map (x ^ ·)).sum := by
  rw [BP.binaryHorner_spec, BP.exponents, ← List.sum_toFinset]
  · rw [← Finset.sum_filter]
    congr 1
    ext i; simp
  · exact (List.nodup_range).filter _

/-- In a ring of characteristic two this is polynomial evaluation. -/
theorem C14_evaluate_char_two {R : Type} [CommRing R] [Algebra (ZMod 2) R] (x : R) (a : Nat) :
    BP.binaryHorner 0 1 (· + ·) (· * ·) (BP.coefficients a) x = aeval x (toPoly a) := by
  rw [BP.binaryHorner_spec, aeval_eq_sum_range' (n := (BP.coefficients a).length)]
  · apply Finset.sum_congr rfl
    intro i _
    rw [BP.coefficients_getD, toPoly_coeff]
    split <;> simp_all
  · rw [natDegree_toPoly, BP.coefficients_default_length]; omega

example : BP.coefficients 0b10100 = [0, 0, 1, 0, 1] ∧ BP.exponents 0b10100 = [2, 4] ∧
    BP.reciprocal 0b10110 = 0b01101 ∧
    BP.binaryHorner 0 1 (· + ·) (· * ·) (BP.coefficients 0b10100) (3 : Nat) = 90 := by decide +kernel

/-! ### C15 -/

/-- `power(x, n)` by repeated squaring is `x ^ n` in every ring. -/
theorem C15_power {R : Type} [Ring R] (x : R) (n : Nat) :
    BP.ringPower 1 (· * ·) x n = x ^ n :=
  ringPower_map 1 (· * ·) id rfl (fun _ _ => rfl) x n

/-- `horner(c, x)` is `Σ c[i] x^i` in every commutative ring. -/
theorem C15_horner {R : Type} [CommRing R] (cs : List R) (x : R) :
    horner cs x = ∑ i : Fin cs.length, cs[i] * x ^ (i : Nat) := horner_spec cs x

/-- `determinant(M)` of a square matrix of order at least one, over any commutative ring, is the Leibniz
determinant `Σ_σ sgn(σ) Π M[σ i][i]`; non-square and empty inputs raise. -/
theorem C15_determinant {R : Type} [CommRing R] (m : List (List R)) :
    (m ≠ [] → (∀ r ∈ m, r.length = m.length) →
      determinant m = some (∑ σ : Equiv.Perm (Fin m.length),
        ((Equiv.Perm.sign σ : Int) : R) * ∏ i : Fin m.length, (m.getD (σ i) []).getD i 0)) ∧
    (m = [] ∨ (∃ r ∈ m, r.length ≠ m.length) → determinant m = none) := by
  constructor
  · intro h1 h2
    rw [determinant_spec m h1 h2, Matrix.det_apply']
    rfl
  · rintro (rfl | ⟨r, hr, hl⟩)
    · simp [determinant]
    · unfold determinant
      rw [if_pos]
      rw [List.any_eq_true]; exact ⟨r, hr, by simpa using hl⟩

example : determinant [[(2 : Int), 1, 0], [1, 3, 5], [4, 1, 1]] = some 15 := by decide +kernel

/-! ### C16 -/

/-- `prime_factors(n)` is the non-decreasing list of primes whose product is `n`. -/
theorem C16_prime_factors (n : Nat) (hn : 1 ≤ n) :
    (∀ p ∈ primeFactors n, p.Prime) ∧ (primeFactors n).prod = n ∧
      (primeFactors n).Pairwise (· ≤ ·) := primeFactors_spec n hn

/-- … and it is the only such list. -/
theorem C16_prime_factors_unique (n : Nat) (hn : 1 ≤ n) (l : List Nat) (h1 : ∀ p ∈ l, p.Prime)
    (h2 : l.prod = n) (h3 : l.Pairwise (· ≤ ·)) : primeFactors n = l := by
  obtain ⟨a1, a2, a3⟩ := primeFactors_spec n hn
  have e1 := Nat.primeFactorsList_unique a2 a1
  have e2 := Nat.primeFactorsList_unique h2 h1
  exact (e1.trans e2.symm).eq_of_pairwise (fun a b _ _ h h' => le_antisymm h h') a3 h3

example : primeFactors 360 = [2, 2, 2, 3, 3, 5] ∧ primeFactors 1 = [] := by decide +kernel

end Komm
