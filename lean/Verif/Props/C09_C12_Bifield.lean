import Verif.Lemmas.Bifield2

/-! C09–C12: finite fields of characteristic 2.  Elements are reduced: `value < order = 2**degree`. -/
namespace Komm
open Polynomial

/-! ### C09 -/

/-- The constructor accepts exactly the irreducible moduli of the declared degree (degree ≥ 1). -/
theorem C09_constructor (d : Int) (m : Nat) :
    (∃ F, Bifield.create d (some m) = some F) ↔
      1 ≤ d ∧ BP.degree m = d ∧ Irreducible (toPoly m) := by
  constructor
  · rintro ⟨F, h⟩
    obtain ⟨h1, _, h2, h3⟩ := (Bifield.create_eq_some_iff d m F).mp h
    exact ⟨h1, h2, h3⟩
  · rintro ⟨h1, h2, h3⟩
    exact ⟨⟨d.toNat, m⟩, (Bifield.create_eq_some_iff d m _).mpr ⟨h1, rfl, h2, h3⟩⟩

/-- The default constructor succeeds for every degree in `1..24`. -/
theorem C09_default_constructor (d : Int) (h : 1 ≤ d ∧ d ≤ 24) :
    ∃ F, Bifield.create d none = some F ∧ (F.degree : Int) = d := Bifield.create_default d h

/-- The arithmetic of reduced elements is that of GF(2)[X] modulo the modulus. -/
theorem C09_arithmetic {d : Int} {m : Option Nat} {F : Bifield} (hF : Bifield.create d m = some F)
    (a b : Nat) (ha : a < F.order) (hb : b < F.order) :
    (F.add a b < F.order ∧ toPoly (F.add a b) = (toPoly a + toPoly b) % toPoly F.modulus) ∧
    (F.mul a b < F.order ∧ toPoly (F.mul a b) = toPoly a * toPoly b % toPoly F.modulus) := by
  have hV := Bifield.create_valid hF
  refine ⟨⟨Bifield.add_lt ha hb, ?_⟩, Bifield.mul_lt hV a b, ?_⟩
  · rw [← toPoly_xor, (mod_eq_self_iff (by simpa using hV.modulus_ne_zero)).mpr]
    · rfl
    · rw [degree_toPoly_lt_iff hV.modulus_ne_zero]
      have := bitLength_xor_le (Bifield.reduced_iff.mp ha) (Bifield.reduced_iff.mp hb)
      have := hV.2.1
      omega
  · rw [Bifield.mul, BP.toPoly_mod _ hV.modulus_ne_zero, BP.toPoly_mul]

/-- The field axioms, on reduced elements, stated for the library operations themselves. -/
theorem C09_field_laws {d : Int} {m : Option Nat} {F : Bifield} (hF : Bifield.create d m = some F)
    (a b c : Nat) (ha : a < F.order) (hb : b < F.order) (hc : c < F.order) :
    F.add (F.add a b) c = F.add a (F.add b c) ∧ F.add a b = F.add b a ∧ F.add a 0 = a ∧
    F.add a a = 0 ∧
    F.mul (F.mul a b) c = F.mul a (F.mul b c) ∧ F.mul a b = F.mul b a ∧ F.mul a 1 = a ∧
    F.mul a (F.add b c) = F.add (F.mul a b) (F.mul a c) ∧ 0 ≠ 1 ∧ 1 < F.order := by
  have hV := Bifield.create_valid hF
  have h1 := Bifield.one_lt_order hV
  refine ⟨?_, ?_, ?_, ?_, ?_, ?_, ?_, ?_, by decide, h1⟩
  · simp [Bifield.add, BP.add, Nat.xor_assoc]
  · simp [Bifield.add, BP.add, Nat.xor_comm]
  · simp [Bifield.add, BP.add]
  · simp [Bifield.add, BP.add]
  · apply Bifield.φ_inj hV (Bifield.mul_lt hV _ _) (Bifield.mul_lt hV _ _)
    simp only [Bifield.φ_mul hV, mul_assoc]
  · apply Bifield.φ_inj hV (Bifield.mul_lt hV _ _) (Bifield.mul_lt hV _ _)
    simp only [Bifield.φ_mul hV, mul_comm]
  · apply Bifield.φ_inj hV (Bifield.mul_lt hV _ _) ha
    simp only [Bifield.φ_mul hV, Bifield.φ_one, mul_one]
  · apply Bifield.φ_inj hV (Bifield.mul_lt hV _ _) (Bifield.add_lt (Bifield.mul_lt hV _ _) (Bifield.mul_lt hV _ _))
    simp only [Bifield.φ_mul hV, Bifield.φ_add, mul_add]

/-- Inverses: every non-zero reduced element has a reduced inverse; zero raises. -/
theorem C09_inverse {d : Int} {m : Option Nat} {F : Bifield} (hF : Bifield.create d m = some F) :
    (∀ a, a < F.order → a ≠ 0 → ∃ i, F.inverse a = some i ∧ i < F.order ∧ F.mul a i = 1) ∧
    F.inverse 0 = none :=
  ⟨fun _ ha ha0 => Bifield.inverse_spec (Bifield.create_valid hF) ha ha0,
    Bifield.inverse_zero (Bifield.create_valid hF)⟩

/-- Division: `x / y` is the unique reduced element whose product with `y` is `x`; division by zero
raises. -/
theorem C09_division {d : Int} {m : Option Nat} {F : Bifield} (hF : Bifield.create d m = some F)
    (a b : Nat) (ha : a < F.order) (hb : b < F.order) :
    (b ≠ 0 → ∃ q, F.truediv a b = some q ∧ q < F.order ∧ F.mul q b = a ∧
      ∀ q' < F.order, F.mul q' b = a → q' = q) ∧
    (b = 0 → F.truediv a b = none) := Bifield.truediv_spec (Bifield.create_valid hF) a b ha hb

/-- Powers: `x ** 0 = one`, `x ** (n+1) = (x ** n) * x`; negative powers are powers of the inverse. -/
theorem C09_power {d : Int} {m : Option Nat} {F : Bifield} (hF : Bifield.create d m = some F)
    (a : Nat) (ha : a < F.order) (n : Nat) :
    F.pow a 0 = some 1 ∧
    (∃ r, F.pow a n = some r ∧ r < F.order ∧ F.pow a (n + 1 : Nat) = some (F.mul r a)) ∧
    (∀ i, F.inverse a = some i → F.pow a (-(n : Int)) = F.pow i n) ∧
    (F.inverse a = none → F.pow a (-((n : Int) + 1)) = none) :=
  Bifield.pow_spec (Bifield.create_valid hF) a ha n

/-- `(order - 1)`-th powers of non-zero elements are one (Fermat). -/
theorem C09_fermat {d : Int} {m : Option Nat} {F : Bifield} (hF : Bifield.create d m = some F)
    (a : Nat) (ha : a < F.order) (ha0 : a ≠ 0) : F.npow a (F.order - 1) = 1 :=
  Bifield.npow_order_sub_one (Bifield.create_valid hF) ha ha0

/-- Non-vacuity: GF(16) with the non-primitive modulus X^4+X^3+X^2+X+1. -/
example : Bifield.create 4 (some 0b11111) = some ⟨4, 0b11111⟩ ∧
    Bifield.inverse ⟨4, 0b11111⟩ 0b110 = some 0b101 ∧
    Bifield.mul ⟨4, 0b11111⟩ 0b110 0b101 = 1 := by decide +kernel
example : Bifield.create 4 (some 0b10101) = none ∧ Bifield.create 3 (some 0b11111) = none := by
  decide +kernel

/-! ### C10 -/

/-- `x.logarithm(base)` returns the least exponent in `[0, order)`, and fails exactly when `x` is not a
power of `base` at all. -/
theorem C10_logarithm {d : Int} {m : Option Nat} {F : Bifield} (hF : Bifield.create d m = some F)
    (x b : Nat) (hb : b < F.order) :
    (∀ i, F.logarithm x b = some i →
      i < F.order ∧ F.npow b i = x ∧ ∀ j < i, F.npow b j ≠ x) ∧
    (F.logarithm x b = none ↔ ∀ n, F.npow b n ≠ x) := by
  have hV := Bifield.create_valid hF
  constructor
  · intro i h
    have h' := List.find?_range_eq_some.mp h
    simp only [beq_iff_eq, Bool.not_eq_true', beq_eq_false_iff_ne] at h'
    exact ⟨List.mem_range.mp h'.2.1, h'.1, fun j hj => h'.2.2 j hj⟩
  · rw [Bifield.logarithm, List.find?_eq_none]
    constructor
    · intro h n hn
      obtain ⟨i, hi, he⟩ := Bifield.exists_npow_lt hV hb n
      exact h i (List.mem_range.mpr hi) (by rw [beq_iff_eq, he, hn])
    · intro h i _ he
      exact h i (beq_iff_eq.mp he)

example : Bifield.logarithm ⟨4, 0b10011⟩ 0b1101 0b10 = some 13 ∧
    Bifield.logarithm ⟨4, 0b10011⟩ 0b10 0b110 = none := by decide +kernel

/-! ### C11 -/

/-- `conjugates()` lists, without repetition, exactly the elements `x ** (2 ** i)`. -/
theorem C11_conjugates {d : Int} {m : Option Nat} {F : Bifield} (hF : Bifield.create d m = some F)
    (x : Nat) (hx : x < F.order) :
    (F.conjugates x).Nodup ∧ ∀ y, y ∈ F.conjugates x ↔ ∃ i, y = F.npow x (2 ^ i) :=
  Bifield.conjugates_spec (Bifield.create_valid hF) hx

/-- `minimal_polynomial()` is minimal: a polynomial over GF(2) vanishes at `x` (evaluated with the
library's own Horner rule and field operations) iff it is a multiple of the minimal polynomial. -/
theorem C11_minimal_polynomial {d : Int} {m : Option Nat} {F : Bifield}
    (hF : Bifield.create d m = some F) (x : Nat) (hx : x < F.order) (p : Nat) :
    BP.binaryHorner 0 1 F.add F.mul (BP.coefficients p) x = 0 ↔
      toPoly (F.minimalPolynomial x) ∣ toPoly p :=
  Bifield.eval_eq_zero_iff (Bifield.create_valid hF) hx p

/-- The minimal polynomial is irreducible. -/
theorem C11_minimal_polynomial_irreducible {d : Int} {m : Option Nat} {F : Bifield}
    (hF : Bifield.create d m = some F) (x : Nat) (hx : x < F.order) :
    Irreducible (toPoly (F.minimalPolynomial x)) :=
  Bifield.minimalPolynomial_irreducible (Bifield.create_valid hF) hx

example : Bifield.conjugates ⟨4, 0b10011⟩ 0b110 = [0b110, 0b111] ∧
    Bifield.minimalPolynomial ⟨4, 0b10011⟩ 0b110 = 0b111 := by decide +kernel

/-! ### C12 -/

/-- `find_roots` returns, in increasing order, exactly the roots of a polynomial that is not identically
zero (`horner` is the polynomial value, `C12_horner_is_evaluation`). -/
theorem C12_find_roots {d : Int} {m : Option Nat} {F : Bifield} (hF : Bifield.create d m = some F)
    (cs : List Nat) (hcs : ∀ c ∈ cs, c < F.order) (hnz : ∃ c ∈ cs, c ≠ 0) :
    (F.findRoots cs).Pairwise (· < ·) ∧
    ∀ x, x ∈ F.findRoots cs ↔ x < F.order ∧ F.horner cs x = 0 := by
  rw [Bifield.findRoots_spec (Bifield.create_valid hF) cs hcs hnz]
  refine ⟨List.Pairwise.filter _ List.pairwise_lt_range, fun x => ?_⟩
  rw [List.mem_filter, List.mem_range]
  simp

/-- Horner's rule computes `c₀ + c₁ x + c₂ x² + …` with the field operations. -/
theorem C12_horner_is_evaluation {d : Int} {m : Option Nat} {F : Bifield}
    (hF : Bifield.create d m = some F) (cs : List Nat) (hcs : ∀ c ∈ cs, c < F.order)
    (x : Nat) (hx : x < F.order) :
    F.horner cs x =
      (List.range cs.length).foldr (fun i acc => F.add (F.mul (cs.getD i 0) (F.npow x i)) acc) 0 :=
  Bifield.horner_eq_sum (Bifield.create_valid hF) cs hcs x hx

example : Bifield.findRoots ⟨4, 0b10011⟩ [0b110, 0b1, 0b1] = [0b10, 0b11] := by decide +kernel

end Komm
