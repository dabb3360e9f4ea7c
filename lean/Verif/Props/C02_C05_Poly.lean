import Verif.Lemmas.PolyMisc

/-! C02–C05: BinaryPolynomial arithmetic.  Specification: `toPoly n` (Verif/Spec/Poly.lean) is the
polynomial over GF(2) whose coefficients are the binary digits of `n`. -/
namespace Komm
open Polynomial

/-! ### C02 -/

/-- The coefficient of `X^i` in the polynomial denoted by `n` is binary digit `i` of `n`, and every
polynomial over GF(2) is denoted by exactly one non-negative integer. -/
theorem C02_representation :
    (∀ n i, (toPoly n).coeff i = if n.testBit i then 1 else 0) ∧ Function.Bijective toPoly :=
  ⟨toPoly_coeff, toPoly_injective, toPoly_surjective⟩

/-- `+`, `-`, `*`, `<<`, `degree` of `BinaryPolynomial` are those of GF(2)[X]. -/
theorem C02_arithmetic (a b n : Nat) :
    toPoly (BP.add a b) = toPoly a + toPoly b ∧
    toPoly (BP.add a b) = toPoly a - toPoly b ∧
    toPoly (BP.mul a b) = toPoly a * toPoly b ∧
    toPoly (BP.shl a n) = toPoly a * X ^ n ∧
    (a ≠ 0 → BP.degree a = (toPoly a).natDegree) ∧ BP.degree 0 = -1 := by
  refine ⟨by simp, by rw [zmod2_poly_sub]; simp, by simp, toPoly_shiftLeft a n, ?_, by decide⟩
  intro ha
  have : bitLength a ≠ 0 := mt bitLength_eq_zero.mp ha
  rw [natDegree_toPoly, BP.degree]; omega

/-- `p ** n` is the `n`-th power for `n ≥ 0`; negative exponents raise. -/
theorem C02_power (a : Nat) (n : Int) :
    (0 ≤ n → ∃ r, BP.pow a n = some r ∧ toPoly r = toPoly a ^ n.toNat) ∧
    (n < 0 → BP.pow a n = none) := by
  constructor
  · intro h
    refine ⟨_, by rw [BP.pow, if_neg (by omega)], ?_⟩
    exact ringPower_map 1 BP.mul toPoly toPoly_one BP.toPoly_mul a n.toNat
  · intro h; rw [BP.pow, if_pos h]

example : BP.mul 0b1011 0b110 = 0b111010 ∧ BP.pow 0b11 3 = some 0b1111 := by decide +kernel

/-! ### C03 -/

/-- `divmod(a, b)` for `b ≠ 0` is the unique Euclidean division; for `b = 0` it raises. -/
theorem C03_divmod (a b : Nat) :
    (b ≠ 0 → ∃ q r, BP.divmod a b = some (q, r) ∧
      toPoly a = toPoly q * toPoly b + toPoly r ∧ (toPoly r).degree < (toPoly b).degree ∧
      ∀ q' r', toPoly a = toPoly q' * toPoly b + toPoly r' → (toPoly r').degree < (toPoly b).degree →
        q' = q ∧ r' = r) ∧
    BP.divmod a 0 = none := by
  refine ⟨fun hb => ?_, by simp [BP.divmod]⟩
  obtain ⟨h1, h2⟩ := BP.divmodCore_spec a b hb
  refine ⟨BP.div a b, BP.mod a b, by simp [BP.divmod, hb, BP.div, BP.mod], h1.symm,
    (degree_toPoly_lt_iff hb).mpr h2, ?_⟩
  intro q' r' h3 h4
  have hm := monic_toPoly hb
  have e1 := div_modByMonic_unique (f := toPoly a) (g := toPoly b) (toPoly (BP.div a b))
    (toPoly (BP.mod a b)) hm ⟨by rw [← h1]; ring, (degree_toPoly_lt_iff hb).mpr h2⟩
  have e2 := div_modByMonic_unique (f := toPoly a) (g := toPoly b) (toPoly q') (toPoly r') hm
    ⟨by rw [h3]; ring, h4⟩
  exact ⟨toPoly_injective (e2.1.symm.trans e1.1), toPoly_injective (e2.2.symm.trans e1.2)⟩

example : BP.divmod 0b110101 0b101 = some (0b1110, 0b11) := by decide +kernel
example : BP.divmod 0b111 0 = none := by decide

/-! ### C04 -/

/-- `gcd(*ps)`: `p` divides the result iff it divides all arguments (so the result is itself a common
divisor and every common divisor divides it). -/
theorem C04_gcd (ps : List Nat) (hps : ps ≠ []) :
    ∃ g, BP.gcdList ps = some g ∧
      ∀ p : (ZMod 2)[X], p ∣ toPoly g ↔ ∀ q ∈ ps, p ∣ toPoly q := BP.gcdList_spec ps hps

/-- `xgcd(a, b) = (d, s, t)`: `d` is the greatest common divisor and `d = s*a + t*b`. -/
theorem C04_xgcd (a b : Nat) :
    ∃ d s t, BP.xgcd a b = (d, s, t) ∧
      (∀ p : (ZMod 2)[X], p ∣ toPoly d ↔ p ∣ toPoly a ∧ p ∣ toPoly b) ∧
      toPoly d = toPoly s * toPoly a + toPoly t * toPoly b ∧ BP.gcdList [a, b] = some d := by
  obtain ⟨h1, h2⟩ := BP.xgcd_spec a b
  refine ⟨(BP.xgcd a b).1, (BP.xgcd a b).2.1, (BP.xgcd a b).2.2, rfl, h1, h2, ?_⟩
  obtain ⟨g, hg, hg2⟩ := BP.gcdList_spec [a, b] (by simp)
  rw [hg]
  congr 1
  apply toPoly_injective
  apply zmod2_dvd_antisymm
  · rw [h1]; have := (hg2 _).mp dvd_rfl; exact ⟨this a (by simp), this b (by simp)⟩
  · rw [hg2]; have := (h1 _).mp dvd_rfl; simpa using this

example : BP.gcdList [0b110, 0b1010, 0b111111] = some 0b11 := by decide +kernel
example : BP.xgcd 0b1011 0b110 = (1, 0b1, 0b11) := by decide +kernel

/-! ### C05 -/

/-- Two-argument `BinaryPolynomial.lcm` (not both zero) is the least common multiple:
`p` is a multiple of the result iff it is a multiple of both.  `_partial`: the statement for an
arbitrary number of arguments is false, see `C05_lcm_nary_false`. -/
theorem C05_lcm_partial (a b : Nat) (h : a ≠ 0 ∨ b ≠ 0) :
    ∃ l, BP.lcmList [a, b] = some l ∧
      ∀ p : (ZMod 2)[X], toPoly l ∣ p ↔ toPoly a ∣ p ∧ toPoly b ∣ p := BP.lcm_two a b h

/-- The `domain.lcm` used by the convolutional codes is the least common multiple, zero included. -/
theorem C05_domain_lcm (a b : Nat) (p : (ZMod 2)[X]) :
    toPoly (BP.domainLcm a b) ∣ p ↔ toPoly a ∣ p ∧ toPoly b ∣ p := BP.domainLcm_spec a b p

/-- Any number (at least two) of non-zero arguments: the result is a common multiple. -/
theorem C05_lcm_common_multiple_partial (a b : Nat) (ps : List Nat) (h : ∀ q ∈ a :: b :: ps, q ≠ 0) :
    ∃ l, BP.lcmList (a :: b :: ps) = some l ∧ ∀ q ∈ a :: b :: ps, toPoly q ∣ toPoly l :=
  BP.lcmList_common_multiple a b ps h

/-- The general claim is false: `lcm(X, X, X+1)` is `X^2 (X+1)`, but `X (X+1)` is a smaller common
multiple (finding F1 in DESIGN.md). -/
theorem C05_lcm_nary_false :
    ¬ ∀ ps : List Nat, ps ≠ [] → (∀ q ∈ ps, q ≠ 0) →
      ∃ l, BP.lcmList ps = some l ∧
        ∀ p : Nat, (∀ q ∈ ps, toPoly q ∣ toPoly p) → toPoly l ∣ toPoly p := by
  intro h
  obtain ⟨l, hl, h2⟩ := h [2, 2, 3] (by simp) (by simp)
  have hl' : BP.lcmList [2, 2, 3] = some 12 := by decide +kernel
  rw [hl'] at hl
  cases hl
  have h3 := h2 6 (by
    intro q hq
    simp only [List.mem_cons, List.not_mem_nil, or_false] at hq
    have e2 : toPoly 6 = toPoly 2 * toPoly 3 := by rw [← BP.toPoly_mul]; rfl
    rcases hq with rfl | rfl | rfl
    · rw [e2]; exact dvd_mul_right _ _
    · rw [e2]; exact dvd_mul_right _ _
    · rw [e2]; exact dvd_mul_left _ _)
  have := degree_le_of_dvd h3 (by simp)
  rw [← not_lt, degree_toPoly_lt_iff (by decide)] at this
  exact this (by decide)

/-- The single-argument call returns `1` whatever the argument (second part of finding F1). -/
theorem C05_lcm_single_false : BP.lcmList [0b111] = some 1 := by decide +kernel

example : BP.lcmList [0b110, 0b101] = some 0b1010 ∧ (0b110 ≠ 0 ∨ 0b101 ≠ 0) := by decide +kernel

end Komm
