import Verif.Spec.Poly
import Verif.Model.BinaryPolynomial
import Verif.Lemmas.BitOps
import Mathlib.Algebra.Polynomial.Degree.Lemmas
import Mathlib.Algebra.Polynomial.Div
import Mathlib.Algebra.Polynomial.FieldDivision
import Mathlib.Algebra.Field.ZMod
import Mathlib.Tactic.LinearCombination

namespace Komm
open Polynomial

theorem toPoly_coeff (n i : Nat) : (toPoly n).coeff i = if n.testBit i then 1 else 0 := by
  rw [toPoly, finsetSum_coeff]
  have : ∀ j, ((if n.testBit j then (X : (ZMod 2)[X]) ^ j else 0).coeff i) =
      if j = i then (if n.testBit i then 1 else 0) else 0 := by
    intro j
    by_cases hj : j = i
    · subst hj; split <;> simp [*]
    · split <;> simp [coeff_X_pow, Ne.symm hj]
  simp only [this, Finset.sum_ite_eq', Finset.mem_range]
  by_cases h : i < n
  · simp [h]
  · have : n.testBit i = false := Nat.testBit_lt_two_pow (lt_of_le_of_lt (not_lt.mp h) Nat.lt_two_pow_self)
    simp [h, this]

@[simp] theorem toPoly_zero : toPoly 0 = 0 := by simp [toPoly]

@[simp] theorem toPoly_one : toPoly 1 = 1 := by simp [toPoly]

theorem toPoly_two : toPoly 2 = X := by
  ext i; rw [toPoly_coeff, coeff_X]
  rcases i with _ | _ | i
  · simp
  · simp; decide
  · have : Nat.testBit 2 (i+1+1) = false := Nat.testBit_lt_two_pow (by
      calc 2 = 2^1 := rfl
        _ < 2 ^ (i+1+1) := Nat.pow_lt_pow_right (by decide) (by omega))
    simp [this]

theorem toPoly_injective : Function.Injective toPoly := by
  intro a b h
  apply Nat.eq_of_testBit_eq
  intro i
  have := congrArg (fun p => p.coeff i) h
  simp only [toPoly_coeff] at this
  revert this
  cases a.testBit i <;> cases b.testBit i <;> simp

@[simp] theorem toPoly_inj {a b : Nat} : toPoly a = toPoly b ↔ a = b := toPoly_injective.eq_iff

@[simp] theorem toPoly_eq_zero {a : Nat} : toPoly a = 0 ↔ a = 0 := by
  rw [← toPoly_zero, toPoly_inj]

theorem toPoly_surjective : Function.Surjective toPoly := by
  intro p
  refine ⟨packLE ((List.range (p.natDegree + 1)).map fun i => (p.coeff i).val), ?_⟩
  ext i
  rw [toPoly_coeff, packLE_testBit]
  by_cases h : i < p.natDegree + 1
  · have h2 : ((List.range (p.natDegree + 1)).map fun i => (p.coeff i).val).getD i 0 = (p.coeff i).val := by
      simp [h]
    rw [h2]
    generalize p.coeff i = c
    revert c; decide
  · have h2 : ((List.range (p.natDegree + 1)).map fun i => (p.coeff i).val).getD i 0 = 0 := by
      rw [List.getD_eq_getElem?_getD, List.getElem?_eq_none (by simp; omega)]; rfl
    rw [h2, coeff_eq_zero_of_natDegree_lt (by omega)]; simp

@[simp] theorem toPoly_xor (a b : Nat) : toPoly (a ^^^ b) = toPoly a + toPoly b := by
  ext i
  rw [coeff_add, toPoly_coeff, toPoly_coeff, toPoly_coeff, Nat.testBit_xor]
  cases a.testBit i <;> cases b.testBit i <;> simp
  decide

@[simp] theorem toPoly_shiftLeft (a n : Nat) : toPoly (a <<< n) = toPoly a * X ^ n := by
  ext i
  rw [coeff_mul_X_pow', toPoly_coeff, Nat.testBit_shiftLeft]
  by_cases h : n ≤ i <;> simp [h, toPoly_coeff]

theorem toPoly_half (b : Nat) :
    toPoly b = (if b % 2 = 1 then (1 : (ZMod 2)[X]) else 0) + X * toPoly (b >>> 1) := by
  ext i
  cases i with
  | zero =>
    simp only [toPoly_coeff, Nat.testBit_zero, coeff_add, coeff_X_mul_zero, add_zero]
    split <;> simp_all
  | succ i =>
    simp only [toPoly_coeff, coeff_add, coeff_X_mul, Nat.testBit_shiftRight]
    have : (if b % 2 = 1 then (1 : (ZMod 2)[X]) else 0).coeff (i+1) = 0 := by
      split <;> simp [coeff_one]
    rw [this, zero_add, Nat.add_comm 1 i]

/-! ### bitLength -/

theorem bitLength_zero : bitLength 0 = 0 := rfl

theorem bitLength_eq_zero {n : Nat} : bitLength n = 0 ↔ n = 0 := by
  unfold bitLength; split <;> simp_all

theorem bitLength_le_iff {n k : Nat} : bitLength n ≤ k ↔ n < 2 ^ k := by
  unfold bitLength
  split
  · subst_vars; simp
  · rename_i h
    rw [Nat.succ_le_iff]; exact Nat.log2_lt h

theorem lt_two_pow_bitLength (n : Nat) : n < 2 ^ bitLength n := bitLength_le_iff.mp le_rfl

theorem bitLength_shiftRight_one {b : Nat} (h : b ≠ 0) : bitLength (b >>> 1) + 1 = bitLength b := by
  apply le_antisymm
  · have h1 : 1 ≤ bitLength b := Nat.one_le_iff_ne_zero.mpr (mt bitLength_eq_zero.mp h)
    have h2 : bitLength (b >>> 1) ≤ bitLength b - 1 := by
      rw [bitLength_le_iff, Nat.shiftRight_eq_div_pow, pow_one]
      have := lt_two_pow_bitLength b
      obtain ⟨k, hk⟩ := Nat.exists_eq_add_of_le h1
      rw [hk] at this ⊢
      rw [Nat.add_comm, pow_succ] at this
      simp only [Nat.add_sub_cancel_left]; omega
    omega
  · rw [bitLength_le_iff]
    have := lt_two_pow_bitLength (b >>> 1)
    rw [Nat.shiftRight_eq_div_pow, pow_one] at *
    rw [pow_succ]; omega

theorem natDegree_toPoly (n : Nat) : (toPoly n).natDegree = bitLength n - 1 := by
  by_cases h : n = 0
  · subst h; simp [bitLength]
  apply natDegree_eq_of_le_of_coeff_ne_zero
  · rw [natDegree_le_iff_coeff_eq_zero]
    intro i hi
    rw [toPoly_coeff, Nat.testBit_lt_two_pow]; · simp
    rw [← bitLength_le_iff]; omega
  · rw [toPoly_coeff]
    have : n.testBit (bitLength n - 1) = true := by
      simp only [bitLength, h, if_false, Nat.add_sub_cancel]
      exact Nat.testBit_log2 h
    simp [this]

theorem degree_toPoly_lt_iff {a b : Nat} (hb : b ≠ 0) :
    (toPoly a).degree < (toPoly b).degree ↔ bitLength a < bitLength b := by
  by_cases ha : a = 0
  · subst ha
    have h1 : bitLength b ≠ 0 := mt bitLength_eq_zero.mp hb
    rw [toPoly_zero, degree_zero, bitLength_zero, bot_lt_iff_ne_bot]
    simp only [ne_eq, degree_eq_bot, toPoly_eq_zero, hb, not_false_iff, true_iff]; omega
  · have h1 : bitLength b ≠ 0 := mt bitLength_eq_zero.mp hb
    have h2 : bitLength a ≠ 0 := mt bitLength_eq_zero.mp ha
    rw [degree_eq_natDegree (by simpa using ha), degree_eq_natDegree (by simpa using hb),
      natDegree_toPoly, natDegree_toPoly, Nat.cast_lt]
    omega

instance : Fact (Nat.Prime 2) := ⟨Nat.prime_two⟩

theorem zmod2_poly_add_self (p : (ZMod 2)[X]) : p + p = 0 := by
  rw [← two_mul]
  have : (2 : (ZMod 2)[X]) = 0 := by
    have : (2 : ZMod 2) = 0 := by decide
    calc (2 : (ZMod 2)[X]) = C 2 := rfl
      _ = 0 := by rw [this, C_0]
  rw [this, zero_mul]

theorem zmod2_poly_sub (p q : (ZMod 2)[X]) : p - q = p + q := by
  rw [sub_eq_iff_eq_add, add_assoc, zmod2_poly_add_self, add_zero]

theorem zmod2_poly_neg (p : (ZMod 2)[X]) : -p = p := by
  rw [neg_eq_iff_add_eq_zero, zmod2_poly_add_self]

namespace BP

/-! ### Multiplication -/
theorem toPoly_mulLoop (fuel v a b : Nat) (h : bitLength b ≤ fuel) :
    toPoly (mulLoop fuel v a b) = toPoly v + toPoly a * toPoly b := by
  induction fuel generalizing v a b with
  | zero =>
    have : b = 0 := bitLength_eq_zero.mp (by omega)
    subst this; simp [mulLoop]
  | succ fuel ih =>
    rw [mulLoop]
    split
    · subst_vars; simp
    · rename_i hb
      have := bitLength_shiftRight_one hb
      rw [ih _ _ _ (by omega), toPoly_shiftLeft, pow_one]
      conv_rhs => rw [toPoly_half b]
      split
      · rw [toPoly_xor]; ring
      · ring

@[simp] theorem toPoly_mul (a b : Nat) : toPoly (mul a b) = toPoly a * toPoly b := by
  rw [mul, toPoly_mulLoop _ _ _ _ le_rfl]; simp

@[simp] theorem toPoly_add (a b : Nat) : toPoly (add a b) = toPoly a + toPoly b := toPoly_xor a b

/-! ### Division -/
theorem bitLength_xor_lt {a b : Nat} (ha : a ≠ 0) (h : bitLength a = bitLength b) :
    bitLength (a ^^^ b) < bitLength a := by
  have hb : b ≠ 0 := by
    intro hb; subst hb; rw [bitLength_zero, bitLength_eq_zero] at h; exact ha h
  have h0 : 1 ≤ bitLength a := Nat.one_le_iff_ne_zero.mpr (mt bitLength_eq_zero.mp ha)
  suffices bitLength (a ^^^ b) ≤ bitLength a - 1 by omega
  rw [bitLength_le_iff]
  apply Nat.lt_pow_two_of_testBit
  intro i hi
  rw [Nat.testBit_xor]
  rcases Nat.lt_or_ge (bitLength a - 1) i with hlt | hge
  · rw [Nat.testBit_lt_two_pow (i := i) (x := a), Nat.testBit_lt_two_pow (i := i) (x := b)]; · rfl
    · rw [← bitLength_le_iff]; omega
    · rw [← bitLength_le_iff]; omega
  · have : i = bitLength a - 1 := by omega
    have e1 : a.testBit i = true := by
      rw [this]; simp only [bitLength, ha, if_false, Nat.add_sub_cancel]; exact Nat.testBit_log2 ha
    have e2 : b.testBit i = true := by
      rw [this, h]; simp only [bitLength, hb, if_false, Nat.add_sub_cancel]; exact Nat.testBit_log2 hb
    rw [e1, e2]; rfl

theorem bitLength_shiftLeft {a : Nat} (ha : a ≠ 0) (d : Nat) : bitLength (a <<< d) = bitLength a + d := by
  have h : a <<< d ≠ 0 := by rw [Nat.shiftLeft_eq]; positivity
  have e1 := natDegree_toPoly (a <<< d)
  rw [toPoly_shiftLeft, natDegree_mul_X_pow d (by simpa using ha), natDegree_toPoly] at e1
  have h1 : bitLength a ≠ 0 := mt bitLength_eq_zero.mp ha
  have h2 : bitLength (a <<< d) ≠ 0 := mt bitLength_eq_zero.mp h
  omega

theorem divLoop_spec (den : Nat) (hden : den ≠ 0) (fuel q r : Nat) (h : bitLength r < fuel) :
    toPoly (divLoop den fuel q r).1 * toPoly den + toPoly (divLoop den fuel q r).2
      = toPoly q * toPoly den + toPoly r ∧
    bitLength (divLoop den fuel q r).2 < bitLength den := by
  induction fuel generalizing q r with
  | zero => omega
  | succ fuel ih =>
    rw [divLoop]
    split
    · rename_i hle
      have hpos : 0 < bitLength den := Nat.pos_of_ne_zero (mt bitLength_eq_zero.mp hden)
      have hr : r ≠ 0 := by intro hr; subst hr; rw [bitLength_zero] at hle; omega
      have hlt : bitLength (r ^^^ (den <<< (bitLength r - bitLength den))) < bitLength r := by
        apply bitLength_xor_lt hr
        rw [bitLength_shiftLeft hden]; omega
      obtain ⟨e1, e2⟩ := ih (q ^^^ (1 <<< (bitLength r - bitLength den)))
        (r ^^^ (den <<< (bitLength r - bitLength den))) (by omega)
      refine ⟨?_, e2⟩
      rw [e1]
      simp only [toPoly_xor, toPoly_shiftLeft, toPoly_one]
      set d := bitLength r - bitLength den
      have := zmod2_poly_add_self (X ^ d * toPoly den)
      linear_combination this
    · rename_i hle
      exact ⟨rfl, not_le.mp hle⟩

theorem divmodCore_spec (a den : Nat) (hden : den ≠ 0) :
    toPoly (div a den) * toPoly den + toPoly (mod a den) = toPoly a ∧
    bitLength (mod a den) < bitLength den := by
  have := divLoop_spec den hden (bitLength a + 1) 0 a (by omega)
  simpa [div, mod, divmodCore] using this

theorem toPoly_div_mod (a den : Nat) (hden : den ≠ 0) :
    toPoly (div a den) = toPoly a / toPoly den ∧ toPoly (mod a den) = toPoly a % toPoly den := by
  obtain ⟨h1, h2⟩ := divmodCore_spec a den hden
  have h3 := (degree_toPoly_lt_iff hden).mpr h2
  have := div_modByMonic_unique (f := toPoly a) (g := toPoly den) (toPoly (div a den)) (toPoly (mod a den))
    (by
      have hl : (toPoly den).leadingCoeff ≠ 0 := by simpa using hden
      rw [Monic]; generalize (toPoly den).leadingCoeff = c at hl; revert c; decide)
    ⟨by rw [← h1]; ring, h3⟩
  have hm : (toPoly den).Monic := by
      have hl : (toPoly den).leadingCoeff ≠ 0 := by simpa using hden
      rw [Monic]; generalize (toPoly den).leadingCoeff = c at hl; revert c; decide
  rw [← divByMonic_eq_div _ hm, ← modByMonic_eq_mod _ hm]
  exact ⟨this.1.symm, this.2.symm⟩

theorem toPoly_div (a : Nat) {den : Nat} (hden : den ≠ 0) :
    toPoly (div a den) = toPoly a / toPoly den := (toPoly_div_mod a den hden).1

theorem toPoly_mod (a : Nat) {den : Nat} (hden : den ≠ 0) :
    toPoly (mod a den) = toPoly a % toPoly den := (toPoly_div_mod a den hden).2

theorem bitLength_mod_lt (a : Nat) {den : Nat} (hden : den ≠ 0) :
    bitLength (mod a den) < bitLength den := (divmodCore_spec a den hden).2

/-! ### gcd -/
theorem gcdLoop_dvd (fuel x y : Nat) (h : bitLength y < fuel) (p : (ZMod 2)[X]) :
    p ∣ toPoly (gcdLoop fuel x y) ↔ p ∣ toPoly x ∧ p ∣ toPoly y := by
  induction fuel generalizing x y with
  | zero => omega
  | succ fuel ih =>
    rw [gcdLoop]
    split
    · subst_vars; simp
    · rename_i hy
      have := bitLength_mod_lt x hy
      rw [ih _ _ (by omega), toPoly_mod _ hy]
      have e := EuclideanDomain.div_add_mod (toPoly x) (toPoly y)
      constructor
      · rintro ⟨h1, h2⟩
        refine ⟨?_, h1⟩
        rw [← e]; exact dvd_add (dvd_mul_of_dvd_left h1 _) h2
      · rintro ⟨h1, h2⟩
        refine ⟨h2, ?_⟩
        rw [EuclideanDomain.mod_eq_sub_mul_div]
        exact dvd_sub h1 (dvd_mul_of_dvd_left h2 _)

theorem dvd_gcd_iff (x y : Nat) (p : (ZMod 2)[X]) :
    p ∣ toPoly (gcd x y) ↔ p ∣ toPoly x ∧ p ∣ toPoly y := gcdLoop_dvd _ _ _ (by omega) p

theorem gcd_eq_zero_iff (x y : Nat) : gcd x y = 0 ↔ x = 0 ∧ y = 0 := by
  have h := dvd_gcd_iff x y (0 : (ZMod 2)[X])
  rwa [zero_dvd_iff, zero_dvd_iff, zero_dvd_iff, toPoly_eq_zero, toPoly_eq_zero, toPoly_eq_zero] at h

theorem xgcdRec_spec (fuel x y : Nat) (h : bitLength x < fuel) :
    (∀ p, p ∣ toPoly (xgcdRec fuel x y).1 ↔ p ∣ toPoly x ∧ p ∣ toPoly y) ∧
    toPoly (xgcdRec fuel x y).1 =
      toPoly (xgcdRec fuel x y).2.1 * toPoly x + toPoly (xgcdRec fuel x y).2.2 * toPoly y := by
  induction fuel generalizing x y with
  | zero => omega
  | succ fuel ih =>
    rw [xgcdRec]
    split
    · subst_vars; simp
    · rename_i hx
      have hlt := bitLength_mod_lt y hx
      obtain ⟨i1, i2⟩ := ih (mod y x) x (by omega)
      have e := EuclideanDomain.div_add_mod (toPoly y) (toPoly x)
      constructor
      · intro p
        show p ∣ toPoly (xgcdRec fuel (mod y x) x).1 ↔ _
        rw [i1, toPoly_mod _ hx]
        constructor
        · rintro ⟨h1, h2⟩
          refine ⟨h2, ?_⟩
          rw [← e]; exact dvd_add (dvd_mul_of_dvd_left h2 _) h1
        · rintro ⟨h1, h2⟩
          refine ⟨?_, h1⟩
          rw [EuclideanDomain.mod_eq_sub_mul_div]
          exact dvd_sub h2 (dvd_mul_of_dvd_left h1 _)
      · show toPoly (xgcdRec fuel (mod y x) x).1 =
          toPoly (add (xgcdRec fuel (mod y x) x).2.2 (mul (xgcdRec fuel (mod y x) x).2.1 (div y x))) * toPoly x +
            toPoly (xgcdRec fuel (mod y x) x).2.1 * toPoly y
        rw [i2, toPoly_add, toPoly_mul, toPoly_div _ hx, toPoly_mod _ hx]
        set s := toPoly (xgcdRec fuel (mod y x) x).2.1
        set t := toPoly (xgcdRec fuel (mod y x) x).2.2
        have z := zmod2_poly_add_self (s * (toPoly x * (toPoly y / toPoly x)))
        linear_combination s * e - z

theorem xgcd_spec (x y : Nat) :
    (∀ p, p ∣ toPoly (xgcd x y).1 ↔ p ∣ toPoly x ∧ p ∣ toPoly y) ∧
    toPoly (xgcd x y).1 = toPoly (xgcd x y).2.1 * toPoly x + toPoly (xgcd x y).2.2 * toPoly y :=
  xgcdRec_spec _ _ _ (by omega)

end BP

theorem toPoly_eq_one {a : Nat} : toPoly a = 1 ↔ a = 1 := by rw [← toPoly_one, toPoly_inj]

/-- Over GF(2), associated polynomials are equal. -/
theorem zmod2_associated_iff {p q : (ZMod 2)[X]} : Associated p q ↔ p = q := by
  constructor
  · rintro ⟨u, hu⟩
    obtain ⟨c, hc, hcu⟩ := Polynomial.isUnit_iff.mp u.isUnit
    have hc1 : c = 1 := by
      have := hc.ne_zero; revert this; clear hcu hc; revert c; decide
    rw [← hcu, hc1, C_1, mul_one] at hu
    exact hu
  · rintro rfl; exact Associated.refl _

theorem zmod2_dvd_antisymm {p q : (ZMod 2)[X]} (h1 : p ∣ q) (h2 : q ∣ p) : p = q :=
  zmod2_associated_iff.mp (associated_of_dvd_dvd h1 h2)

theorem BP.gcd_eq (x y : Nat) : toPoly (BP.gcd x y) = EuclideanDomain.gcd (toPoly x) (toPoly y) := by
  apply zmod2_dvd_antisymm
  · exact EuclideanDomain.dvd_gcd ((BP.dvd_gcd_iff x y _).mp dvd_rfl).1 ((BP.dvd_gcd_iff x y _).mp dvd_rfl).2
  · exact (BP.dvd_gcd_iff x y _).mpr ⟨EuclideanDomain.gcd_dvd_left _ _, EuclideanDomain.gcd_dvd_right _ _⟩

end Komm
