import Verif.Lemmas.Bifield
import Mathlib.Algebra.Polynomial.Reverse
import Mathlib.RingTheory.Coprime.Lemmas

namespace Komm
open Polynomial
namespace BP

theorem coefficients_default_length (a : Nat) : (coefficients a).length = max (bitLength a) 1 := by
  simp [coefficients, intToBits_length]

theorem coefficients_getD (a i : Nat) :
    (coefficients a).getD i 0 = if a.testBit i then 1 else 0 := by
  have h : coefficients a = intToBits .lsbFirst a (max (bitLength a) 1) := rfl
  rw [h, intToBits_lsb_getD]
  by_cases hi : i < max (bitLength a) 1
  · simp [hi]
  · have : a.testBit i = false := by
      apply Nat.testBit_lt_two_pow
      rw [← bitLength_le_iff]; omega
    simp [hi, this]

theorem fromCoefficients_coefficients (a : Nat) : fromCoefficients (coefficients a) = a := by
  have h : coefficients a = intToBits .lsbFirst a (max (bitLength a) 1) := rfl
  rw [h, fromCoefficients, bitsToInt_intToBits, Nat.mod_eq_of_lt]
  rw [← bitLength_le_iff]; omega

theorem mem_exponents (a i : Nat) : i ∈ exponents a ↔ a.testBit i = true := by
  rw [exponents, List.mem_filter, List.mem_range, coefficients_getD, coefficients_default_length]
  constructor
  · rintro ⟨_, h⟩; by_contra hc; simp [hc] at h
  · intro h
    refine ⟨?_, by simp [h]⟩
    by_contra hc
    have : a.testBit i = false := by
      apply Nat.testBit_lt_two_pow
      rw [← bitLength_le_iff]; omega
    rw [this] at h; simp at h

theorem exponents_sorted (a : Nat) : (exponents a).Pairwise (· < ·) :=
  List.Pairwise.filter _ List.pairwise_lt_range

theorem reciprocal_spec (a : Nat) : toPoly (reciprocal a) = (toPoly a).reverse := by
  ext i
  rw [coeff_reverse, toPoly_coeff, toPoly_coeff, reciprocal, bitsToInt, packLE_testBit, natDegree_toPoly]
  have hlen := coefficients_default_length a
  by_cases ha : a = 0
  · subst ha
    have : (coefficients 0) = [0] := by decide
    rw [this]; rcases i with _ | i <;> simp
  have hb : bitLength a ≠ 0 := mt bitLength_eq_zero.mp ha
  by_cases hi : i ≤ bitLength a - 1
  · rw [revAt_le hi]
    have hil : i < (coefficients a).length := by omega
    have e : (coefficients a).reverse.getD i 0 = (coefficients a).getD (bitLength a - 1 - i) 0 := by
      rw [List.getD_eq_getElem?_getD, List.getElem?_reverse hil, ← List.getD_eq_getElem?_getD]
      congr 1; omega
    rw [e, coefficients_getD]
    cases a.testBit (bitLength a - 1 - i) <;> simp
  · rw [revAt_eq_self_of_lt (by omega)]
    rw [List.getD_eq_getElem?_getD, List.getElem?_eq_none (by simp; omega)]
    have : a.testBit i = false := by
      apply Nat.testBit_lt_two_pow
      rw [← bitLength_le_iff]; omega
    rw [this]; simp

theorem binaryHorner_spec {R : Type} [CommRing R] (x : R) (l : List Nat) :
    binaryHorner 0 1 (· + ·) (· * ·) l x =
      ∑ i ∈ Finset.range l.length, if l.getD i 0 ≠ 0 then x ^ i else 0 := by
  rw [binaryHorner, List.foldl_reverse]
  induction l with
  | nil => simp
  | cons c cs ih =>
    rw [List.foldr_cons, ih, List.length_cons, Finset.sum_range_succ']
    simp only [List.getD_cons_succ, List.getD_cons_zero, pow_zero, Finset.sum_mul, ite_mul, zero_mul,
      pow_succ]
    split <;> simp_all

theorem gcdList_spec (ps : List Nat) (hps : ps ≠ []) :
    ∃ g, gcdList ps = some g ∧
      ∀ p : (ZMod 2)[X], p ∣ toPoly g ↔ ∀ q ∈ ps, p ∣ toPoly q := by
  cases ps with
  | nil => exact absurd rfl hps
  | cons q qs =>
    refine ⟨_, rfl, ?_⟩
    clear hps
    induction qs generalizing q with
    | nil => simp
    | cons r rs ih =>
      intro p
      rw [List.foldl_cons, ih]
      simp only [List.mem_cons, forall_eq_or_imp, dvd_gcd_iff]
      tauto

theorem lcm_two (a b : Nat) (h : a ≠ 0 ∨ b ≠ 0) :
    ∃ l, lcmList [a, b] = some l ∧
      ∀ p : (ZMod 2)[X], toPoly l ∣ p ↔ toPoly a ∣ p ∧ toPoly b ∣ p := by
  have hg0 : gcd a b ≠ 0 := by rw [Ne, gcd_eq_zero_iff]; tauto
  have hgp : toPoly (gcd a b) ≠ 0 := by simpa using hg0
  refine ⟨div (mul a b) (gcd a b), ?_, ?_⟩
  · simp only [lcmList, gcdList, List.foldl_cons, List.foldl_nil, divmod, hg0, if_false]
    rfl
  · intro p
    rw [toPoly_div _ hg0, toPoly_mul, gcd_eq]
    exact EuclideanDomain.lcm_dvd_iff (x := toPoly a) (y := toPoly b) (z := p)

theorem domainLcm_spec (a b : Nat) (p : (ZMod 2)[X]) :
    toPoly (domainLcm a b) ∣ p ↔ toPoly a ∣ p ∧ toPoly b ∣ p := by
  unfold domainLcm
  split
  · rename_i h
    rw [toPoly_zero, zero_dvd_iff]
    constructor
    · rintro rfl; simp
    · rintro ⟨h1, h2⟩
      rcases h with rfl | rfl
      · simpa using h1
      · simpa using h2
  · rename_i h
    push Not at h
    have hg0 : gcd a b ≠ 0 := by rw [Ne, gcd_eq_zero_iff]; tauto
    have hgp : toPoly (gcd a b) ≠ 0 := by simpa using hg0
    obtain ⟨⟨u, hu⟩, -⟩ := (dvd_gcd_iff a b _).mp dvd_rfl
    have e1 : toPoly (div a (gcd a b)) = u := by
      rw [toPoly_div _ hg0]; conv_lhs => rw [hu]
      exact mul_div_cancel_left₀ u hgp
    have e2 : toPoly (mul (div a (gcd a b)) b) = EuclideanDomain.lcm (toPoly a) (toPoly b) := by
      rw [toPoly_mul, e1, EuclideanDomain.lcm, ← gcd_eq]
      conv_rhs => rw [hu]
      rw [mul_assoc, mul_div_cancel_left₀ _ hgp]
    rw [e2]
    exact EuclideanDomain.lcm_dvd_iff

theorem foldl_mul_toPoly (ps : List Nat) (a : Nat) :
    toPoly (ps.foldl mul a) = toPoly a * (ps.map toPoly).prod := by
  induction ps generalizing a with
  | nil => simp
  | cons b ps ih => rw [List.foldl_cons, ih, toPoly_mul, List.map_cons, List.prod_cons, mul_assoc]

theorem lcmList_common_multiple (a b : Nat) (ps : List Nat) (h : ∀ q ∈ a :: b :: ps, q ≠ 0) :
    ∃ l, lcmList (a :: b :: ps) = some l ∧ ∀ q ∈ a :: b :: ps, toPoly q ∣ toPoly l := by
  obtain ⟨g, hg, hg2⟩ := gcdList_spec (a :: b :: ps) (by simp)
  have hall := (hg2 _).mp dvd_rfl
  have hg0 : g ≠ 0 := by
    rintro rfl
    have := hall a (by simp)
    rw [toPoly_zero, zero_dvd_iff, toPoly_eq_zero] at this
    exact h a (by simp) this
  have hgp : toPoly g ≠ 0 := by simpa using hg0
  refine ⟨div ((b :: ps).foldl mul a) g, ?_, ?_⟩
  · simp only [lcmList, hg, divmod, hg0, if_false]
    rfl
  · intro q hq
    rw [toPoly_div _ hg0, foldl_mul_toPoly]
    have hperm := List.perm_cons_erase hq
    have hprod : toPoly a * ((b :: ps).map toPoly).prod =
        toPoly q * (((a :: b :: ps).erase q).map toPoly).prod := by
      have := (hperm.map toPoly).prod_eq
      simpa using this
    rw [hprod]
    obtain ⟨c, hc⟩ : ∃ c, c ∈ (a :: b :: ps).erase q := by
      have hlen := hperm.length_eq
      have : (a :: b :: ps).erase q ≠ [] := by
        intro h0; rw [h0] at hlen; simp at hlen
      exact List.exists_mem_of_ne_nil _ this
    have hd : toPoly g ∣ (((a :: b :: ps).erase q).map toPoly).prod :=
      (hall c (List.mem_of_mem_erase hc)).trans (List.dvd_prod (List.mem_map_of_mem hc))
    obtain ⟨w, hw⟩ := hd
    rw [hw, show toPoly q * (toPoly g * w) = toPoly g * (toPoly q * w) by ring,
      mul_div_cancel_left₀ _ hgp]
    exact dvd_mul_right _ _

end BP
end Komm
