import Verif.Lemmas.Bifield
import Verif.Spec.Fraction
import Mathlib.RingTheory.Localization.FractionRing
import Mathlib.Tactic.FieldSimp

namespace Komm
open Polynomial

namespace BPFraction

theorem algebraMap_ne_zero {a : Nat} (h : a ≠ 0) :
    algebraMap (ZMod 2)[X] (FractionRing (ZMod 2)[X]) (toPoly a) ≠ 0 := by
  rw [Ne, FaithfulSMul.algebraMap_eq_zero_iff]; simpa using h

theorem create_spec (n d : Nat) (hd : d ≠ 0) :
    ∃ x, create n d = some x ∧ x.Canonical ∧
      toPoly x.numerator * toPoly d = toPoly n * toPoly x.denominator := by
  have hg0 : BP.gcd n d ≠ 0 := by rw [Ne, BP.gcd_eq_zero_iff]; tauto
  have hgp : toPoly (BP.gcd n d) ≠ 0 := by simpa using hg0
  obtain ⟨⟨u, hu⟩, ⟨v, hv⟩⟩ := (BP.dvd_gcd_iff n d _).mp dvd_rfl
  refine ⟨⟨BP.div n (BP.gcd n d), BP.div d (BP.gcd n d)⟩, by simp [create, hd], ?_, ?_⟩
  · have e1 : toPoly (BP.div n (BP.gcd n d)) = u := by
      rw [BP.toPoly_div _ hg0]; conv_lhs => rw [hu]
      exact mul_div_cancel_left₀ u hgp
    have e2 : toPoly (BP.div d (BP.gcd n d)) = v := by
      rw [BP.toPoly_div _ hg0]; conv_lhs => rw [hv]
      exact mul_div_cancel_left₀ v hgp
    constructor
    · show BP.div d (BP.gcd n d) ≠ 0
      rw [Ne, ← toPoly_eq_zero, e2]
      rintro rfl
      rw [mul_zero, toPoly_eq_zero] at hv; exact hd hv
    · intro p h1 h2
      simp only [e1, e2] at h1 h2
      have : toPoly (BP.gcd n d) * p ∣ toPoly (BP.gcd n d) := by
        rw [BP.dvd_gcd_iff, hu, hv]
        exact ⟨mul_dvd_mul_left _ h1, mul_dvd_mul_left _ h2⟩
      obtain ⟨w, hw⟩ := this
      have : p * w = 1 := by
        apply mul_left_cancel₀ hgp
        rw [mul_one, ← mul_assoc]; exact hw.symm
      exact (BP.isUnit_iff_eq_one p).mp (IsUnit.of_mul_eq_one w this)
  · have e1 : toPoly (BP.div n (BP.gcd n d)) = u := by
      rw [BP.toPoly_div _ hg0]; conv_lhs => rw [hu]
      exact mul_div_cancel_left₀ u hgp
    have e2 : toPoly (BP.div d (BP.gcd n d)) = v := by
      rw [BP.toPoly_div _ hg0]; conv_lhs => rw [hv]
      exact mul_div_cancel_left₀ v hgp
    simp only [e1, e2]
    linear_combination u * hv - v * hu

theorem create_value {n d : Nat} {x : BPFraction} (h : create n d = some x) :
    d ≠ 0 ∧ x.Canonical ∧ x.value = algebraMap _ _ (toPoly n) / algebraMap _ _ (toPoly d) := by
  have hd : d ≠ 0 := by rintro rfl; simp [create] at h
  obtain ⟨y, hy, hc, he⟩ := create_spec n d hd
  rw [h] at hy
  cases hy
  refine ⟨hd, hc, ?_⟩
  rw [value, div_eq_div_iff (algebraMap_ne_zero hc.1) (algebraMap_ne_zero hd), ← map_mul, ← map_mul, he]

theorem value_injective {x y : BPFraction} (hx : x.Canonical) (hy : y.Canonical)
    (h : x.value = y.value) : x = y := by
  rw [value, value, div_eq_div_iff (algebraMap_ne_zero hx.1) (algebraMap_ne_zero hy.1), ← map_mul,
    ← map_mul] at h
  have h := FaithfulSMul.algebraMap_injective _ _ h
  have cx : IsCoprime (toPoly x.numerator) (toPoly x.denominator) := by
    rw [← EuclideanDomain.gcd_isUnit_iff]
    rw [hx.2 _ (EuclideanDomain.gcd_dvd_left _ _) (EuclideanDomain.gcd_dvd_right _ _)]
    exact isUnit_one
  have cy : IsCoprime (toPoly y.numerator) (toPoly y.denominator) := by
    rw [← EuclideanDomain.gcd_isUnit_iff]
    rw [hy.2 _ (EuclideanDomain.gcd_dvd_left _ _) (EuclideanDomain.gcd_dvd_right _ _)]
    exact isUnit_one
  have d1 : toPoly x.denominator ∣ toPoly y.denominator := by
    apply cx.symm.dvd_of_dvd_mul_left
    rw [h]; exact dvd_mul_left _ _
  have d2 : toPoly y.denominator ∣ toPoly x.denominator := by
    apply cy.symm.dvd_of_dvd_mul_left
    rw [← h]; exact dvd_mul_left _ _
  have ed := zmod2_dvd_antisymm d1 d2
  have hd0 : toPoly x.denominator ≠ 0 := by simpa using hx.1
  rw [ed] at h
  have en := mul_right_cancel₀ (by rw [← ed]; exact hd0) h
  cases x; cases y
  simp only [BPFraction.mk.injEq]
  exact ⟨toPoly_injective en, toPoly_injective ed⟩

theorem value_add {x y z : BPFraction} (hx : x.Canonical) (hy : y.Canonical) (h : add x y = some z) :
    z.Canonical ∧ z.value = x.value + y.value := by
  obtain ⟨h1, h2, h3⟩ := create_value h
  refine ⟨h2, ?_⟩
  have := algebraMap_ne_zero hx.1
  have := algebraMap_ne_zero hy.1
  rw [h3, value, value]
  simp only [BP.toPoly_add, BP.toPoly_mul, map_add, map_mul]
  field_simp

theorem value_mul {x y z : BPFraction} (h : mul x y = some z) :
    z.Canonical ∧ z.value = x.value * y.value := by
  obtain ⟨h1, h2, h3⟩ := create_value h
  refine ⟨h2, ?_⟩
  rw [h3, value, value]
  simp only [BP.toPoly_mul, map_mul]
  rw [div_mul_div_comm]

theorem value_truediv {x y z : BPFraction} (h : truediv x y = some z) :
    z.Canonical ∧ z.value = x.value / y.value := by
  obtain ⟨h1, h2, h3⟩ := create_value h
  refine ⟨h2, ?_⟩
  rw [h3, value, value]
  simp only [BP.toPoly_mul, map_mul]
  rw [div_div_div_eq]

theorem value_inverse {x z : BPFraction} (h : inverse x = some z) :
    z.Canonical ∧ z.value = x.value⁻¹ := by
  obtain ⟨h1, h2, h3⟩ := create_value h
  refine ⟨h2, ?_⟩
  rw [h3, value, inv_div]

theorem create_isSome_iff (n d : Nat) : (create n d).isSome ↔ d ≠ 0 := by
  unfold create; split <;> simp_all

theorem canonical_ne_zero {x : BPFraction} (h : x.Canonical) : x.denominator ≠ 0 := h.1

theorem value_eq_zero_iff {x : BPFraction} (h : x.Canonical) : x.value = 0 ↔ x.numerator = 0 := by
  rw [value, div_eq_zero_iff]
  constructor
  · rintro (h1 | h1)
    · by_contra hc; exact algebraMap_ne_zero hc h1
    · exact absurd h1 (algebraMap_ne_zero h.1)
  · intro h1; left; rw [h1]; simp

theorem one_spec : ∃ o, create 1 1 = some o ∧ o.Canonical ∧ o.value = 1 := by
  obtain ⟨o, h, h2, _⟩ := create_spec 1 1 (by decide)
  refine ⟨o, h, h2, ?_⟩
  rw [(create_value h).2.2]; 
  exact div_self (algebraMap_ne_zero (by decide))

theorem mul_isSome {x y : BPFraction} (hx : x.Canonical) (hy : y.Canonical) : ∃ z, mul x y = some z := by
  have := (create_isSome_iff (BP.mul x.numerator y.numerator) (BP.mul x.denominator y.denominator)).mpr (by
    have : toPoly (BP.mul x.denominator y.denominator) ≠ 0 := by
      rw [BP.toPoly_mul]; exact mul_ne_zero (by simpa using hx.1) (by simpa using hy.1)
    exact fun h => this (by rw [h, toPoly_zero]))
  exact Option.isSome_iff_exists.mp this

theorem add_isSome {x y : BPFraction} (hx : x.Canonical) (hy : y.Canonical) : ∃ z, add x y = some z := by
  have := (create_isSome_iff (BP.add (BP.mul x.numerator y.denominator) (BP.mul y.numerator x.denominator)) (BP.mul x.denominator y.denominator)).mpr (by
    have : toPoly (BP.mul x.denominator y.denominator) ≠ 0 := by
      rw [BP.toPoly_mul]; exact mul_ne_zero (by simpa using hx.1) (by simpa using hy.1)
    exact fun h => this (by rw [h, toPoly_zero]))
  exact Option.isSome_iff_exists.mp this

theorem truediv_isSome_iff {x y : BPFraction} (hx : x.Canonical) (hy : y.Canonical) :
    (∃ z, truediv x y = some z) ↔ y.value ≠ 0 := by
  rw [Ne, value_eq_zero_iff hy, ← Option.isSome_iff_exists, truediv, create_isSome_iff]
  have : toPoly (BP.mul x.denominator y.numerator) ≠ 0 ↔ y.numerator ≠ 0 := by
    rw [BP.toPoly_mul, mul_ne_zero_iff]
    have h1 : toPoly x.denominator ≠ 0 := by simpa using hx.1
    simp [h1]
  have h2 : ∀ m : Nat, toPoly m ≠ 0 ↔ m ≠ 0 := fun m => by simp
  rw [h2] at this
  exact this

theorem inverse_isSome_iff {x : BPFraction} (hx : x.Canonical) :
    (∃ z, inverse x = some z) ↔ x.value ≠ 0 := by
  rw [Ne, value_eq_zero_iff hx, ← Option.isSome_iff_exists, inverse, create_isSome_iff]

theorem npow_spec {x : BPFraction} (hx : x.Canonical) (n : Nat) :
    ∃ z, BP.ringPower (create 1 1) mulO (some x) n = some z ∧ z.Canonical ∧ z.value = x.value ^ n := by
  obtain ⟨o, ho, hoc, hov⟩ := one_spec
  have := ringPower_map_on (create 1 1) mulO (fun z => (z.map value).getD 0)
    (fun z => ∃ w, z = some w ∧ w.Canonical) ⟨o, ho, hoc⟩
    (by
      rintro _ _ ⟨a, rfl, ha⟩ ⟨b, rfl, hb⟩
      obtain ⟨z, hz⟩ := mul_isSome ha hb
      exact ⟨z, by simp [mulO, hz], (value_mul hz).1⟩)
    (by simp [ho, hov])
    (by
      rintro _ _ ⟨a, rfl, ha⟩ ⟨b, rfl, hb⟩
      obtain ⟨z, hz⟩ := mul_isSome ha hb
      simp [mulO, hz, (value_mul hz).2])
    (some x) ⟨x, rfl, hx⟩ n
  obtain ⟨⟨w, hw, hc⟩, h2⟩ := this
  refine ⟨w, hw, hc, ?_⟩
  simpa [hw] using h2

theorem pow_spec {x : BPFraction} (hx : x.Canonical) (n : Int) (h : 0 ≤ n ∨ x.value ≠ 0) :
    ∃ z, pow x n = some z ∧ z.Canonical ∧ z.value = x.value ^ n := by
  unfold pow
  split
  · rename_i hn
    have hv : x.value ≠ 0 := by rcases h with h | h; omega; exact h
    obtain ⟨i, hi⟩ := (inverse_isSome_iff hx).mpr hv
    obtain ⟨z, hz, hc, he⟩ := npow_spec (value_inverse hi).1 (-n).toNat
    refine ⟨z, by simp [hi, hz], hc, ?_⟩
    rw [he, (value_inverse hi).2, ← zpow_natCast, Int.toNat_of_nonneg (by omega), inv_zpow, zpow_neg, inv_inv]
  · rename_i hn
    obtain ⟨z, hz, hc, he⟩ := npow_spec hx n.toNat
    refine ⟨z, hz, hc, ?_⟩
    rw [he, ← zpow_natCast, Int.toNat_of_nonneg (by omega)]

theorem pow_zero_neg {x : BPFraction} (hx : x.Canonical) (n : Int) (hn : n < 0) (h : x.value = 0) :
    pow x n = none := by
  have h0 : inverse x = none := by
    rw [← Option.not_isSome_iff_eq_none, Option.isSome_iff_exists, inverse_isSome_iff hx]
    simpa using h
  unfold pow
  rw [if_pos hn, h0]; rfl

end BPFraction
end Komm
