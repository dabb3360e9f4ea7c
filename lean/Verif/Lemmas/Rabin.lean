import Verif.Lemmas.Poly
import Verif.Lemmas.Primes
import Mathlib.FieldTheory.Finite.Extension
import Mathlib.RingTheory.AdjoinRoot

namespace Komm
open Polynomial

theorem ringPower_map {α M : Type} [Monoid M] (one : α) (mul : α → α → α) (f : α → M)
    (h1 : f one = 1) (hm : ∀ a b, f (mul a b) = f a * f b) (x : α) (n : Nat) :
    f (BP.ringPower one mul x n) = f x ^ n := by
  induction n using Nat.strong_induction_on with
  | _ n ih =>
    rw [BP.ringPower]
    split
    · subst_vars; simp [h1]
    · split
      · subst_vars; simp
      · have e := ih (n / 2) (by omega)
        have hn : n = n / 2 + n / 2 + n % 2 := by omega
        simp only
        split
        · rename_i hodd
          rw [hm, hm, e]
          conv_rhs => rw [hn, hodd, pow_succ', pow_add]
        · rename_i hodd
          have : n % 2 = 0 := by omega
          rw [hm, e]
          conv_rhs => rw [hn, this, add_zero, pow_add]

/-- A version restricted to a closed subset. -/
theorem ringPower_map_on {α M : Type} [Monoid M] (one : α) (mul : α → α → α) (f : α → M) (S : α → Prop)
    (hS1 : S one) (hSm : ∀ a b, S a → S b → S (mul a b))
    (h1 : f one = 1) (hm : ∀ a b, S a → S b → f (mul a b) = f a * f b) (x : α) (hx : S x) (n : Nat) :
    S (BP.ringPower one mul x n) ∧ f (BP.ringPower one mul x n) = f x ^ n := by
  induction n using Nat.strong_induction_on with
  | _ n ih =>
    rw [BP.ringPower]
    split
    · subst_vars; simp [h1, hS1]
    · split
      · subst_vars; simp [hx]
      · obtain ⟨e0, e⟩ := ih (n / 2) (by omega)
        have hn : n = n / 2 + n / 2 + n % 2 := by omega
        have e2 := hSm _ _ e0 e0
        simp only
        split
        · rename_i hodd
          refine ⟨hSm _ _ hx e2, ?_⟩
          rw [hm _ _ hx e2, hm _ _ e0 e0, e]
          conv_rhs => rw [hn, hodd, pow_succ', pow_add]
        · rename_i hodd
          have : n % 2 = 0 := by omega
          refine ⟨e2, ?_⟩
          rw [hm _ _ e0 e0, e]
          conv_rhs => rw [hn, this, add_zero, pow_add]

theorem monic_toPoly {a : Nat} (ha : a ≠ 0) : (toPoly a).Monic := by
  have hl : (toPoly a).leadingCoeff ≠ 0 := by simpa using ha
  rw [Monic]; generalize (toPoly a).leadingCoeff = c at hl; revert c; decide

namespace BP

theorem powerModLoop_spec (m : Nat) (hm : m ≠ 0) (fuel r c e : Nat) (h : bitLength e ≤ fuel) :
    toPoly m ∣ toPoly (powerModLoop m fuel r c e) - toPoly r * toPoly c ^ e ∧
    (bitLength r < bitLength m → bitLength (powerModLoop m fuel r c e) < bitLength m) := by
  induction fuel generalizing r c e with
  | zero =>
    have : e = 0 := bitLength_eq_zero.mp (by omega)
    subst this; simp [powerModLoop]
  | succ fuel ih =>
    rw [powerModLoop]
    split
    · subst_vars; simp
    · rename_i he
      have hb := bitLength_shiftRight_one he
      set r' := if e % 2 = 1 then mod (mul r c) m else r with hr'
      set c' := mod (mul c c) m with hc'
      obtain ⟨i1, i2⟩ := ih r' c' (e >>> 1) (by omega)
      have hmodm : ∀ a, toPoly m ∣ toPoly (mod a m) - toPoly a := fun a => by
        rw [toPoly_mod _ hm, EuclideanDomain.mod_eq_sub_mul_div]; exact ⟨-(toPoly a / toPoly m), by ring⟩
      constructor
      · have d1 : toPoly m ∣ toPoly c' ^ (e >>> 1) - (toPoly c ^ 2) ^ (e >>> 1) := by
          refine dvd_trans ?_ (sub_dvd_pow_sub_pow _ _ _)
          have := hmodm (mul c c)
          rwa [toPoly_mul, ← pow_two] at this
        have hodd : e = 2 * (e >>> 1) + e % 2 := by
          rw [Nat.shiftRight_eq_div_pow, pow_one]; omega
        have d2 : toPoly m ∣ toPoly r' - toPoly r * toPoly c ^ (e % 2) := by
          rw [hr']; split
          · rename_i h1
            have := hmodm (mul r c)
            rw [toPoly_mul] at this
            rwa [h1, pow_one]
          · rename_i h1
            have h1 : e % 2 = 0 := by omega
            rw [h1]; simp
        have key : toPoly (powerModLoop m fuel r' c' (e >>> 1)) - toPoly r * toPoly c ^ e =
            (toPoly (powerModLoop m fuel r' c' (e >>> 1)) - toPoly r' * toPoly c' ^ (e >>> 1)) +
            toPoly r' * (toPoly c' ^ (e >>> 1) - (toPoly c ^ 2) ^ (e >>> 1)) +
            (toPoly r' - toPoly r * toPoly c ^ (e % 2)) * (toPoly c ^ 2) ^ (e >>> 1) := by
          have : toPoly c ^ e = (toPoly c ^ 2) ^ (e >>> 1) * toPoly c ^ (e % 2) := by
            rw [← pow_mul, ← pow_add, ← hodd]
          rw [this]; ring
        rw [key]
        exact dvd_add (dvd_add i1 (dvd_mul_of_dvd_right d1 _)) (dvd_mul_of_dvd_left d2 _)
      · intro hr
        apply i2
        rw [hr']; split
        · exact bitLength_mod_lt _ hm
        · exact hr

theorem powerMod_spec (m : Nat) (hm : 2 ≤ bitLength m) (b e : Nat) :
    toPoly (powerMod b e m) = toPoly b ^ e % toPoly m := by
  have hm0 : m ≠ 0 := by rintro rfl; simp [bitLength] at hm
  obtain ⟨h1, h2⟩ := powerModLoop_spec m hm0 (bitLength e) 1 b e le_rfl
  have h3 := h2 (by rw [show bitLength 1 = 1 by decide]; omega)
  have hd := (degree_toPoly_lt_iff hm0).mpr h3
  rw [toPoly_one, one_mul] at h1
  have e1 := (Polynomial.mod_eq_self_iff (by simpa using hm0)).mpr hd
  rw [powerMod, ← e1]
  rw [← sub_eq_zero, ← Polynomial.sub_mod]
  exact EuclideanDomain.mod_eq_zero.mpr h1

theorem mod_poly_dvd_iff {f : (ZMod 2)[X]} (p q : (ZMod 2)[X]) :
    p % f = q % f ↔ f ∣ p - q := by
  rw [← sub_eq_zero, ← Polynomial.sub_mod]
  exact EuclideanDomain.mod_eq_zero

/-- The polynomial `h` used by the Rabin test: `X^(2^e) - X` reduced modulo `a`. -/
theorem rabin_h (a : Nat) (ha : 2 ≤ bitLength a) (e : Nat) :
    toPoly (add (powerMod 2 e a) (mod 2 a)) = (X ^ e - X) % toPoly a := by
  have ha0 : a ≠ 0 := by rintro rfl; simp [bitLength] at ha
  rw [toPoly_add, powerMod_spec a ha, toPoly_mod _ ha0, toPoly_two, Polynomial.sub_mod, zmod2_poly_sub]

theorem dvd_mod_iff' {f g p : (ZMod 2)[X]} (h : g ∣ f) : g ∣ p % f ↔ g ∣ p := by
  rw [EuclideanDomain.mod_eq_sub_mul_div]
  constructor
  · intro h1
    have := dvd_add h1 (dvd_mul_of_dvd_left h (p / f))
    simpa using this
  · intro h1; exact dvd_sub h1 (dvd_mul_of_dvd_left h _)

theorem exists_prime_dvd_div {e d : Nat} (hd : 0 < d) (hed : e ∣ d) (hne : e ≠ d) :
    ∃ q, q.Prime ∧ q ∣ d ∧ e ∣ d / q := by
  obtain ⟨k, hk⟩ := hed
  have hk1 : k ≠ 1 := by rintro rfl; exact hne (by omega)
  have he : 0 < e := Nat.pos_of_ne_zero (by rintro rfl; omega)
  refine ⟨k.minFac, Nat.minFac_prime hk1, ?_, ?_⟩
  · exact (Nat.minFac_dvd k).trans ⟨e, by rw [hk, mul_comm]⟩
  · obtain ⟨j, hj⟩ := Nat.minFac_dvd k
    refine ⟨j, ?_⟩
    have hp := (Nat.minFac_prime hk1).pos
    have h5 : d = k.minFac * (e * j) := by
      rw [hk]
      calc e * k = e * (k.minFac * j) := by rw [← hj]
        _ = _ := by ring
    rw [h5, Nat.mul_div_cancel_left _ hp]

/-- Rabin's irreducibility criterion over GF(2). -/
theorem rabin_criterion (f : (ZMod 2)[X]) (hf : 1 ≤ f.natDegree) :
    Irreducible f ↔
      (f ∣ X ^ 2 ^ f.natDegree - X) ∧
      ∀ q, q.Prime → q ∣ f.natDegree → ∀ g, g ∣ f → g ∣ X ^ 2 ^ (f.natDegree / q) - X → IsUnit g := by
  have hcard : Nat.card (ZMod 2) = 2 := by simp
  constructor
  · intro hirr
    constructor
    · have := (hirr.natDegree_dvd_iff_dvd_X_pow_card_pow_sub_X (n := f.natDegree)).mp dvd_rfl
      rwa [hcard] at this
    · intro q hq hqd g hg hg2
      by_contra hu
      have hass : Associated g f := by
        obtain ⟨c, hc⟩ := hg
        have := hirr.isUnit_or_isUnit hc
        rcases this with h | h
        · exact absurd h hu
        · rw [hc]; exact (associated_mul_isUnit_right_iff h).mpr (Associated.refl g) |>.symm.symm
      have hfd : f ∣ X ^ 2 ^ (f.natDegree / q) - X := hass.symm.dvd.trans hg2
      have := (hirr.natDegree_dvd_iff_dvd_X_pow_card_pow_sub_X (n := f.natDegree / q)).mpr
        (by rw [hcard]; exact hfd)
      have h1 : 0 < f.natDegree / q := Nat.div_pos (Nat.le_of_dvd hf hqd) hq.pos
      have h2 := Nat.le_of_dvd h1 this
      have h3 : f.natDegree / q < f.natDegree := Nat.div_lt_self hf hq.one_lt
      omega
  · rintro ⟨h1, h2⟩
    have hf0 : f ≠ 0 := by rintro rfl; simp at hf
    have hnu : ¬ IsUnit f := by
      intro h; rw [natDegree_eq_zero_of_isUnit h] at hf; omega
    obtain ⟨g, hg, hgf⟩ := WfDvdMonoid.exists_irreducible_factor hnu hf0
    have hgd := (hg.natDegree_dvd_iff_dvd_X_pow_card_pow_sub_X (n := f.natDegree)).mpr
      (by rw [hcard]; exact hgf.trans h1)
    by_cases hne : g.natDegree = f.natDegree
    · have : Associated g f := by
        apply associated_of_dvd_of_natDegree_le hgf hf0
        omega
      exact this.irreducible hg
    · obtain ⟨q, hq, hqd, hgq⟩ := exists_prime_dvd_div (by omega) hgd hne
      have h3 := (hg.natDegree_dvd_iff_dvd_X_pow_card_pow_sub_X (n := f.natDegree / q)).mp hgq
      rw [hcard] at h3
      exact absurd (h2 q hq hqd g hgf h3) hg.not_isUnit

theorem isUnit_iff_eq_one (p : (ZMod 2)[X]) : IsUnit p ↔ p = 1 := by
  rw [isUnit_iff_dvd_one]
  constructor
  · intro h; exact zmod2_dvd_antisymm h (one_dvd p)
  · rintro rfl; exact dvd_rfl

theorem isIrreducible_iff (a : Nat) : isIrreducible a = true ↔ Irreducible (toPoly a) := by
  unfold isIrreducible
  simp only
  by_cases hlt : bitLength a ≤ 1
  · rw [if_pos hlt]
    simp only [Bool.false_eq_true, false_iff]
    intro h
    have hd : (toPoly a).natDegree = 0 := by rw [natDegree_toPoly]; omega
    rcases eq_or_ne a 0 with rfl | ha
    · simp at h
    · apply h.not_isUnit
      rw [isUnit_iff_degree_eq_zero, degree_eq_natDegree (by simpa using ha), hd]; rfl
  · rw [if_neg hlt]
    have hlt : 2 ≤ bitLength a := by omega
    have ha0 : a ≠ 0 := by rintro rfl; simp [bitLength] at hlt
    have hdeg : (toPoly a).natDegree = bitLength a - 1 := natDegree_toPoly a
    rw [rabin_criterion (toPoly a) (by omega), hdeg]
    have hgcd : ∀ e, (gcd a (add (powerMod 2 e a) (mod 2 a)) = 1 ↔
        ∀ g, g ∣ toPoly a → g ∣ X ^ e - X → IsUnit g) := by
      intro e
      constructor
      · intro h g hg1 hg2
        have := (dvd_gcd_iff a (add (powerMod 2 e a) (mod 2 a)) g).mpr
          ⟨hg1, by rw [rabin_h a hlt]; exact (dvd_mod_iff' hg1).mpr hg2⟩
        rw [h, toPoly_one] at this
        exact isUnit_of_dvd_one this
      · intro h
        have := (dvd_gcd_iff a (add (powerMod 2 e a) (mod 2 a)) _).mp dvd_rfl
        rw [rabin_h a hlt, dvd_mod_iff' this.1] at this
        have hu := h _ this.1 this.2
        exact toPoly_eq_one.mp ((isUnit_iff_eq_one _).mp hu)
    have hlast : add (powerMod 2 (2 ^ (bitLength a - 1)) a) (mod 2 a) = 0 ↔
        toPoly a ∣ X ^ 2 ^ (bitLength a - 1) - X := by
      rw [← toPoly_eq_zero, rabin_h a hlt]; exact EuclideanDomain.mod_eq_zero
    split
    · rename_i hany
      simp only [Bool.false_eq_true, false_iff, not_and]
      intro _ hall
      rw [List.any_eq_true] at hany
      obtain ⟨q, hq, hne⟩ := hany
      rw [mem_primeFactors_iff _ (by omega)] at hq
      simp only [bne_iff_ne, ne_eq] at hne
      exact hne ((hgcd _).mpr (hall q hq.1 hq.2))
    · rename_i hany
      rw [beq_iff_eq, hlast]
      constructor
      · intro h
        refine ⟨h, fun q hq hqd => (hgcd _).mp ?_⟩
        by_contra hne
        apply hany
        rw [List.any_eq_true]
        exact ⟨q, (mem_primeFactors_iff _ (by omega) q).mpr ⟨hq, hqd⟩, by simpa using hne⟩
      · exact fun h => h.1

end BP
end Komm
