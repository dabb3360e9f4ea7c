import Verif.Model.CyclicCode
import Verif.Spec.CyclicCode
import Verif.Lemmas.BlockCode
import Verif.Lemmas.Poly
import Verif.Lemmas.PolyMisc
import Verif.Lemmas.Rabin
namespace Komm
open Polynomial

variable {k m n : Nat}

theorem vecPoly_eq (v : BVec n) : vecPoly v = vecToNat v := rfl

theorem polyVec_apply (w p : Nat) (i : Fin w) : polyVec w p i = if p.testBit i then 1 else 0 := by
  rw [← natToVec_apply, polyVec, natToVec]
  cases w with
  | zero => exact i.elim0
  | succ w => rfl

theorem wordPoly_coeff (v : BVec n) (i : Nat) : (wordPoly v).coeff i = vget v i := by
  rw [wordPoly, finset_sum_coeff]
  simp only [coeff_C_mul, coeff_X_pow]
  by_cases h : i < n
  · rw [Finset.sum_eq_single (⟨i, h⟩ : Fin n)]
    · simp [vget, h]
    · intro b _ hb
      rw [if_neg, mul_zero]
      intro e; exact hb (Fin.ext e.symm)
    · simp
  · rw [vget, dif_neg h]
    apply Finset.sum_eq_zero
    intro b _
    rw [if_neg (by have := b.is_lt; omega), mul_zero]

theorem wordPoly_inj {u v : BVec n} (h : wordPoly u = wordPoly v) : u = v := by
  funext i
  have := congrArg (fun p => coeff p (i : Nat)) h
  simpa [wordPoly_coeff, vget] using this

theorem wordPoly_add (u v : BVec n) : wordPoly (u + v) = wordPoly u + wordPoly v := by
  simp [wordPoly, add_mul, Finset.sum_add_distrib]

theorem wordPoly_zero : wordPoly (0 : BVec n) = 0 := by simp [wordPoly]

theorem wordPoly_vecMat (u : BVec k) (A : BMat k n) :
    wordPoly (fun j => ∑ i, u i * A i j) = ∑ i, C (u i) * wordPoly (A i) := by
  ext t
  rw [wordPoly_coeff, finset_sum_coeff]
  simp only [coeff_C_mul, wordPoly_coeff, vget]
  by_cases h : t < n <;> simp [h]

theorem wordPoly_degree_lt (v : BVec n) : (wordPoly v).degree < n := by
  rw [degree_lt_iff_coeff_zero]
  intro i hi
  rw [wordPoly_coeff, vget, dif_neg (by omega)]

theorem toPoly_vecPoly (v : BVec n) : toPoly (vecPoly v) = wordPoly v := by
  ext i
  rw [toPoly_coeff, wordPoly_coeff, vecPoly_eq, vecToNat_testBit]
  rcases zmod2_cases (vget v i) with h | h <;> simp [h]

theorem wordPoly_polyVec (w p : Nat) (h : (toPoly p).degree < w) : wordPoly (polyVec w p) = toPoly p := by
  ext i
  rw [wordPoly_coeff, vget]
  split
  · rw [polyVec_apply, toPoly_coeff]
  · rw [coeff_eq_zero_of_degree_lt]
    exact lt_of_lt_of_le h (by norm_cast; omega)

/-- every polynomial of degree less than `w` is the polynomial of a word -/
theorem exists_word (w : Nat) (p : (ZMod 2)[X]) (h : p.degree < w) : ∃ v : BVec w, wordPoly v = p := by
  obtain ⟨q, rfl⟩ := toPoly_surjective p
  exact ⟨_, wordPoly_polyVec w q h⟩

theorem toPoly_polyX (e : Nat) : toPoly (polyX e) = X ^ e := by
  rw [polyX, ringPower_map 1 BP.mul toPoly toPoly_one BP.toPoly_mul 2 e, toPoly_two]

theorem degree_toPoly {p : Nat} (hp : p ≠ 0) : (toPoly p).degree = (polyDeg p : Nat) := by
  rw [degree_eq_natDegree (by simpa using hp), natDegree_toPoly]; rfl

theorem modulus_testBit (hn : 1 ≤ n) (i : Nat) :
    (BP.fromExponents [0, n]).testBit i = decide (i = 0 ∨ i = n) := by
  have hmax : max (0 + 1) (max (n + 1) 0) = n + 1 := by omega
  rw [BP.fromExponents, bitsToInt]
  simp only [List.foldr]
  rw [packLE_testBit, hmax]
  by_cases h : i < n + 1
  · rw [List.getD_eq_getElem?_getD, List.getElem?_map, List.getElem?_range h]
    simp only [Option.map_some, Option.getD_some, List.count_cons, List.count_nil]
    by_cases h0 : i = 0
    · subst h0
      have : ¬ n = 0 := by omega
      simp [this]
    · by_cases h1 : i = n
      · subst h1
        have : ¬ 0 = i := by omega
        simp [this]
      · have h1' : ¬ n = i := by omega
        have h0' : ¬ 0 = i := by omega
        simp [h0, h1, h1', h0']
  · rw [List.getD_eq_default _ _ (by simp; omega)]
    have h0 : ¬ (i = 0 ∨ i = n) := by omega
    simp [h0]

theorem toPoly_modulus (hn : 1 ≤ n) : toPoly (BP.fromExponents [0, n]) = X ^ n + 1 := by
  ext i
  rw [toPoly_coeff, modulus_testBit hn, coeff_add, coeff_X_pow, coeff_one]
  by_cases h0 : i = 0
  · subst h0
    have : ¬ 0 = n := by omega
    simp [this]
  · by_cases h1 : i = n
    · subst h1; simp [h0]
    · simp [h0, h1]

/-- The pair of polynomials of an `n`-cyclic code. -/
structure CycPair (n g h : Nat) : Prop where
  pos : 1 ≤ n
  prod : toPoly g * toPoly h = X ^ n + 1

namespace CycPair
variable {g h : Nat} (H : CycPair n g h)
include H

theorem mod_ne : (X ^ n + 1 : (ZMod 2)[X]) ≠ 0 := by
  intro e
  have := congrArg (fun p => coeff p n) e
  have hp := H.pos
  simp [coeff_one, show n ≠ 0 by omega] at this

theorem g_ne : g ≠ 0 := by rintro rfl; have := H.prod; simp at this; exact H.mod_ne this.symm
theorem h_ne : h ≠ 0 := by rintro rfl; have := H.prod; simp at this; exact H.mod_ne this.symm

theorem dim : polyDeg h + polyDeg g = n := by
  have h1 := congrArg degree H.prod
  rw [degree_mul, degree_toPoly H.g_ne, degree_toPoly H.h_ne] at h1
  have h2 : (X ^ n + 1 : (ZMod 2)[X]).degree = n := by
    have := degree_X_pow_add_C (R := ZMod 2) (n := n) H.pos 1
    simpa using this
  rw [h2] at h1
  have : polyDeg g + polyDeg h = n := by exact_mod_cast h1
  omega

theorem G_ne : toPoly g ≠ 0 := by simpa using H.g_ne
theorem H_ne : toPoly h ≠ 0 := by simpa using H.h_ne

theorem mod_lt (p : Nat) : (toPoly (BP.mod p g)).degree < polyDeg g := by
  rw [← degree_toPoly H.g_ne]
  exact (degree_toPoly_lt_iff H.g_ne).mpr (BP.bitLength_mod_lt p H.g_ne)

/-- a polynomial of degree less than `deg g` divisible by `g` is zero -/
theorem small (p : (ZMod 2)[X]) (hd : toPoly g ∣ p) (hp : p.degree < polyDeg g) : p = 0 := by
  by_contra hne
  have := degree_le_of_dvd hd hne
  rw [degree_toPoly H.g_ne] at this
  exact absurd hp (not_lt.mpr this)

theorem wordPoly_check (r : BVec n) : wordPoly (cyclicCheck n g r) = wordPoly r % toPoly g := by
  rw [cyclicCheck, wordPoly_polyVec _ _ (H.mod_lt _), BP.toPoly_mod _ H.g_ne, toPoly_vecPoly]

theorem check_zero_iff (r : BVec n) : cyclicCheck n g r = 0 ↔ toPoly g ∣ wordPoly r := by
  rw [← EuclideanDomain.mod_eq_zero, ← H.wordPoly_check r]
  constructor
  · intro e; rw [e, wordPoly_zero]
  · intro e; apply wordPoly_inj; rw [e, wordPoly_zero]


theorem dvd_add_mod (p : (ZMod 2)[X]) : toPoly g ∣ p + p % toPoly g := by
  refine ⟨p / toPoly g, ?_⟩
  have h1 := EuclideanDomain.div_add_mod p (toPoly g)
  have h2 := zmod2_poly_add_self (p % toPoly g)
  linear_combination h2 - h1

theorem mod_degree (p : (ZMod 2)[X]) : (p % toPoly g).degree < polyDeg g := by
  rw [← degree_toPoly H.g_ne]
  exact EuclideanDomain.mod_lt p H.G_ne

theorem X_shift_degree (p : (ZMod 2)[X]) (hp : p.degree < polyDeg h) : (p * X ^ polyDeg g).degree < (n : WithBot ℕ) := by
  by_cases h0 : p = 0
  · rw [h0, zero_mul, degree_zero]; exact WithBot.bot_lt_coe n
  · rw [degree_mul, degree_X_pow, degree_eq_natDegree h0] at *
    have := H.dim
    have h1 : p.natDegree < polyDeg h := by exact_mod_cast hp
    have : p.natDegree + polyDeg g < n := by omega
    exact_mod_cast this

theorem degree_lt_of_m (p : (ZMod 2)[X]) (hp : p.degree < polyDeg g) : p.degree < n :=
  lt_of_lt_of_le hp (by have := H.dim; norm_cast; omega)

theorem sys_degree (p : (ZMod 2)[X]) (hp : p.degree < polyDeg h) :
    (p * X ^ polyDeg g + (p * X ^ polyDeg g) % toPoly g).degree < (n : WithBot ℕ) :=
  lt_of_le_of_lt (degree_add_le _ _) (max_lt (H.X_shift_degree p hp) (H.degree_lt_of_m _ (H.mod_degree _)))

/-- polynomial of a systematic codeword -/
theorem wordPoly_sys (p : Nat) (hp : (toPoly p).degree < polyDeg h) :
    wordPoly (polyVec n (BP.add (BP.shl p (polyDeg g)) (BP.mod (BP.shl p (polyDeg g)) g))) =
      toPoly p * X ^ polyDeg g + (toPoly p * X ^ polyDeg g) % toPoly g := by
  have e : toPoly (BP.add (BP.shl p (polyDeg g)) (BP.mod (BP.shl p (polyDeg g)) g)) =
      toPoly p * X ^ polyDeg g + (toPoly p * X ^ polyDeg g) % toPoly g := by
    rw [BP.toPoly_add, BP.toPoly_mod _ H.g_ne, BP.shl, toPoly_shiftLeft]
  rw [wordPoly_polyVec _ _ (by rw [e]; exact H.sys_degree _ hp), e]

theorem wordPoly_sysEncode (u : BVec (polyDeg h)) :
    wordPoly ((cyclicSystematic n g h).encode u) =
      wordPoly u * X ^ polyDeg g + (wordPoly u * X ^ polyDeg g) % toPoly g := by
  have := H.wordPoly_sys (vecPoly u) (by rw [toPoly_vecPoly]; exact wordPoly_degree_lt u)
  rw [toPoly_vecPoly] at this
  exact this

theorem wordPoly_sysGen (i : Fin (polyDeg h)) :
    wordPoly ((cyclicSystematic n g h).generator i) =
      X ^ (i : Nat) * X ^ polyDeg g + (X ^ (i : Nat) * X ^ polyDeg g) % toPoly g := by
  have e : toPoly (BP.add (polyX (polyDeg g + i)) (BP.mod (polyX (polyDeg g + i)) g)) =
      X ^ (i : Nat) * X ^ polyDeg g + (X ^ (i : Nat) * X ^ polyDeg g) % toPoly g := by
    rw [BP.toPoly_add, BP.toPoly_mod _ H.g_ne, toPoly_polyX, ← pow_add, Nat.add_comm]
  change wordPoly (polyVec n _) = _
  rw [wordPoly_polyVec _ _ (by
    rw [e]
    exact H.sys_degree _ (by rw [degree_X_pow]; exact_mod_cast i.is_lt)), e]

/-- the message polynomial is read off the upper coefficients -/
theorem sys_coeff (p : (ZMod 2)[X]) (i : Nat) :
    (p * X ^ polyDeg g + (p * X ^ polyDeg g) % toPoly g).coeff (i + polyDeg g) = p.coeff i := by
  rw [coeff_add, coeff_mul_X_pow, coeff_eq_zero_of_degree_lt (lt_of_lt_of_le (H.mod_degree _)
    (by norm_cast; omega)), add_zero]

theorem sys_project_coeff (v : BVec n) (i : Fin (polyDeg h)) :
    (cyclicSystematic n g h).project v i = (wordPoly v).coeff (i + polyDeg g) := by
  change polyVec _ _ i = _
  rw [polyVec_apply, BP.shr, Nat.testBit_shiftRight, wordPoly_coeff, vecPoly_eq, vecToNat_testBit, Nat.add_comm]
  rcases zmod2_cases (vget v (i + polyDeg g)) with h | h <;> simp [h]

theorem sys_project_encode (u : BVec (polyDeg h)) :
    (cyclicSystematic n g h).project ((cyclicSystematic n g h).encode u) = u := by
  funext i
  rw [H.sys_project_coeff, H.wordPoly_sysEncode, H.sys_coeff, wordPoly_coeff, vget, dif_pos i.is_lt]

/-- two multiples of `g` of degree less than `n` agreeing on the upper `k` coefficients are equal -/
theorem sys_unique (a b : BVec n) (ha : toPoly g ∣ wordPoly a) (hb : toPoly g ∣ wordPoly b)
    (hab : ∀ i < polyDeg h, (wordPoly a).coeff (i + polyDeg g) = (wordPoly b).coeff (i + polyDeg g)) : a = b := by
  have h0 : wordPoly a + wordPoly b = 0 := by
    apply H.small _ (dvd_add ha hb)
    rw [degree_lt_iff_coeff_zero]
    intro j hj
    rw [coeff_add]
    by_cases hjn : j < n
    · have := H.dim
      have h1 := hab (j - polyDeg g) (by omega)
      rw [Nat.sub_add_cancel hj] at h1
      rw [h1, CharTwo.add_self_eq_zero]
    · rw [wordPoly_coeff, wordPoly_coeff, vget, vget, dif_neg hjn, dif_neg hjn, add_zero]
  apply wordPoly_inj
  rw [← zmod2_poly_sub] at h0
  exact sub_eq_zero.mp h0

theorem sys_encode_dvd (u : BVec (polyDeg h)) : toPoly g ∣ wordPoly ((cyclicSystematic n g h).encode u) := by
  rw [H.wordPoly_sysEncode]; exact H.dvd_add_mod _

theorem sys_lawful : (cyclicSystematic n g h).Lawful where
  dim := H.dim
  encode_eq := by
    intro u
    have : (cyclicSystematic n g h).encode u =
        fun j => ∑ i, u i * (cyclicSystematic n g h).generator i j := by
      apply H.sys_unique _ _ (H.sys_encode_dvd u)
      · rw [wordPoly_vecMat]
        apply Finset.dvd_sum
        intro i _
        rw [H.wordPoly_sysGen]
        exact dvd_mul_of_dvd_right (H.dvd_add_mod _) _
      · intro t ht
        rw [H.wordPoly_sysEncode, H.sys_coeff, wordPoly_vecMat, finset_sum_coeff]
        simp only [coeff_C_mul, H.wordPoly_sysGen, H.sys_coeff, coeff_X_pow]
        rw [wordPoly_coeff, vget, dif_pos ht, Finset.sum_eq_single (⟨t, ht⟩ : Fin (polyDeg h))]
        · simp
        · intro b _ hb
          rw [if_neg, mul_zero]
          intro e; exact hb (Fin.ext e.symm)
        · simp
    intro j
    rw [this]
  check_eq := by
    intro v
    have : (cyclicSystematic n g h).check v =
        fun i => ∑ j, v j * (cyclicSystematic n g h).checkMatrix i j := by
      change cyclicCheck n g v = fun i => ∑ j, v j * polyVec (polyDeg g) (BP.mod (polyX j) g) i
      apply wordPoly_inj
      rw [H.wordPoly_check, wordPoly_vecMat v (fun j : Fin n => polyVec (polyDeg g) (BP.mod (polyX j) g))]
      have h1 : ∀ j : Fin n, wordPoly (polyVec (polyDeg g) (BP.mod (polyX j) g)) = X ^ (j : Nat) % toPoly g := by
        intro j
        rw [wordPoly_polyVec _ _ (H.mod_lt _), BP.toPoly_mod _ H.g_ne, toPoly_polyX]
      simp only [h1]
      have h2 : wordPoly v % toPoly g + ∑ j : Fin n, C (v j) * (X ^ (j : Nat) % toPoly g) = 0 := by
        apply H.small
        · have e : wordPoly v % toPoly g + ∑ j : Fin n, C (v j) * (X ^ (j : Nat) % toPoly g) =
              (wordPoly v + wordPoly v % toPoly g) +
                ∑ j : Fin n, C (v j) * (X ^ (j : Nat) + X ^ (j : Nat) % toPoly g) := by
            simp only [mul_add, Finset.sum_add_distrib]
            rw [wordPoly]
            have := zmod2_poly_add_self (∑ i : Fin n, C (v i) * X ^ (i : Nat))
            linear_combination -this
          rw [e]
          apply dvd_add (H.dvd_add_mod _)
          apply Finset.dvd_sum
          intro j _
          exact dvd_mul_of_dvd_right (H.dvd_add_mod _) _
        · rw [degree_lt_iff_coeff_zero]
          intro t ht
          rw [coeff_add, coeff_eq_zero_of_degree_lt (lt_of_lt_of_le (H.mod_degree _) (by exact_mod_cast ht)),
            finset_sum_coeff, zero_add]
          apply Finset.sum_eq_zero
          intro j _
          rw [coeff_C_mul, coeff_eq_zero_of_degree_lt (lt_of_lt_of_le (H.mod_degree _) (by exact_mod_cast ht)),
            mul_zero]
      rw [← zmod2_poly_sub] at h2
      exact sub_eq_zero.mp h2
    intro i
    rw [this]
  project_encode := H.sys_project_encode
  check_zero := by
    intro v
    change cyclicCheck n g v = 0 ↔ _
    rw [H.check_zero_iff]
    constructor
    · intro hv
      refine ⟨(cyclicSystematic n g h).project v, ?_⟩
      apply H.sys_unique _ _ (H.sys_encode_dvd _) hv
      intro i hi
      rw [H.wordPoly_sysEncode, H.sys_coeff, wordPoly_coeff, vget, dif_pos hi, H.sys_project_coeff]
    · rintro ⟨u, rfl⟩; exact H.sys_encode_dvd u

/-! #### non-systematic -/

theorem mul_degree (p : (ZMod 2)[X]) (hp : p.degree < polyDeg h) : (p * toPoly g).degree < (n : WithBot ℕ) := by
  by_cases h0 : p = 0
  · rw [h0, zero_mul, degree_zero]; exact WithBot.bot_lt_coe n
  · rw [degree_mul, degree_toPoly H.g_ne, degree_eq_natDegree h0] at *
    have := H.dim
    have h1 : p.natDegree < polyDeg h := by exact_mod_cast hp
    have : p.natDegree + polyDeg g < n := by omega
    exact_mod_cast this

theorem wordPoly_nsEncode (u : BVec (polyDeg h)) :
    wordPoly ((cyclicNonSystematic n g h).encode u) = wordPoly u * toPoly g := by
  change wordPoly (polyVec n (BP.mul (vecPoly u) g)) = _
  have e : toPoly (BP.mul (vecPoly u) g) = wordPoly u * toPoly g := by rw [BP.toPoly_mul, toPoly_vecPoly]
  rw [wordPoly_polyVec _ _ (by rw [e]; exact H.mul_degree _ (wordPoly_degree_lt u)), e]

theorem ns_encode_eq (u : BVec (polyDeg h)) (j : Fin n) :
    (cyclicNonSystematic n g h).encode u j = ∑ i, u i * (cyclicNonSystematic n g h).generator i j := by
  have : (cyclicNonSystematic n g h).encode u =
      fun j => ∑ i, u i * (cyclicNonSystematic n g h).generator i j := by
    apply wordPoly_inj
    rw [H.wordPoly_nsEncode, wordPoly_vecMat, wordPoly, Finset.sum_mul]
    apply Finset.sum_congr rfl
    intro i _
    change _ = _ * wordPoly (polyVec n (BP.mul (polyX i) g))
    have e : toPoly (BP.mul (polyX i) g) = X ^ (i : Nat) * toPoly g := by rw [BP.toPoly_mul, toPoly_polyX]
    rw [wordPoly_polyVec _ _ (by
      rw [e]
      exact H.mul_degree _ (by rw [degree_X_pow]; exact_mod_cast i.is_lt)), e, mul_assoc]
  rw [this]

theorem ns_project_encode (u : BVec (polyDeg h)) :
    (cyclicNonSystematic n g h).project ((cyclicNonSystematic n g h).encode u) = u := by
  apply wordPoly_inj
  change wordPoly (polyVec _ (BP.div (vecPoly _) g)) = _
  have e : toPoly (BP.div (vecPoly ((cyclicNonSystematic n g h).encode u)) g) = wordPoly u := by
    rw [BP.toPoly_div _ H.g_ne, toPoly_vecPoly, H.wordPoly_nsEncode, mul_div_cancel_right₀ _ H.G_ne]
  rw [wordPoly_polyVec _ _ (by rw [e]; exact wordPoly_degree_lt u), e]

theorem quotient_degree (q : (ZMod 2)[X]) (v : BVec n) (hq : wordPoly v = q * toPoly g) : q.degree < polyDeg h := by
  by_cases h0 : q = 0
  · rw [h0, degree_zero]; exact WithBot.bot_lt_coe _
  · have h1 := wordPoly_degree_lt v
    rw [hq, degree_mul, degree_toPoly H.g_ne, degree_eq_natDegree h0] at h1
    rw [degree_eq_natDegree h0]
    have := H.dim
    have h2 : q.natDegree + polyDeg g < n := by exact_mod_cast h1
    have : q.natDegree < polyDeg h := by omega
    exact_mod_cast this

theorem ns_codeword_iff (v : BVec n) :
    (∃ u, (cyclicNonSystematic n g h).encode u = v) ↔ toPoly g ∣ wordPoly v := by
  constructor
  · rintro ⟨u, rfl⟩; rw [H.wordPoly_nsEncode]; exact dvd_mul_left _ _
  · rintro ⟨q, hq⟩
    rw [mul_comm] at hq
    obtain ⟨u, hu⟩ := exists_word _ q (H.quotient_degree q v hq)
    refine ⟨u, ?_⟩
    apply wordPoly_inj
    rw [H.wordPoly_nsEncode, hu, hq]

theorem ns_check_zero (v : BVec n) :
    (cyclicNonSystematic n g h).check v = 0 ↔ ∃ u, (cyclicNonSystematic n g h).encode u = v := by
  rw [H.ns_codeword_iff, ← H.check_zero_iff]; rfl

/-- entry of the check matrix of the non-systematic strategy -/
theorem ns_checkMatrix (i : Fin (polyDeg g)) (j : Fin n) :
    (cyclicNonSystematic n g h).checkMatrix i j =
      if (i : Nat) ≤ j ∧ (j : Nat) ≤ i + polyDeg h then (toPoly h).coeff (polyDeg h + i - j) else 0 := by
  change polyVec n (BP.mul (polyX i) (BP.reciprocal h)) j = _
  have e : polyVec n (BP.mul (polyX i) (BP.reciprocal h)) j = (X ^ (i : Nat) * (toPoly h).reverse).coeff j := by
    rw [polyVec_apply, ← toPoly_coeff, BP.toPoly_mul, toPoly_polyX, BP.reciprocal_spec]
  rw [e, coeff_X_pow_mul']
  by_cases h1 : (i : Nat) ≤ j
  · rw [if_pos h1, coeff_reverse, natDegree_toPoly]
    by_cases h2 : (j : Nat) ≤ i + polyDeg h
    · rw [if_pos ⟨h1, h2⟩, revAt_le (by unfold polyDeg at h2; omega)]
      congr 1
      unfold polyDeg at *
      omega
    · rw [if_neg (fun h => h2 h.2), revAt_eq_self_of_lt (by unfold polyDeg at h2; omega)]
      apply coeff_eq_zero_of_natDegree_lt
      rw [natDegree_toPoly]
      unfold polyDeg at h2; omega
  · rw [if_neg h1, if_neg (fun h => h1 h.1)]

/-- the syndrome by the check matrix is a window of the coefficients of `v h` -/
theorem ns_syndrome (v : BVec n) (i : Fin (polyDeg g)) :
    ∑ j, v j * (cyclicNonSystematic n g h).checkMatrix i j = (wordPoly v * toPoly h).coeff (polyDeg h + i) := by
  rw [wordPoly, Finset.sum_mul, finset_sum_coeff]
  apply Finset.sum_congr rfl
  intro j _
  rw [H.ns_checkMatrix, mul_assoc, coeff_C_mul, coeff_X_pow_mul']
  congr 1
  by_cases h2 : (j : Nat) ≤ i + polyDeg h
  · rw [if_pos (show (j : Nat) ≤ polyDeg h + i by omega)]
    by_cases h1 : (i : Nat) ≤ j
    · rw [if_pos ⟨h1, h2⟩]
    · rw [if_neg (fun h => h1 h.1), coeff_eq_zero_of_natDegree_lt]
      rw [natDegree_toPoly]
      unfold polyDeg at *
      omega
  · rw [if_neg (fun h => h2 h.2), if_neg (by omega)]

theorem ns_matrix_check (v : BVec n) :
    (∀ i, ∑ j, v j * (cyclicNonSystematic n g h).checkMatrix i j = 0) ↔
      ∃ u, (cyclicNonSystematic n g h).encode u = v := by
  rw [H.ns_codeword_iff]
  simp only [H.ns_syndrome]
  have hdim := H.dim
  constructor
  · intro hw
    set p := wordPoly v * toPoly h with hp
    have hpd : p.degree < (n + polyDeg h : Nat) := by
      by_cases h0 : wordPoly v = 0
      · rw [hp, h0, zero_mul, degree_zero]; exact WithBot.bot_lt_coe _
      · have h1 := wordPoly_degree_lt v
        rw [hp, degree_mul, degree_toPoly H.h_ne, degree_eq_natDegree h0] at *
        have h1 : (wordPoly v).natDegree < n := by exact_mod_cast h1
        have : (wordPoly v).natDegree + polyDeg h < n + polyDeg h := by omega
        exact_mod_cast this
    obtain ⟨hi, hhi⟩ := exists_word (polyDeg h) (p / X ^ n) (by
      by_cases h0 : p / X ^ n = 0
      · rw [h0, degree_zero]; exact WithBot.bot_lt_coe _
      · have hd : (p / X ^ n).degree + (X ^ n : (ZMod 2)[X]).degree = p.degree := by
          rw [add_comm]
          apply degree_add_div (pow_ne_zero _ X_ne_zero)
          by_contra hlt
          exact h0 ((Polynomial.div_eq_zero_iff (pow_ne_zero _ X_ne_zero)).mpr (not_le.mp hlt))
        rw [← hd, degree_X_pow, degree_eq_natDegree h0] at hpd
        rw [degree_eq_natDegree h0]
        have hpd : (p / X ^ n).natDegree + n < n + polyDeg h := by exact_mod_cast hpd
        have : (p / X ^ n).natDegree < polyDeg h := by omega
        exact_mod_cast this)
    set lo := p % X ^ n with hlo
    have hsplit : X ^ n * wordPoly hi + lo = p := by rw [hhi]; exact EuclideanDomain.div_add_mod p (X ^ n)
    have hlod : lo.degree < polyDeg h := by
      rw [degree_lt_iff_coeff_zero]
      intro t ht
      by_cases htn : t < n
      · have h1 := hw ⟨t - polyDeg h, by omega⟩
        have h2 := congrArg (fun q => coeff q t) hsplit
        simp only [coeff_add, coeff_X_pow_mul'] at h2
        rw [if_neg (by omega), zero_add] at h2
        rw [h2]
        simpa [show polyDeg h + (t - polyDeg h) = t by omega] using h1
      · apply coeff_eq_zero_of_degree_lt
        have : lo.degree < (X ^ n : (ZMod 2)[X]).degree := EuclideanDomain.mod_lt p (pow_ne_zero _ X_ne_zero)
        rw [degree_X_pow] at this
        exact lt_of_lt_of_le this (by exact_mod_cast not_lt.mp htn)
    have hsum : wordPoly hi + lo = 0 := by
      have hdvd : toPoly h ∣ wordPoly hi + lo := by
        have h1 : wordPoly hi + lo = p + wordPoly hi * (X ^ n + 1) := by
          rw [← hsplit]
          have := zmod2_poly_add_self (X ^ n * wordPoly hi)
          linear_combination -this
        rw [h1]
        apply dvd_add (dvd_mul_left _ _)
        rw [← H.prod]
        exact dvd_mul_of_dvd_right (dvd_mul_left _ _) _
      by_contra hne
      have h1 := degree_le_of_dvd hdvd hne
      rw [degree_toPoly H.h_ne] at h1
      exact absurd (lt_of_le_of_lt (degree_add_le _ _) (max_lt (wordPoly_degree_lt hi) hlod)) (not_lt.mpr h1)
    refine ⟨wordPoly hi, ?_⟩
    apply mul_right_cancel₀ H.H_ne
    rw [← hp]
    have h3 := H.prod
    linear_combination -hsplit - wordPoly hi * h3 + hsum - zmod2_poly_add_self (wordPoly hi)
  · rintro ⟨q, hq⟩ i
    rw [mul_comm] at hq
    have hqd := H.quotient_degree q v hq
    have : wordPoly v * toPoly h = X ^ n * q + q := by rw [hq, mul_assoc, H.prod]; ring
    rw [this, coeff_add, coeff_X_pow_mul', if_neg (by have := i.is_lt; omega), zero_add]
    apply coeff_eq_zero_of_degree_lt
    exact lt_of_lt_of_le hqd (by norm_cast; omega)

/-! #### cyclic shift -/

theorem shift_poly (v : BVec n) :
    wordPoly (cyclicShift v) = X * wordPoly v + C (vget v (n - 1)) * (X ^ n + 1) := by
  have hn := H.pos
  ext i
  rw [wordPoly_coeff, coeff_add, coeff_C_mul, coeff_add, coeff_X_pow, coeff_one]
  cases i with
  | zero =>
    rw [coeff_X_mul_zero, vget, dif_pos (by omega), if_neg (by omega), if_pos rfl, cyclicShift]
    simp only [Nat.zero_add, zero_add, mul_one]
    rw [vget, dif_pos (by omega)]
    congr 1
    apply Fin.ext
    exact Nat.mod_eq_of_lt (by omega)
  | succ i =>
    rw [coeff_X_mul, wordPoly_coeff, if_neg (show ¬ i + 1 = 0 by omega), add_zero]
    by_cases h1 : i + 1 < n
    · rw [if_neg (by omega), mul_zero, add_zero, vget, dif_pos h1, vget, dif_pos (by omega), cyclicShift]
      congr 1
      apply Fin.ext
      change (i + 1 + (n - 1)) % n = i
      rw [show i + 1 + (n - 1) = i + n by omega, Nat.add_mod_right, Nat.mod_eq_of_lt (by omega)]
    · rw [vget, dif_neg h1]
      by_cases h2 : i + 1 = n
      · rw [if_pos h2, mul_one, show n - 1 = i by omega, CharTwo.add_self_eq_zero]
      · rw [if_neg h2, mul_zero, add_zero, vget, dif_neg (by omega)]

theorem shift_dvd (v : BVec n) (hv : toPoly g ∣ wordPoly v) : toPoly g ∣ wordPoly (cyclicShift v) := by
  rw [H.shift_poly, ← H.prod]
  exact dvd_add (dvd_mul_of_dvd_right hv _) (dvd_mul_of_dvd_right (dvd_mul_right _ _) _)

end CycPair

theorem cyclicPolys_generator (hn : 1 ≤ n) (g h : Nat) :
    cyclicPolys n (some g) none = some (g, h) ↔ toPoly g * toPoly h = X ^ n + 1 := by
  unfold cyclicPolys BP.divmod
  by_cases hg : g = 0
  · subst hg
    simp only [if_true, toPoly_zero, zero_mul]
    constructor
    · simp
    · intro e
      exact absurd (congrArg (fun p => coeff p n) e) (by simp [coeff_one, show n ≠ 0 by omega])
  · simp only [if_neg hg]
    have h1 := (BP.divmodCore_spec (BP.fromExponents [0, n]) g hg)
    rw [toPoly_modulus hn] at h1
    change (if (BP.mod (BP.fromExponents [0, n]) g) ≠ 0 then none else
      some (g, BP.div (BP.fromExponents [0, n]) g)) = _ ↔ _
    by_cases hr : BP.mod (BP.fromExponents [0, n]) g = 0
    · rw [if_neg (not_not.mpr hr)]
      rw [hr, toPoly_zero, add_zero] at h1
      rw [← h1.1]
      simp only [Option.some.injEq, Prod.mk.injEq, true_and]
      rw [mul_comm, mul_left_inj' (by simpa using hg), toPoly_inj]
      exact eq_comm
    · rw [if_pos hr]
      simp only [reduceCtorEq, false_iff]
      intro e
      have h2 := BP.toPoly_mod (BP.fromExponents [0, n]) hg
      rw [toPoly_modulus hn, ← e] at h2
      apply hr
      rw [← toPoly_eq_zero, h2]
      exact EuclideanDomain.mod_eq_zero.mpr (dvd_mul_right _ _)

theorem cyclicPolys_check (hn : 1 ≤ n) (g h : Nat) :
    cyclicPolys n none (some h) = some (g, h) ↔ toPoly g * toPoly h = X ^ n + 1 := by
  rw [mul_comm, ← cyclicPolys_generator hn]
  unfold cyclicPolys
  simp only
  cases BP.divmod (BP.fromExponents [0, n]) h with
  | none => simp
  | some p =>
    obtain ⟨q, r⟩ := p
    simp only
    split <;> simp

end Komm
