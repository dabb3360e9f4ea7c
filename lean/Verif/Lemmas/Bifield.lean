import Verif.Lemmas.Primitive
import Verif.Model.FiniteBifield
import Mathlib.Data.Nat.Bitwise

namespace Komm
open Polynomial

theorem bitLength_xor_le {a b k : Nat} (ha : bitLength a ≤ k) (hb : bitLength b ≤ k) :
    bitLength (a ^^^ b) ≤ k := by
  rw [bitLength_le_iff] at *
  exact Nat.xor_lt_two_pow ha hb

theorem poly_mod_mod (p q : (ZMod 2)[X]) : p % q % q = p % q := by
  rw [BP.mod_poly_dvd_iff, EuclideanDomain.mod_eq_sub_mul_div]
  exact ⟨-(p / q), by ring⟩

namespace BP

theorem mul_ne_zero {a b : Nat} (ha : a ≠ 0) (hb : b ≠ 0) : mul a b ≠ 0 := by
  rw [Ne, ← toPoly_eq_zero, toPoly_mul]
  exact _root_.mul_ne_zero (by simpa using ha) (by simpa using hb)

theorem mul_zero_left (b : Nat) : mul 0 b = 0 := by
  rw [← toPoly_eq_zero, toPoly_mul]; simp

theorem bitLength_mul {a b : Nat} (ha : a ≠ 0) (hb : b ≠ 0) :
    bitLength (mul a b) + 1 = bitLength a + bitLength b := by
  have h := natDegree_toPoly (mul a b)
  rw [toPoly_mul, natDegree_mul (by simpa using ha) (by simpa using hb), natDegree_toPoly,
    natDegree_toPoly] at h
  have h1 : bitLength a ≠ 0 := mt bitLength_eq_zero.mp ha
  have h2 : bitLength b ≠ 0 := mt bitLength_eq_zero.mp hb
  have h3 : bitLength (mul a b) ≠ 0 := mt bitLength_eq_zero.mp (mul_ne_zero ha hb)
  omega

theorem bitLength_div {a b : Nat} (hb : b ≠ 0) (h : bitLength b ≤ bitLength a) :
    bitLength (div a b) + bitLength b = bitLength a + 1 := by
  have hb' : bitLength b ≠ 0 := mt bitLength_eq_zero.mp hb
  have hd : (toPoly b).degree ≤ (toPoly a).degree := by
    rw [← not_lt, degree_toPoly_lt_iff hb]; omega
  have h1 := natDegree_toPoly (div a b)
  rw [toPoly_div _ hb, ← divByMonic_eq_div _ (monic_toPoly hb),
    natDegree_divByMonic _ (monic_toPoly hb), natDegree_toPoly, natDegree_toPoly] at h1
  have : div a b ≠ 0 := by
    intro h0
    have := (divmodCore_spec a b hb)
    rw [h0, toPoly_zero, zero_mul, zero_add, toPoly_inj] at this
    rw [this.1] at this; omega
  have h2 : bitLength (div a b) ≠ 0 := mt bitLength_eq_zero.mp this
  omega

theorem xgcdRec_bound (fuel x y : Nat) (h : bitLength x < fuel) (hxy : bitLength x < bitLength y) :
    bitLength (xgcdRec fuel x y).2.1 < bitLength y ∧
    bitLength (xgcdRec fuel x y).2.2 ≤ max 1 (bitLength x) := by
  induction fuel generalizing x y with
  | zero => omega
  | succ fuel ih =>
    rw [xgcdRec]
    split
    · refine ⟨?_, ?_⟩
      · show bitLength 0 < _
        rw [bitLength_zero]; omega
      · show bitLength 1 ≤ _
        rw [show bitLength 1 = 1 by decide]; omega
    · rename_i hx
      have hx' : bitLength x ≠ 0 := mt bitLength_eq_zero.mp hx
      have hlt := bitLength_mod_lt y hx
      obtain ⟨i1, i2⟩ := ih (mod y x) x (by omega) hlt
      generalize xgcdRec fuel (mod y x) x = r at i1 i2
      obtain ⟨d, s, t⟩ := r
      simp only at i1 i2 ⊢
      refine ⟨?_, by omega⟩
      have : bitLength (add t (mul s (div y x))) ≤ bitLength y - 1 := by
        apply bitLength_xor_le
        · omega
        · by_cases hs : s = 0
          · subst hs; rw [mul_zero_left, bitLength_zero]; omega
          · by_cases hq : div y x = 0
            · have h0 := bitLength_div hx (Nat.le_of_lt hxy)
              rw [hq, bitLength_zero] at h0; omega
            · have e1 := bitLength_mul hs hq
              have e2 := bitLength_div hx (Nat.le_of_lt hxy)
              omega
      omega

end BP

namespace Bifield

/-- What the constructor establishes: irreducible modulus of the stated degree, degree ≥ 1. -/
def Valid (F : Bifield) : Prop :=
  1 ≤ F.degree ∧ bitLength F.modulus = F.degree + 1 ∧ Irreducible (toPoly F.modulus)

theorem create_eq_some_iff (d : Int) (m : Nat) (F : Bifield) :
    create d (some m) = some F ↔
      1 ≤ d ∧ F = ⟨d.toNat, m⟩ ∧ BP.degree m = d ∧ Irreducible (toPoly m) := by
  unfold create
  split
  · simp; intro h; omega
  · simp only
    split
    · rename_i h; simp; intro _ _ h'; exact absurd h' h
    · split
      · rename_i h1 h2
        simp only [reduceCtorEq, false_iff, not_and]
        intro _ _ _ hI
        rw [(BP.isIrreducible_iff m).mpr hI] at h2
        simp at h2
      · rename_i h1 h2
        simp only [Bool.not_eq_true', Bool.not_eq_false] at h2
        have := (BP.isIrreducible_iff m).mp h2
        push Not at h1
        simp only [Option.some.injEq]
        constructor
        · intro h; exact ⟨by omega, h.symm, h1, this⟩
        · intro h; exact h.2.1.symm

theorem create_valid {d : Int} {m : Option Nat} {F : Bifield} (h : create d m = some F) : F.Valid := by
  have key : ∀ m', create d (some m') = some F → F.Valid := by
    intro m' h
    obtain ⟨h1, h2, h3, h4⟩ := (create_eq_some_iff d m' F).mp h
    subst h2
    refine ⟨by simp; omega, ?_, h4⟩
    simp only [BP.degree] at h3 ⊢
    omega
  cases m with
  | some m' => exact key m' h
  | none =>
    unfold create at h
    split at h
    · simp at h
    · rename_i hd
      simp only at h
      cases hm : BP.defaultPrimitivePolynomial d with
      | none => rw [hm] at h; simp at h
      | some m' =>
        rw [hm] at h
        apply key m'
        unfold create
        rw [if_neg hd]
        exact h

variable {F : Bifield}

theorem Valid.modulus_ne_zero (hF : F.Valid) : F.modulus ≠ 0 := by
  intro h
  have := hF.2.1
  rw [h, bitLength_zero] at this; omega

/-- The mathematical field. -/
abbrev K (F : Bifield) : Type := AdjoinRoot (toPoly F.modulus)

/-- The element of the mathematical field denoted by an integer. -/
noncomputable def φ (F : Bifield) (a : Nat) : K F := AdjoinRoot.mk (toPoly F.modulus) (toPoly a)

theorem reduced_iff {a : Nat} : a < 2 ^ F.degree ↔ bitLength a ≤ F.degree := bitLength_le_iff.symm

theorem φ_inj (hF : F.Valid) {a b : Nat} (ha : a < F.order) (hb : b < F.order) (h : φ F a = φ F b) :
    a = b := by
  rw [φ, φ, AdjoinRoot.mk_eq_mk, zmod2_poly_sub, ← toPoly_xor] at h
  have hlt : bitLength (a ^^^ b) < bitLength F.modulus := by
    have := bitLength_xor_le (reduced_iff.mp ha) (reduced_iff.mp hb)
    have := hF.2.1
    omega
  have := (degree_toPoly_lt_iff hF.modulus_ne_zero).mpr hlt
  have := eq_zero_of_dvd_of_degree_lt h this
  rw [toPoly_eq_zero] at this
  exact Nat.eq_of_xor_eq_zero this

theorem φ_surj (hF : F.Valid) (x : K F) : ∃ a < F.order, φ F a = x := by
  obtain ⟨p, rfl⟩ := AdjoinRoot.mk_surjective x
  obtain ⟨n, rfl⟩ := toPoly_surjective p
  refine ⟨BP.mod n F.modulus, ?_, ?_⟩
  · rw [order, reduced_iff]
    have := BP.bitLength_mod_lt n hF.modulus_ne_zero
    have := hF.2.1
    omega
  · rw [φ, BP.toPoly_mod _ hF.modulus_ne_zero, AdjoinRoot.mk_eq_mk, ← BP.mod_poly_dvd_iff,
      poly_mod_mod]

theorem φ_zero : φ F 0 = 0 := by simp [φ]
theorem φ_one : φ F 1 = 1 := by simp [φ]
theorem φ_add (a b : Nat) : φ F (F.add a b) = φ F a + φ F b := by simp [φ, add]
theorem φ_mul (hF : F.Valid) (a b : Nat) : φ F (F.mul a b) = φ F a * φ F b := by
  rw [mul, φ, BP.toPoly_mod _ hF.modulus_ne_zero, φ, φ, ← map_mul, ← BP.toPoly_mul,
    AdjoinRoot.mk_eq_mk, ← BP.mod_poly_dvd_iff, poly_mod_mod]

theorem add_lt {a b : Nat} (ha : a < F.order) (hb : b < F.order) : F.add a b < F.order :=
  Nat.xor_lt_two_pow ha hb

theorem mul_lt (hF : F.Valid) (a b : Nat) : F.mul a b < F.order := by
  rw [order, reduced_iff]
  have := BP.bitLength_mod_lt (BP.mul a b) hF.modulus_ne_zero
  have h2 := hF.2.1
  rw [mul]; omega

theorem one_lt_order (hF : F.Valid) : 1 < F.order := by
  have := hF.1
  exact Nat.one_lt_two_pow (by omega)

theorem φ_eq_zero (hF : F.Valid) {a : Nat} (ha : a < F.order) : φ F a = 0 ↔ a = 0 := by
  constructor
  · intro h
    exact φ_inj hF ha (by have := one_lt_order hF; omega) (by rw [h, φ_zero])
  · rintro rfl; exact φ_zero

theorem φ_eq_iff (hF : F.Valid) {a b : Nat} (ha : a < F.order) (hb : b < F.order) :
    φ F a = φ F b ↔ a = b := ⟨φ_inj hF ha hb, fun h => by rw [h]⟩

theorem inverse_spec (hF : F.Valid) {a : Nat} (ha : a < F.order) (ha0 : a ≠ 0) :
    ∃ i, F.inverse a = some i ∧ i < F.order ∧ F.mul a i = 1 := by
  obtain ⟨h1, h2⟩ := BP.xgcd_spec a F.modulus
  have hb := BP.xgcdRec_bound (bitLength a + 1) a F.modulus (by omega)
    (by have := reduced_iff.mp ha; have := hF.2.1; omega)
  unfold inverse
  rw [← BP.xgcd] at hb
  generalize hr : BP.xgcd a F.modulus = r at h1 h2 hb
  obtain ⟨d, s, t⟩ := r
  simp only at h1 h2 hb ⊢
  have hd : d = 1 := by
    have hd := (h1 (toPoly d)).mp dvd_rfl
    obtain ⟨c, hc⟩ := hd.2
    rcases hF.2.2.isUnit_or_isUnit hc with h | h
    · exact toPoly_eq_one.mp ((BP.isUnit_iff_eq_one _).mp h)
    · exfalso
      rw [(BP.isUnit_iff_eq_one _).mp h, mul_one] at hc
      have := hd.1
      rw [← hc] at this
      have hlt := (degree_toPoly_lt_iff (a := a) hF.modulus_ne_zero).mpr
        (by have := reduced_iff.mp ha; have := hF.2.1; omega)
      have := eq_zero_of_dvd_of_degree_lt this hlt
      simp at this; exact ha0 this
  subst hd
  rw [if_pos rfl]
  have hslt : s < F.order := by
    rw [order, reduced_iff]; have := hF.2.1; omega
  refine ⟨s, rfl, hslt, ?_⟩
  apply φ_inj hF (mul_lt hF _ _) (one_lt_order hF)
  rw [φ_mul hF, φ_one, φ, φ, ← map_mul, ← map_one (AdjoinRoot.mk (toPoly F.modulus)),
    AdjoinRoot.mk_eq_mk, ← toPoly_one, h2]
  refine ⟨-toPoly t, by ring⟩

theorem inverse_zero (hF : F.Valid) : F.inverse 0 = none := by
  have hx : BP.xgcd 0 F.modulus = (F.modulus, 0, 1) := rfl
  unfold inverse
  rw [hx]
  simp only [ite_eq_right_iff, reduceCtorEq, imp_false]
  intro h
  have h2 := hF.2.1
  rw [h, show bitLength 1 = 1 by decide] at h2
  have := hF.1
  omega

theorem npow_spec (hF : F.Valid) {a : Nat} (ha : a < F.order) (n : Nat) :
    F.npow a n < F.order ∧ φ F (F.npow a n) = φ F a ^ n :=
  ringPower_map_on (M := K F) 1 F.mul (φ F) (· < F.order) (one_lt_order hF)
    (fun a b _ _ => mul_lt hF a b) φ_one (fun a b _ _ => φ_mul hF a b) a ha n

theorem npow_zero (a : Nat) : F.npow a 0 = 1 := by rw [npow, BP.ringPower]; simp

theorem npow_succ (hF : F.Valid) {a : Nat} (ha : a < F.order) (n : Nat) :
    F.npow a (n + 1) = F.mul (F.npow a n) a := by
  apply φ_inj hF (npow_spec hF ha _).1 (mul_lt hF _ _)
  rw [(npow_spec hF ha _).2, φ_mul hF, (npow_spec hF ha _).2, pow_succ]

theorem npow_add (hF : F.Valid) {a : Nat} (ha : a < F.order) (m n : Nat) :
    F.npow a (m + n) = F.mul (F.npow a m) (F.npow a n) := by
  apply φ_inj hF (npow_spec hF ha _).1 (mul_lt hF _ _)
  rw [(npow_spec hF ha _).2, φ_mul hF, (npow_spec hF ha _).2, (npow_spec hF ha _).2, pow_add]

theorem npow_mul (hF : F.Valid) {a : Nat} (ha : a < F.order) (m n : Nat) :
    F.npow a (m * n) = F.npow (F.npow a m) n := by
  have hm := npow_spec hF ha m
  apply φ_inj hF (npow_spec hF ha _).1 (npow_spec hF hm.1 _).1
  rw [(npow_spec hF ha _).2, (npow_spec hF hm.1 _).2, hm.2, pow_mul]

theorem card_K (hF : F.Valid) : Nat.card (K F) = F.order := by
  rw [K, adjoinRoot_card _ (by simpa using hF.modulus_ne_zero), natDegree_toPoly, hF.2.1]; rfl

theorem finite_K (hF : F.Valid) : Finite (K F) :=
  adjoinRoot_finite _ (by simpa using hF.modulus_ne_zero)

theorem npow_order_sub_one (hF : F.Valid) {a : Nat} (ha : a < F.order) (ha0 : a ≠ 0) :
    F.npow a (F.order - 1) = 1 := by
  apply φ_inj hF (npow_spec hF ha _).1 (one_lt_order hF)
  rw [(npow_spec hF ha _).2, φ_one]
  have _i : Fact (Irreducible (toPoly F.modulus)) := ⟨hF.2.2⟩
  have _f := finite_K hF
  let _g := Fintype.ofFinite (K F)
  have hc : Fintype.card (K F) = F.order := by rw [← Nat.card_eq_fintype_card, card_K hF]
  rw [← hc]
  exact FiniteField.pow_card_sub_one_eq_one _ (mt (φ_eq_zero hF ha).mp ha0)

/-! ### logarithm -/

theorem exists_npow_lt (hF : F.Valid) {b : Nat} (hb : b < F.order) (n : Nat) :
    ∃ i < F.order, F.npow b i = F.npow b n := by
  have h1 := one_lt_order hF
  by_cases hb0 : b = 0
  · subst hb0
    rcases Nat.eq_zero_or_pos n with rfl | hn
    · exact ⟨0, by omega, rfl⟩
    · refine ⟨1, h1, ?_⟩
      apply φ_inj hF (npow_spec hF hb _).1 (npow_spec hF hb _).1
      have e : n ≠ 0 := by omega
      rw [(npow_spec hF hb _).2, (npow_spec hF hb _).2, φ_zero, zero_pow e, zero_pow one_ne_zero]
  · refine ⟨n % (F.order - 1), ?_, ?_⟩
    · have := Nat.mod_lt n (show 0 < F.order - 1 by omega); omega
    · conv_rhs => rw [← Nat.div_add_mod n (F.order - 1)]
      rw [npow_add hF hb, npow_mul hF hb, npow_order_sub_one hF hb hb0]
      apply φ_inj hF (npow_spec hF hb _).1 (mul_lt hF _ _)
      rw [φ_mul hF, (npow_spec hF h1 _).2, φ_one, one_pow, one_mul]

/-! ### conjugates -/

theorem conjugatesLoop_spec (hF : F.Valid) {x : Nat} (hx : x < F.order) (fuel e : Nat) (acc : List Nat)
    (hacc : acc = (List.range e).map fun i => F.npow x (2 ^ i)) (hnd : acc.Nodup)
    (hfuel : F.order < fuel + e) :
    (conjugatesLoop F x fuel acc e).Nodup ∧
    ∀ y, y ∈ conjugatesLoop F x fuel acc e ↔ ∃ i, y = F.npow x (2 ^ i) := by
  have hlen : e ≤ F.order := by
    have hsub : acc ⊆ List.range F.order := by
      intro y hy
      rw [hacc, List.mem_map] at hy
      obtain ⟨i, _, rfl⟩ := hy
      exact List.mem_range.mpr (npow_spec hF hx _).1
    have := (hnd.subperm hsub).length_le
    rw [hacc] at this; simpa using this
  induction fuel generalizing e acc with
  | zero => omega
  | succ fuel ih =>
    rw [conjugatesLoop]
    split
    · rename_i hc
      refine ⟨hnd, fun y => ⟨?_, ?_⟩⟩
      · intro hy; rw [hacc, List.mem_map] at hy
        obtain ⟨i, _, rfl⟩ := hy; exact ⟨i, rfl⟩
      · rintro ⟨i, rfl⟩
        rw [List.contains_iff_mem] at hc
        induction i with
        | zero =>
          have he : e ≠ 0 := by rintro rfl; rw [hacc] at hc; simp at hc
          rw [hacc, List.mem_map]; exact ⟨0, List.mem_range.mpr (by omega), rfl⟩
        | succ i ih2 =>
          -- the accumulator is closed under squaring
          rw [pow_succ, npow_mul hF hx]
          generalize F.npow x (2 ^ i) = z at ih2
          rw [hacc, List.mem_map] at ih2
          obtain ⟨j, hj, rfl⟩ := ih2
          rw [← npow_mul hF hx, ← pow_succ]
          rw [List.mem_range] at hj
          rcases Nat.lt_or_ge (j + 1) e with h | h
          · rw [hacc, List.mem_map]; exact ⟨j + 1, List.mem_range.mpr h, rfl⟩
          · have : j + 1 = e := by omega
            rw [this]; exact hc
    · rename_i hc
      rw [List.contains_iff_mem] at hc
      have hacc' : acc ++ [F.npow x (2 ^ e)] = (List.range (e + 1)).map fun i => F.npow x (2 ^ i) := by
        rw [List.range_succ, List.map_append, hacc]; rfl
      have hnd' : (acc ++ [F.npow x (2 ^ e)]).Nodup := by
        rw [List.nodup_append]
        refine ⟨hnd, by simp, ?_⟩
        intro a ha b hb
        simp at hb; subst hb
        intro h; subst h; exact hc ha
      apply ih (e + 1) _ hacc' hnd' (by omega)
      have hsub : (acc ++ [F.npow x (2 ^ e)]) ⊆ List.range F.order := by
        intro y hy
        rw [hacc', List.mem_map] at hy
        obtain ⟨i, _, rfl⟩ := hy
        exact List.mem_range.mpr (npow_spec hF hx _).1
      have := (hnd'.subperm hsub).length_le
      rw [hacc'] at this; simpa using this

theorem conjugates_spec (hF : F.Valid) {x : Nat} (hx : x < F.order) :
    (F.conjugates x).Nodup ∧ ∀ y, y ∈ F.conjugates x ↔ ∃ i, y = F.npow x (2 ^ i) :=
  conjugatesLoop_spec hF hx _ 0 [] (by simp) (by simp) (by omega)

end Bifield
end Komm
