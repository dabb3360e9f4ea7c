import Verif.Lemmas.BCH3
import Verif.Lemmas.BlockDistance
/-! The BCH construction and the decoder. -/
namespace Komm
open Polynomial Bifield

theorem create_default_inv {mu : Nat} {F : Bifield} (h : Bifield.create mu none = some F) :
    1 ≤ mu ∧ mu ≤ 24 ∧ F.degree = mu ∧ IsPrimitivePoly (toPoly F.modulus) := by
  have h0 := h
  unfold Bifield.create at h
  split at h
  · simp at h
  · rename_i hd
    cases hm : BP.defaultPrimitivePolynomial (mu : Int) with
    | none => rw [hm] at h; simp at h
    | some m =>
      rw [hm] at h
      simp only at h
      split at h
      · simp at h
      · split at h
        · simp at h
        · simp only [Option.some.injEq] at h
          subst h
          unfold BP.defaultPrimitivePolynomial at hm
          split at hm
          · rename_i hr
            refine ⟨by omega, by omega, by simp, ?_⟩
            exact (BP.isPrimitive_iff m).mp (List.all_eq_true.mp BP.defaultTable_primitive m (List.mem_of_getElem? hm))
          · simp at hm

theorem toPoly_foldl_mul (l : List Nat) (a : Nat) : toPoly (l.foldl BP.mul a) = toPoly a * (l.map toPoly).prod := by
  induction l generalizing a with
  | nil => simp
  | cons b l ih => rw [List.foldl_cons, ih, BP.toPoly_mul, List.map_cons, List.prod_cons, mul_assoc]

theorem prod_dvd_of_irreducible (l : List Nat) (hnd : l.Nodup) (hirr : ∀ a ∈ l, Irreducible (toPoly a))
    (q : (ZMod 2)[X]) : (l.map toPoly).prod ∣ q ↔ ∀ a ∈ l, toPoly a ∣ q := by
  constructor
  · intro h a ha
    exact (List.dvd_prod (List.mem_map_of_mem ha)).trans h
  · induction l with
    | nil => simp
    | cons b l ih =>
      intro h
      rw [List.nodup_cons] at hnd
      rw [List.map_cons, List.prod_cons]
      apply IsCoprime.mul_dvd _ (h b (by simp))
        (ih hnd.2 (fun a ha => hirr a (by simp [ha])) (fun a ha => h a (by simp [ha])))
      rw [(hirr b (by simp)).coprime_iff_not_dvd]
      intro hdvd
      rw [(hirr b (by simp)).prime.dvd_prod_iff] at hdvd
      obtain ⟨a, ha, hba⟩ := hdvd
      obtain ⟨a', ha', rfl⟩ := List.mem_map.mp ha
      obtain ⟨c, hc⟩ := hba
      rcases (hirr a' (by simp [ha'])).isUnit_or_isUnit hc with hu | hu
      · exact (hirr b (by simp)).not_isUnit hu
      · rw [(BP.isUnit_iff_eq_one _).mp hu, mul_one] at hc
        have := toPoly_injective hc
        subst this
        exact hnd.1 ha'

variable {F : Bifield}

/-- What the BCH constructor establishes about the field: `alpha` is primitive. -/
structure BCHField (F : Bifield) (mu : Nat) : Prop where
  valid : F.Valid
  deg : F.degree = mu
  mu_ge : 2 ≤ mu
  ord : orderOf (φ F 2) = 2 ^ mu - 1

namespace BCHField
variable {mu : Nat} (H : BCHField F mu)
include H

theorem order_eq : F.order = 2 ^ mu := by rw [Bifield.order, H.deg]

theorem n_ge : 3 ≤ 2 ^ mu - 1 := by
  have : 2 ^ 2 ≤ 2 ^ mu := Nat.pow_le_pow_right (by decide) H.mu_ge
  omega

theorem two_lt : 2 < F.order := by
  rw [H.order_eq]
  have := H.n_ge
  omega

theorem alpha_ne : φ F 2 ≠ 0 := by
  intro h
  have := (φ_eq_zero H.valid H.two_lt).mp h
  omega

theorem pow_inj {i j : Nat} (hi : i < 2 ^ mu - 1) (hj : j < 2 ^ mu - 1) (h : φ F 2 ^ i = φ F 2 ^ j) : i = j := by
  rw [← H.ord] at hi hj
  exact pow_injOn_Iio_orderOf hi hj h

theorem npow_alpha (i : Nat) : F.npow 2 i < F.order ∧ φ F (F.npow 2 i) = φ F 2 ^ i := npow_spec H.valid H.two_lt i

theorem syndrome_lt (delta p : Nat) : ∀ x ∈ bchSyndrome F delta p, x < F.order := by
  intro x hx
  obtain ⟨i, _, rfl⟩ := List.mem_map.mp hx
  exact binaryHorner_lt H.valid _ _

theorem synd_eq (delta p m : Nat) (h1 : 1 ≤ m) (h2 : m ≤ delta - 1) :
    synd F (bchSyndrome F delta p) m = aeval (φ F 2 ^ m) (toPoly p) := by
  rw [synd, bchSyndrome, List.getD_eq_getElem _ _ (by simp; omega), List.getElem_map, List.getElem_range,
    φ_binaryHorner H.valid, coefficients_from, (H.npow_alpha _).2, show m - 1 + 1 = m by omega]

theorem syndrome_zero_iff (delta p : Nat) :
    (bchSyndrome F delta p).all (· == 0) = true ↔
      ∀ m, 1 ≤ m → m ≤ delta - 1 → aeval (φ F 2 ^ m) (toPoly p) = 0 := by
  rw [List.all_eq_true]
  constructor
  · intro h m h1 h2
    rw [← H.synd_eq delta p m h1 h2, synd]
    have hl : m - 1 < (bchSyndrome F delta p).length := by simp [bchSyndrome]; omega
    rw [List.getD_eq_getElem _ _ hl]
    have := h _ (List.getElem_mem hl)
    rw [beq_iff_eq] at this
    rw [this, φ_zero]
  · intro h x hx
    have hlt := H.syndrome_lt delta p x hx
    obtain ⟨i, hi, rfl⟩ := List.getElem_of_mem hx
    have hi' : i < delta - 1 := by simpa [bchSyndrome] using hi
    have := h (i + 1) (by omega) (by omega)
    rw [← H.synd_eq delta p (i + 1) (by omega) (by omega), synd, show i + 1 - 1 = i by omega,
      List.getD_eq_getElem _ _ hi, φ_eq_zero H.valid hlt] at this
    rw [beq_iff_eq]; exact this

end BCHField

theorem aeval_wordPoly {n : Nat} (v : BVec n) (x : K F) :
    aeval x (wordPoly v) = ∑ i ∈ Finset.univ.filter (fun i => v i ≠ 0), x ^ (i : Nat) := by
  rw [wordPoly, map_sum, Finset.sum_filter]
  apply Finset.sum_congr rfl
  intro i _
  rw [map_mul, aeval_C, map_pow, aeval_X]
  rcases (by decide : ∀ a : ZMod 2, a = 0 ∨ a = 1) (v i) with h | h <;> simp [h]

/-- The locators of an error pattern. -/
noncomputable def locators [DecidableEq (K F)] {n : Nat} (e : BVec n) : Finset (K F) :=
  (Finset.univ.filter fun i => e i ≠ 0).image fun i : Fin n => φ F 2 ^ (i : Nat)

theorem BCHField.locators_spec {mu : Nat} (H : BCHField F mu) [DecidableEq (K F)] (e : BVec (2 ^ mu - 1)) :
    (∀ β ∈ locators (F := F) e, β ≠ 0) ∧ (locators (F := F) e).card = hammingNorm e ∧
      ∀ m, aeval (φ F 2 ^ m) (wordPoly e) = ∑ β ∈ locators (F := F) e, β ^ m := by
  have _i : Fact (Irreducible (toPoly F.modulus)) := ⟨H.valid.2.2⟩
  have hinj : Set.InjOn (fun i : Fin (2 ^ mu - 1) => φ F 2 ^ (i : Nat))
      (Finset.univ.filter fun i => e i ≠ 0 : Finset (Fin (2 ^ mu - 1))) :=
    fun i _ j _ h => Fin.ext (H.pow_inj i.is_lt j.is_lt h)
  refine ⟨?_, ?_, ?_⟩
  · intro β hβ
    obtain ⟨i, _, rfl⟩ := Finset.mem_image.mp hβ
    exact pow_ne_zero _ H.alpha_ne
  · rw [locators, Finset.card_image_of_injOn hinj]; rfl
  · intro m
    rw [locators, Finset.sum_image hinj, aeval_wordPoly]
    apply Finset.sum_congr rfl
    intro i _
    rw [← pow_mul, ← pow_mul, mul_comm]

/-- BCH bound. -/
theorem BCHField.bch_bound {mu : Nat} (H : BCHField F mu) {delta : Nat} (v : BVec (2 ^ mu - 1))
    (hv : ∀ m, 1 ≤ m → m ≤ delta - 1 → aeval (φ F 2 ^ m) (wordPoly v) = 0) (hne : v ≠ 0) :
    delta ≤ hammingNorm v := by
  classical
  have _i : Fact (Irreducible (toPoly F.modulus)) := ⟨H.valid.2.2⟩
  obtain ⟨h1, h2, h3⟩ := H.locators_spec v
  by_contra hlt
  have := powersum_zero (locators (F := F) v) h1 (fun _ => 1) 1 (fun s hs => by
    simp only [one_mul]
    rw [← h3, hv _ (by omega) (by omega)])
  have hpos : 0 < (locators (F := F) v).card := by rw [h2, hammingNorm_pos_iff]; exact hne
  obtain ⟨β, hβ⟩ := Finset.card_pos.mp hpos
  exact one_ne_zero (this β hβ)

theorem BCHField.logarithm_spec {mu : Nat} (H : BCHField F mu) {x : Nat} (i : Nat) (hi : i < 2 ^ mu - 1)
    (hx : x < F.order) (h : φ F x = φ F 2 ^ i) : F.logarithm x 2 = some i := by
  unfold Bifield.logarithm
  rw [List.find?_range_eq_some]
  have he : ∀ j, F.npow 2 j = x ↔ φ F 2 ^ j = φ F 2 ^ i := by
    intro j
    rw [← φ_eq_iff H.valid (H.npow_alpha j).1 hx, (H.npow_alpha j).2, h]
  refine ⟨?_, ?_, ?_⟩
  · rw [beq_iff_eq, he]
  · rw [List.mem_range, H.order_eq]; omega
  · intro j hj
    rw [Bool.not_eq_true', beq_eq_false_iff_ne, ne_eq, he]
    intro h'
    have := H.pow_inj (by omega) hi h'
    omega

/-- Every non-zero field element has a logarithm below `n`. -/
theorem BCHField.exists_log {mu : Nat} (H : BCHField F mu) (hp : IsPrimitivePoly (toPoly F.modulus)) {x : Nat}
    (hx : x < F.order) (h0 : x ≠ 0) : ∃ i < 2 ^ mu - 1, φ F x = φ F 2 ^ i := by
  have hroot : φ F 2 = AdjoinRoot.root (toPoly F.modulus) := by
    rw [φ, toPoly_two, AdjoinRoot.mk_X]
  obtain ⟨m, hm⟩ := primitive_generates hp (φ F x) (fun h => h0 ((φ_eq_zero H.valid hx).mp h))
  refine ⟨m % (2 ^ mu - 1), Nat.mod_lt _ (by have := H.n_ge; omega), ?_⟩
  rw [hm, hroot, ← H.ord, hroot, pow_mod_orderOf]

theorem mapM_option_total {α β : Type} (f : α → Option β) (P : α → β → Prop) (l : List α)
    (h : ∀ a ∈ l, ∃ b, f a = some b ∧ P a b) : ∃ r, l.mapM f = some r ∧ List.Forall₂ P l r := by
  induction l with
  | nil => exact ⟨[], rfl, List.Forall₂.nil⟩
  | cons a l ih =>
    obtain ⟨b, hb, hP⟩ := h a (by simp)
    obtain ⟨r, hr, hF⟩ := ih (fun a ha => h a (by simp [ha]))
    refine ⟨b :: r, ?_, List.Forall₂.cons hP hF⟩
    rw [List.mapM_cons, hb, hr]; rfl

theorem forall₂_mem_left {α β : Type} {P : α → β → Prop} {l : List α} {r : List β} (h : List.Forall₂ P l r) {b : β}
    (hb : b ∈ r) : ∃ a ∈ l, P a b := by
  induction h with
  | nil => simp at hb
  | cons hp _ ih =>
    rcases List.mem_cons.mp hb with rfl | hb
    · exact ⟨_, by simp, hp⟩
    · obtain ⟨a, ha, hP⟩ := ih hb
      exact ⟨a, by simp [ha], hP⟩

theorem forall₂_mem_right {α β : Type} {P : α → β → Prop} {l : List α} {r : List β} (h : List.Forall₂ P l r) {a : α}
    (ha : a ∈ l) : ∃ b ∈ r, P a b := by
  induction h with
  | nil => simp at ha
  | cons hp _ ih =>
    rcases List.mem_cons.mp ha with rfl | ha
    · exact ⟨_, by simp, hp⟩
    · obtain ⟨b, hb, hP⟩ := ih ha
      exact ⟨b, by simp [hb], hP⟩

theorem forall₂_nodup {α β : Type} {P : α → β → Prop} (hP : ∀ a a' b, P a b → P a' b → a = a') {l : List α} {r : List β}
    (h : List.Forall₂ P l r) (hl : l.Nodup) : r.Nodup := by
  induction h with
  | nil => exact List.nodup_nil
  | cons hp hF ih =>
    rw [List.nodup_cons] at hl ⊢
    refine ⟨fun hb => ?_, ih hl.2⟩
    obtain ⟨a, ha, hPa⟩ := forall₂_mem_left hF hb
    rw [hP _ _ _ hp hPa] at hl
    exact hl.1 ha

/-- The error locations computed from any list starting with 1: never raises, all below `n`, no repetitions; `i` is a
location exactly when the inverse of `alpha^i` is a root. -/
theorem BCHField.locations {mu : Nat} (H : BCHField F mu) (hp : IsPrimitivePoly (toPoly F.modulus)) (sigma : List Nat)
    (hlt : ∀ x ∈ sigma, x < F.order) (h1 : sigma.getD 0 0 = 1) :
    ∃ eLoc, ((F.findRoots sigma).mapM fun e => (F.inverse e).bind fun i => F.logarithm i 2) = some eLoc ∧
      eLoc.Nodup ∧ (∀ i ∈ eLoc, i < 2 ^ mu - 1) ∧
      ∀ i, i < 2 ^ mu - 1 → (i ∈ eLoc ↔ ∃ x : K F, (lpoly F sigma).eval x = 0 ∧ x * φ F 2 ^ i = 1) := by
  have _i : Fact (Irreducible (toPoly F.modulus)) := ⟨H.valid.2.2⟩
  have hnz : ∃ c ∈ sigma, c ≠ 0 := by
    cases sigma with
    | nil => simp at h1
    | cons a l => exact ⟨a, by simp, by simp at h1; omega⟩
  have hroots := findRoots_spec H.valid sigma hlt hnz
  have hmem : ∀ x, x ∈ F.findRoots sigma ↔ x < F.order ∧ (lpoly F sigma).eval (φ F x) = 0 := by
    intro x
    rw [hroots, List.mem_filter, List.mem_range, decide_eq_true_eq]
    refine and_congr_right fun hx => ?_
    rw [← φ_horner H.valid, φ_eq_zero H.valid (horner_lt H.valid sigma hlt x)]
  have hnd : (F.findRoots sigma).Nodup := by rw [hroots]; exact List.nodup_range.filter _
  obtain ⟨eLoc, h2, h3⟩ := mapM_option_total (fun e => (F.inverse e).bind fun i => F.logarithm i 2)
    (fun e i => e < F.order ∧ i < 2 ^ mu - 1 ∧ φ F e * φ F 2 ^ i = 1) (F.findRoots sigma) (by
      intro x hx
      obtain ⟨hx1, hx2⟩ := (hmem x).mp hx
      have hx0 : x ≠ 0 := by
        rintro rfl
        rw [φ_zero, ← coeff_zero_eq_eval_zero, lpoly_coeff, h1, φ_one] at hx2
        exact one_ne_zero hx2
      obtain ⟨y, hy1, hy2, hy3⟩ := inverse_spec H.valid hx1 hx0
      have hy4 : φ F x * φ F y = 1 := by rw [← φ_mul H.valid, hy3, φ_one]
      have hy0 : y ≠ 0 := by
        rintro rfl
        rw [φ_zero, mul_zero] at hy4
        exact zero_ne_one hy4
      obtain ⟨i, hi, hi2⟩ := H.exists_log hp hy2 hy0
      refine ⟨i, ?_, hx1, hi, by rw [← hi2]; exact hy4⟩
      rw [hy1]
      exact H.logarithm_spec i hi hy2 hi2)
  refine ⟨eLoc, h2, forall₂_nodup ?_ h3 hnd, ?_, ?_⟩
  · rintro a a' i ⟨ha, _, ha2⟩ ⟨ha', _, ha2'⟩
    apply φ_inj H.valid ha ha'
    exact mul_right_cancel₀ (pow_ne_zero i H.alpha_ne) (ha2.trans ha2'.symm)
  · intro i hi
    obtain ⟨a, _, _, hP, _⟩ := forall₂_mem_left h3 hi
    exact hP
  · intro i hi
    constructor
    · intro hm
      obtain ⟨a, ha, _, _, hP⟩ := forall₂_mem_left h3 hm
      exact ⟨φ F a, ((hmem a).mp ha).2, hP⟩
    · rintro ⟨x, hx, hxi⟩
      obtain ⟨a, ha, rfl⟩ := φ_surj H.valid x
      obtain ⟨b, hb, _, hb1, hb2⟩ := forall₂_mem_right h3 ((hmem a).mpr ⟨ha, hx⟩)
      have hane : φ F a ≠ 0 := by
        intro h0; rw [h0, zero_mul] at hxi; exact zero_ne_one hxi
      have := mul_left_cancel₀ hane (hxi.trans hb2.symm)
      rw [H.pow_inj hi hb1 this]; exact hb

theorem count_mod2 {l : List Nat} (hnd : l.Nodup) (i : Nat) : ((l.count i : Nat) : ZMod 2) = if i ∈ l then 1 else 0 := by
  split
  · rename_i h
    rw [List.count_eq_one_of_mem hnd h]; simp
  · rename_i h
    rw [List.count_eq_zero_of_not_mem h]; simp

/-- The decoder never raises. -/
theorem BCHField.decode_total {mu : Nat} (H : BCHField F mu) (hp : IsPrimitivePoly (toPoly F.modulus)) {delta k m : Nat}
    (hd : 2 ≤ delta) (c : LinCode k m (2 ^ mu - 1)) (r : BVec (2 ^ mu - 1)) :
    ∃ u, berlekampDecode F delta c r = some u := by
  unfold berlekampDecode
  simp only
  split
  · exact ⟨_, rfl⟩
  · obtain ⟨sigma, h1, h2, h3⟩ := berlekamp_total H.valid hd (H.syndrome_lt delta (vecPoly r))
    obtain ⟨eLoc, h4, _, h5, _⟩ := H.locations hp sigma h2 h3
    rw [h1, Option.bind_some, h4, Option.bind_some, if_neg]
    · exact ⟨_, rfl⟩
    · rw [List.any_eq_true]
      rintro ⟨i, hi, hle⟩
      have := h5 i hi
      have := of_decide_eq_true hle
      omega

/-- The decoder adds back an error pattern of weight at most `(delta - 1) / 2`. -/
theorem BCHField.decode_correct {mu : Nat} (H : BCHField F mu) (hp : IsPrimitivePoly (toPoly F.modulus)) {delta k m : Nat}
    (hd : 2 ≤ delta) (c : LinCode k m (2 ^ mu - 1)) (v e : BVec (2 ^ mu - 1))
    (hv : ∀ m, 1 ≤ m → m ≤ delta - 1 → aeval (φ F 2 ^ m) (wordPoly v) = 0)
    (he : hammingNorm e ≤ (delta - 1) / 2) : berlekampDecode F delta c (v + e) = some (c.project v) := by
  classical
  have _i : Fact (Irreducible (toPoly F.modulus)) := ⟨H.valid.2.2⟩
  obtain ⟨hL1, hL2, hL3⟩ := H.locators_spec e
  have hsyn : ∀ m, 1 ≤ m → m ≤ delta - 1 → aeval (φ F 2 ^ m) (toPoly (vecPoly (v + e))) =
      ∑ β ∈ locators (F := F) e, β ^ m := by
    intro m h1 h2
    rw [toPoly_vecPoly, wordPoly_add, map_add, hv m h1 h2, zero_add, hL3]
  unfold berlekampDecode
  simp only
  split
  · rename_i hz
    rw [H.syndrome_zero_iff] at hz
    have he0 : e = 0 := by
      by_contra hne
      have := H.bch_bound (delta := delta) e (fun m h1 h2 => by rw [hL3, ← hsyn m h1 h2, hz m h1 h2]) hne
      omega
    rw [he0, add_zero]
  · obtain ⟨sigma, h1, h2, h3, h4⟩ := berlekamp_roots H.valid hd (H.syndrome_lt delta (vecPoly (v + e)))
      (locators (F := F) e) hL1 (by rw [hL2]; omega) (fun m h1 h2 => by rw [H.synd_eq delta _ m h1 h2, hsyn m h1 h2])
    obtain ⟨eLoc, h5, h6, h7, h8⟩ := H.locations hp sigma h2 h3
    rw [h1, Option.bind_some, h5, Option.bind_some, if_neg]
    · congr 2
      funext i
      rw [count_mod2 h6]
      have hiff : (i : Nat) ∈ eLoc ↔ e i ≠ 0 := by
        rw [h8 i i.is_lt]
        constructor
        · rintro ⟨x, hx, hxi⟩
          obtain ⟨β, hβ, hxb⟩ := (h4 x).mp hx
          have hx0 : x ≠ 0 := by rintro rfl; rw [zero_mul] at hxi; exact zero_ne_one hxi
          have := mul_left_cancel₀ hx0 (hxb.trans hxi.symm)
          subst this
          obtain ⟨j, hj, hji⟩ := Finset.mem_image.mp hβ
          have := H.pow_inj j.is_lt i.is_lt hji
          rw [← Fin.ext this]
          exact (Finset.mem_filter.mp hj).2
        · intro hei
          have hb : φ F 2 ^ (i : Nat) ∈ locators (F := F) e :=
            Finset.mem_image.mpr ⟨i, Finset.mem_filter.mpr ⟨Finset.mem_univ _, hei⟩, rfl⟩
          have hne := hL1 _ hb
          refine ⟨(φ F 2 ^ (i : Nat))⁻¹, (h4 _).mpr ⟨_, hb, inv_mul_cancel₀ hne⟩, inv_mul_cancel₀ hne⟩
      show (v + e) i + _ = v i
      simp only [hiff, Pi.add_apply]
      generalize v i = a
      generalize e i = b
      revert a b; decide
    · rw [List.any_eq_true]
      rintro ⟨i, hi, hle⟩
      have := h7 i hi
      have := of_decide_eq_true hle
      omega

/-- The minimal polynomials of the BCH set. -/
theorem BCHField.gen_dvd {mu : Nat} (H : BCHField F mu) (delta : Nat) (q : (ZMod 2)[X]) :
    toPoly ((bchMinimalPolynomials F delta).foldl BP.mul 1) ∣ q ↔
      ∀ m, 1 ≤ m → m ≤ delta - 1 → aeval (φ F 2 ^ m) q = 0 := by
  have _i : Fact (Irreducible (toPoly F.modulus)) := ⟨H.valid.2.2⟩
  rw [toPoly_foldl_mul, toPoly_one, one_mul, prod_dvd_of_irreducible (bchMinimalPolynomials F delta) (List.nodup_dedup _)]
  · have hd : ∀ i, toPoly (F.minimalPolynomial (F.npow 2 i)) ∣ q ↔ aeval (φ F 2 ^ i) q = 0 := by
      intro i
      rw [minimalPolynomial_spec H.valid (H.npow_alpha i).1, ← minpoly.dvd_iff, (H.npow_alpha i).2]
    constructor
    · intro h m h1 h2
      rw [← hd]
      apply h
      rw [bchMinimalPolynomials, List.mem_dedup, List.mem_map]
      exact ⟨m - 1, by simp; omega, by rw [show m - 1 + 1 = m by omega]⟩
    · intro h a ha
      rw [bchMinimalPolynomials, List.mem_dedup, List.mem_map] at ha
      obtain ⟨i, hi, rfl⟩ := ha
      rw [hd]
      exact h (i + 1) (by omega) (by simp at hi; omega)
  · intro a ha
    rw [bchMinimalPolynomials, List.mem_dedup, List.mem_map] at ha
    obtain ⟨i, hi, rfl⟩ := ha
    exact minimalPolynomial_irreducible H.valid (H.npow_alpha _).1

theorem BCHField.of_create {mu : Nat} (h : Bifield.create mu none = some F) (h2 : 2 ≤ mu) :
    BCHField F mu ∧ IsPrimitivePoly (toPoly F.modulus) ∧ mu ≤ 24 := by
  obtain ⟨_, h24, hdeg, hp⟩ := create_default_inv h
  have hv := create_valid h
  refine ⟨⟨hv, hdeg, h2, ?_⟩, hp, h24⟩
  have : φ F 2 = AdjoinRoot.root (toPoly F.modulus) := by
    rw [φ, toPoly_two, AdjoinRoot.mk_X]
  rw [this, hp.2, natDegree_toPoly, hv.2.1, hdeg]
  rfl

/-- The generator polynomial divides `X^n + 1`. -/
theorem BCHField.gen_dvd_modulus {mu : Nat} (H : BCHField F mu) (delta : Nat) :
    toPoly ((bchMinimalPolynomials F delta).foldl BP.mul 1) ∣ X ^ (2 ^ mu - 1) + 1 := by
  have _i : Fact (Irreducible (toPoly F.modulus)) := ⟨H.valid.2.2⟩
  have _c := charP_K H.valid
  rw [H.gen_dvd]
  intro m _ _
  rw [map_add, map_pow, aeval_X, map_one, ← pow_mul, mul_comm, pow_mul, ← H.ord, pow_orderOf_eq_one, one_pow,
    CharTwo.add_self_eq_zero]

/-- The set membership test of the constructor. -/
theorem BCHField.mem_set {mu : Nat} (H : BCHField F mu) (delta : Nat) :
    F.minimalPolynomial (F.npow 2 delta) ∈ bchMinimalPolynomials F delta ↔
      ∀ q : (ZMod 2)[X], (∀ m, 1 ≤ m → m ≤ delta - 1 → aeval (φ F 2 ^ m) q = 0) → aeval (φ F 2 ^ delta) q = 0 := by
  have _i : Fact (Irreducible (toPoly F.modulus)) := ⟨H.valid.2.2⟩
  have hd : ∀ i (q : (ZMod 2)[X]), toPoly (F.minimalPolynomial (F.npow 2 i)) ∣ q ↔ aeval (φ F 2 ^ i) q = 0 := by
    intro i q
    rw [minimalPolynomial_spec H.valid (H.npow_alpha i).1, ← minpoly.dvd_iff, (H.npow_alpha i).2]
  constructor
  · intro h q hq
    rw [bchMinimalPolynomials, List.mem_dedup, List.mem_map] at h
    obtain ⟨i, hi, he⟩ := h
    rw [← hd, ← he, hd]
    exact hq (i + 1) (by omega) (by simp at hi; omega)
  · intro h
    have h1 := h _ ((H.gen_dvd delta _).mp dvd_rfl)
    have hirr := minimalPolynomial_irreducible H.valid (H.npow_alpha delta).1
    rw [← hd, toPoly_foldl_mul, toPoly_one, one_mul, hirr.prime.dvd_prod_iff] at h1
    obtain ⟨a, ha, hda⟩ := h1
    obtain ⟨a', ha', rfl⟩ := List.mem_map.mp ha
    have hirr' : Irreducible (toPoly a') := by
      rw [bchMinimalPolynomials, List.mem_dedup, List.mem_map] at ha'
      obtain ⟨i, hi, rfl⟩ := ha'
      exact minimalPolynomial_irreducible H.valid (H.npow_alpha _).1
    obtain ⟨c, hc⟩ := hda
    rcases hirr'.isUnit_or_isUnit hc with hu | hu
    · exact absurd hu hirr.not_isUnit
    · rw [(BP.isUnit_iff_eq_one _).mp hu, mul_one] at hc
      rw [← toPoly_injective hc]; exact ha'

end Komm
