import Verif.Lemmas.MinorsGcd
import Verif.Props.C99_Catastrophic
/-! C116: `_minors_gcd` (the test of Massey and Sain), and what it says about `invariant_factors` and `is_catastrophic`. -/
namespace Komm
open Polynomial
variable {k n : Nat}
local notation "PS" => PowerSeries (ZMod 2)

/-- The value returned by `_minors_gcd()` is the greatest common divisor of all the minors of order `k` of the generator matrix (the
determinants of `k` columns in increasing order). -/
theorem C116_result (F : Fin k → Fin n → BPFraction) (hk : 0 < k) (g : Nat) (h : minorsGcdOf F = some g) (p : (ZMod 2)[X]) :
    p ∣ toPoly g ↔ ∀ f : Fin k → Fin n, StrictMono f → p ∣ (Matrix.of fun i j : Fin k => toPoly (F i (f j)).numerator).det := by
  obtain ⟨_, hI⟩ := minorsGcdOf_spec F hk h
  constructor
  · intro hp f _
    have hm : (Matrix.of fun i j : Fin k => toPoly (F i (f j)).numerator).det ∈
        minorIdeal (PMat.polyMatrix fun i j => (F i j).numerator) := Ideal.subset_span ⟨f, rfl⟩
    rw [hI, Ideal.mem_span_singleton] at hm
    exact hp.trans hm
  · intro hp
    have hall : ∀ q ∈ (pyCombinations (List.finRange n) k).map (fun js : List (Fin n) =>
        bpDeterminant k ((List.finRange k).map fun i : Fin k => js.map fun j : Fin n => (F i j).numerator)), p ∣ toPoly q := by
      intro q hq
      obtain ⟨js, hjs, rfl⟩ := List.mem_map.mp hq
      rw [mem_pyCombinations] at hjs
      obtain ⟨hsub, hlen⟩ := hjs
      subst hlen
      have hmono : StrictMono fun i => js.get i := by
        have hpw := (List.pairwise_lt_finRange n).sublist hsub
        intro a b hab
        exact List.pairwise_iff_get.mp hpw a b hab
      have := hp (fun i => js.get i) hmono
      have e := toPoly_minor (fun i j => (F i j).numerator) hk fun i => js.get i
      rw [List.ofFn_get] at e
      rw [e]
      exact this
    rw [minorsGcdOf] at h
    split at h
    · cases h
    rw [if_neg hk.ne'] at h
    have hne : ((pyCombinations (List.finRange n) k).map fun js : List (Fin n) =>
        bpDeterminant k ((List.finRange k).map fun i : Fin k => js.map fun j : Fin n => (F i j).numerator)) ≠ [] := by
      intro h0; rw [h0] at h; cases h
    obtain ⟨g', hg', hdvd⟩ := BP.gcdList_spec _ hne
    rw [hg'] at h
    cases h
    exact (hdvd p).mpr hall

/-- It is the product of the factors returned by `invariant_factors` for the same matrix, when there are `k` of them, and zero
otherwise. -/
theorem C116_invariant_factors (F : Fin k → Fin n → BPFraction) (hk : 0 < k) (g : Nat) (h : minorsGcdOf F = some g) (fs : List Nat)
    (hfs : PMat.invariantFactors k n (fun i j => (F i j).numerator) = some fs) :
    toPoly g = if fs.length = k then (fs.map toPoly).prod else 0 := by
  obtain ⟨_, hI⟩ := minorsGcdOf_spec F hk h
  have := PMat.invariantFactors_minorIdeal k n _ hfs
  rw [hI] at this
  split at this
  · rename_i hl
    rw [if_pos hl]
    rw [Ideal.span_singleton_eq_span_singleton] at this
    exact zmod2_associated_iff.mp this
  · rename_i hl
    rw [if_neg hl]
    exact Ideal.span_singleton_eq_bot.mp this

theorem minorsGcd_of_expansion (g : Fin k → Fin n → Option BPFraction) (G : Fin k → Fin n → PS)
    (h : ∀ i j, IsExpansion (g i j) (G i j)) :
    ∃ F : Fin k → Fin n → BPFraction, (∀ i j, g i j = some (F i j)) ∧ minorsGcd g = minorsGcdOf F ∧ Expands F G := by
  choose F hF hd he using h
  refine ⟨F, hF, ?_, hd, he⟩
  rw [minorsGcd, dif_pos fun i j => by rw [hF]; rfl]
  congr 1
  funext i j
  simp [hF]

/-- The facts for any encoder that outputs `U G`. -/
theorem minorsGcd_generic {σ : Nat} (c : StateSpace k n σ) (g : Fin k → Fin n → Option BPFraction) (hk : 0 < k)
    (G : Fin k → Fin n → PS) (hexp : ∀ i j, IsExpansion (g i j) (G i j)) (hreal : RealisesSeries c G) (d : Nat)
    (hd : minorsGcd g = some d) :
    (CatastrophicEncoder c ↔ ¬ ∃ s, toPoly d = X ^ s) ∧ (DegenerateEncoder c ↔ d = 0) := by
  obtain ⟨F, hF, hg, hE⟩ := minorsGcd_of_expansion g G hexp
  rw [hg] at hd
  obtain ⟨hden, hI⟩ := minorsGcdOf_spec F hk hd
  have hG : ∀ i j, G i j = ((PMat.polyMatrix (fun i j => (F i j).numerator) i j : (ZMod 2)[X]) : PS) := by
    intro i j
    have := hE.2 i j
    rw [hden, toPoly_one, Polynomial.coe_one, one_mul] at this
    exact this
  constructor
  · rw [← massey_sain _ _ hI, catastrophic_iff c G hreal]
    push Not
    constructor
    · rintro ⟨U, ⟨i, hi⟩, hV⟩
      exact ⟨U, fun j => by simpa [hG] using hV j, i, hi⟩
    · rintro ⟨U, hV, i, hi⟩
      exact ⟨U, ⟨i, hi⟩, fun j => by simpa [hG] using hV j⟩
  · rw [degenerate_iff c G hreal]
    have hkn : ¬ n < k := by
      intro hlt
      have hnil : pyCombinations (List.finRange n) k = [] := by
        rw [List.eq_nil_iff_forall_not_mem]
        intro js hjs
        rw [mem_pyCombinations] at hjs
        have := hjs.1.length_le
        rw [List.length_finRange, hjs.2] at this
        omega
      rw [minorsGcdOf, if_neg (by push Not; exact hden), if_neg hk.ne', hnil] at hd
      cases hd
    obtain ⟨h1, h2⟩ := C99_invariant_factors fun i j => (F i j).numerator
    obtain ⟨fs, hfs⟩ : ∃ fs, PMat.invariantFactors k n (fun i j => (F i j).numerator) = some fs := by
      cases hf : PMat.invariantFactors k n (fun i j => (F i j).numerator) with
      | none => exact absurd (h1.mp hf) hkn
      | some fs => exact ⟨fs, rfl⟩
    obtain ⟨hne, _, hind⟩ := h2 fs hfs
    have hprod := C116_invariant_factors F hk d hd fs hfs
    have hiff : d = 0 ↔ fs.length ≠ k := by
      rw [← toPoly_eq_zero, hprod]
      by_cases hl : fs.length = k
      · rw [if_pos hl]
        simp only [hl, ne_eq, not_true_eq_false, iff_false]
        rw [List.prod_eq_zero_iff, List.mem_map]
        rintro ⟨f, hf, hf0⟩
        exact hne f hf (toPoly_eq_zero.mp hf0)
      · rw [if_neg hl]; simp [hl]
    rw [hiff, ne_eq, hind]
    push Not
    have hsum : ∀ (w : Fin k → (ZMod 2)[X]) j, ∑ i, (w i : PS) * G i j = 0 ↔ ∑ i, w i * toPoly (F i j).numerator = 0 := by
      intro w j
      have : ∑ i, (w i : PS) * G i j = ((∑ i, w i * toPoly (F i j).numerator : (ZMod 2)[X]) : PS) := by
        rw [← Polynomial.coeToPowerSeries.ringHom_apply, map_sum]
        exact Finset.sum_congr rfl fun i _ => by rw [hG]; simp [PMat.polyMatrix]
      rw [this, ← Polynomial.coe_zero, Polynomial.coe_inj]
    constructor
    · rintro ⟨w, hw, h0⟩
      exact ⟨w, fun j => (hsum w j).mp (h0 j), hw⟩
    · rintro ⟨w, h0, hw⟩
      exact ⟨w, hw, fun j => (hsum w j).mpr (h0 j)⟩

/-- `ConvolutionalCode`: whenever `_minors_gcd()` returns, the encoder is catastrophic exactly when the value is not a power of `D` (for
all rates), and it identifies two inputs exactly when the value is zero. -/
theorem C116_catastrophic (c : ConvCode k n) (hk : 0 < k) (hq : ∀ i, (toPoly (c.feedback i)).coeff 0 = 1) (d : Nat)
    (hd : minorsGcd c.generatorMatrix = some d) :
    (CatastrophicEncoder c.stateSpace ↔ ¬ ∃ s, toPoly d = X ^ s) ∧ (DegenerateEncoder c.stateSpace ↔ d = 0) := by
  obtain ⟨G, hexp, _, hreal⟩ := C61_convolutional_code c hk hq
  exact minorsGcd_generic c.stateSpace c.generatorMatrix hk G hexp hreal d hd

/-- It raises exactly when there are fewer output bits than input bits, or some entry of the generator matrix is not a polynomial. -/
theorem C116_raises (c : ConvCode k n) (hk : 0 < k) (hq : ∀ i, (toPoly (c.feedback i)).coeff 0 = 1) :
    minorsGcd c.generatorMatrix = none ↔ n < k ∨ ∃ i j, ¬ toPoly (c.feedback i) ∣ toPoly (c.feedforward i j) := by
  obtain ⟨G, hexp, hG, hreal⟩ := C61_convolutional_code c hk hq
  obtain ⟨F, hF, hg, hE⟩ := minorsGcd_of_expansion c.generatorMatrix G hexp
  have hden : ∀ i j, (F i j).denominator = 1 ↔ toPoly (c.feedback i) ∣ toPoly (c.feedforward i j) := by
    intro i j
    have hq0 := coe_ne_zero (p := toPoly (c.feedback i)) (by intro h0; have := hq i; rw [h0] at this; simp at this)
    have hd0 : ((toPoly (F i j).denominator : (ZMod 2)[X]) : PS) ≠ 0 :=
      coe_ne_zero (by intro h0; have := hE.1 i j; rw [h0] at this; simp at this)
    -- cross multiplication
    have hcross : toPoly (F i j).denominator * toPoly (c.feedforward i j) = toPoly (c.feedback i) * toPoly (F i j).numerator := by
      rw [← Polynomial.coe_inj, Polynomial.coe_mul, Polynomial.coe_mul, ← hG i j, ← hE.2 i j]; ring
    have hcan : ∀ p : (ZMod 2)[X], p ∣ toPoly (F i j).numerator → p ∣ toPoly (F i j).denominator → p = 1 := by
      have h1 := hF i j
      rw [ConvCode.generatorMatrix] at h1
      obtain ⟨a, ha, h1⟩ := Option.bind_eq_some_iff.mp h1
      obtain ⟨b, hb, h1⟩ := Option.bind_eq_some_iff.mp h1
      rw [BPFraction.truediv] at h1
      exact (BPFraction.create_value h1).2.1.2
    constructor
    · intro h1
      rw [h1, toPoly_one, one_mul] at hcross
      exact ⟨_, hcross⟩
    · rintro ⟨r, hr⟩
      rw [hr, mul_left_comm] at hcross
      have hq0' : toPoly (c.feedback i) ≠ 0 := by intro h0; have := hq i; rw [h0] at this; simp at this
      have h2 := mul_left_cancel₀ hq0' hcross
      apply toPoly_injective
      rw [toPoly_one]
      exact hcan _ ⟨r, h2.symm⟩ dvd_rfl
  rw [hg, minorsGcdOf]
  by_cases hp : ∃ i j, (F i j).denominator ≠ 1
  · rw [if_pos hp]
    obtain ⟨i, j, hij⟩ := hp
    simp only [true_iff]
    exact Or.inr ⟨i, j, fun h => hij ((hden i j).mpr h)⟩
  · rw [if_neg hp, if_neg hk.ne']
    push Not at hp
    have hno : ¬ ∃ i j, ¬ toPoly (c.feedback i) ∣ toPoly (c.feedforward i j) := by
      push Not
      exact fun i j => (hden i j).mp (hp i j)
    simp only [hno, or_false]
    constructor
    · intro h
      by_contra hkn
      have hmem : (List.finRange n).take k ∈ pyCombinations (List.finRange n) k := by
        rw [mem_pyCombinations]
        exact ⟨List.take_sublist _ _, by simp; omega⟩
      obtain ⟨x, hx⟩ := List.exists_mem_of_ne_nil _ (List.ne_nil_of_mem hmem)
      cases hl : pyCombinations (List.finRange n) k with
      | nil => rw [hl] at hmem; cases hmem
      | cons a l => rw [hl] at h; cases h
    · intro hlt
      have hnil : pyCombinations (List.finRange n) k = [] := by
        rw [List.eq_nil_iff_forall_not_mem]
        intro js hjs
        rw [mem_pyCombinations] at hjs
        have := hjs.1.length_le
        rw [List.length_finRange, hjs.2] at this
        omega
      rw [hnil]; rfl

/-- A consequence for `is_catastrophic()` of feedforward codes: `True` is never contradicted by the minors. -/
theorem C116_true_agrees (c : ConvCode k n) (hk : 0 < k) (hq : ∀ i, (toPoly (c.feedback i)).coeff 0 = 1) (d : Nat)
    (hd : minorsGcd c.generatorMatrix = some d) (h : c.isCatastrophic = some true) : ¬ ∃ s, toPoly d = X ^ s :=
  (C116_catastrophic c hk hq d hd).1.mp (C99_true c hk hq h)

/-- When the value is a power of `D`, `is_catastrophic()` returns `False` (and rightly). -/
theorem C116_false_agrees (c : ConvCode k n) (hk : 0 < k) (hq : ∀ i, (toPoly (c.feedback i)).coeff 0 = 1) (d s : Nat)
    (hd : minorsGcd c.generatorMatrix = some d) (hs : toPoly d = X ^ s) :
    c.isCatastrophic = some false ∧ ¬ CatastrophicEncoder c.stateSpace := by
  obtain ⟨h1, h2⟩ := C116_catastrophic c hk hq d hd
  have hnc : ¬ CatastrophicEncoder c.stateSpace := fun h => h1.mp h ⟨s, hs⟩
  refine ⟨?_, hnc⟩
  cases hc : c.isCatastrophic with
  | none =>
    have := h2.mp ((C99_raises c hk hq).mp hc)
    rw [this, toPoly_zero] at hs
    exact absurd hs.symm (pow_ne_zero _ X_ne_zero)
  | some b =>
    cases b with
    | false => rfl
    | true => exact absurd (C99_true c hk hq hc) hnc

/-- On the encoder of `C99_wrong_false`, `_minors_gcd()` is right where `is_catastrophic()` is wrong: the value is `D + D²`. -/
theorem C116_minors_right : minorsGcd (ConvCode.ofFeedforward ![![0b11, 0], ![0, 0b10]]).generatorMatrix = some 0b110 ∧
    (BP.exponents 0b110).length = 2 ∧ (ConvCode.ofFeedforward ![![0b11, 0], ![0, 0b10]]).isCatastrophic = some false := by
  decide +kernel

/-- Concrete cases: a rate 2/3 encoder with value 1, a catastrophic rate 1/2 encoder, and exceptions. -/
example : minorsGcd (ConvCode.ofFeedforward ![![0b11, 0b10, 0b11], ![0b10, 0b1, 0b1]]).generatorMatrix = some 1 ∧
    minorsGcd (ConvCode.ofFeedforward ![![0b11, 0b101]]).generatorMatrix = some 0b11 ∧
    minorsGcd (ConvCode.ofFeedforward ![![0b11], ![0b101]]).generatorMatrix = none ∧
    minorsGcd (⟨![![0b111, 0b101]], ![0b111]⟩ : ConvCode 1 2).generatorMatrix = none := by decide +kernel

example : ¬ CatastrophicEncoder (ConvCode.ofFeedforward ![![0b11, 0b10, 0b11], ![0b10, 0b1, 0b1]]).stateSpace :=
  (C116_false_agrees _ (by norm_num) (fun i => by simp [ConvCode.ofFeedforward]) 1 0 (by decide +kernel) (by simp)).2

end Komm
