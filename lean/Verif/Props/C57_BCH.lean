import Verif.Lemmas.BCH4
import Verif.Props.C43_C46_Cyclic

/-! C57: BCH codes and Berlekamp decoding.  `alpha` is the class of `X` in GF(2)[X]/(modulus), written
`AdjoinRoot.root (toPoly F.modulus)`; `wordPoly` is the polynomial of a word (Spec/CyclicCode.lean). -/
namespace Komm
open Polynomial Bifield

theorem bch_alpha (F : Bifield) : φ F 2 = AdjoinRoot.root (toPoly F.modulus) := by
  rw [φ, toPoly_two, AdjoinRoot.mk_X]

theorem bchCreate_inv {mu delta : Nat} {F : Bifield} {g h : Nat} (hc : bchCreate mu delta = some (F, g, h)) :
    2 ≤ mu ∧ 2 ≤ delta ∧ delta ≤ 2 ^ mu - 1 ∧ Bifield.create mu none = some F ∧
      F.minimalPolynomial (F.npow 2 delta) ∉ bchMinimalPolynomials F delta ∧
      g = (bchMinimalPolynomials F delta).foldl BP.mul 1 ∧ toPoly g * toPoly h = X ^ (2 ^ mu - 1) + 1 := by
  unfold bchCreate at hc
  split at hc
  · simp at hc
  · rename_i hmu
    split at hc
    · simp at hc
    · rename_i hdel
      push Not at hmu hdel
      cases hF : Bifield.create mu none with
      | none => rw [hF] at hc; simp at hc
      | some F' =>
        rw [hF] at hc
        simp only at hc
        split at hc
        · simp at hc
        · rename_i hnm
          cases hp : cyclicPolys (2 ^ mu - 1) (some ((bchMinimalPolynomials F' delta).foldl BP.mul 1)) none with
          | none => rw [hp] at hc; simp at hc
          | some gh =>
            rw [hp] at hc
            simp only [Option.some.injEq, Prod.mk.injEq] at hc
            obtain ⟨rfl, rfl, rfl⟩ := hc
            have h4 : 2 ^ 2 ≤ 2 ^ mu := Nat.pow_le_pow_right (by decide) (by omega)
            have hdvd := C43_product (n := 2 ^ mu - 1) (by omega) _ _ gh.1 gh.2 hp
            have hg : gh.1 = (bchMinimalPolynomials F' delta).foldl BP.mul 1 := by
              unfold cyclicPolys at hp
              simp only at hp
              split at hp
              · simp at hp
              · split at hp
                · simp at hp
                · simp only [Option.some.injEq] at hp
                  rw [← hp]
            exact ⟨by omega, hdel.1, hdel.2, rfl, hnm, hg, hdvd⟩

/-- Everything about an accepted pair of parameters at once. -/
theorem bch_facts {mu delta : Nat} {F : Bifield} {g h : Nat} (hc : bchCreate mu delta = some (F, g, h)) :
    BCHField F mu ∧ IsPrimitivePoly (toPoly F.modulus) ∧ CycPair (2 ^ mu - 1) g h ∧
      ∀ q : (ZMod 2)[X], toPoly g ∣ q ↔ ∀ i, 1 ≤ i → i ≤ delta - 1 → aeval (φ F 2 ^ i) q = 0 := by
  obtain ⟨h1, h2, h3, h4, h5, h6, h7⟩ := bchCreate_inv hc
  obtain ⟨H, hp, _⟩ := BCHField.of_create h4 h1
  refine ⟨H, hp, ⟨by have := H.n_ge; omega, h7⟩, fun q => ?_⟩
  rw [h6]; exact H.gen_dvd delta q

/-- `BCHCode(mu, delta)` is accepted exactly when `2 ≤ mu` (a default primitive polynomial exists for degrees up to 24),
`2 ≤ delta ≤ 2^mu - 1`, and `delta` is a Bose distance: vanishing at `alpha, …, alpha^(delta-1)` does not already force
a binary polynomial to vanish at `alpha^delta`.  The field is the default field of degree `mu`, whose modulus is
primitive. -/
theorem C57_constructor (mu delta : Nat) :
    (∀ F, Bifield.create mu none = some F → F.degree = mu ∧ IsPrimitivePoly (toPoly F.modulus)) ∧
    ((∃ r, bchCreate mu delta = some r) ↔ 2 ≤ mu ∧ mu ≤ 24 ∧ 2 ≤ delta ∧ delta ≤ 2 ^ mu - 1 ∧
      ∃ F, Bifield.create mu none = some F ∧ ∃ q : (ZMod 2)[X],
        (∀ i, 1 ≤ i → i < delta → aeval (AdjoinRoot.root (toPoly F.modulus) ^ i) q = 0) ∧
        aeval (AdjoinRoot.root (toPoly F.modulus) ^ delta) q ≠ 0) := by
  refine ⟨fun F hF => ⟨(create_default_inv hF).2.2.1, (create_default_inv hF).2.2.2⟩, ?_⟩
  constructor
  · rintro ⟨⟨F, g, h⟩, hr⟩
    obtain ⟨h1, h2, h3, h4, h5, _, _⟩ := bchCreate_inv hr
    obtain ⟨H, hp, h24⟩ := BCHField.of_create h4 h1
    refine ⟨h1, h24, h2, h3, F, h4, ?_⟩
    rw [H.mem_set] at h5
    push Not at h5
    obtain ⟨q, hq1, hq2⟩ := h5
    refine ⟨q, fun i hi1 hi2 => ?_, ?_⟩
    · rw [← bch_alpha]; exact hq1 i hi1 (by omega)
    · rw [← bch_alpha]; exact hq2
  · rintro ⟨h1, _, h2, h3, F, hF, q, hq1, hq2⟩
    obtain ⟨H, hp, _⟩ := BCHField.of_create hF h1
    have hnm : F.minimalPolynomial (F.npow 2 delta) ∉ bchMinimalPolynomials F delta := by
      rw [H.mem_set]
      intro hall
      apply hq2
      rw [← bch_alpha]
      exact hall q (fun i hi1 hi2 => by rw [bch_alpha]; exact hq1 i hi1 (by omega))
    unfold bchCreate
    rw [if_neg (by omega), if_neg (by omega), hF]
    simp only
    rw [if_neg hnm]
    obtain ⟨⟨g, h⟩, hp⟩ := ((C43_constructor (n := 2 ^ mu - 1) (by have := H.n_ge; omega)).2.2.1
      ((bchMinimalPolynomials F delta).foldl BP.mul 1)).mpr (H.gen_dvd_modulus delta)
    rw [hp]
    exact ⟨_, rfl⟩

/-- The code object is consistent, and the codewords are exactly the words whose polynomial vanishes at
`alpha, alpha^2, …, alpha^(delta-1)`. -/
theorem C57_codewords (mu delta : Nat) (F : Bifield) (g h : Nat) (hc : bchCreate mu delta = some (F, g, h)) :
    (cyclicSystematic (2 ^ mu - 1) g h).Lawful ∧
    ∀ v, (∃ u, (cyclicSystematic (2 ^ mu - 1) g h).encode u = v) ↔
      ∀ i, 1 ≤ i → i < delta → aeval (AdjoinRoot.root (toPoly F.modulus) ^ i) (wordPoly v) = 0 := by
  obtain ⟨H, hp, hcyc, hdvd⟩ := bch_facts hc
  refine ⟨hcyc.sys_lawful, fun v => ?_⟩
  rw [(C43_codewords hcyc.pos g h hcyc.prod v).1, hdvd]
  constructor
  · intro hh i h1 h2
    rw [← bch_alpha]; exact hh i h1 (by omega)
  · intro hh i h1 h2
    rw [bch_alpha]; exact hh i h1 (by have := (bchCreate_inv hc).2.1; omega)

/-- Minimum distance: the dimension is at least one and `minimum_distance() >= delta`. -/
theorem C57_minimum_distance (mu delta : Nat) (F : Bifield) (g h : Nat) (hc : bchCreate mu delta = some (F, g, h)) :
    1 ≤ polyDeg h ∧ ∃ d, (cyclicSystematic (2 ^ mu - 1) g h).minimumDistance = some d ∧ delta ≤ d := by
  obtain ⟨H, hp, hcyc, hdvd⟩ := bch_facts hc
  have _i : Fact (Irreducible (toPoly F.modulus)) := ⟨H.valid.2.2⟩
  obtain ⟨h1, h2, h3, h4, h5, h6, h7⟩ := bchCreate_inv hc
  have hlaw := hcyc.sys_lawful
  have hk : 1 ≤ polyDeg h := by
    by_contra hk
    have hdim := hcyc.dim
    -- otherwise g has degree n, so every polynomial of degree below n divisible by g is zero; use X^n+1 and delta
    rw [H.mem_set] at h5
    apply h5
    intro q hq
    have hgq := (hdvd q).mpr hq
    have hh0 : toPoly h = 1 := by
      have h8 : (toPoly h).natDegree = 0 := by
        rw [natDegree_toPoly]; unfold polyDeg at hk; omega
      rw [Polynomial.natDegree_eq_zero] at h8
      obtain ⟨x, hx⟩ := h8
      have hne := hcyc.H_ne
      rw [← hx] at hne ⊢
      rcases (by decide : ∀ a : ZMod 2, a = 0 ∨ a = 1) x with hx | hx
      · rw [hx] at hne; simp at hne
      · rw [hx]; simp
    rw [hh0, mul_one] at h7
    rw [h7] at hgq
    obtain ⟨c, rfl⟩ := hgq
    have _c := charP_K H.valid
    rw [map_mul, map_add, map_pow, aeval_X, map_one, ← pow_mul, mul_comm delta, pow_mul, ← H.ord, pow_orderOf_eq_one,
      one_pow, CharTwo.add_self_eq_zero, zero_mul]
  refine ⟨hk, ?_⟩
  obtain ⟨d, hd⟩ := minimumDistance_exists _ hlaw hk
  refine ⟨d, hd, ?_⟩
  obtain ⟨⟨u, hu, hud⟩, _⟩ := (minimumDistance_spec _ hlaw d).mp hd
  rw [← hud]
  apply H.bch_bound
  · intro m hm1 hm2
    have := ((C57_codewords mu delta F g h hc).2 _).mp ⟨u, rfl⟩ m hm1 (by omega)
    rw [bch_alpha]; exact this
  · intro h0
    apply hu
    have := hlaw.project_encode u
    rw [h0, ← hlaw.encode_zero, hlaw.project_encode] at this
    exact this.symm

/-- `BerlekampDecoder(BCHCode(mu, delta))` corrects every error pattern of weight at most `(delta - 1) // 2`. -/
theorem C57_berlekamp_corrects (mu delta : Nat) (F : Bifield) (g h : Nat) (hc : bchCreate mu delta = some (F, g, h))
    (u : BVec (polyDeg h)) (e : BVec (2 ^ mu - 1)) (he : hammingNorm e ≤ (delta - 1) / 2) :
    berlekampDecode F delta (cyclicSystematic (2 ^ mu - 1) g h) ((cyclicSystematic (2 ^ mu - 1) g h).encode u + e) =
      some u := by
  obtain ⟨H, hp, hcyc, hdvd⟩ := bch_facts hc
  rw [H.decode_correct hp (bchCreate_inv hc).2.1 _ _ _ _ he, hcyc.sys_lawful.project_encode]
  intro m h1 h2
  rw [bch_alpha]
  exact ((C57_codewords mu delta F g h hc).2 _).mp ⟨u, rfl⟩ m h1 (by omega)

/-- Whatever word is received, the decoder returns a message (no division by zero, no logarithm of zero, no index
error). -/
theorem C57_berlekamp_total (mu delta : Nat) (F : Bifield) (g h : Nat) (hc : bchCreate mu delta = some (F, g, h))
    (r : BVec (2 ^ mu - 1)) : ∃ u, berlekampDecode F delta (cyclicSystematic (2 ^ mu - 1) g h) r = some u := by
  obtain ⟨H, hp, _, _⟩ := bch_facts hc
  exact H.decode_total hp (bchCreate_inv hc).2.1 _ r

/-- The documented codes: `BCHCode(5, 7)` has generator `0b1000111110101111`; 6 is not a Bose distance for `mu = 5`. -/
example : (bchCreate 5 7).map (fun r => (r.1.modulus, r.2)) = some (0b100101, 0b1000111110101111, 73235) ∧
    bchCreate 5 6 = none ∧ bchCreate 1 2 = none ∧ bchCreate 4 16 = none := by decide +kernel
example : ∃ F g h, bchCreate 5 7 = some (F, g, h) ∧ polyDeg h = 16 ∧ polyDeg g = 15 :=
  ⟨⟨5, 0b100101⟩, 0b1000111110101111, 73235, by decide +kernel, by decide +kernel, by decide +kernel⟩
/-- The documented decoding example, three errors; and a word with four errors that is decoded to another codeword. -/
example : bchCreate 4 7 = some (⟨4, 0b10011⟩, 0b10100110111, 0b101011) := by decide +kernel
example : (berlekampDecode ⟨4, 0b10011⟩ 7 (cyclicSystematic 15 0b10100110111 0b101011)
      (fun i => if (i : Nat) ∈ [3, 5, 12] then 1 else 0)).map List.ofFn = some [0, 0, 0, 0, 0] ∧
    (berlekampDecode ⟨4, 0b10011⟩ 7 (cyclicSystematic 15 0b10100110111 0b101011)
      (fun i => if (i : Nat) ∈ [0, 3, 9, 14] then 1 else 0)).map List.ofFn = some [0, 0, 0, 0, 1] := by decide +kernel

end Komm
