import Verif.Lemmas.CyclicCode
import Verif.Props.C41_C48_BlockCodes

/-! C43, C46: cyclic codes.  `toPoly` (Spec/Poly.lean) is the polynomial denoted by an integer, `wordPoly` and
`cyclicShift` (Spec/CyclicCode.lean) the polynomial and the cyclic shift of a word. -/
namespace Komm
open Polynomial

variable {n : Nat}

/-! ### C43 -/

/-- `CyclicCode(n, generator_polynomial=g)` is accepted exactly when `g` divides `X^n + 1`, with the cofactor as check
polynomial; likewise for `check_polynomial=h`; no polynomial at all is rejected. -/
theorem C43_constructor (hn : 1 ≤ n) :
    (∀ g h, cyclicPolys n (some g) none = some (g, h) ↔ toPoly g * toPoly h = X ^ n + 1) ∧
    (∀ g h, cyclicPolys n none (some h) = some (g, h) ↔ toPoly g * toPoly h = X ^ n + 1) ∧
    (∀ g, (∃ p, cyclicPolys n (some g) none = some p) ↔ toPoly g ∣ X ^ n + 1) ∧
    cyclicPolys n none none = none := by
  refine ⟨cyclicPolys_generator hn, cyclicPolys_check hn, fun g => ?_, rfl⟩
  constructor
  · rintro ⟨⟨g', h⟩, hp⟩
    have hg' : g' = g := by
      unfold cyclicPolys at hp
      simp only at hp
      split at hp
      · simp at hp
      · split at hp
        · simp at hp
        · simp only [Option.some.injEq, Prod.mk.injEq] at hp; exact hp.1.symm
    subst hg'
    exact ⟨_, ((cyclicPolys_generator hn g' h).mp hp).symm⟩
  · rintro ⟨q, hq⟩
    obtain ⟨h, rfl⟩ := toPoly_surjective q
    exact ⟨_, (cyclicPolys_generator hn g h).mpr hq.symm⟩

/-- Whatever way the code was constructed, generator times check polynomial is `X^n + 1`. -/
theorem C43_product (hn : 1 ≤ n) (a b : Option Nat) (g h : Nat) (hp : cyclicPolys n a b = some (g, h)) :
    toPoly g * toPoly h = X ^ n + 1 := by
  have hp0 := hp
  unfold cyclicPolys at hp
  rcases a with _ | a <;> rcases b with _ | b <;> simp only at hp
  · simp at hp
  · have : h = b := by
      split at hp
      · simp at hp
      · split at hp
        · simp at hp
        · simp only [Option.some.injEq, Prod.mk.injEq] at hp; exact hp.2.symm
    subst this
    exact (cyclicPolys_check hn g h).mp hp0
  · have : g = a := by
      split at hp
      · simp at hp
      · split at hp
        · simp at hp
        · simp only [Option.some.injEq, Prod.mk.injEq] at hp; exact hp.1.symm
    subst this
    exact (cyclicPolys_generator hn g h).mp hp0
  · simp at hp

/-- Dimension and redundancy add up to the length. -/
theorem C43_dimension (hn : 1 ≤ n) (g h : Nat) (hp : toPoly g * toPoly h = X ^ n + 1) :
    (toPoly h).natDegree + (toPoly g).natDegree = n ∧ polyDeg h = (toPoly h).natDegree ∧
      polyDeg g = (toPoly g).natDegree := by
  have := (CycPair.mk hn hp).dim
  rw [natDegree_toPoly, natDegree_toPoly]
  exact ⟨this, rfl, rfl⟩

/-- The systematic code object satisfies the contract of a block code (generator and check matrix, `encode`, `check`,
`project_word` agree). -/
theorem C43_systematic_lawful (hn : 1 ≤ n) (g h : Nat) (hp : toPoly g * toPoly h = X ^ n + 1) :
    (cyclicSystematic n g h).Lawful := (CycPair.mk hn hp).sys_lawful

/-- In both modes the codewords are exactly the words whose polynomial is a multiple of `g`, and `check` vanishes exactly
on them. -/
theorem C43_codewords (hn : 1 ≤ n) (g h : Nat) (hp : toPoly g * toPoly h = X ^ n + 1) (v : BVec n) :
    ((∃ u, (cyclicSystematic n g h).encode u = v) ↔ toPoly g ∣ wordPoly v) ∧
    ((∃ u, (cyclicNonSystematic n g h).encode u = v) ↔ toPoly g ∣ wordPoly v) ∧
    ((cyclicSystematic n g h).check v = 0 ↔ toPoly g ∣ wordPoly v) ∧
    ((cyclicNonSystematic n g h).check v = 0 ↔ toPoly g ∣ wordPoly v) := by
  have H := CycPair.mk hn hp
  refine ⟨?_, H.ns_codeword_iff v, H.check_zero_iff v, H.check_zero_iff v⟩
  rw [← H.sys_lawful.check_zero v]
  exact H.check_zero_iff v

/-- The code is closed under cyclic shifts. -/
theorem C43_cyclic (hn : 1 ≤ n) (g h : Nat) (hp : toPoly g * toPoly h = X ^ n + 1) (v : BVec n)
    (hv : ∃ u, (cyclicSystematic n g h).encode u = v) : ∃ u, (cyclicSystematic n g h).encode u = cyclicShift v := by
  rw [(C43_codewords hn g h hp _).1] at hv ⊢
  exact (CycPair.mk hn hp).shift_dvd v hv

/-- Systematic encoding puts the message on the last `k` positions. -/
theorem C43_systematic_positions (hn : 1 ≤ n) (g h : Nat) (hp : toPoly g * toPoly h = X ^ n + 1)
    (u : BVec (polyDeg h)) (t : Fin (polyDeg h)) (j : Fin n) (hj : (j : Nat) = polyDeg g + t) :
    (cyclicSystematic n g h).encode u j = u t := by
  have H := CycPair.mk hn hp
  have h1 := congrFun (H.sys_project_encode u) t
  rw [H.sys_project_coeff, wordPoly_coeff, vget, dif_pos (by have := j.is_lt; omega)] at h1
  rw [← h1]
  congr 1
  apply Fin.ext
  simp only; omega

/-- Non-systematic encoding multiplies by the generator polynomial; its matrices describe the same code:
`encode(u) = u G`, and `v Hᵀ = 0` exactly for codewords. -/
theorem C43_nonsystematic (hn : 1 ≤ n) (g h : Nat) (hp : toPoly g * toPoly h = X ^ n + 1) :
    (∀ u, wordPoly ((cyclicNonSystematic n g h).encode u) = wordPoly u * toPoly g) ∧
    (∀ u j, (cyclicNonSystematic n g h).encode u j = ∑ i, u i * (cyclicNonSystematic n g h).generator i j) ∧
    (∀ v, (∀ i, ∑ j, v j * (cyclicNonSystematic n g h).checkMatrix i j = 0) ↔
      ∃ u, (cyclicNonSystematic n g h).encode u = v) := by
  have H := CycPair.mk hn hp
  exact ⟨H.wordPoly_nsEncode, H.ns_encode_eq, H.ns_matrix_check⟩

/-- In both modes `inverse_encode(encode(u)) == u` and non-codewords are rejected. -/
theorem C43_inverse_encode (hn : 1 ≤ n) (g h : Nat) (hp : toPoly g * toPoly h = X ^ n + 1) :
    (∀ u, (cyclicSystematic n g h).inverseEncode ((cyclicSystematic n g h).encode u) = some u) ∧
    (∀ u, (cyclicNonSystematic n g h).inverseEncode ((cyclicNonSystematic n g h).encode u) = some u) ∧
    (∀ v, ¬ toPoly g ∣ wordPoly v →
      (cyclicSystematic n g h).inverseEncode v = none ∧ (cyclicNonSystematic n g h).inverseEncode v = none) := by
  have H := CycPair.mk hn hp
  refine ⟨(C41_inverse_encode _ H.sys_lawful).1, fun u => ?_, fun v hv => ⟨?_, ?_⟩⟩
  · unfold LinCode.inverseEncode
    rw [if_neg (by rw [not_not]; exact (H.ns_check_zero _).mpr ⟨u, rfl⟩), H.ns_project_encode]
  · unfold LinCode.inverseEncode
    exact if_pos fun e => hv ((H.check_zero_iff v).mp e)
  · unfold LinCode.inverseEncode
    exact if_pos fun e => hv ((H.check_zero_iff v).mp e)

/-- The documented (7, 4) code. -/
example : cyclicPolys 7 (some 0b1011) none = some (0b1011, 0b10111) ∧
    cyclicPolys 7 none (some 0b10111) = some (0b1011, 0b10111) ∧
    cyclicPolys 7 (some 0b101) none = none := by decide +kernel
example : toPoly 0b1011 * toPoly 0b10111 = X ^ 7 + 1 :=
  C43_product (by omega) (some 0b1011) none _ _ (by decide +kernel)
example : (List.finRange 4).map (fun i => List.ofFn ((cyclicSystematic 7 0b1011 0b10111).generator i)) =
    [[1, 1, 0, 1, 0, 0, 0], [0, 1, 1, 0, 1, 0, 0], [1, 1, 1, 0, 0, 1, 0], [1, 0, 1, 0, 0, 0, 1]] := by decide +kernel
example : (List.finRange 3).map (fun i => List.ofFn ((cyclicSystematic 7 0b1011 0b10111).checkMatrix i)) =
    [[1, 0, 0, 1, 0, 1, 1], [0, 1, 0, 1, 1, 1, 0], [0, 0, 1, 0, 1, 1, 1]] := by decide +kernel
example : (cyclicSystematic 7 0b1011 0b10111).minimumDistance = some 3 ∧
    (cyclicSystematic 7 0b1011 0b10111).weightDistribution = [1, 0, 0, 7, 7, 0, 0, 1] := by decide +kernel

/-! ### C46

Full statement: for every `g`, `h` with `g h = X^n + 1`, redundancy at least one and minimum distance `d`,
`SyndromeTableDecoder(CyclicCode(n, g, systematic=False))` decodes `encode(u) + e` to `u` whenever
`weight(e) ≤ (d - 1) // 2`.  This is FALSE: the table is indexed by `v Hᵀ` but looked up by the remainder modulo `g`. -/

/-- For systematic cyclic codes the statement holds. -/
theorem C46_systematic (hn : 1 ≤ n) (g h : Nat) (hp : toPoly g * toPoly h = X ^ n + 1) (hm : 1 ≤ polyDeg g)
    (fuel : Nat) (hf : n ≤ fuel) (d : Nat) (hd : (cyclicSystematic n g h).minimumDistance = some d) :
    ∃ T, (cyclicSystematic n g h).cosetLeaders fuel = some T ∧ ∀ u e, hammingNorm e ≤ (d - 1) / 2 →
      syndromeTableDecode (cyclicSystematic n g h) T ((cyclicSystematic n g h).encode u + e) = u :=
  C45_corrects _ (CycPair.mk hn hp).sys_lawful hm fuel hf d hd

/-- The part that holds for non-systematic codes: the table exists, and error-free words are decoded.
Missing: correction of errors, which fails, see below. -/
theorem C46_error_free_partial (hn : 1 ≤ n) (g h : Nat) (hp : toPoly g * toPoly h = X ^ n + 1) (hm : 1 ≤ polyDeg g)
    (fuel : Nat) (hf : n ≤ fuel) :
    ∃ T, (cyclicNonSystematic n g h).cosetLeaders fuel = some T ∧
      ∀ u, syndromeTableDecode (cyclicNonSystematic n g h) T ((cyclicNonSystematic n g h).encode u) = u := by
  have H := CycPair.mk hn hp
  let c' : LinCode (polyDeg h) (polyDeg g) n :=
    { cyclicNonSystematic n g h with check := fun v i => ∑ j, v j * (cyclicNonSystematic n g h).checkMatrix i j }
  have hc' : c'.Lawful :=
    { dim := H.dim
      encode_eq := H.ns_encode_eq
      check_eq := fun v i => rfl
      project_encode := H.ns_project_encode
      check_zero := fun v => by
        rw [← H.ns_matrix_check v, funext_iff]; rfl }
  obtain ⟨T, h1, h2⟩ := C44_coset_leaders c' hc' hm fuel hf
  refine ⟨T, (cosetLeaders_congr (cyclicNonSystematic n g h) c' rfl fuel).trans h1, fun u => ?_⟩
  have hT0 : T 0 = 0 := by
    have := (h2 0 (Nat.two_pow_pos _)).2 0 (by
      rw [← hc'.encode_zero, hc'.check_encode]
      funext i; rw [natToVec_apply]; simp)
    rw [hammingNorm_zero, Nat.le_zero, hammingNorm_eq_zero] at this
    exact this
  rw [syndromeTableDecode, (H.ns_check_zero _).mpr ⟨u, rfl⟩, vecToNat_zero, hT0, add_zero, H.ns_project_encode]

/-- Finding: the (7, 4) Hamming code with `systematic=False` has minimum distance 3, but a single error in position 2 is
not corrected. -/
theorem C46_single_error_not_corrected :
    (cyclicNonSystematic 7 0b1011 0b10111).minimumDistance = some 3 ∧
    ∃ T, (cyclicNonSystematic 7 0b1011 0b10111).cosetLeaders 7 = some T ∧
      syndromeTableDecode (cyclicNonSystematic 7 0b1011 0b10111) T
        ((cyclicNonSystematic 7 0b1011 0b10111).encode 0 + Pi.single 2 1) ≠ 0 := by
  refine ⟨by decide +kernel, ?_⟩
  have h : ((cyclicNonSystematic 7 0b1011 0b10111).cosetLeaders 7).map (fun T =>
    syndromeTableDecode (cyclicNonSystematic 7 0b1011 0b10111) T
        ((cyclicNonSystematic 7 0b1011 0b10111).encode 0 + Pi.single 2 1)) ≠ some 0 ∧
    ((cyclicNonSystematic 7 0b1011 0b10111).cosetLeaders 7).isSome = true := by decide +kernel
  obtain ⟨T, hT⟩ := Option.isSome_iff_exists.mp h.2
  refine ⟨T, hT, fun e => h.1 ?_⟩
  rw [hT, Option.map_some, e]

end Komm
