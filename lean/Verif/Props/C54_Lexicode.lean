import Verif.Lemmas.Lexicode
import Verif.Props.C41_C48_BlockCodes

/-! C54: lexicodes.  `lexWord n x` is the length-`n` binary expansion of `x`, most significant bit first, so that the
order of the integers is the lexicographic order of the words. -/
namespace Komm

variable {n d : Nat}

/-- `Lexicode(n, d)` for `1 <= d <= n`: a consistent linear code whose codewords are exactly those chosen by the
greedy rule "take a word if it is at distance at least `d` from every codeword lexicographically before it". -/
theorem C54_greedy (hd : 1 ≤ d) (hn : d ≤ n) :
    ∃ c, lexicode n d = some c ∧ c.Lawful ∧
      ∀ x < 2 ^ n, (∃ u, c.encode u = lexWord n x) ↔
        ∀ y < x, (∃ u, c.encode u = lexWord n y) → d ≤ hammingDist (lexWord n y) (lexWord n x) := by
  obtain ⟨c, h1, h2, h3⟩ := C41_generator (lexGenerator n d) lex_independent
  refine ⟨c, by rw [lexicode, if_neg (by omega), h1], h3, ?_⟩
  have hcw : ∀ x < 2 ^ n, (∃ u, c.encode u = lexWord n x) ↔ InL n d x := by
    intro x hx
    have h4 : (∃ u, c.encode u = lexWord n x) ↔ lexWord n x ∈ lexSpace n d := by
      rw [← lexSpan, mem_span_rows']
      apply exists_congr
      intro u
      rw [show c.encode u = vecMat u (lexGenerator n d) from by
        funext j; rw [h3.encode_eq, h2]; rfl]
    rw [h4]
    constructor
    · rintro ⟨y, hy, e⟩
      rwa [← lexWord_inj hy.1 hx e]
    · intro h; exact ⟨x, h, rfl⟩
  intro x hx
  rw [hcw x hx]
  constructor
  · intro h y hy hcy
    rw [hcw y (by omega)] at hcy
    rw [hammingDist_eq_norm_add, ← lexWord_xor, lexWord_norm (hcy.xor h).1]
    apply (hcy.xor h).weight
    intro e
    have : y = x := Nat.xor_eq_zero_iff.mp e
    omega
  · intro h
    by_contra hc
    obtain ⟨y, h5, h6, h7⟩ := exists_close (d := d) hx (fun e => hc ⟨hx, e⟩)
    have := h y h6 ((hcw y (by omega)).mpr h5)
    rw [hammingDist_eq_norm_add, ← lexWord_xor, lexWord_norm (Nat.xor_lt_two_pow (by omega) hx)] at this
    omega

/-- Its minimum distance (as computed by the base class) is exactly `d`, the value returned by the override, and every
word is within distance `d - 1` of a codeword. -/
theorem C54_distance (hd : 1 ≤ d) (hn : d ≤ n) :
    ∃ c, lexicode n d = some c ∧ c.minimumDistance = some (lexicodeMinimumDistance n d) ∧
      lexicodeMinimumDistance n d = d ∧ ∀ v, ∃ u, hammingDist v (c.encode u) ≤ d - 1 := by
  obtain ⟨c, h1, h2, h3⟩ := C54_greedy hd hn
  have hdist : ∀ u, u ≠ 0 → d ≤ hammingNorm (c.encode u) := by
    intro u hu
    obtain ⟨x, hx, e⟩ := lexWord_surj (c.encode u)
    have hx0 : x ≠ 0 := by
      rintro rfl
      rw [lexWord_zero] at e
      exact hu (h2.encode_injective (e.symm.trans h2.encode_zero.symm))
    have := (h3 x hx).mp ⟨u, e.symm⟩ 0 (by omega) ⟨0, by rw [h2.encode_zero, lexWord_zero]⟩
    rwa [lexWord_zero, hammingDist_zero_left, e] at this
  refine ⟨c, h1, ?_, rfl, ?_⟩
  · rw [minimumDistance_spec c h2]
    refine ⟨?_, hdist⟩
    -- the word with `d` trailing ones
    have hlt : 2 ^ d - 1 < 2 ^ n := by
      have : 2 ^ d ≤ 2 ^ n := Nat.pow_le_pow_right (by omega) hn
      have : 0 < 2 ^ d := by positivity
      omega
    have hones : hammingNorm (lexWord n (2 ^ d - 1)) = d := by
      have hlt' : 2 ^ d - 1 < 2 ^ d := by have : 0 < 2 ^ d := by positivity
                                          omega
      rw [lexWord_norm hlt, bitCount_eq d _ hlt']
      rw [Finset.sum_congr rfl (g := fun _ => 1)]
      · simp
      · intro i hi
        rw [Nat.testBit_two_pow_sub_one]
        simpa using hi
    have hsmall : ∀ y < 2 ^ d - 1, (∃ u, c.encode u = lexWord n y) → y = 0 := by
      rintro y hy ⟨u, hu⟩
      by_contra hy0
      have h4 : d ≤ hammingNorm (lexWord n y) := by
        rw [← hu]
        apply hdist
        rintro rfl
        rw [h2.encode_zero, ← lexWord_zero] at hu
        exact hy0 (lexWord_inj (by positivity) (by omega) hu).symm
      rw [lexWord_norm (by omega), bitCount_eq d y (by omega)] at h4
      apply absurd hy
      rw [not_lt]
      have hall : ∀ i < d, y.testBit i = true := by
        intro i hi
        by_contra hc
        have h5 : ∑ i ∈ Finset.range d, (y.testBit i).toNat < ∑ i ∈ Finset.range d, 1 := by
          apply Finset.sum_lt_sum
          · intro j _; exact Bool.toNat_le _
          · exact ⟨i, by simpa using hi, by simp [hc]⟩
        simp at h5
        omega
      have : y = 2 ^ d - 1 := by
        apply Nat.eq_of_testBit_eq
        intro i
        rw [Nat.testBit_two_pow_sub_one]
        by_cases hi : i < d
        · rw [hall i hi]; simp [hi]
        · rw [Nat.testBit_lt_two_pow (lt_of_lt_of_le (show y < 2 ^ d by omega)
            (Nat.pow_le_pow_right (by omega) (by omega)))]
          simp [hi]
      omega
    obtain ⟨u, hu⟩ := (h3 (2 ^ d - 1) hlt).mpr (by
      intro y hy hcy
      rw [hsmall y hy hcy, lexWord_zero, hammingDist_zero_left, hones])
    refine ⟨u, ?_, by rw [hu, hones]; rfl⟩
    rintro rfl
    rw [h2.encode_zero] at hu
    rw [← hu, hammingNorm_zero] at hones
    omega
  · intro v
    obtain ⟨x, hx, rfl⟩ := lexWord_surj v
    by_cases h : ∃ u, c.encode u = lexWord n x
    · obtain ⟨u, hu⟩ := h
      exact ⟨u, by rw [hu, hammingDist_self]; omega⟩
    · rw [h3 x hx] at h
      push Not at h
      obtain ⟨y, _, ⟨u, hu⟩, hlt⟩ := h
      refine ⟨u, ?_⟩
      rw [hu, hammingDist_comm]
      omega

/-- Parameters outside `1 <= d <= n` are rejected. -/
theorem C54_rejects (h : ¬ (1 ≤ d ∧ d ≤ n)) : lexicode n d = none := by rw [lexicode, if_pos h]

/-- The documented example `Lexicode(7, 3)`. -/
example : (List.finRange _).map (fun i => List.ofFn (lexGenerator 7 3 i)) =
    [[0, 0, 0, 0, 1, 1, 1], [0, 0, 1, 1, 0, 0, 1], [0, 1, 0, 1, 0, 1, 0], [1, 0, 0, 1, 0, 1, 1]] := by decide +kernel
example : 1 ≤ 3 ∧ 3 ≤ 7 := by decide

end Komm
