import Verif.Lemmas.Polar
import Verif.Props.C41_C48_BlockCodes

/-! C55: polar codes. -/
namespace Komm

variable {mu : Nat} {frozen : List Nat}

/-- `PolarCode(mu, frozen)` is accepted exactly for `mu >= 1` and distinct frozen indices below `2^mu`. -/
theorem C55_accepts : (polarCode mu frozen).isSome ↔ 1 ≤ mu ∧ (∀ i ∈ frozen, i < 2 ^ mu) ∧ frozen.Nodup := by
  obtain ⟨c, h1, -, -⟩ := C41_generator (polarGenerator mu frozen) polar_independent
  have hd : frozen.length = frozen.dedup.length ↔ frozen.Nodup := by
    constructor
    · intro h
      rw [← (List.dedup_sublist frozen).eq_of_length h.symm]
      exact List.nodup_dedup _
    · intro h; rw [h.dedup]
  rw [polarCode, h1, ← hd]
  by_cases a : mu ≥ 1
  · by_cases b : ∀ i ∈ frozen, i < 2 ^ mu
    · by_cases d : frozen.length = frozen.dedup.length
      · rw [if_neg (by omega), if_neg (by simpa using b), if_neg (by simpa using d)]; simp [d]; exact ⟨a, b⟩
      · rw [if_neg (by omega), if_neg (by simpa using b), if_pos d]; simp [d]
    · rw [if_neg (by omega), if_pos b]; simp only [Option.isSome_none, Bool.false_eq_true, false_iff]
      exact fun h => b h.2.1
  · rw [if_pos a]; simp only [Option.isSome_none, Bool.false_eq_true, false_iff]; omega

/-- An accepted polar code has length `2^mu`, redundancy `|frozen|`, dimension `2^mu - |frozen|`, and is a consistent
linear code whose `encode` (the butterfly) is multiplication by its generator matrix. -/
theorem C55_lawful (hmu : 1 ≤ mu) (hlt : ∀ i ∈ frozen, i < 2 ^ mu) (hnd : frozen.Nodup) :
    ∃ c, polarCode mu frozen = some c ∧ c.Lawful ∧
      (polarActive mu frozen).length + frozen.length = 2 ^ mu ∧
      (∀ u j, c.encode u j = ∑ i, u i * polarHadamard mu (polarActive mu frozen)[i] j) ∧
      ∀ u, c.inverseEncode (c.encode u) = some u := by
  obtain ⟨c, h1, h2, h3⟩ := C41_generator (polarGenerator mu frozen) polar_independent
  have henc : c.encode = fun u => polarTransform mu (polarScatter mu frozen u) := by
    funext u j
    rw [h3.encode_eq, h2, polar_encode_eq]
  have hc : { c with encode := fun u => polarTransform mu (polarScatter mu frozen u) } = c := by
    rw [← henc]
  refine ⟨c, ?_, h3, ?_, ?_, (C41_inverse_encode c h3).1⟩
  · rw [polarCode, if_neg (by omega), if_neg (by simpa using hlt), if_neg (by rw [hnd.dedup]; simp), h1, Option.map_some,
      hc]
  · have h : (polarActive mu frozen ++ frozen).Perm (List.range (2 ^ mu)) := by
      rw [List.perm_ext_iff_of_nodup _ List.nodup_range]
      · intro i
        simp only [polarActive, List.mem_append, List.mem_filter, List.mem_range, decide_eq_true_eq]
        constructor
        · rintro (h | h)
          · exact h.1
          · exact hlt i h
        · intro h
          by_cases hi : i ∈ frozen
          · exact Or.inr hi
          · exact Or.inl ⟨h, hi⟩
      · rw [List.nodup_append]
        refine ⟨polarActive_nodup frozen, hnd, ?_⟩
        rintro a ha b hb rfl
        simp only [polarActive, List.mem_filter, decide_eq_true_eq] at ha
        exact ha.2 hb
    simpa using h.length_eq
  · intro u j
    rw [h3.encode_eq, h2]
    rfl

open Classical in
/-- The Kronecker power: entry `(i, j)` is one exactly when every binary digit of `j` is a digit of `i`. -/
theorem C55_kernel (i j : Fin (2 ^ mu)) :
    polarHadamard mu i j = if ∀ b, (j : Nat).testBit b = true → (i : Nat).testBit b = true then 1 else 0 :=
  polarHadamard_eq mu i j i.2 j.2

/-- The butterfly is the full Kronecker-power transform, and an involution. -/
theorem C55_transform (v : BVec (2 ^ mu)) :
    (∀ j, polarTransform mu v j = ∑ x, v x * polarHadamard mu x j) ∧ polarTransform mu (polarTransform mu v) = v :=
  ⟨polarTransform_eq v, polarTransform_invol v⟩

/-- Hence the message is read off the active positions of the transform of the codeword, whose frozen positions are
zero. -/
theorem C55_recover (hmu : 1 ≤ mu) (hlt : ∀ i ∈ frozen, i < 2 ^ mu) (hnd : frozen.Nodup) :
    ∃ c, polarCode mu frozen = some c ∧ ∀ u,
      (∀ i : Fin (polarActive mu frozen).length,
        vget (polarTransform mu (c.encode u)) (polarActive mu frozen)[i] = u i) ∧
      ∀ j ∈ frozen, vget (polarTransform mu (c.encode u)) j = 0 := by
  obtain ⟨c, h1, -, -⟩ := C41_generator (polarGenerator mu frozen) polar_independent
  refine ⟨_, by rw [polarCode, if_neg (by omega), if_neg (by simpa using hlt), if_neg (by rw [hnd.dedup]; simp), h1,
    Option.map_some], fun u => ?_⟩
  simp only [polarTransform_invol]
  constructor
  · intro i
    rw [vget, dif_pos (polarActive_lt i), polarScatter_active]
  · intro j hj
    rw [vget, dif_pos (hlt j hj), polarScatter_frozen u _ hj]

/-- The documented example `PolarCode(4, [0, 1, 2, 3, 4, 8])`. -/
example : (polarActive 4 [0, 1, 2, 3, 4, 8]).length = 10 := by decide +kernel
example : (List.finRange _).map (fun i => List.ofFn (polarGenerator 4 [0, 1, 2, 3, 4, 8] i)) =
    [[1, 1, 0, 0, 1, 1, 0, 0, 0, 0, 0, 0, 0, 0, 0, 0],
     [1, 0, 1, 0, 1, 0, 1, 0, 0, 0, 0, 0, 0, 0, 0, 0],
     [1, 1, 1, 1, 1, 1, 1, 1, 0, 0, 0, 0, 0, 0, 0, 0],
     [1, 1, 0, 0, 0, 0, 0, 0, 1, 1, 0, 0, 0, 0, 0, 0],
     [1, 0, 1, 0, 0, 0, 0, 0, 1, 0, 1, 0, 0, 0, 0, 0],
     [1, 1, 1, 1, 0, 0, 0, 0, 1, 1, 1, 1, 0, 0, 0, 0],
     [1, 0, 0, 0, 1, 0, 0, 0, 1, 0, 0, 0, 1, 0, 0, 0],
     [1, 1, 0, 0, 1, 1, 0, 0, 1, 1, 0, 0, 1, 1, 0, 0],
     [1, 0, 1, 0, 1, 0, 1, 0, 1, 0, 1, 0, 1, 0, 1, 0],
     [1, 1, 1, 1, 1, 1, 1, 1, 1, 1, 1, 1, 1, 1, 1, 1]] := by decide +kernel
example : 1 ≤ 4 ∧ (∀ i ∈ [0, 1, 2, 3, 4, 8], i < 2 ^ 4) ∧ [0, 1, 2, 3, 4, 8].Nodup := by decide
example : (polarCode 2 [0, 0]).isSome = false ∧ (polarCode 2 [4]).isSome = false ∧ (polarCode 0 []).isSome = false := by
  refine ⟨?_, ?_, ?_⟩ <;> (rw [Bool.eq_false_iff, Ne, C55_accepts]; decide)

end Komm
