import Verif.Lemmas.HuffmanCode

/-! C26, C27: Huffman codes. -/
namespace Komm

/-! ### C26 -/

/-- For every list of at least two probabilities (elements of any type with any `+`, `*` and `<`, in
particular floating-point numbers with ties, zeros and rounding), every block size, policy and assignment:
construction succeeds and gives one non-empty binary codeword per source block; the code is prefix-free,
fully covering and uniquely decodable. -/
theorem C26_huffman_complete_prefix {α : Type} [DecidableEq α] [Add α] [Mul α] [LT α] [DecidableLT α]
    (pmf : List α) (k : Nat) (policy : HuffmanPolicy) (assignment : HuffmanAssignment)
    (h2 : 2 ≤ pmf.length) (hk : 1 ≤ k) :
    ∃ c, huffmanCode pmf k policy assignment = some c ∧
      c.encMapping.map Prod.fst = allWords pmf.length k ∧
      (∀ w ∈ c.codewords, w ≠ [] ∧ ∀ a ∈ w, a < 2) ∧
      PrefixFree c.codewords ∧ FullyCovering c.codewords 2 ∧ UniquelyParsable c.codewords := by
  obtain ⟨c, h1, -, h3, h4, h5, h6, h7, h8, h9⟩ := huffmanCode_facts pmf k policy assignment h2 hk
  exact ⟨c, h1, h8, fun w hw => ⟨h5 w hw, h6 w hw⟩, h4, fullyCovering_of_kraft le_rfl h5 h4 h6 h7,
    UniquelyParsable.of_prefixFree h4 h5⟩

/-- The overridden `is_uniquely_decodable` and `is_prefix_free` (constant `True`) agree with the inherited
tests. -/
theorem C26_flags {α : Type} [DecidableEq α] [Add α] [Mul α] [LT α] [DecidableLT α]
    (pmf : List α) (k : Nat) (policy : HuffmanPolicy) (assignment : HuffmanAssignment)
    (h2 : 2 ≤ pmf.length) (hk : 1 ≤ k) :
    ∃ c, huffmanCode pmf k policy assignment = some c ∧ c.isUniquelyDecodable = some true ∧
      c.prefixFree = true := by
  obtain ⟨c, h1, -, h3, h4, h5, -⟩ := huffmanCode_facts pmf k policy assignment h2 hk
  exact ⟨c, h1, isUniquelyParsable_of_prefixFree h4 h5, (isPrefixFree_iff _).mpr h4⟩

/-- The assignment does not affect the codeword lengths. -/
theorem C26_assignment_lengths {α : Type} [DecidableEq α] [Add α] [Mul α] [LT α] [DecidableLT α]
    (pmf : List α) (policy : HuffmanPolicy) (h2 : 2 ≤ pmf.length) :
    ∃ cs cs', huffmanCodewords pmf policy .tree = some cs ∧ huffmanCodewords pmf policy .canonical = some cs' ∧
      cs.map List.length = cs'.map List.length := by
  obtain ⟨cs, h1, -, -, -, -, -, h7⟩ := huffmanCodewords_facts pmf policy .tree h2
  obtain ⟨cs', h1', -, -, -, -, -, h7'⟩ := huffmanCodewords_facts pmf policy .canonical h2
  exact ⟨cs, cs', h1, h1', h7.trans h7'.symm⟩

/-- Non-vacuity (the documented example of HuffmanCode.py). -/
example : (huffmanCode ([8/10, 1/10, 1/10] : List ℚ) 2 .high .tree).map FVCode.codewords =
    some [[0], [1, 0, 1], [1, 1, 0], [1, 1, 1], [1, 0, 0, 1, 0, 0], [1, 0, 0, 1, 0, 1], [1, 0, 0, 0],
      [1, 0, 0, 1, 1, 0], [1, 0, 0, 1, 1, 1]] := by decide +kernel
example : (huffmanCode ([8/10, 1/10, 1/10] : List ℚ) 2 .high .canonical).map FVCode.codewords =
    some [[0], [1, 0, 0], [1, 0, 1], [1, 1, 0], [1, 1, 1, 1, 0, 0], [1, 1, 1, 1, 0, 1], [1, 1, 1, 0],
      [1, 1, 1, 1, 1, 0], [1, 1, 1, 1, 1, 1]] := by decide +kernel
example : (huffmanCode ([4/10, 2/10, 2/10, 1/10, 1/10] : List ℚ) 1 .high .tree).map FVCode.codewords =
    some [[0, 0], [1, 0], [1, 1], [0, 1, 0], [0, 1, 1]] ∧
    (huffmanCode ([4/10, 2/10, 2/10, 1/10, 1/10] : List ℚ) 1 .low .tree).map FVCode.codewords =
    some [[1], [0, 1], [0, 0, 0], [0, 0, 1, 0], [0, 0, 1, 1]] := by decide +kernel

/-! ### C27 -/

/-- The expected length `∑ p(x) |w(x)|` of a list of codewords for a list of block probabilities. -/
def expectedLength (probabilities : List ℚ) (words : List Word) : ℚ :=
  (List.zipWith (fun (w : Word) (p : ℚ) => (w.length : ℚ) * p) words probabilities).sum

/-- For every non-negative pmf, block size, policy and assignment, the rate of the Huffman code is its
expected codeword length per source symbol, and no uniquely decodable binary code for the same blocks has a
smaller one. -/
theorem C27_huffman_optimal (pmf : List ℚ) (hp : ∀ x ∈ pmf, 0 ≤ x) (k : Nat) (policy : HuffmanPolicy)
    (assignment : HuffmanAssignment) (h2 : 2 ≤ pmf.length) (hk : 1 ≤ k) :
    ∃ c, huffmanCode pmf k policy assignment = some c ∧
      c.rate pmf = some (expectedLength (FVCode.blockProbabilities pmf k) c.codewords / k) ∧
      ∀ words : List Word, words.length = pmf.length ^ k → (∀ w ∈ words, ∀ a ∈ w, a < 2) →
        words.Nodup → UniquelyParsable words →
        expectedLength (FVCode.blockProbabilities pmf k) c.codewords ≤
          expectedLength (FVCode.blockProbabilities pmf k) words := by
  obtain ⟨c, h1, hcs, h3, h4, h5, h6, h7, h8, h9⟩ := huffmanCode_facts pmf k policy assignment h2 hk
  obtain ⟨j, rfl⟩ : ∃ j, k = j + 1 := ⟨k - 1, by omega⟩
  have hext := extendedPmf_eq pmf j
  have hlen := extendedPmf_length pmf j
  have hzip : ∀ words : List Word, expectedLength (extendedPmf pmf (j + 1)) words =
      (List.zipWith (fun (l : Nat) (p : ℚ) => (l : ℚ) * p) (words.map List.length)
        (extendedPmf pmf (j + 1))).sum := by
    intro words; unfold expectedLength; rw [List.zipWith_map_left]
  refine ⟨c, h1, ?_, ?_⟩
  · unfold FVCode.rate
    simp only
    rw [h9, ← hext, List.length_map, h3, hlen, if_neg (by simp), hzip]
  · intro words hw1 hw2 hw3 hw4
    rw [← hext, hzip, hzip]
    have h10 : 2 ≤ (extendedPmf pmf (j + 1)).length := by
      rw [hlen, pow_succ]
      have : 1 ≤ pmf.length ^ j := Nat.one_le_pow _ _ (by omega)
      nlinarith
    obtain ⟨cs, q1, -, -, -, -, -, q7⟩ := huffmanCodewords_facts (extendedPmf pmf (j + 1)) policy assignment h10
    rw [hcs] at q1
    rw [Option.some.inj q1, q7]
    refine huffman_optimal _ (by intro h; rw [h] at h10; simp at h10) ?_ policy _ (by
      rw [List.length_map, hw1, hlen]) ?_
    · rw [hext]
      have : ∀ n, ∀ x ∈ FVCode.blockProbabilities pmf n, 0 ≤ x := by
        intro n
        induction n with
        | zero => simp [FVCode.blockProbabilities]
        | succ n ih =>
          intro x hx
          obtain ⟨p, hpm, hx⟩ := List.mem_flatMap.mp hx
          obtain ⟨y, hy, rfl⟩ := List.mem_map.mp hx
          exact mul_nonneg (hp p hpm) (ih y hy)
      exact this (j + 1)
    · have := mcmillan (b := 2) (by norm_num) hw3 hw4 hw2
      exact_mod_cast this

/-- Non-vacuity: a pmf and a strictly worse uniquely decodable competitor. -/
example : (huffmanCode ([1/2, 1/4, 1/8, 1/8] : List ℚ) 1 .high .tree).map (fun c =>
    (expectedLength [1/2, 1/4, 1/8, 1/8] c.codewords, c.rate [1/2, 1/4, 1/8, 1/8])) = some (7/4, some (7/4)) ∧
    expectedLength [1/2, 1/4, 1/8, 1/8] [[0, 0], [0, 1], [1, 0], [1, 1]] = 2 ∧
    isUniquelyParsable [[0, 0], [0, 1], [1, 0], [1, 1]] = some true := by decide +kernel

end Komm
