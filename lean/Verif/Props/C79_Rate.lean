import Verif.Lemmas.HuffmanCode
import Verif.Lemmas.Tunstall

/-! C79: the expected rate of a fixed-to-variable code. -/
namespace Komm

/-- The probability of a block of independent symbols with distribution `pmf`. -/
def blockProb (pmf : List ℚ) (block : Word) : ℚ := (block.map fun x => pmf.getD x 0).prod

/-- The expected number of code symbols per source symbol: `(1/k) ∑ P(block) |codeword(block)|` over the
entries of the encoding table. -/
def expectedRate (c : FVCode) (pmf : List ℚ) : ℚ :=
  (c.encMapping.map fun e => blockProb pmf e.1 * e.2.length).sum / c.sourceBlockSize

theorem blockProbabilities_eq_map (pmf : List ℚ) (k : Nat) :
    FVCode.blockProbabilities pmf k = (allWords pmf.length k).map (blockProb pmf) := by
  induction k with
  | zero => simp [FVCode.blockProbabilities, allWords, blockProb]
  | succ k ih =>
    rw [FVCode.blockProbabilities, allWords, List.map_flatMap, ih]
    have h : pmf = (List.range pmf.length).map fun i => pmf.getD i 0 := by
      apply List.ext_getElem (by simp)
      intro i h1 h2
      simp [h1]
    conv_lhs => rw [h, List.flatMap_map]
    simp only [List.length_map, List.length_range]
    apply List.flatMap_congr
    intro a _
    rw [List.map_map, List.map_map]
    apply List.map_congr_left
    intro w _
    rw [← h]
    simp [blockProb]

/-- If the encoding table lists the source blocks in lexicographic order (as `from_codewords`, `from_lengths`,
Huffman, Fano and Shannon codes do), `rate` is the expected number of code symbols per source symbol, for
every pmf.  (The full property asks this for every accepted table and is refuted by `C79_order_matters`.) -/
theorem C79_rate_lexicographic_partial (c : FVCode) (pmf : List ℚ)
    (h : c.encMapping.map Prod.fst = allWords pmf.length c.sourceBlockSize) :
    c.rate pmf = some (expectedRate c pmf) := by
  unfold FVCode.rate expectedRate
  simp only
  rw [blockProbabilities_eq_map, ← h, if_neg (by simp [FVCode.codewords])]
  congr 2
  simp only [FVCode.codewords, List.map_map, List.zipWith_map, Function.comp]
  congr 1
  generalize c.encMapping = l
  induction l with
  | nil => rfl
  | cons e l ih => simp only [List.zipWith_cons_cons, List.map_cons, ih]; rw [mul_comm]

/-- Finding: `from_enc_mapping({(1,): (1,1), (0,): (0,)})` is accepted but its `rate` pairs the length of the
codeword of symbol 1 with the probability of symbol 0. -/
theorem C79_order_matters :
    ∃ c, FVCode.create 2 2 1 [([1], [1, 1]), ([0], [0])] = some c ∧
      c.rate [9/10, 1/10] = some (19/10) ∧ expectedRate c [9/10, 1/10] = 11/10 :=
  ⟨⟨2, 2, 1, [([1], [1, 1]), ([0], [0])]⟩, by decide +kernel, by decide +kernel, by decide +kernel⟩

/-- Non-vacuity: the table of a Huffman code is in lexicographic order. -/
example : ∃ c, huffmanCode ([1/2, 1/4, 1/4] : List ℚ) 2 .high .tree = some c ∧
    c.encMapping.map Prod.fst = allWords 3 c.sourceBlockSize := by
  obtain ⟨c, h1, -, -, -, -, -, -, h8, h9⟩ :=
    huffmanCode_facts ([1/2, 1/4, 1/4] : List ℚ) 2 .high .tree (by simp) (by simp)
  exact ⟨c, h1, by rw [h9]; exact h8⟩

/-- The oracle used in the Tunstall examples is valid. -/
theorem firstMax_valid : ∀ heap : List TNode, heap ≠ [] → firstMax heap < heap.length := by
  have aux : ∀ (l : List TNode) (best : ℚ) (bi next : Nat), bi < next →
      firstMaxFrom best bi next l < next + l.length := by
    intro l
    induction l with
    | nil => intro best bi next h; simpa [firstMaxFrom] using h
    | cons v l ih =>
      intro best bi next h
      simp only [firstMaxFrom, List.length_cons]
      split
      · have := ih v.2 next (next + 1) (by omega); omega
      · have := ih best bi (next + 1) (by omega); omega
  intro heap hne
  cases heap with
  | nil => exact absurd rfl hne
  | cons v l => have := aux l v.2 0 1 (by omega); simp only [firstMax, List.length_cons]; omega

end Komm
