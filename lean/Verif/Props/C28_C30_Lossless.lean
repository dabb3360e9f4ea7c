import Verif.Lemmas.Fano
import Verif.Lemmas.Shannon
import Verif.Lemmas.Tunstall

/-! C28, C29, C30: Fano, Shannon and Tunstall codes. -/
namespace Komm

/-! ### C28 -/

/-- For every list of at least two non-negative probabilities (zeros and ties included) and every block size,
construction terminates and succeeds, with one non-empty binary codeword per source block, and the code is
prefix-free, fully covering and uniquely decodable. -/
theorem C28_fano_complete_prefix (pmf : List ℚ) (hp : ∀ p ∈ pmf, 0 ≤ p) (k : Nat)
    (h2 : 2 ≤ pmf.length) (hk : 1 ≤ k) :
    ∃ c, fanoCode pmf k = some c ∧
      c.encMapping.map Prod.fst = allWords pmf.length k ∧
      (∀ w ∈ c.codewords, w ≠ [] ∧ ∀ a ∈ w, a < 2) ∧
      PrefixFree c.codewords ∧ FullyCovering c.codewords 2 ∧ UniquelyParsable c.codewords := by
  obtain ⟨j, rfl⟩ : ∃ j, k = j + 1 := ⟨k - 1, by omega⟩
  have hlenB := extendedPmf_length pmf j
  have hnn : ∀ n, ∀ x ∈ FVCode.blockProbabilities pmf n, 0 ≤ x := by
    intro n
    induction n with
    | zero => simp [FVCode.blockProbabilities]
    | succ n ih =>
      intro x hx
      obtain ⟨p, hpm, hx⟩ := List.mem_flatMap.mp hx
      obtain ⟨y, hy, rfl⟩ := List.mem_map.mp hx
      exact mul_nonneg (hp p hpm) (ih y hy)
  have hge : 2 ≤ pmf.length ^ (j + 1) := by
    calc 2 ≤ pmf.length := h2
      _ = pmf.length ^ 1 := (pow_one _).symm
      _ ≤ _ := Nat.pow_le_pow_right (by omega) (by omega)
  obtain ⟨ls, h1, hl, hl0, hkr⟩ := fanoLengths_spec (extendedPmf pmf (j + 1))
    (by rw [extendedPmf_eq]; exact hnn _) (by rw [hlenB]; exact hge)
  obtain ⟨cs, hcs⟩ := (canonicalCode_isSome_iff ls 2 le_rfl).mpr ⟨by
    rintro rfl; rw [hlenB] at hl; simp at hl; omega, hkr.le⟩
  obtain ⟨_, _, _, h3, h4, h5⟩ := canonicalCode_spec hcs
  have hlen : cs.length = pmf.length ^ (j + 1) := by
    rw [← hlenB, ← hl, ← h3, List.length_map]
  have hne : ∀ w ∈ cs, w ≠ [] := by
    rintro w hw rfl
    exact hl0 0 (by rw [← h3]; exact List.mem_map.mpr ⟨_, hw, rfl⟩) rfl
  obtain ⟨hc1, hc2, hc3⟩ := create_zip h2 le_rfl hk hlen h4
  refine ⟨⟨pmf.length, 2, j + 1, (allWords pmf.length (j + 1)).zip cs⟩, ?_, hc3, ?_⟩
  · unfold fanoCode
    rw [if_neg (by omega), h1]
    simp only [hcs]
    exact hc1
  · rw [hc2]
    exact ⟨fun w hw => ⟨hne w hw, h4 w hw⟩, h5, fullyCovering_of_kraft le_rfl hne h5 h4 (by rw [h3]; exact hkr),
      UniquelyParsable.of_prefixFree h5 hne⟩

/-- Non-vacuity (the documented examples of FanoCode.py, plus one with zeros and ties). -/
example : (fanoCode ([8/10, 1/10, 1/10] : List ℚ) 1).map FVCode.codewords = some [[0], [1, 0], [1, 1]] ∧
    (fanoCode ([8/10, 1/10, 1/10] : List ℚ) 2).map FVCode.codewords =
      some [[0], [1, 0, 0], [1, 0, 1], [1, 1, 0], [1, 1, 1, 1, 0, 0], [1, 1, 1, 1, 0, 1], [1, 1, 1, 0],
        [1, 1, 1, 1, 1, 0], [1, 1, 1, 1, 1, 1]] ∧
    (fanoCode ([0, 1/2, 0, 1/2, 0] : List ℚ) 1).isSome = true := by decide +kernel

/-! ### C29 -/

/-- For every strictly positive pmf with at least two symbols and every block size: construction succeeds,
each codeword has the length `max(1, ⌈log₂(1/p)⌉)` of its block probability, the code is prefix-free and
uniquely decodable, and its rate lies in `[H, H + 1/k)` (bits per source symbol). -/
theorem C29_shannon (pmf : List ℚ) (hp : ∀ p ∈ pmf, 0 < p) (hsum : pmf.sum = 1) (k : Nat)
    (h2 : 2 ≤ pmf.length) (hk : 1 ≤ k) :
    ∃ c r, shannonCode pmf k = some c ∧
      c.encMapping.map Prod.fst = allWords pmf.length k ∧
      (∀ w ∈ c.codewords, w ≠ [] ∧ ∀ a ∈ w, a < 2) ∧
      PrefixFree c.codewords ∧ UniquelyParsable c.codewords ∧
      c.rate pmf = some r ∧ entropyBits pmf ≤ (r : ℝ) ∧ (r : ℝ) < entropyBits pmf + 1 / k := by
  obtain ⟨c, h1, h3, h4, h5, h6, h7⟩ := shannonCode_spec pmf k hp hsum.le h2 hk
  have hpos := blockProbabilities_pos hp k
  have hBsum : (FVCode.blockProbabilities pmf k).sum = 1 := by rw [blockProbabilities_sum, hsum, one_pow]
  obtain ⟨j, rfl⟩ : ∃ j, k = j + 1 := ⟨k - 1, by omega⟩
  have hlenB : (FVCode.blockProbabilities pmf (j + 1)).length = pmf.length ^ (j + 1) := by
    rw [← extendedPmf_eq, extendedPmf_length]
  have hge : 2 ≤ (FVCode.blockProbabilities pmf (j + 1)).length := by
    rw [hlenB]
    calc 2 ≤ pmf.length := h2
      _ = pmf.length ^ 1 := (pow_one _).symm
      _ ≤ _ := Nat.pow_le_pow_right (by omega) (by omega)
  have hH := entropyBits_block pmf hp hsum (j + 1)
  generalize hB : FVCode.blockProbabilities pmf (j + 1) = B at *
  have hlt : ∀ p ∈ B, p < 1 := by
    intro p hpB
    obtain ⟨s, t, rfl⟩ := List.append_of_mem hpB
    have hs : ∀ l : List ℚ, (∀ x ∈ l, 0 < x) → l ≠ [] → 0 < l.sum := fun l hl hne => by
      exact List.sum_pos _ hl hne
    have hne : s ++ t ≠ [] := by
      intro hc
      have := congrArg List.length hc
      simp only [List.length_append, List.length_cons, List.length_nil] at this hge
      omega
    have hpos2 := hs (s ++ t) (fun x hx => hpos x (by
      rcases List.mem_append.mp hx with h | h
      · simp [h]
      · simp [h])) hne
    simp only [List.sum_append, List.sum_cons] at hBsum hpos2
    linarith
  obtain ⟨b1, b2⟩ := shannon_bounds B hpos
  have b2 := b2 hlt (by rintro rfl; simp at hge)
  rw [hH] at b1 b2
  rw [hBsum] at b2
  have hk0 : (0 : ℝ) < ((j + 1 : Nat) : ℝ) := by positivity
  refine ⟨c, (List.zipWith (fun (l : Nat) (p : ℚ) => (l : ℚ) * p) (B.map shannonLength) B).sum / ((j + 1 : Nat) : ℚ),
    h1, h6, h5, h4, UniquelyParsable.of_prefixFree h4 (fun w hw => (h5 w hw).1), ?_, ?_, ?_⟩
  · unfold FVCode.rate
    simp only
    rw [h7, hB, h3, if_neg (by simp)]
  · rw [Rat.cast_div, Rat.cast_natCast, le_div_iff₀ hk0]
    linarith
  · rw [Rat.cast_div, Rat.cast_natCast, div_lt_iff₀ hk0, add_mul, one_div_mul_cancel hk0.ne']
    rw [Rat.cast_one] at b2
    linarith

/-- Non-vacuity (documented examples of ShannonCode.py). -/
example : (shannonCode ([8/10, 1/10, 1/10] : List ℚ) 1).map FVCode.codewords =
      some [[0], [1, 0, 0, 0], [1, 0, 0, 1]] ∧
    (shannonCode ([8/10, 1/10, 1/10] : List ℚ) 1).map (fun c => c.rate [8/10, 1/10, 1/10]) =
      some (some (16/10)) := by decide +kernel

/-! ### C30 -/

/-- For every pmf with at least two symbols and every target block size `n` with at least as many words as
symbols, and whichever of the leaves is expanded in each round: construction succeeds, the sourcewords are
distinct non-empty words over the source alphabet, prefix-free and fully covering; there are at most `2ⁿ` of
them and the targets are the first `n`-bit words in lexicographic order. -/
theorem C30_tunstall_tree (pmf : List ℚ) (n : Nat) (hS : 2 ≤ pmf.length) (hn : pmf.length ≤ 2 ^ n)
    (choose : List TNode → Nat) (hc : ∀ heap, heap ≠ [] → choose heap < heap.length) :
    ∃ c, tunstallCode pmf n choose = some c ∧
      PrefixFree c.sourcewords ∧ FullyCovering c.sourcewords pmf.length ∧ c.sourcewords.Nodup ∧
      (∀ w ∈ c.sourcewords, w ≠ [] ∧ ∀ a ∈ w, a < pmf.length) ∧
      c.sourcewords.length ≤ 2 ^ n ∧
      c.decMapping.map Prod.fst = (allWords 2 n).take c.sourcewords.length := by
  obtain ⟨c, h1, -, h3, h4, h5, h6⟩ := tunstallCode_spec pmf n hS hn hc
  obtain ⟨r1, -, -⟩ := tunstallRounds_spec pmf.length n hS hn
  refine ⟨c, h1, ?_, h3.cov, ?_, fun w hw => ⟨h3.ne w hw, h3.sym w hw⟩, by omega, h5⟩
  · intro i j hi hj hij _ _
    have := List.pairwise_iff_getElem.mp h3.pw
    rcases Nat.lt_or_gt_of_ne hij with h | h
    · exact (this i j hi hj h).1
    · exact (this j i hj hi h).2
  · refine h3.pw.imp ?_
    rintro a b ⟨h, -⟩ rfl
    exact h (List.prefix_refl _)

/-- What holds of the claim "as many sourcewords as possible": at most one further expansion fits, and none
fits unless it fills the `2ⁿ` words exactly (the full claim would have `<` in the first conclusion and is
refuted by `C30_exact_fit_is_missed`). -/
theorem C30_tunstall_size_partial (pmf : List ℚ) (n : Nat) (hS : 2 ≤ pmf.length) (hn : pmf.length ≤ 2 ^ n)
    (choose : List TNode → Nat) (hc : ∀ heap, heap ≠ [] → choose heap < heap.length) :
    ∃ c, tunstallCode pmf n choose = some c ∧
      2 ^ n ≤ c.sourcewords.length + (pmf.length - 1) ∧
      (¬ (pmf.length - 1) ∣ (2 ^ n - pmf.length) → 2 ^ n < c.sourcewords.length + (pmf.length - 1)) := by
  obtain ⟨c, h1, -, h3, h4, h5, h6⟩ := tunstallCode_spec pmf n hS hn hc
  obtain ⟨-, r2, -⟩ := tunstallRounds_spec pmf.length n hS hn
  refine ⟨c, h1, by rw [h4]; linarith [Nat.add_mul (tunstallRounds pmf.length n) 1 (pmf.length - 1)], ?_⟩
  intro hnd
  rw [h4]
  rw [Nat.add_mul, Nat.one_mul] at r2
  rcases Nat.lt_or_eq_of_le r2 with h | h
  · omega
  · exact absurd ⟨tunstallRounds pmf.length n + 1, by
      rw [Nat.mul_add, Nat.mul_one, Nat.mul_comm]; omega⟩ hnd

/-- Finding: when expanding once more would fill the `2ⁿ` words exactly (always the case for a binary source),
the expansion is not made: two equiprobable symbols with `n = 2` get 3 sourcewords although 4 fit; the code
with the 4 sourcewords of length 2 has 2 source symbols per word instead of 3/2. -/
theorem C30_exact_fit_is_missed :
    (tunstallCode [1/2, 1/2] 2 firstMax).map (fun c => (c.sourcewords.length, c.sourcewords)) =
      some (3, [[0, 0], [0, 1], [1]]) ∧
    isFullyCovering [[0, 0], [0, 1], [1, 0], [1, 1]] 2 = true ∧
    isPrefixFree [[0, 0], [0, 1], [1, 0], [1, 1]] = true := by decide +kernel

/-- Non-vacuity (documented example of TunstallCode.py): the oracle is valid. -/
example : (tunstallCode [6/10, 3/10, 1/10] 3 firstMax).map VFCode.decMapping =
    some [([0, 0, 0], [0, 0, 0]), ([0, 0, 1], [0, 0, 1]), ([0, 1, 0], [0, 0, 2]), ([0, 1, 1], [0, 1]),
      ([1, 0, 0], [0, 2]), ([1, 0, 1], [1]), ([1, 1, 0], [2])] := by decide +kernel

end Komm
