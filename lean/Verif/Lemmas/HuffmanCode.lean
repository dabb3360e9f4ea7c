import Verif.Lemmas.HuffmanOpt

namespace Komm

theorem blockProbabilities_snoc (pmf : List ℚ) (k : Nat) :
    FVCode.blockProbabilities pmf (k + 1) =
      (FVCode.blockProbabilities pmf k).flatMap fun a => pmf.map fun p => a * p := by
  induction k with
  | zero => simp [FVCode.blockProbabilities, List.flatMap_singleton']
  | succ k ih =>
    rw [show FVCode.blockProbabilities pmf (k + 1 + 1) =
      pmf.flatMap fun p => (FVCode.blockProbabilities pmf (k + 1)).map (p * ·) from rfl, ih]
    rw [← ih, show FVCode.blockProbabilities pmf (k + 1) =
      pmf.flatMap fun p => (FVCode.blockProbabilities pmf k).map (p * ·) from rfl, List.flatMap_assoc]
    rw [show (pmf.flatMap fun p => (FVCode.blockProbabilities pmf k).map (p * ·)) =
      FVCode.blockProbabilities pmf (k + 1) from rfl, ih]
    congr 1
    funext p
    rw [List.map_flatMap, List.flatMap_map]
    congr 1
    funext a
    rw [List.map_map]
    congr 1
    funext b
    simp [mul_assoc]

theorem extendedPmf_eq (pmf : List ℚ) (k : Nat) : extendedPmf pmf (k + 1) = FVCode.blockProbabilities pmf (k + 1) := by
  induction k with
  | zero => simp [extendedPmf, FVCode.blockProbabilities, List.flatMap_singleton']
  | succ k ih => rw [extendedPmf, ih, blockProbabilities_snoc pmf (k + 1)]

theorem extendedPmf_length {α : Type} [Mul α] (pmf : List α) (k : Nat) :
    (extendedPmf pmf (k + 1)).length = pmf.length ^ (k + 1) := by
  induction k with
  | zero => simp [extendedPmf]
  | succ k ih =>
    rw [extendedPmf, List.length_flatMap]
    simp [ih, pow_succ]

section
variable {α : Type} [DecidableEq α] [Add α] [LT α] [DecidableLT α]

theorem treeCodewords_length (pmf : List α) (policy : HuffmanPolicy) :
    (treeCodewords (huffmanTree pmf policy) pmf.length).length = pmf.length := by
  simp [treeCodewords]

/-- The list of tree codewords is a permutation of the path words; positions carry the leaf numbers. -/
theorem treeCodewords_perm (pmf : List α) (policy : HuffmanPolicy) (T : HT)
    (hl : T.leaves.Perm (List.range pmf.length))
    (hp : ∀ e ∈ T.paths, (treeCodewords (huffmanTree pmf policy) pmf.length)[e.1]? = some e.2) :
    (T.paths.map Prod.snd).Perm (treeCodewords (huffmanTree pmf policy) pmf.length) := by
  generalize hcs : treeCodewords (huffmanTree pmf policy) pmf.length = cs at *
  have hlen : cs.length = pmf.length := by rw [← hcs]; exact treeCodewords_length pmf policy
  have h1 : T.paths.map Prod.snd = T.leaves.map fun i => cs.getD i [] := by
    rw [HT.leaves, List.map_map]
    apply List.map_congr_left
    intro e he
    have := hp e he
    simp [List.getD_eq_getElem?_getD, this]
  rw [h1]
  refine (hl.map _).trans ?_
  have h2 : (List.range pmf.length).map (fun i => cs.getD i []) = cs := by
    apply List.ext_getElem (by simp [hlen])
    intro i h3 h4
    simp [List.getD_eq_getElem?_getD, h4]
  rw [h2]

theorem HT.paths_nonempty_of_two (T : HT) (h : 2 ≤ T.leaves.length) : ∀ e ∈ T.paths, e.2 ≠ [] := by
  cases T with
  | leaf i => simp [HT.leaves, HT.paths] at h
  | node i l r =>
    intro e he
    rw [HT.paths, List.mem_append] at he
    rcases he with he | he <;> obtain ⟨x, _, rfl⟩ := List.mem_map.mp he <;> simp

theorem prefixFree_of_perm {l l' : List Word} (h : l.Perm l')
    (hp : l.Pairwise fun a b => ¬ a <+: b ∧ ¬ b <+: a) : PrefixFree l' := by
  have h2 : l'.Pairwise fun a b => ¬ a <+: b ∧ ¬ b <+: a :=
    (h.pairwise_iff (fun {a b} h => ⟨h.2, h.1⟩)).mp hp
  rw [List.pairwise_iff_getElem] at h2
  intro i j hi hj hij _ _
  rcases Nat.lt_or_gt_of_ne hij with hlt | hgt
  · exact (h2 i j hi hj hlt).1
  · exact (h2 j i hj hi hgt).2

/-- Facts about the tree codewords, for at least two symbols. -/
theorem treeCodewords_facts (pmf : List α) (policy : HuffmanPolicy) (h2 : 2 ≤ pmf.length) :
    ∃ cs, cs = treeCodewords (huffmanTree pmf policy) pmf.length ∧ cs.length = pmf.length ∧ PrefixFree cs ∧
      (∀ w ∈ cs, w ≠ []) ∧ (∀ w ∈ cs, ∀ a ∈ w, a < 2) ∧ kraftSum (cs.map List.length) 2 = 1 ∧
      treeLengths (huffmanTree pmf policy) pmf.length = cs.map List.length := by
  have hne : pmf ≠ [] := by rintro rfl; simp at h2
  obtain ⟨T, _, hl, hp, hlen⟩ := treeCodewords_spec pmf policy hne
  have hperm := treeCodewords_perm pmf policy T hl hp
  have hnon := T.paths_nonempty_of_two (by rw [hl.length_eq]; simpa using h2)
  have hnon' : ∀ w ∈ treeCodewords (huffmanTree pmf policy) pmf.length, w ≠ [] := by
    intro w hw
    obtain ⟨e, he, rfl⟩ := List.mem_map.mp (hperm.symm.subset hw)
    exact hnon e he
  refine ⟨_, rfl, treeCodewords_length _ _, ?_, hnon', ?_, ?_, hlen⟩
  · apply prefixFree_of_perm hperm
    rw [List.pairwise_map]; exact T.paths_pairwise
  · intro w hw
    obtain ⟨e, he, rfl⟩ := List.mem_map.mp (hperm.symm.subset hw)
    exact T.paths_bits e he
  · rw [kraftSum_pos (by
      intro x hx
      obtain ⟨w, hw, rfl⟩ := List.mem_map.mp hx
      simpa using hnon' w hw), ← ((hperm.map List.length).map _).sum_eq, List.map_map, List.map_map]
    exact T.paths_kraft

theorem huffmanCodewords_facts (pmf : List α) (policy : HuffmanPolicy) (assignment : HuffmanAssignment)
    (h2 : 2 ≤ pmf.length) :
    ∃ cs, huffmanCodewords pmf policy assignment = some cs ∧ cs.length = pmf.length ∧ PrefixFree cs ∧
      (∀ w ∈ cs, w ≠ []) ∧ (∀ w ∈ cs, ∀ a ∈ w, a < 2) ∧ kraftSum (cs.map List.length) 2 = 1 ∧
      cs.map List.length = (treeCodewords (huffmanTree pmf policy) pmf.length).map List.length := by
  obtain ⟨cs, rfl, hl, hpf, hnon, hbin, hk, hlen⟩ := treeCodewords_facts pmf policy h2
  cases assignment with
  | tree => exact ⟨_, rfl, hl, hpf, hnon, hbin, hk, rfl⟩
  | canonical =>
    obtain ⟨cs, hcs⟩ := (canonicalCode_isSome_iff
      (treeLengths (huffmanTree pmf policy) pmf.length) 2 le_rfl).mpr ⟨by
        rw [hlen]; intro h
        have := congrArg List.length h
        rw [List.length_map, hl, List.length_nil] at this; omega, by rw [hlen, hk]⟩
    obtain ⟨_, _, _, h3, h4, h5⟩ := canonicalCode_spec hcs
    have h6 : cs.length = pmf.length := by
      have := congrArg List.length h3
      rw [hlen] at this
      simpa [hl] using this
    refine ⟨cs, hcs, h6, h5, ?_, h4, by rw [h3, hlen, hk], by rw [h3, hlen]⟩
    intro w hw h0
    have : w.length ∈ (treeCodewords (huffmanTree pmf policy) pmf.length).map List.length := by
      rw [← hlen, ← h3]; exact List.mem_map_of_mem hw
    obtain ⟨v, hv, hvl⟩ := List.mem_map.mp this
    exact hnon v hv (List.length_eq_zero_iff.mp (by rw [hvl, h0]; rfl))

theorem create_zip {S b k : Nat} {cs : List Word} (hS : 2 ≤ S) (hb : 2 ≤ b) (hk : 1 ≤ k) (hlen : cs.length = S ^ k)
    (hbin : ∀ w ∈ cs, ∀ a ∈ w, a < b) :
    FVCode.create S b k (dictOfPairs ((allWords S k).zip cs)) = some ⟨S, b, k, (allWords S k).zip cs⟩ ∧
      FVCode.codewords ⟨S, b, k, (allWords S k).zip cs⟩ = cs ∧
      (FVCode.encMapping ⟨S, b, k, (allWords S k).zip cs⟩).map Prod.fst = allWords S k := by
  have hl : (allWords S k).length = cs.length := by rw [allWords_length, hlen]
  have h1 : ((allWords S k).zip cs).map Prod.fst = allWords S k := List.map_fst_zip hl.le
  refine ⟨?_, List.map_snd_zip hl.ge, h1⟩
  rw [dictOfPairs_nodup _ (by rw [h1]; exact allWords_nodup _ _)]
  unfold FVCode.create
  rw [if_neg (by omega), if_neg (by omega), if_neg (by omega), if_neg (by rw [not_not, h1]), if_neg]
  rw [not_not]
  intro e he
  exact hbin e.2 (List.of_mem_zip he).2

theorem huffmanCode_facts [Mul α] (pmf : List α) (k : Nat) (policy : HuffmanPolicy)
    (assignment : HuffmanAssignment) (h2 : 2 ≤ pmf.length) (hk : 1 ≤ k) :
    ∃ c, huffmanCode pmf k policy assignment = some c ∧
      huffmanCodewords (extendedPmf pmf k) policy assignment = some c.codewords ∧
      c.codewords.length = pmf.length ^ k ∧ PrefixFree c.codewords ∧
      (∀ w ∈ c.codewords, w ≠ []) ∧ (∀ w ∈ c.codewords, ∀ a ∈ w, a < 2) ∧
      kraftSum (c.codewords.map List.length) 2 = 1 ∧
      c.encMapping.map Prod.fst = allWords pmf.length k ∧ c.sourceBlockSize = k := by
  obtain ⟨k, rfl⟩ : ∃ j, k = j + 1 := ⟨k - 1, by omega⟩
  have hlen := extendedPmf_length pmf k
  have h3 : 2 ≤ (extendedPmf pmf (k + 1)).length := by
    rw [hlen, pow_succ]
    have : 1 ≤ pmf.length ^ k := Nat.one_le_pow _ _ (by omega)
    nlinarith
  obtain ⟨cs, hcs, hl, hpf, hnon, hbin, hkr, _⟩ := huffmanCodewords_facts _ policy assignment h3
  rw [hlen] at hl
  obtain ⟨hc1, hc2, hc3⟩ := create_zip h2 le_rfl hk hl hbin
  refine ⟨⟨pmf.length, 2, k + 1, (allWords pmf.length (k + 1)).zip cs⟩, ?_, ?_⟩
  · unfold huffmanCode
    rw [if_neg (by omega), hcs]
    exact hc1
  · rw [hc2]
    exact ⟨hcs, hl, hpf, hnon, hbin, hkr, hc3, rfl⟩

end

/-! ### optimality -/

theorem zipWith_sum_eq_range (pmf : List ℚ) (ls : List Nat) (h : ls.length = pmf.length) :
    (List.zipWith (fun (l : Nat) (p : ℚ) => (l : ℚ) * p) ls pmf).sum =
      ((List.range pmf.length).map fun i => pmf.getD i 0 * (ls.getD i 0 : ℚ)).sum := by
  congr 1
  apply List.ext_getElem (by simp [h])
  intro i h1 h2
  simp only [List.length_map, List.length_range] at h2
  simp [List.getD_eq_getElem?_getD, h2, h ▸ h2, mul_comm]

theorem huffman_optimal (pmf : List ℚ) (hne : pmf ≠ []) (hp : ∀ x ∈ pmf, 0 ≤ x) (policy : HuffmanPolicy)
    (ls : List Nat) (hls : ls.length = pmf.length) (hk : (ls.map fun l => (1 : ℚ) / 2 ^ l).sum ≤ 1) :
    (List.zipWith (fun (l : Nat) (p : ℚ) => (l : ℚ) * p)
      ((treeCodewords (huffmanTree pmf policy) pmf.length).map List.length) pmf).sum ≤
    (List.zipWith (fun (l : Nat) (p : ℚ) => (l : ℚ) * p) ls pmf).sum := by
  obtain ⟨T, hm, hl, hpath, -⟩ := treeCodewords_spec pmf policy hne
  have hcl := treeCodewords_length pmf policy
  generalize hcs : treeCodewords (huffmanTree pmf policy) pmf.length = cs at *
  set p : Nat → ℚ := fun i => pmf.getD i (pmf.head hne) with hpdef
  have hp0 : ∀ i, 0 ≤ p i := by
    intro i
    rw [hpdef]
    simp only [List.getD_eq_getElem?_getD]
    cases hi : pmf[i]? with
    | none => exact hp _ (List.head_mem hne)
    | some x => exact hp x (List.mem_of_getElem? hi)
  have hopt := hm.optimal hp0 ((List.range pmf.length).map fun i => (HT.leaf i, ls.getD i 0)) (by
      rw [List.map_map]; exact List.Perm.refl _) (by
      unfold kr
      rw [List.map_map]
      refine le_trans (le_of_eq ?_) hk
      congr 1
      apply List.ext_getElem (by simp [hls])
      intro i h1 h2
      simp at h2
      simp [List.getD_eq_getElem?_getD, h2])
  have hleft : T.cost p =
      (List.zipWith (fun (l : Nat) (p : ℚ) => (l : ℚ) * p) (cs.map List.length) pmf).sum := by
    rw [zipWith_sum_eq_range _ _ (by simp [hcl]), HT.cost]
    have h1 : (T.paths.map fun e => p e.1 * (e.2.length : ℚ)) =
        T.leaves.map fun i => pmf.getD i 0 * ((cs.map List.length).getD i 0 : ℚ) := by
      rw [HT.leaves, List.map_map]
      apply List.map_congr_left
      intro e he
      have h2 := hpath e he
      have h3 : e.1 < pmf.length := List.mem_range.mp (hl.subset (List.mem_map_of_mem he))
      simp [hpdef, List.getD_eq_getElem?_getD, h2, h3]
    rw [h1, (hl.map _).sum_eq]
  have hright : (((List.range pmf.length).map HT.leaf).map fun T => T.cost p).sum +
      co (fun T : HT => T.wt p) ((List.range pmf.length).map fun i => (HT.leaf i, ls.getD i 0)) =
      (List.zipWith (fun (l : Nat) (p : ℚ) => (l : ℚ) * p) ls pmf).sum := by
    rw [zipWith_sum_eq_range _ _ hls]
    have h1 : (((List.range pmf.length).map HT.leaf).map fun T => T.cost p).sum = 0 := by
      rw [List.map_map]
      simp [Function.comp_def, HT.cost, HT.paths]
    rw [h1, zero_add, co, List.map_map]
    congr 1
    apply List.map_congr_left
    intro i hi
    have h3 : i < pmf.length := List.mem_range.mp hi
    simp [HT.wt, hpdef, List.getD_eq_getElem?_getD, h3]
  rw [← hleft, ← hright]
  exact hopt

end Komm
