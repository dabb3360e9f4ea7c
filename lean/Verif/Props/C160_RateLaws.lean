import Verif.Props.C26_C27_Huffman
import Verif.Props.C128_FanoRate

/-! C160: laws of the rates of Huffman codes. -/
namespace Komm
namespace RateLaws

theorem el_cons (p : ℚ) (ps : List ℚ) (w : Word) (ws : List Word) :
    expectedLength (p :: ps) (w :: ws) = w.length * p + expectedLength ps ws := by
  simp [expectedLength]

theorem el_append (ps ps' : List ℚ) (ws ws' : List Word) (h : ps.length = ws.length) :
    expectedLength (ps ++ ps') (ws ++ ws') = expectedLength ps ws + expectedLength ps' ws' := by
  unfold expectedLength
  rw [List.zipWith_append h.symm, List.sum_append]

theorem el_perm {ps ps' : List ℚ} (h : ps.Perm ps') : ∀ ws : List Word, ws.length = ps.length →
    ∃ ws', ws.Perm ws' ∧ expectedLength ps ws = expectedLength ps' ws' := by
  induction h with
  | nil => exact fun ws _ => ⟨ws, .rfl, rfl⟩
  | @cons x l₁ l₂ h ih =>
    intro ws hw
    cases ws with
    | nil => simp at hw
    | cons w ws =>
      obtain ⟨ws', h1, h2⟩ := ih ws (by simpa using hw)
      exact ⟨w :: ws', h1.cons _, by rw [el_cons, el_cons, h2]⟩
  | swap x y l =>
    intro ws hw
    match ws with
    | [] => simp at hw
    | [_] => simp at hw
    | a :: b :: ws => exact ⟨b :: a :: ws, .swap _ _ _, by rw [el_cons, el_cons, el_cons, el_cons]; ring⟩
  | trans h₁ h₂ ih₁ ih₂ =>
    intro ws hw
    obtain ⟨ws₁, p1, e1⟩ := ih₁ ws hw
    obtain ⟨ws₂, p2, e2⟩ := ih₂ ws₁ (by rw [← p1.length_eq, hw, h₁.length_eq])
    exact ⟨ws₂, p1.trans p2, e1.trans e2⟩

theorem bp_length (pmf : List ℚ) (k : ℕ) : (FVCode.blockProbabilities pmf k).length = pmf.length ^ k := by
  induction k with
  | zero => simp [FVCode.blockProbabilities]
  | succ k ih => simp [FVCode.blockProbabilities, ih, pow_succ']

theorem bp_perm {pmf pmf' : List ℚ} (h : pmf.Perm pmf') (k : ℕ) :
    (FVCode.blockProbabilities pmf k).Perm (FVCode.blockProbabilities pmf' k) := by
  induction k with
  | zero => exact .rfl
  | succ k ih =>
    exact (h.flatMap_right _).trans (List.Perm.flatMap_left _ fun a _ => ih.map _)

theorem bp_add (pmf : List ℚ) (a b : ℕ) : FVCode.blockProbabilities pmf (a + b) =
    (FVCode.blockProbabilities pmf a).flatMap fun p => (FVCode.blockProbabilities pmf b).map (p * ·) := by
  induction a with
  | zero => simp [FVCode.blockProbabilities]
  | succ a ih =>
    rw [Nat.succ_add, FVCode.blockProbabilities, FVCode.blockProbabilities, List.flatMap_assoc]
    congr 1
    funext p
    rw [ih, List.map_flatMap, List.flatMap_map]
    congr 1
    funext q
    rw [List.map_map]
    congr 1
    funext r
    simp [mul_assoc]

/-- all concatenations of a word of the first list with a word of the second -/
def prod (A B : List Word) : List Word := A.flatMap fun a => B.map (a ++ ·)

theorem prod_length (A B : List Word) : (prod A B).length = A.length * B.length := by
  simp [prod]

theorem el_map (p : ℚ) (a : Word) : ∀ (ps : List ℚ) (B : List Word), ps.length = B.length →
    expectedLength (ps.map (p * ·)) (B.map (a ++ ·)) = p * (a.length * ps.sum + expectedLength ps B)
  | [], [], _ => by simp [expectedLength]
  | q :: ps, w :: B, h => by
    rw [List.map_cons, List.map_cons, el_cons, el_cons, el_map p a ps B (by simpa using h), List.sum_cons, List.length_append]
    push_cast; ring
  | [], _ :: _, h => by simp at h
  | _ :: _, [], h => by simp at h

theorem el_prod (ps : List ℚ) (B : List Word) (hB : ps.length = B.length) : ∀ (qs : List ℚ) (A : List Word), qs.length = A.length →
    expectedLength (qs.flatMap fun q => ps.map (q * ·)) (prod A B) = expectedLength qs A * ps.sum + qs.sum * expectedLength ps B
  | [], [], _ => by simp [expectedLength, prod]
  | q :: qs, w :: A, h => by
    have := el_prod ps B hB qs A (by simpa using h)
    rw [prod, List.flatMap_cons, List.flatMap_cons, el_append _ _ _ _ (by simpa using hB), el_map q w ps B hB, ← prod, this, el_cons, List.sum_cons]
    ring
  | [], _ :: _, h => by simp at h
  | _ :: _, [], h => by simp at h

theorem pf_key {words : List Word} (h : PrefixFree words) (hne : ∀ w ∈ words, w ≠ []) {a b : Word} (ha : a ∈ words) (hb : b ∈ words) (hab : a <+: b) : a = b := by
  obtain ⟨i, hi, rfl⟩ := List.mem_iff_getElem.mp ha
  obtain ⟨j, hj, rfl⟩ := List.mem_iff_getElem.mp hb
  by_cases hij : i = j
  · subst hij; rfl
  · exact absurd hab (h i j hi hj hij (hne _ ha) (hne _ hb))

theorem prod_key {A B : List Word} (hA : PrefixFree A) (hAn : ∀ w ∈ A, w ≠ []) (hB : PrefixFree B) (hBn : ∀ w ∈ B, w ≠ [])
    {a a' b b' : Word} (ha : a ∈ A) (ha' : a' ∈ A) (hb : b ∈ B) (hb' : b' ∈ B) (h : a ++ b <+: a' ++ b') : a = a' ∧ b = b' := by
  have h1 : a <+: a' ++ b' := (List.prefix_append a b).trans h
  have e : a = a' := by
    rcases List.prefix_or_prefix_of_prefix h1 (List.prefix_append a' b') with h2 | h2
    · exact pf_key hA hAn ha ha' h2
    · exact (pf_key hA hAn ha' ha h2).symm
  subst e
  exact ⟨rfl, pf_key hB hBn hb hb' ((List.prefix_append_right_inj a).mp h)⟩

theorem prod_nodup {A B : List Word} (hA : PrefixFree A) (hAn : ∀ w ∈ A, w ≠ []) (hB : PrefixFree B) (hBn : ∀ w ∈ B, w ≠ []) : (prod A B).Nodup := by
  rw [prod, List.nodup_flatMap]
  refine ⟨fun a _ => (hB.nodup hBn).map fun x y h => List.append_cancel_left h, ?_⟩
  refine (hA.nodup hAn).imp_of_mem ?_
  intro a a' ha ha' hne
  rw [Function.onFun, List.disjoint_left]
  intro x hx hx'
  obtain ⟨b, hb, rfl⟩ := List.mem_map.mp hx
  obtain ⟨b', hb', e⟩ := List.mem_map.mp hx'
  exact hne (prod_key hA hAn hB hBn ha ha' hb hb' (by rw [e])).1

theorem prod_up {A B : List Word} (hA : PrefixFree A) (hAn : ∀ w ∈ A, w ≠ []) (hB : PrefixFree B) (hBn : ∀ w ∈ B, w ≠ []) : UniquelyParsable (prod A B) := by
  refine UniquelyParsable.of_prefixFree ?_ ?_
  · intro i j hi hj hij _ _ hp
    have h1 := List.getElem_mem hi
    have h2 := List.getElem_mem hj
    obtain ⟨a, ha, h1⟩ := List.mem_flatMap.mp h1
    obtain ⟨b, hb, h1⟩ := List.mem_map.mp h1
    obtain ⟨a', ha', h2⟩ := List.mem_flatMap.mp h2
    obtain ⟨b', hb', h2⟩ := List.mem_map.mp h2
    rw [← h1, ← h2] at hp
    obtain ⟨rfl, rfl⟩ := prod_key hA hAn hB hBn ha ha' hb hb' hp
    exact hij ((prod_nodup hA hAn hB hBn).getElem_inj_iff.mp (h1.symm.trans h2))
  · intro w hw
    obtain ⟨a, ha, h1⟩ := List.mem_flatMap.mp hw
    obtain ⟨b, hb, rfl⟩ := List.mem_map.mp h1
    exact fun h => hAn a ha (List.append_eq_nil_iff.mp h).1

theorem prod_binary {A B : List Word} (hA : ∀ w ∈ A, ∀ a ∈ w, a < 2) (hB : ∀ w ∈ B, ∀ a ∈ w, a < 2) : ∀ w ∈ prod A B, ∀ a ∈ w, a < 2 := by
  intro w hw x hx
  obtain ⟨a, ha, h1⟩ := List.mem_flatMap.mp hw
  obtain ⟨b, hb, rfl⟩ := List.mem_map.mp h1
  rcases List.mem_append.mp hx with h | h
  exacts [hA a ha x h, hB b hb x h]

end RateLaws
open RateLaws

/-- The rate of a Huffman code is the smallest among all binary codes: any `FixedToVariableCode` for the same block size with different, uniquely decodable
binary codewords has at least this rate (or raises, when it has the wrong number of codewords). -/
theorem C160_huffman_minimum (pmf : List ℚ) (hp : ∀ x ∈ pmf, 0 ≤ x) (k : Nat) (policy : HuffmanPolicy)
    (assignment : HuffmanAssignment) (h2 : 2 ≤ pmf.length) (hk : 1 ≤ k) :
    ∃ c r, huffmanCode pmf k policy assignment = some c ∧ c.rate pmf = some r ∧
      ∀ (c' : FVCode) (r' : ℚ), c'.sourceBlockSize = k → (∀ w ∈ c'.codewords, ∀ a ∈ w, a < 2) → c'.codewords.Nodup →
        UniquelyParsable c'.codewords → c'.rate pmf = some r' → r ≤ r' := by
  obtain ⟨c, hc, hr, hopt⟩ := C27_huffman_optimal pmf hp k policy assignment h2 hk
  refine ⟨c, _, hc, hr, fun c' r' hk' hb hn hu hr' => ?_⟩
  have hk0 : (0 : ℚ) < k := by exact_mod_cast hk
  unfold FVCode.rate at hr'
  simp only [hk'] at hr'
  split at hr'
  · cases hr'
  · rename_i hl
    rw [ne_eq, not_not, List.length_map, bp_length] at hl
    cases hr'
    refine div_le_div_of_nonneg_right ?_ hk0.le
    have := hopt c'.codewords hl hb hn hu
    rwa [show expectedLength (FVCode.blockProbabilities pmf k) c'.codewords = _ by rw [expectedLength, ← List.zipWith_map_left (f := List.length) (g := fun (l : Nat) (p : ℚ) => (l : ℚ) * p)]] at this

/-- The rate depends neither on the policy, nor on the assignment, nor on the order of the probabilities. -/
theorem C160_huffman_rate_invariant (pmf pmf' : List ℚ) (hp : ∀ x ∈ pmf, 0 ≤ x) (hperm : pmf.Perm pmf') (k : Nat) (policy policy' : HuffmanPolicy)
    (assignment assignment' : HuffmanAssignment) (h2 : 2 ≤ pmf.length) (hk : 1 ≤ k) :
    ∃ c c' r, huffmanCode pmf k policy assignment = some c ∧ huffmanCode pmf' k policy' assignment' = some c' ∧
      c.rate pmf = some r ∧ c'.rate pmf' = some r := by
  have key : ∀ (p p' : List ℚ) (a a' : HuffmanPolicy) (b b' : HuffmanAssignment), (∀ x ∈ p, 0 ≤ x) → p.Perm p' → 2 ≤ p.length →
      ∃ c c' r r', huffmanCode p k a b = some c ∧ huffmanCode p' k a' b' = some c' ∧ c.rate p = some r ∧ c'.rate p' = some r' ∧ r ≤ r' := by
    intro p p' a a' b b' hp hpp h2
    obtain ⟨c, hc, hr, hopt⟩ := C27_huffman_optimal p hp k a b h2 hk
    have h2' : 2 ≤ p'.length := by rw [← hpp.length_eq]; exact h2
    obtain ⟨c', hc', hr', -⟩ := C27_huffman_optimal p' (fun x hx => hp x (hpp.mem_iff.mpr hx)) k a' b' h2' hk
    obtain ⟨c₁, h1, -, hl, hpf, hne, hbin, -⟩ := huffmanCode_facts p' k a' b' h2' hk
    rw [hc'] at h1; cases h1
    obtain ⟨ws, hw, e⟩ := el_perm (bp_perm hpp k).symm c'.codewords (by rw [hl, bp_length])
    refine ⟨c, c', _, _, hc, hc', hr, hr', div_le_div_of_nonneg_right ?_ (by positivity)⟩
    rw [e]
    refine hopt ws (by rw [← hw.length_eq, hl, hpp.length_eq]) (fun w h => hbin w (hw.mem_iff.mpr h)) (hw.nodup_iff.mp (hpf.nodup hne)) ?_
    have hu := UniquelyParsable.of_prefixFree hpf hne
    exact fun l₁ l₂ h1 h2 => hu l₁ l₂ (fun w h => hw.mem_iff.mpr (h1 w h)) (fun w h => hw.mem_iff.mpr (h2 w h))
  obtain ⟨c, c', r, r', h1, h2', h3, h4, h5⟩ := key pmf pmf' policy policy' assignment assignment' hp hperm h2
  obtain ⟨d', d, s', s, g1, g2, g3, g4, g5⟩ := key pmf' pmf policy' policy assignment' assignment (fun x hx => hp x (hperm.mem_iff.mpr hx)) hperm.symm (by rw [← hperm.length_eq]; exact h2)
  rw [h1] at g2; cases g2
  rw [h2'] at g1; cases g1
  rw [h3] at g4; cases g4
  rw [h4] at g3; cases g3
  exact ⟨c, c', r, h1, h2', h3, by rw [h4, le_antisymm h5 g5]⟩

/-- The expected number of bits for a block of `a + b` symbols is at most the sum of those for blocks of `a` and of `b` symbols. -/
theorem C160_huffman_subadditive (pmf : List ℚ) (hp : IsPmf pmf) (a b : Nat) (policy : HuffmanPolicy)
    (assignment : HuffmanAssignment) (h2 : 2 ≤ pmf.length) (ha : 1 ≤ a) (hb : 1 ≤ b) :
    ∃ ca cb cab ra rb rab, huffmanCode pmf a policy assignment = some ca ∧ huffmanCode pmf b policy assignment = some cb ∧
      huffmanCode pmf (a + b) policy assignment = some cab ∧ ca.rate pmf = some ra ∧ cb.rate pmf = some rb ∧ cab.rate pmf = some rab ∧
      ((a + b : ℕ) : ℚ) * rab ≤ a * ra + b * rb := by
  obtain ⟨ca, hca, hra, -⟩ := C27_huffman_optimal pmf hp.1 a policy assignment h2 ha
  obtain ⟨cb, hcb, hrb, -⟩ := C27_huffman_optimal pmf hp.1 b policy assignment h2 hb
  obtain ⟨c, hc, hr, hopt⟩ := C27_huffman_optimal pmf hp.1 (a + b) policy assignment h2 (by omega)
  refine ⟨ca, cb, c, _, _, _, hca, hcb, hc, hra, hrb, hr, ?_⟩
  have hlab : ∀ n : ℕ, 1 ≤ n → (n : ℚ) ≠ 0 := fun n hn => by positivity
  rw [mul_div_cancel₀ _ (hlab (a + b) (by omega)), mul_div_cancel₀ _ (hlab a ha), mul_div_cancel₀ _ (hlab b hb)]
  obtain ⟨c₁, h1, -, hl, hpf, hne, hbin, -⟩ := huffmanCode_facts pmf a policy assignment h2 ha
  rw [hca] at h1; cases h1
  obtain ⟨c₁, h1, -, hl', hpf', hne', hbin', -⟩ := huffmanCode_facts pmf b policy assignment h2 hb
  rw [hcb] at h1; cases h1
  refine (hopt (prod ca.codewords cb.codewords) (by rw [prod_length, hl, hl', pow_add]) (prod_binary hbin hbin') (prod_nodup hpf hne hpf' hne') (prod_up hpf hne hpf' hne')).trans ?_
  rw [bp_add, el_prod _ _ (by rw [bp_length, hl']) _ _ (by rw [bp_length, hl]), blockProbabilities_sum, blockProbabilities_sum, hp.2]
  simp

/-- Coding longer blocks never hurts when the block size is multiplied: the rate for blocks of `j k` symbols is at most the rate for blocks of `k`. -/
theorem C160_huffman_multiple (pmf : List ℚ) (hp : IsPmf pmf) (j k : Nat) (policy : HuffmanPolicy)
    (assignment : HuffmanAssignment) (h2 : 2 ≤ pmf.length) (hj : 1 ≤ j) (hk : 1 ≤ k) :
    ∃ c c' r r', huffmanCode pmf (j * k) policy assignment = some c ∧ huffmanCode pmf k policy assignment = some c' ∧
      c.rate pmf = some r ∧ c'.rate pmf = some r' ∧ r ≤ r' := by
  induction j with
  | zero => omega
  | succ j ih =>
    rcases Nat.eq_zero_or_pos j with rfl | hj'
    · obtain ⟨c, hc, hr, -⟩ := C27_huffman_optimal pmf hp.1 k policy assignment h2 hk
      exact ⟨c, c, _, _, by simpa using hc, hc, hr, hr, le_rfl⟩
    · obtain ⟨c, c', r, r', h3, h4, h5, h6, h7⟩ := ih hj'
      obtain ⟨d, d', e, s, s', t, g1, g2, g3, g4, g5, g6, g7⟩ := C160_huffman_subadditive pmf hp (j * k) k policy assignment h2 (Nat.mul_pos hj' hk) hk
      rw [h3] at g1; cases g1
      rw [h4] at g2; cases g2
      rw [h5] at g4; cases g4
      rw [h6] at g5; cases g5
      refine ⟨e, c', t, r', by rw [Nat.succ_mul]; exact g3, h4, g6, h6, ?_⟩
      have hk0 : (0 : ℚ) < k := by exact_mod_cast hk
      have hj0 : (0 : ℚ) < j := by exact_mod_cast hj'
      push_cast at g7
      have h8 : ((j : ℚ) * k + k) * t ≤ (j * k + k) * r' := g7.trans (by nlinarith [mul_le_mul_of_nonneg_left h7 (mul_pos hj0 hk0).le])
      exact le_of_mul_le_mul_left h8 (by positivity)

/-- Longer blocks alone may hurt: with probabilities 5/7 and 2/7 the best code for blocks of three symbols has a larger rate (305/343) than that for
blocks of two (87/98), so "multiple" is needed above. -/
theorem C160_longer_blocks_may_hurt : ∃ c c', huffmanCode ([5/7, 2/7] : List ℚ) 2 .high .tree = some c ∧ huffmanCode ([5/7, 2/7] : List ℚ) 3 .high .tree = some c' ∧
    c.rate [5/7, 2/7] = some (87/98) ∧ c'.rate [5/7, 2/7] = some (305/343) ∧ (87/98 : ℚ) < 305/343 := by
  have h : ∀ k r, ((huffmanCode ([5/7, 2/7] : List ℚ) k .high .tree).bind fun c => c.rate [5/7, 2/7]) = some r →
      ∃ c, huffmanCode ([5/7, 2/7] : List ℚ) k .high .tree = some c ∧ c.rate [5/7, 2/7] = some r := fun k r h => by
    simpa [Option.bind_eq_some_iff] using h
  obtain ⟨c, h1, h2⟩ := h 2 (87/98) (by decide +kernel)
  obtain ⟨c', h3, h4⟩ := h 3 (305/343) (by decide +kernel)
  exact ⟨c, c', h1, h3, h2, h4, by norm_num⟩

/-- Non-vacuity: the documented source, whose rate really improves, and a reordering of it. -/
example : IsPmf [8/10, 1/10, 1/10] := by constructor <;> norm_num
example : ((huffmanCode ([8/10, 1/10, 1/10] : List ℚ) 1 .high .tree).bind fun c => c.rate [8/10, 1/10, 1/10]) = some (12/10) ∧
    ((huffmanCode ([8/10, 1/10, 1/10] : List ℚ) 2 .high .tree).bind fun c => c.rate [8/10, 1/10, 1/10]) = some (48/50) ∧
    ((huffmanCode ([1/10, 8/10, 1/10] : List ℚ) 2 .low .canonical).bind fun c => c.rate [1/10, 8/10, 1/10]) = some (48/50) := by decide +kernel

end Komm
