import Verif.Lemmas.SourceCoding
/-! Every internal node of the tree built by the Tunstall loop is at least as probable as every leaf. -/
namespace Komm
open WordTree

/-- The symbol probabilities as a function. -/
abbrev symP (pmf : List ℚ) (a : Nat) : ℚ := pmf.getD a 0

/-- The invariant of the loop: node probabilities are the probabilities of their words, and every proper prefix of a word is at least
as probable as every leaf. -/
structure Greedy (pmf : List ℚ) (heap : List TNode) : Prop where
  val : ∀ e ∈ heap, e.2 = blockProb pmf e.1
  top : ∀ w ∈ heap.map Prod.fst, ∀ v : Word, v <+: w → v ≠ w → ∀ e ∈ heap, e.2 ≤ blockProb pmf v

theorem blockProb_snoc (pmf : List ℚ) (w : Word) (a : Nat) : blockProb pmf (w ++ [a]) = blockProb pmf w * pmf.getD a 0 := by
  simp [blockProb]

theorem blockProb_le_one {pmf : List ℚ} (h0 : ∀ x ∈ pmf, 0 ≤ x) (h1 : pmf.sum = 1) (w : Word) :
    0 ≤ blockProb pmf w ∧ blockProb pmf w ≤ 1 := by
  have hs : ∀ a, 0 ≤ pmf.getD a 0 ∧ pmf.getD a 0 ≤ 1 := by
    intro a
    by_cases ha : a < pmf.length
    · rw [List.getD_eq_getElem _ _ ha]
      exact ⟨h0 _ (List.getElem_mem ha), h1 ▸ List.single_le_sum h0 _ (List.getElem_mem ha)⟩
    · rw [List.getD_eq_default _ _ (by omega)]; simp
  induction w with
  | nil => simp [blockProb]
  | cons a w ih =>
    have : blockProb pmf (a :: w) = pmf.getD a 0 * blockProb pmf w := by simp [blockProb]
    rw [this]
    exact ⟨mul_nonneg (hs a).1 ih.1, mul_le_one₀ (hs a).2 ih.1 ih.2⟩

theorem symP_bounds {pmf : List ℚ} (h0 : ∀ x ∈ pmf, 0 ≤ x) (h1 : pmf.sum = 1) (a : Nat) :
    0 ≤ pmf.getD a 0 ∧ pmf.getD a 0 ≤ 1 := by
  have := blockProb_le_one h0 h1 [a]
  simpa [blockProb] using this

theorem greedy_base {pmf : List ℚ} (h0 : ∀ x ∈ pmf, 0 ≤ x) (h1 : pmf.sum = 1) :
    Greedy pmf (pmf.mapIdx fun symbol p => ([symbol], p)) := by
  have hmem : ∀ e : TNode, e ∈ (pmf.mapIdx fun symbol p => (([symbol], p) : TNode)) → ∃ a, e = ([a], pmf.getD a 0) := by
    intro e he
    rw [List.mem_mapIdx] at he
    obtain ⟨i, hi, rfl⟩ := he
    exact ⟨i, by rw [List.getD_eq_getElem _ _ hi]⟩
  constructor
  · intro e he
    obtain ⟨a, rfl⟩ := hmem e he
    simp [blockProb]
  · intro w hw v hv hne e he
    obtain ⟨e', he', rfl⟩ := List.mem_map.mp hw
    obtain ⟨a, rfl⟩ := hmem e' he'
    obtain ⟨b, rfl⟩ := hmem e he
    have hv' : v = [] := by
      have := hv.length_le
      rcases v with _ | ⟨x, v⟩
      · rfl
      · exact absurd (hv.eq_of_length (by simp at this ⊢; simpa using this)) hne
    subst hv'
    simpa [blockProb] using (symP_bounds h0 h1 b).2

theorem greedy_step {pmf : List ℚ} (h0 : ∀ x ∈ pmf, 0 ≤ x) (h1 : pmf.sum = 1) {heap : List TNode} (h : Greedy pmf heap)
    {i : Nat} {node : TNode} (hi : heap[i]? = some node) (hmax : ∀ v ∈ heap, v.2 ≤ node.2) :
    Greedy pmf (heap.eraseIdx i ++ tunstallChildren pmf node) := by
  have hnode : node ∈ heap := List.mem_of_getElem? hi
  have hmem : ∀ e, e ∈ heap.eraseIdx i ++ tunstallChildren pmf node →
      e ∈ heap ∨ ∃ a, e = (node.1 ++ [a], node.2 * pmf.getD a 0) := by
    intro e he
    rcases List.mem_append.mp he with he | he
    · exact .inl (List.mem_of_mem_eraseIdx he)
    · rw [tunstallChildren, List.mem_mapIdx] at he
      obtain ⟨j, hj, rfl⟩ := he
      exact .inr ⟨j, by rw [List.getD_eq_getElem _ _ hj]⟩
  have hle : ∀ e, e ∈ heap.eraseIdx i ++ tunstallChildren pmf node → e.2 ≤ node.2 := by
    intro e he
    rcases hmem e he with he | ⟨a, rfl⟩
    · exact hmax e he
    · have := symP_bounds h0 h1 a
      have hn := (blockProb_le_one h0 h1 node.1).1
      rw [← h.val node hnode] at hn
      simp only
      nlinarith
  constructor
  · intro e he
    rcases hmem e he with he | ⟨a, rfl⟩
    · exact h.val e he
    · rw [blockProb_snoc, ← h.val node hnode]
  · intro w hw v hv hne e he
    have hv' : v = node.1 ∨ ∃ w' ∈ heap.map Prod.fst, v <+: w' ∧ v ≠ w' := by
      obtain ⟨e', he', rfl⟩ := List.mem_map.mp hw
      rcases hmem e' he' with he' | ⟨a, rfl⟩
      · exact .inr ⟨_, List.mem_map_of_mem he', hv, hne⟩
      · have hpre : v <+: node.1 := by
          rcases List.prefix_concat_iff.mp (by simpa using hv) with hc | hc
          · exact absurd (by simpa using hc) hne
          · exact hc
        by_cases hvn : v = node.1
        · exact .inl hvn
        · exact .inr ⟨_, List.mem_map_of_mem hnode, hpre, hvn⟩
    rcases hv' with rfl | ⟨w', hw', hp', hn'⟩
    · rw [← h.val node hnode]; exact hle e he
    · exact (hle e he).trans (h.top w' hw' v hp' hn' node hnode)

/-- The popped leaf is a most probable one. -/
def MaxChoice (choose : List TNode → Nat) : Prop :=
  ∀ heap : List TNode, heap ≠ [] → ∃ node, heap[choose heap]? = some node ∧ ∀ v ∈ heap, v.2 ≤ node.2

theorem MaxChoice.valid {choose : List TNode → Nat} (h : MaxChoice choose) : ∀ heap, heap ≠ [] → choose heap < heap.length := by
  intro heap hne
  obtain ⟨node, hn, -⟩ := h heap hne
  exact (List.getElem?_eq_some_iff.mp hn).1

theorem tunstallLoop_greedy {pmf : List ℚ} (h0 : ∀ x ∈ pmf, 0 ≤ x) (h1 : pmf.sum = 1) {choose : List TNode → Nat}
    (hc : MaxChoice choose) (K : Nat) : ∀ heap, Greedy pmf heap → Greedy pmf (tunstallLoop pmf choose K heap) := by
  induction K with
  | zero => intro heap h; exact h
  | succ K ih =>
    intro heap h
    rw [tunstallLoop]
    by_cases hne : heap = []
    · subst hne; simpa using h
    · obtain ⟨node, hn, hmax⟩ := hc heap hne
      rw [hn]
      exact ih _ (greedy_step h0 h1 h hn hmax)

theorem firstMax_max : MaxChoice firstMax := by
  have aux : ∀ (l pre : List TNode) (best : ℚ) (bi : Nat) (node : TNode), pre[bi]? = some node → node.2 = best →
      (∀ v ∈ pre, v.2 ≤ best) →
      ∃ node, (pre ++ l)[firstMaxFrom best bi pre.length l]? = some node ∧ ∀ v ∈ pre ++ l, v.2 ≤ node.2 := by
    intro l
    induction l with
    | nil =>
      intro pre best bi node hb hv hmax
      refine ⟨node, by simpa [firstMaxFrom] using hb, ?_⟩
      simpa [hv] using hmax
    | cons v l ih =>
      intro pre best bi node hb hv hmax
      rw [firstMaxFrom]
      have e : pre ++ v :: l = (pre ++ [v]) ++ l := by simp
      have hbi : bi < pre.length := (List.getElem?_eq_some_iff.mp hb).1
      split
      · rename_i hlt
        have := ih (pre ++ [v]) v.2 pre.length v (by simp) rfl (by
          intro x hx
          rcases List.mem_append.mp hx with hx | hx
          · exact (hmax x hx).trans hlt.le
          · simp at hx; subst hx; exact le_rfl)
        rw [e]
        simpa using this
      · rename_i hlt
        have := ih (pre ++ [v]) best bi node (by rw [List.getElem?_append_left hbi]; exact hb) hv (by
          intro x hx
          rcases List.mem_append.mp hx with hx | hx
          · exact hmax x hx
          · simp at hx; subst hx; exact not_lt.mp hlt)
        rw [e]
        simpa using this
  intro heap hne
  cases heap with
  | nil => exact absurd rfl hne
  | cons v l =>
    have := aux l [v] v.2 0 v rfl rfl (by simp)
    simpa [firstMax] using this

end Komm
