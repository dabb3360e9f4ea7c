import Verif.Lemmas.Canonical
import Verif.Model.Huffman
import Mathlib.Data.List.Perm.Lattice

namespace Komm

/-- Binary trees whose nodes carry the index of the corresponding array entry (left = bit 0). -/
inductive HT
  | leaf (i : Nat)
  | node (i : Nat) (l r : HT)

namespace HT
def idx : HT → Nat
  | leaf i => i
  | node i _ _ => i

/-- Leaves with the bit paths leading to them. -/
def paths : HT → List (Nat × Word)
  | leaf i => [(i, [])]
  | node _ l r => (l.paths.map fun e => (e.1, 0 :: e.2)) ++ (r.paths.map fun e => (e.1, 1 :: e.2))

def leaves (T : HT) : List Nat := T.paths.map Prod.fst

theorem leaves_node (i : Nat) (l r : HT) : (node i l r).leaves = l.leaves ++ r.leaves := by
  simp [leaves, paths, Function.comp_def]

def wt {α : Type} [Add α] (p : Nat → α) : HT → α
  | leaf i => p i
  | node _ l r => l.wt p + r.wt p

/-- `T` is represented in the array below the entry `T.idx`. -/
def Rep {α : Type} (tree : List (HNode α)) : HT → Prop
  | leaf _ => True
  | node i l r => (∃ a, tree[l.idx]? = some a ∧ a.parent = some i ∧ a.bit = 0) ∧
      (∃ a, tree[r.idx]? = some a ∧ a.parent = some i ∧ a.bit = 1) ∧ l.Rep tree ∧ r.Rep tree

theorem paths_pairwise (T : HT) : T.paths.Pairwise fun a b => ¬ a.2 <+: b.2 ∧ ¬ b.2 <+: a.2 := by
  induction T with
  | leaf i => simp [paths]
  | node i l r ihl ihr =>
    rw [paths, List.pairwise_append]
    refine ⟨?_, ?_, ?_⟩
    · rw [List.pairwise_map]; exact ihl.imp (by simp)
    · rw [List.pairwise_map]; exact ihr.imp (by simp)
    · intro a ha b hb
      obtain ⟨x, _, rfl⟩ := List.mem_map.mp ha
      obtain ⟨y, _, rfl⟩ := List.mem_map.mp hb
      simp

theorem paths_bits (T : HT) : ∀ e ∈ T.paths, ∀ a ∈ e.2, a < 2 := by
  induction T with
  | leaf i => simp [paths]
  | node i l r ihl ihr =>
    intro e he
    rw [paths, List.mem_append] at he
    rcases he with he | he
    · obtain ⟨x, hx, rfl⟩ := List.mem_map.mp he
      simpa using fun a ha => ihl x hx a ha
    · obtain ⟨x, hx, rfl⟩ := List.mem_map.mp he
      simpa using fun a ha => ihr x hx a ha

theorem paths_kraft (T : HT) : (T.paths.map fun e => (1 : ℚ) / 2 ^ e.2.length).sum = 1 := by
  induction T with
  | leaf i => simp [paths]
  | node i l r ihl ihr =>
    have h : ∀ (s : List (Nat × Word)) (b : Nat),
        ((s.map fun e => (e.1, b :: e.2)).map fun e => (1 : ℚ) / 2 ^ e.2.length).sum =
          (s.map fun e => (1 : ℚ) / 2 ^ e.2.length).sum / 2 := by
      intro s b
      induction s with
      | nil => simp
      | cons x s ih =>
        simp only [List.map_cons, List.sum_cons, List.length_cons] at ih ⊢
        rw [ih, pow_succ]
        field_simp
    rw [paths, List.map_append, List.sum_append, h, h, ihl, ihr]
    norm_num

theorem paths_ne_nil (T : HT) : T.paths ≠ [] := by
  induction T with
  | leaf i => simp [paths]
  | node i l r ihl _ => simp [paths, ihl]

end HT

/-! ### the abstract merging process -/

inductive Merge (sel : HT → HT → List HT → Prop) : List HT → HT → Prop
  | done (T : HT) : Merge sel [T] T
  | step {F F2 : List HT} {T1 T0 T : HT} (i : Nat) (h : F.Perm (T1 :: T0 :: F2)) (hs : sel T1 T0 F2)
      (hm : Merge sel (HT.node i T0 T1 :: F2) T) : Merge sel F T

theorem Merge.leaves {sel : HT → HT → List HT → Prop} {F : List HT} {T : HT} (h : Merge sel F T) :
    T.leaves.Perm (F.flatMap HT.leaves) := by
  induction h with
  | done T => simp
  | step i h _ _ ih =>
    refine ih.trans ?_
    refine List.Perm.trans ?_ (h.symm.flatMap_right _)
    simp only [List.flatMap_cons, HT.leaves_node]
    rw [← List.append_assoc]
    exact (List.perm_append_comm).append_right _

/-! ### the array -/

section
variable {α : Type}

theorem setParent_getElem? (tree : List (HNode α)) (i b p j : Nat) :
    (setParent tree i b p)[j]? =
      if i = j then (tree[j]?).map (fun nd => { nd with bit := b, parent := some p }) else tree[j]? := by
  unfold setParent
  rw [List.getElem?_modify]
  split <;> simp

theorem setParent_length (tree : List (HNode α)) (i b p : Nat) : (setParent tree i b p).length = tree.length := by
  simp [setParent]

/-- Parents have larger indices. -/
def Asc (tree : List (HNode α)) : Prop :=
  ∀ i nd p, tree[i]? = some nd → nd.parent = some p → i < p ∧ p < tree.length

theorem walkUp_stable {tree : List (HNode α)} (h : Asc tree) (f g i : Nat) (hf : tree.length ≤ f + i)
    (hg : tree.length ≤ g + i) : walkUp tree f i = walkUp tree g i := by
  induction f generalizing g i with
  | zero =>
    cases g with
    | zero => rfl
    | succ g =>
      rw [walkUp, walkUp, List.getElem?_eq_none (by omega)]
  | succ f ih =>
    cases g with
    | zero => rw [walkUp, walkUp, List.getElem?_eq_none (by omega)]
    | succ g =>
      rw [walkUp, walkUp]
      cases ht : tree[i]? with
      | none => rfl
      | some nd =>
        cases hp : nd.parent with
        | none => simp [hp]
        | some p =>
          simp only [hp]
          have := h i nd p ht hp
          rw [ih g p (by omega) (by omega)]

theorem walkUp_step {tree : List (HNode α)} (h : Asc tree) {i p : Nat} {nd : HNode α}
    (ht : tree[i]? = some nd) (hp : nd.parent = some p) :
    walkUp tree tree.length i = nd.bit :: walkUp tree tree.length p := by
  have hlt := h i nd p ht hp
  obtain ⟨L, hL⟩ : ∃ L, tree.length = L + 1 := ⟨tree.length - 1, by omega⟩
  conv_lhs => rw [hL, walkUp]
  rw [ht]
  simp only [hp]
  rw [walkUp_stable h L tree.length p (by omega) (by omega)]

theorem walkUp_root {tree : List (HNode α)} {i : Nat} {nd : HNode α}
    (ht : tree[i]? = some nd) (hp : nd.parent = none) (f : Nat) : walkUp tree f i = [] := by
  cases f with
  | zero => rfl
  | succ f => simp [walkUp, ht, hp]

theorem walkUp_paths {tree : List (HNode α)} (h : Asc tree) (T : HT) (hT : T.Rep tree) :
    ∀ e ∈ T.paths, walkUp tree tree.length e.1 = e.2.reverse ++ walkUp tree tree.length T.idx := by
  induction T with
  | leaf i => simp [HT.paths, HT.idx]
  | node i l r ihl ihr =>
    obtain ⟨⟨a, ha1, ha2, ha3⟩, ⟨b, hb1, hb2, hb3⟩, hl, hr⟩ := hT
    intro e he
    rw [HT.paths, List.mem_append] at he
    rcases he with he | he
    · obtain ⟨x, hx, rfl⟩ := List.mem_map.mp he
      simp only [HT.idx]
      rw [ihl hl x hx, walkUp_step h ha1 ha2, ha3]
      simp
    · obtain ⟨x, hx, rfl⟩ := List.mem_map.mp he
      simp only [HT.idx]
      rw [ihr hr x hx, walkUp_step h hb1 hb2, hb3]
      simp

/-! ### tree_lengths -/

theorem depths_fold {tree : List (HNode α)} (h : Asc tree) (m : Nat) (hm : m ≤ tree.length) :
    ∀ D : List Nat, D.length = tree.length →
      (∀ a, m ≤ a → a < tree.length → D.getD a 0 = (walkUp tree tree.length a).length) →
      (∀ a, a < m → D.getD a 0 = 0) →
      (List.range m).reverse.foldl (depthStep tree) D =
        (List.range tree.length).map fun a => (walkUp tree tree.length a).length := by
  induction m with
  | zero =>
    intro D hD h1 _
    simp only [List.range_zero, List.reverse_nil, List.foldl_nil]
    apply List.ext_getElem (by simp [hD])
    intro a ha1 ha2
    have := h1 a (by omega) (by simpa [hD] using ha1)
    rw [List.getD_eq_getElem _ _ ha1] at this
    simp [this]
  | succ m ih =>
    intro D hD h1 h0
    rw [List.range_succ, List.reverse_append]
    simp only [List.reverse_cons, List.reverse_nil, List.nil_append, List.cons_append, List.foldl_cons]
    have hmt : tree[m]? = some (tree[m]'(by omega)) := List.getElem?_eq_getElem _
    cases hp : (tree[m]'(by omega)).parent with
    | none =>
      have hs : depthStep tree D m = D := by
        unfold depthStep; rw [hmt]; simp [hp]
      rw [hs]
      apply ih (by omega) D hD
      · intro a ha1 ha2
        rcases Nat.lt_or_ge m a with hma | hma
        · exact h1 a (by omega) ha2
        · obtain rfl : a = m := by omega
          rw [h0 a (by omega), walkUp_root hmt hp]; rfl
      · intro a ha; exact h0 a (by omega)
    | some p =>
      have hasc := h m _ p hmt hp
      have hs : depthStep tree D m = D.set m (D.getD p 0 + 1) := by
        unfold depthStep; rw [hmt]; simp [hp]
      rw [hs]
      apply ih (by omega) _ (by simpa using hD)
      · intro a ha1 ha2
        rcases Nat.lt_or_ge m a with hma | hma
        · have := h1 a (by omega) ha2
          rw [← this]
          simp only [List.getD_eq_getElem?_getD]
          rw [List.getElem?_set_ne (by omega)]
        · obtain rfl : a = m := by omega
          rw [walkUp_step h hmt hp, List.length_cons, ← h1 p (by omega) hasc.2]
          simp only [List.getD_eq_getElem?_getD]
          rw [List.getElem?_set_self (by omega)]
          rfl
      · intro a ha
        have h2 := h0 a (by omega)
        simp only [List.getD_eq_getElem?_getD] at h2 ⊢
        rw [List.getElem?_set_ne (by omega), h2]

theorem treeLengths_eq {tree : List (HNode α)} (h : Asc tree) (n : Nat) (hn : n ≤ tree.length) :
    treeLengths tree n = (treeCodewords tree n).map List.length := by
  unfold treeLengths treeCodewords
  rw [depths_fold h tree.length le_rfl _ (by simp) (by intro a _ _; omega) (by simp [List.getD_replicate])]
  rw [← List.map_take, List.take_range, min_eq_left hn]
  simp

/-! ### the loop -/

variable [DecidableEq α] [Add α] [LT α] [DecidableLT α]

theorem heapMin_mem (lt : Nat → Nat → Bool) (h : Nat) (hs : List Nat) : heapMin lt h hs ∈ h :: hs := by
  induction hs with
  | nil => simp [heapMin]
  | cons x hs ih =>
    rw [heapMin]
    split
    · simp
    · rcases List.mem_cons.mp ih with h1 | h1
      · rw [h1]; simp
      · simp [h1]

theorem heapMin_min (lt : Nat → Nat → Bool) (hirr : ∀ a, lt a a = false)
    (htr : ∀ a b c, lt a b = true → lt b c = true → lt a c = true) (h : Nat) (hs : List Nat) :
    ∀ x ∈ h :: hs, lt x (heapMin lt h hs) = false := by
  induction hs with
  | nil => simp [heapMin, hirr]
  | cons y hs ih =>
    intro x hx
    rw [heapMin]
    split
    · rename_i hy
      rcases List.mem_cons.mp hx with rfl | hx
      · by_contra hc
        have := htr _ _ _ (Bool.eq_true_of_not_eq_false hc) hy
        rw [ih x (by simp)] at this; simp at this
      · rcases List.mem_cons.mp hx with rfl | hx
        · exact hirr _
        · by_contra hc
          have := htr _ _ _ (Bool.eq_true_of_not_eq_false hc) hy
          rw [ih x (by simp [hx])] at this; simp at this
    · rename_i hy
      rcases List.mem_cons.mp hx with rfl | hx
      · exact ih x (by simp)
      · rcases List.mem_cons.mp hx with rfl | hx
        · simpa using hy
        · exact ih x (by simp [hx])

/-- The comparison of probabilities is a strict order. -/
def LawfulLt (α : Type) [LT α] : Prop := (∀ a : α, ¬ a < a) ∧ (∀ a b c : α, a < b → b < c → a < c)

theorem nodeLt_irrefl (tree : List (HNode α)) (i : Nat) : nodeLt tree i i = false := by
  unfold nodeLt
  cases tree[i]? with
  | none => rfl
  | some a => simp [HNode.lt]

theorem nodeLt_trans (hl : LawfulLt α) (tree : List (HNode α)) (a b c : Nat) (h1 : nodeLt tree a b = true)
    (h2 : nodeLt tree b c = true) : nodeLt tree a c = true := by
  unfold nodeLt at *
  cases ha : tree[a]? with
  | none => simp [ha] at h1
  | some x =>
    cases hb : tree[b]? with
    | none => simp [ha, hb] at h1
    | some y =>
      cases hc : tree[c]? with
      | none => simp [hb, hc] at h2
      | some z =>
        simp only [ha, hb, hc] at h1 h2 ⊢
        unfold HNode.lt at *
        split at h1 <;> split at h2
        · rename_i e1 e2
          rw [if_pos (e1.trans e2)]
          simp at *; omega
        · rename_i e1 e2
          rw [if_neg (by rw [e1]; exact e2)]
          rw [e1]; exact h2
        · rename_i e1 e2
          rw [if_neg (by rw [← e2]; exact e1)]
          rw [← e2]; exact h1
        · have := hl.2 _ _ _ (of_decide_eq_true h1) (of_decide_eq_true h2)
          rw [if_neg (by intro e; rw [e] at this; exact hl.1 _ this)]
          simpa using this

theorem nodeLt_false (hl : LawfulLt α) (tree : List (HNode α)) (i j : Nat) (a b : HNode α)
    (hi : tree[i]? = some a) (hj : tree[j]? = some b) (h : nodeLt tree i j = false) :
    ¬ a.probability < b.probability := by
  unfold nodeLt HNode.lt at h
  rw [hi, hj] at h
  simp only at h
  split at h
  · rename_i e; rw [e]; exact hl.1 _
  · exact of_decide_eq_false h

/-- Selection property of a merging step: the two lightest trees are merged. -/
def selMin (p : Nat → α) (T1 T0 : HT) (F2 : List HT) : Prop :=
  LawfulLt α → ¬ T0.wt p < T1.wt p ∧ ∀ x ∈ F2, ¬ x.wt p < T0.wt p

/-- The invariant of the loop. -/
structure HInv (p : Nat → α) (tree : List (HNode α)) (heap : List Nat) (F : List HT) : Prop where
  perm : (F.map HT.idx).Perm heap
  nodup : heap.Nodup
  rep : ∀ T ∈ F, T.Rep tree
  root : ∀ T ∈ F, ∃ nd, tree[T.idx]? = some nd ∧ nd.parent = none ∧ nd.probability = T.wt p
  asc : Asc tree

theorem perm_map_cons {β γ : Type} {f : β → γ} {l : List β} {a : γ} {t : List γ} (h : (l.map f).Perm (a :: t)) :
    ∃ x l', l.Perm (x :: l') ∧ f x = a ∧ (l'.map f).Perm t := by
  have ha : a ∈ l.map f := h.symm.subset (by simp)
  obtain ⟨x, hx, rfl⟩ := List.mem_map.mp ha
  obtain ⟨s, t', rfl⟩ := List.append_of_mem hx
  refine ⟨x, s ++ t', List.perm_middle, rfl, ?_⟩
  have h2 : ((s ++ x :: t').map f).Perm (f x :: (s ++ t').map f) := by
    rw [← List.map_cons]; exact (List.perm_middle).map f
  exact (h2.symm.trans h).cons_inv

theorem huffmanJoin_getElem? (policy : HuffmanPolicy) (tree : List (HNode α)) (i1 i0 : Nat) (n1 n0 : HNode α)
    (h1 : tree[i1]? = some n1) (h0 : tree[i0]? = some n0) (hne : i1 ≠ i0) (j : Nat) :
    (huffmanJoin policy tree i1 i0)[j]? =
      if j = tree.length then some (mkHNode policy tree.length (n0.probability + n1.probability) false)
      else if j = i0 then some { n0 with bit := 0, parent := some tree.length }
      else if j = i1 then some { n1 with bit := 1, parent := some tree.length }
      else tree[j]? := by
  unfold huffmanJoin mkParent
  rw [h1, h0]
  have hlen : (setParent (setParent tree i1 1 tree.length) i0 0 tree.length).length = tree.length := by
    rw [setParent_length, setParent_length]
  by_cases hj : j = tree.length
  · rw [if_pos hj, List.getElem?_append_right (by omega), hlen, hj]; simp
  · rw [if_neg hj]
    rcases Nat.lt_or_ge j tree.length with hlt | hge
    · rw [List.getElem?_append_left (by omega), setParent_getElem?, setParent_getElem?]
      by_cases hj0 : j = i0
      · subst hj0
        rw [if_pos rfl, if_neg hne, if_pos rfl, h0]; rfl
      · rw [if_neg (Ne.symm hj0), if_neg hj0]
        by_cases hj1 : j = i1
        · subst hj1; rw [if_pos rfl, if_pos rfl, h1]; rfl
        · rw [if_neg (Ne.symm hj1), if_neg hj1]
    · rw [List.getElem?_append_right (by omega), hlen,
        List.getElem?_eq_none (by simp; omega)]
      have := (List.getElem?_eq_some_iff.mp h0).1
      have := (List.getElem?_eq_some_iff.mp h1).1
      rw [if_neg (by omega), if_neg (by omega), List.getElem?_eq_none (by omega)]

theorem huffmanJoin_length (policy : HuffmanPolicy) (tree : List (HNode α)) (i1 i0 : Nat) (n1 n0 : HNode α)
    (h1 : tree[i1]? = some n1) (h0 : tree[i0]? = some n0) :
    (huffmanJoin policy tree i1 i0).length = tree.length + 1 := by
  unfold huffmanJoin mkParent
  rw [h1, h0]
  simp [setParent_length]

/-- One round preserves the invariant. -/
theorem HInv.step {p : Nat → α} {tree : List (HNode α)} {heap : List Nat} {F F2 : List HT} {T1 T0 : HT}
    (policy : HuffmanPolicy) (h : HInv p tree heap F) (hF : F.Perm (T1 :: T0 :: F2)) {heap2 : List Nat}
    (hh : heap.Perm (T1.idx :: T0.idx :: heap2)) :
    HInv p (huffmanJoin policy tree T1.idx T0.idx) (tree.length :: heap2)
      (HT.node tree.length T0 T1 :: F2) := by
  have hm1 : T1 ∈ F := hF.symm.subset (by simp)
  have hm0 : T0 ∈ F := hF.symm.subset (by simp)
  obtain ⟨n1, h1, hp1, hw1⟩ := h.root T1 hm1
  obtain ⟨n0, h0, hp0, hw0⟩ := h.root T0 hm0
  have hnd := hh.nodup_iff.mp h.nodup
  have hne : T1.idx ≠ T0.idx := by
    intro e; rw [e] at hnd; simp at hnd
  have hget := huffmanJoin_getElem? policy tree _ _ n1 n0 h1 h0 hne
  have hlen := huffmanJoin_length policy tree _ _ n1 n0 h1 h0
  have hl1 := (List.getElem?_eq_some_iff.mp h1).1
  have hl0 := (List.getElem?_eq_some_iff.mp h0).1
  have hF2 : (F2.map HT.idx).Perm heap2 := by
    have := (hF.map HT.idx).symm.trans (h.perm.trans hh)
    simp only [List.map_cons] at this
    exact this.cons_inv.cons_inv
  have hrepmono : ∀ T : HT, T.Rep tree → T.Rep (huffmanJoin policy tree T1.idx T0.idx) := by
    intro T
    induction T with
    | leaf i => simp [HT.Rep]
    | node i l r ihl ihr =>
      rintro ⟨⟨a, ha1, ha2, ha3⟩, ⟨b, hb1, hb2, hb3⟩, hl, hr⟩
      have key : ∀ (j : Nat) (x : HNode α), tree[j]? = some x → x.parent = some i →
          (huffmanJoin policy tree T1.idx T0.idx)[j]? = some x := by
        intro j x hx hxp
        have := (List.getElem?_eq_some_iff.mp hx).1
        rw [hget j, if_neg (by omega), if_neg, if_neg, hx]
        · rintro rfl; rw [h1] at hx; obtain rfl := Option.some.inj hx; rw [hp1] at hxp; simp at hxp
        · rintro rfl; rw [h0] at hx; obtain rfl := Option.some.inj hx; rw [hp0] at hxp; simp at hxp
      exact ⟨⟨a, key _ a ha1 ha2, ha2, ha3⟩, ⟨b, key _ b hb1 hb2, hb2, hb3⟩, ihl hl, ihr hr⟩
  have hlt2 : ∀ x ∈ heap2, x < tree.length := by
    intro x hx
    obtain ⟨T, hT, rfl⟩ := List.mem_map.mp (hF2.symm.subset hx)
    obtain ⟨nd, h3, _⟩ := h.root T (hF.symm.subset (by simp [hT]))
    exact (List.getElem?_eq_some_iff.mp h3).1
  refine ⟨?_, ?_, ?_, ?_, ?_⟩
  · rw [List.map_cons]
    exact hF2.cons _
  · rw [List.nodup_cons] at hnd ⊢
    exact ⟨fun hx => absurd (hlt2 _ hx) (lt_irrefl _), (List.nodup_cons.mp hnd.2).2⟩
  · intro T hT
    rcases List.mem_cons.mp hT with rfl | hT
    · refine ⟨⟨_, by rw [hget, if_neg (by omega), if_pos rfl], rfl, rfl⟩,
        ⟨_, by rw [hget, if_neg (by omega), if_neg hne, if_pos rfl], rfl, rfl⟩,
        hrepmono _ (h.rep _ hm0), hrepmono _ (h.rep _ hm1)⟩
    · exact hrepmono _ (h.rep _ (hF.symm.subset (by simp [hT])))
  · intro T hT
    rcases List.mem_cons.mp hT with rfl | hT
    · refine ⟨_, by rw [show (HT.node tree.length T0 T1).idx = tree.length from rfl, hget, if_pos rfl], rfl, ?_⟩
      simp [mkHNode, HT.wt, hw0, hw1]
    · obtain ⟨nd, h3, h4, h5⟩ := h.root T (hF.symm.subset (by simp [hT]))
      have hTi : T.idx ∈ heap2 := hF2.subset (List.mem_map_of_mem hT)
      have h6 := hlt2 _ hTi
      refine ⟨nd, ?_, h4, h5⟩
      rw [hget, if_neg (by omega), if_neg, if_neg, h3]
      · intro e; rw [← e] at hnd; simp [hTi] at hnd
      · intro e; rw [← e] at hnd; simp [hTi] at hnd
  · intro i nd q hi hq
    rw [hlen]
    rw [hget] at hi
    split at hi
    · obtain rfl := Option.some.inj hi; simp [mkHNode] at hq
    split at hi
    · obtain rfl := Option.some.inj hi
      simp only [Option.some.injEq] at hq; omega
    split at hi
    · obtain rfl := Option.some.inj hi
      simp only [Option.some.injEq] at hq; omega
    · have := h.asc i nd q hi hq; omega

theorem huffmanLoop_spec (policy : HuffmanPolicy) (p : Nat → α) (fuel : Nat) (tree : List (HNode α))
    (heap : List Nat) (F : List HT) (h : HInv p tree heap F) (hne : heap ≠ []) (hfuel : heap.length ≤ fuel + 1) :
    ∃ T, Merge (selMin p) F T ∧ HInv p (huffmanLoop policy fuel tree heap) [T.idx] [T] ∧
      tree.length ≤ (huffmanLoop policy fuel tree heap).length := by
  induction fuel generalizing tree heap F with
  | zero =>
    obtain ⟨a, rfl⟩ : ∃ a, heap = [a] := by
      match heap, hne with
      | [a], _ => exact ⟨a, rfl⟩
      | _ :: _ :: _, _ => simp at hfuel
    have hp := List.perm_singleton.mp h.perm
    obtain ⟨T, rfl, rfl⟩ := List.map_eq_singleton_iff.mp hp
    exact ⟨T, .done T, h, by simp [huffmanLoop]⟩
  | succ fuel ih =>
    match heap, hne with
    | [a], _ =>
      have hp := List.perm_singleton.mp h.perm
      obtain ⟨T, rfl, rfl⟩ := List.map_eq_singleton_iff.mp hp
      exact ⟨T, .done T, h, by simp [huffmanLoop]⟩
    | a :: b :: hs, _ =>
      rw [huffmanLoop]
      on_goal 2 => simp
      generalize hi1 : heapMin (nodeLt tree) a (b :: hs) = i1
      have hmem1 : i1 ∈ a :: b :: hs := by rw [← hi1]; exact heapMin_mem _ _ _
      have hp1 := List.perm_cons_erase hmem1
      have hlen1 := hp1.length_eq
      cases he : (a :: b :: hs).erase i1 with
      | nil => rw [he] at hlen1; simp at hlen1
      | cons g gs =>
        simp only []
        rw [he] at hp1 hlen1
        generalize hi0 : heapMin (nodeLt tree) g gs = i0
        have hmem0 : i0 ∈ g :: gs := by rw [← hi0]; exact heapMin_mem _ _ _
        have hp0 := List.perm_cons_erase hmem0
        have hlen0 := hp0.length_eq
        generalize hh2 : (g :: gs).erase i0 = heap2 at *
        have hperm : (a :: b :: hs).Perm (i1 :: i0 :: heap2) := hp1.trans (hp0.cons _)
        obtain ⟨T1, F1, hF1, rfl, hF1'⟩ := perm_map_cons (h.perm.trans hperm)
        obtain ⟨T0, F2, hF2, rfl, hF2'⟩ := perm_map_cons hF1'
        have hF := hF1.trans (hF2.cons _)
        have hstep := h.step policy hF hperm
        have hm1 : T1 ∈ F := hF.symm.subset (by simp)
        have hm0 : T0 ∈ F := hF.symm.subset (by simp)
        obtain ⟨n1, h1, -, hw1⟩ := h.root T1 hm1
        obtain ⟨n0, h0, -, hw0⟩ := h.root T0 hm0
        obtain ⟨T, hT1, hT2, hT3⟩ := ih _ _ _ hstep (by simp) (by
          simp only [List.length_cons] at *; omega)
        refine ⟨T, .step _ hF ?_ hT1, hT2, ?_⟩
        · intro hl
          have hmin1 := heapMin_min (nodeLt tree) (nodeLt_irrefl tree) (nodeLt_trans hl tree) a (b :: hs)
          have hmin0 := heapMin_min (nodeLt tree) (nodeLt_irrefl tree) (nodeLt_trans hl tree) g gs
          rw [hi1] at hmin1
          rw [hi0] at hmin0
          constructor
          · rw [← hw1, ← hw0]
            exact nodeLt_false hl tree _ _ _ _ h0 h1 (hmin1 _ (hp1.symm.subset (by simp [hmem0])))
          · intro x hx
            obtain ⟨nx, hx1, -, hx3⟩ := h.root x (hF.symm.subset (by simp [hx]))
            rw [← hx3, ← hw0]
            refine nodeLt_false hl tree _ _ _ _ hx1 h0 (hmin0 _ ?_)
            exact hp0.symm.subset (List.mem_cons_of_mem _ (hF2'.subset (List.mem_map_of_mem hx)))
        · rw [huffmanJoin_length policy tree _ _ n1 n0 h1 h0] at hT3
          omega

theorem huffmanTree_spec (pmf : List α) (policy : HuffmanPolicy) (hne : pmf ≠ []) :
    ∃ T, Merge (selMin fun i => pmf.getD i (pmf.head hne)) ((List.range pmf.length).map HT.leaf) T ∧
      HInv (fun i => pmf.getD i (pmf.head hne)) (huffmanTree pmf policy) [T.idx] [T] ∧
      pmf.length ≤ (huffmanTree pmf policy).length := by
  have hlen : (huffmanLeaves policy pmf).length = pmf.length := by simp [huffmanLeaves]
  have hget : ∀ i, i < pmf.length → ∃ nd, (huffmanLeaves policy pmf)[i]? = some nd ∧ nd.parent = none ∧
      nd.probability = pmf.getD i (pmf.head hne) := by
    intro i hi
    refine ⟨mkHNode policy i pmf[i] true, ?_, ?_, ?_⟩
    · simp [huffmanLeaves, hi]
    · rfl
    · rw [List.getD_eq_getElem _ _ hi]; rfl
  obtain ⟨T, h1, h2, h3⟩ := huffmanLoop_spec policy (fun i => pmf.getD i (pmf.head hne)) pmf.length
    (huffmanLeaves policy pmf) (List.range pmf.length) ((List.range pmf.length).map HT.leaf)
    ⟨by rw [List.map_map]; simp [Function.comp_def, HT.idx], List.nodup_range,
      by intro T hT; obtain ⟨i, _, rfl⟩ := List.mem_map.mp hT; trivial,
      by
        intro T hT
        obtain ⟨i, hi, rfl⟩ := List.mem_map.mp hT
        exact hget i (List.mem_range.mp hi),
      by
        intro i nd q hi hq
        have hi' := (List.getElem?_eq_some_iff.mp hi).1
        obtain ⟨nd', h1, h2, _⟩ := hget i (by omega)
        rw [h1] at hi
        obtain rfl := Option.some.inj hi
        rw [h2] at hq; simp at hq⟩
    (by simpa using hne) (by simp)
  exact ⟨T, h1, h2, by rw [hlen] at h3; exact h3⟩

/-- The codewords read off the array are the paths of one binary tree with leaves `0, …, n-1`. -/
theorem treeCodewords_spec (pmf : List α) (policy : HuffmanPolicy) (hne : pmf ≠ []) :
    ∃ T, Merge (selMin fun i => pmf.getD i (pmf.head hne)) ((List.range pmf.length).map HT.leaf) T ∧
      T.leaves.Perm (List.range pmf.length) ∧
      (∀ e ∈ T.paths, (treeCodewords (huffmanTree pmf policy) pmf.length)[e.1]? = some e.2) ∧
      treeLengths (huffmanTree pmf policy) pmf.length =
        (treeCodewords (huffmanTree pmf policy) pmf.length).map List.length := by
  obtain ⟨T, h1, h2, h3⟩ := huffmanTree_spec pmf policy hne
  have hleaves : T.leaves.Perm (List.range pmf.length) := by
    refine h1.leaves.trans ?_
    rw [List.flatMap_map]
    have : (fun a => HT.leaves (HT.leaf a)) = fun a => [a] := by
      funext a; simp [HT.leaves, HT.paths]
    rw [this]; simp
  refine ⟨T, h1, hleaves, ?_, treeLengths_eq h2.asc _ h3⟩
  intro e he
  have hlt : e.1 < pmf.length := List.mem_range.mp (hleaves.subset (List.mem_map_of_mem he))
  obtain ⟨nd, hr1, hr2, _⟩ := h2.root T (by simp)
  unfold treeCodewords
  rw [List.getElem?_map, List.getElem?_range hlt]
  simp only [Option.map_some, Option.some.injEq]
  rw [walkUp_paths h2.asc T (h2.rep T (by simp)) e he, walkUp_root hr1 hr2]
  simp

end
end Komm
