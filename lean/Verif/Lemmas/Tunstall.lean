import Verif.Model.Tunstall
import Verif.Lemmas.HuffmanCode
import Mathlib.Tactic.Qify

namespace Komm

/-- The set of words of a parsing tree over `{0, …, S-1}`. -/
structure ParseTree (S : Nat) (W : List Word) : Prop where
  pw : W.Pairwise fun a b => ¬ a <+: b ∧ ¬ b <+: a
  ne : ∀ w ∈ W, w ≠ []
  sym : ∀ w ∈ W, ∀ a ∈ w, a < S
  cov : FullyCovering W S

theorem ParseTree.perm {S : Nat} {W W' : List Word} (h : ParseTree S W) (hp : W.Perm W') : ParseTree S W' :=
  ⟨(hp.pairwise_iff (fun {a b} h => ⟨h.2, h.1⟩)).mp h.pw, fun w hw => h.ne w (hp.symm.subset hw),
    fun w hw => h.sym w (hp.symm.subset hw), fun f hf => by
      obtain ⟨w, hw, h2⟩ := h.cov f hf
      exact ⟨w, hp.subset hw, h2⟩⟩

theorem ParseTree.expand {S : Nat} {w : Word} {W : List Word} (h : ParseTree S (w :: W)) :
    ParseTree S (W ++ (List.range S).map fun s => w ++ [s]) := by
  have hpw := List.pairwise_cons.mp h.pw
  refine ⟨?_, ?_, ?_, ?_⟩
  · rw [List.pairwise_append]
    refine ⟨hpw.2, ?_, ?_⟩
    · rw [List.pairwise_map]
      refine List.nodup_range.imp ?_
      intro a b hab
      constructor
      · intro hc; apply hab; simpa using hc.eq_of_length (by simp)
      · intro hc; apply hab; simpa using (hc.eq_of_length (by simp)).symm
    · intro v hv x hx
      obtain ⟨s, _, rfl⟩ := List.mem_map.mp hx
      have h1 := hpw.1 v hv
      constructor
      · intro hc
        rcases Nat.lt_or_ge w.length v.length with hl | hl
        · exact h1.1 (List.prefix_of_prefix_length_le ⟨[s], rfl⟩ hc hl.le)
        · exact h1.2 (List.prefix_of_prefix_length_le hc ⟨[s], rfl⟩ hl)
      · intro hc; exact h1.1 (List.IsPrefix.trans ⟨[s], rfl⟩ hc)
  · intro v hv
    rcases List.mem_append.mp hv with hv | hv
    · exact h.ne v (by simp [hv])
    · obtain ⟨s, _, rfl⟩ := List.mem_map.mp hv; simp
  · intro v hv
    rcases List.mem_append.mp hv with hv | hv
    · exact h.sym v (by simp [hv])
    · obtain ⟨s, hs, rfl⟩ := List.mem_map.mp hv
      intro a ha
      rcases List.mem_append.mp ha with ha | ha
      · exact h.sym w (by simp) a ha
      · rw [List.mem_singleton.mp ha]; exact List.mem_range.mp hs
  · intro f hf
    obtain ⟨v, hv, hv0, hvf⟩ := h.cov f hf
    rcases List.mem_cons.mp hv with rfl | hv
    · refine ⟨v ++ [f v.length], ?_, by simp, ?_⟩
      · rw [List.mem_append]; right
        exact List.mem_map.mpr ⟨_, List.mem_range.mpr (hf _), rfl⟩
      · rw [List.length_append, List.length_singleton, List.range_succ, List.map_append, ← hvf]; rfl
    · exact ⟨v, by simp [hv], hv0, hvf⟩

theorem ParseTree.base {S : Nat} : ParseTree S ((List.range S).map fun s => [s]) := by
  refine ⟨?_, by simp, by simp, ?_⟩
  · rw [List.pairwise_map]
    refine List.nodup_range.imp ?_
    intro a b hab
    simp [hab, Ne.symm hab]
  · intro f hf
    exact ⟨[f 0], by simp [hf 0], by simp, by simp⟩

theorem tunstallChildren_words (pmf : List ℚ) (node : TNode) :
    (tunstallChildren pmf node).map Prod.fst = (List.range pmf.length).map fun s => node.1 ++ [s] := by
  apply List.ext_getElem (by simp [tunstallChildren])
  intro i h1 h2
  simp [tunstallChildren]

theorem perm_eraseIdx {β : Type} {l : List β} {i : Nat} {x : β} (h : l[i]? = some x) :
    l.Perm (x :: l.eraseIdx i) := by
  induction l generalizing i with
  | nil => simp at h
  | cons a l ih =>
    cases i with
    | zero => simp at h; subst h; simp
    | succ i =>
      simp only [List.getElem?_cons_succ] at h
      rw [List.eraseIdx_cons_succ]
      exact ((ih h).cons a).trans (List.Perm.swap _ _ _)

/-- The oracle returns a position in the heap. -/
def ValidChoice (choose : List TNode → Nat) : Prop := ∀ heap, heap ≠ [] → choose heap < heap.length

theorem tunstallLoop_spec (pmf : List ℚ) (hS : 2 ≤ pmf.length) {choose : List TNode → Nat}
    (hc : ValidChoice choose) (K : Nat) : ∀ heap : List TNode, heap ≠ [] →
      ParseTree pmf.length (heap.map Prod.fst) →
      ParseTree pmf.length ((tunstallLoop pmf choose K heap).map Prod.fst) ∧
      (tunstallLoop pmf choose K heap).length = heap.length + K * (pmf.length - 1) := by
  induction K with
  | zero => intro heap _ h; exact ⟨h, by simp [tunstallLoop]⟩
  | succ K ih =>
    intro heap hne h
    have hlt := hc heap hne
    have hget : heap[choose heap]? = some heap[choose heap] := List.getElem?_eq_getElem hlt
    rw [tunstallLoop, hget]
    simp only
    generalize hnode : heap[choose heap] = node at *
    have hperm := perm_eraseIdx hget
    have hlen := hperm.length_eq
    have htree : ParseTree pmf.length ((heap.eraseIdx (choose heap) ++ tunstallChildren pmf node).map Prod.fst) := by
      rw [List.map_append, tunstallChildren_words]
      exact (h.perm (hperm.map _)).expand
    obtain ⟨h1, h2⟩ := ih (heap.eraseIdx (choose heap) ++ tunstallChildren pmf node) (by
      intro hc
      have := congrArg List.length hc
      rw [List.length_append, List.length_nil] at this
      simp only [tunstallChildren, List.length_mapIdx] at this
      omega) htree
    refine ⟨h1, ?_⟩
    rw [h2, List.length_append]
    simp only [tunstallChildren, List.length_mapIdx, List.length_cons] at hlen ⊢
    rw [Nat.add_mul]; omega

theorem tunstallRounds_spec (S n : Nat) (hS : 2 ≤ S) (hn : S ≤ 2 ^ n) :
    S + tunstallRounds S n * (S - 1) ≤ 2 ^ n ∧ 2 ^ n ≤ S + (tunstallRounds S n + 1) * (S - 1) ∧
      (S < 2 ^ n → S + tunstallRounds S n * (S - 1) < 2 ^ n) := by
  unfold tunstallRounds
  obtain ⟨d, rfl⟩ : ∃ d, S = d + 1 := ⟨S - 1, by omega⟩
  obtain ⟨m, hm⟩ : ∃ m, 2 ^ n = d + 1 + m := ⟨2 ^ n - (d + 1), by omega⟩
  have hq : ((2 ^ n - (d + 1 : Nat) : ℚ) / ((d + 1 : Nat) - 1)) = (m : ℚ) / d := by
    have : (2 ^ n : ℚ) = ((d + 1 + m : Nat) : ℚ) := by rw [← hm]; push_cast; ring
    rw [this]; push_cast; ring
  rw [hq, hm]
  have hd : (0 : ℚ) < d := by exact_mod_cast (by omega : 0 < d)
  have h1 := Int.le_ceil ((m : ℚ) / d)
  have h2 := Int.ceil_lt_add_one ((m : ℚ) / d)
  set c := ⌈(m : ℚ) / d⌉ with hc
  rw [div_le_iff₀ hd] at h1
  have h2' : ((c - 1 : ℤ) : ℚ) * d < m := by
    have : ((c - 1 : ℤ) : ℚ) < (m : ℚ) / d := by push_cast; linarith
    rwa [lt_div_iff₀ hd] at this
  have h1' : (m : ℤ) ≤ c * d := by exact_mod_cast h1
  have h2'' : (c - 1) * d < (m : ℤ) := by exact_mod_cast h2'
  have hc0 : 0 ≤ c := by
    rw [hc]; exact Int.ceil_nonneg (by positivity)
  rcases Nat.eq_zero_or_pos m with hm0 | hm0
  · have : c = 0 := by rw [hc, hm0]; simp
    rw [this, hm0]; simp
  · have hcpos : 1 ≤ c := by
      by_contra hcc
      have : c = 0 := by omega
      rw [this] at h1'; simp at h1'; omega
    obtain ⟨j, hj⟩ : ∃ j : Nat, c = j + 1 := ⟨(c - 1).toNat, by omega⟩
    rw [hj] at h1' h2'' ⊢
    have e1 : ((j : ℤ) + 1 - 1).toNat = j := by omega
    rw [e1]
    simp only [add_sub_cancel_right] at h2''
    have h3 : j * d < m := by exact_mod_cast h2''
    have h4 : m ≤ (j + 1) * d := by exact_mod_cast h1'
    simp only [Nat.add_sub_cancel]
    exact ⟨by omega, by omega, fun _ => by omega⟩

theorem tunstallCode_spec (pmf : List ℚ) (n : Nat) (hS : 2 ≤ pmf.length) (hn : pmf.length ≤ 2 ^ n)
    {choose : List TNode → Nat} (hc : ValidChoice choose) :
    ∃ c, tunstallCode pmf n choose = some c ∧
      c.sourcewords.Perm ((tunstallLeaves pmf n choose).map Prod.fst) ∧
      ParseTree pmf.length c.sourcewords ∧
      c.sourcewords.length = pmf.length + tunstallRounds pmf.length n * (pmf.length - 1) ∧
      c.decMapping.map Prod.fst = (allWords 2 n).take c.sourcewords.length ∧
      (c.decMapping.map Prod.fst).Nodup := by
  have hbase : ParseTree pmf.length ((pmf.mapIdx fun symbol p => (([symbol], p) : TNode)).map Prod.fst) := by
    have : (pmf.mapIdx fun symbol p => (([symbol], p) : TNode)).map Prod.fst =
        (List.range pmf.length).map fun s => [s] := by
      apply List.ext_getElem (by simp)
      intro i h1 h2; simp
    rw [this]; exact ParseTree.base
  obtain ⟨h1, h2⟩ := tunstallLoop_spec pmf hS hc (tunstallRounds pmf.length n)
    (pmf.mapIdx fun symbol p => ([symbol], p)) (by
      intro h; have := congrArg List.length h; simp at this; subst this; simp at hS) hbase
  rw [List.length_mapIdx] at h2
  obtain ⟨h3, -, -⟩ := tunstallRounds_spec pmf.length n hS hn
  have hperm := List.perm_insertionSort (· ≤ ·) ((tunstallLeaves pmf n choose).map Prod.fst)
  generalize hws : ((tunstallLeaves pmf n choose).map Prod.fst).insertionSort (· ≤ ·) = ws at *
  have hlenw : ws.length = pmf.length + tunstallRounds pmf.length n * (pmf.length - 1) := by
    rw [hperm.length_eq, List.length_map]; exact h2
  have htree : ParseTree pmf.length ws := h1.perm hperm.symm
  have hle : ws.length ≤ (allWords 2 n).length := by rw [allWords_length, hlenw]; exact h3
  have hfst : ((allWords 2 n).zip ws).map Prod.fst = (allWords 2 n).take ws.length := by
    rw [List.zip_eq_zip_take_min, List.map_fst_zip (by simp), min_eq_right hle]
  have hsnd : ((allWords 2 n).zip ws).map Prod.snd = ws := List.map_snd_zip hle
  have hnd : (((allWords 2 n).zip ws).map Prod.fst).Nodup := by
    rw [hfst]; exact (allWords_nodup 2 n).sublist (List.take_sublist _ _)
  have hmap : tunstallMapping pmf n choose = (allWords 2 n).zip ws := by
    unfold tunstallMapping
    rw [hws, dictOfPairs_nodup _ hnd]
  refine ⟨⟨2, pmf.length, n, (allWords 2 n).zip ws⟩, ?_, ?_, ?_, ?_, ?_, hnd⟩
  · unfold tunstallCode
    rw [if_neg (by omega), if_neg (by omega), hmap]
    unfold VFCode.create
    have hn1 : 1 ≤ n := by
      by_contra hc0
      have : n = 0 := by omega
      subst this; simp at hn; omega
    rw [if_neg (by omega), if_neg (by omega), if_neg (by omega), if_neg, if_neg]
    · rw [not_not]
      intro e he
      have := (List.of_mem_zip he).2
      exact ⟨htree.sym _ this, List.length_pos_iff.mpr (htree.ne _ this)⟩
    · rw [not_not, hfst]
      intro w hw
      rw [List.mem_toFinset] at hw ⊢
      exact List.mem_of_mem_take hw
  · rw [VFCode.sourcewords, hsnd]; exact hperm
  · rw [VFCode.sourcewords, hsnd]; exact htree
  · rw [VFCode.sourcewords, hsnd]; exact hlenw
  · rw [VFCode.sourcewords, hsnd]; exact hfst

end Komm
