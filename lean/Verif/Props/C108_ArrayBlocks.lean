import Verif.Lemmas.NDArray
/-! C108: methods decorated with `@blockwise` on arrays with any number of axes. -/
namespace Komm.NDArray
variable {α β : Type}

/-- The number of entries is the product of the shape. -/
def WF (a : NDArray α) : Prop := a.data.length = a.shape.prod

/-- The `p`-th row: the `p`-th of the slices along the last axis, in row-major order. -/
def row (a : NDArray α) (p : Nat) : List α := (a.data.drop (p * a.shape.getLastD 1)).take (a.shape.getLastD 1)

/-- The `q`-th block of `m` entries of a row. -/
def block (m q : Nat) (r : List α) : List α := (r.drop (q * m)).take m

theorem mod_mul_zero (P m L : Nat) (h : L % m = 0) : P * L % (P * m) = 0 := by rw [Nat.mul_mod_mul_left, h, Nat.mul_zero]

theorem blockwise_core (vec : Bool) (m n : Nat) (f : List α → Option (List β)) (hf : ∀ r o, r.length = m → f r = some o → o.length = n)
    (lead : List Nat) (L : Nat) (hm : 0 < m) (hL : L % m = 0) (hP : lead.prod ≠ 0) (hv : ¬ (vec = true ∧ L = 0))
    (ls : List (List α)) (h : ∀ r ∈ ls, r.length = L) (hlen : ls.length = lead.prod) :
    blockwise vec m n f ⟨lead ++ [L], ls.flatten⟩ =
      (ls.mapM fun r : List α => Komm.blockwise m f r).map fun outs => ⟨lead ++ [L / m * n], outs.flatten⟩ := by
  have hsize : ls.flatten.length = lead.prod * L := by rw [length_flatten_rows L ls h, hlen]
  have hdiv : L / m * m = L := Nat.div_mul_cancel (Nat.dvd_of_mod_eq_zero hL)
  have hr : reshape (⟨lead ++ [L], ls.flatten⟩ : NDArray α) lead [m] = some ⟨lead ++ [L / m, m], ls.flatten⟩ := by
    have hk : lead.prod * m ≠ 0 := Nat.mul_ne_zero hP (by omega)
    have hq : lead.prod * L / (lead.prod * m) = L / m := Nat.mul_div_mul_left L m (Nat.pos_of_ne_zero hP)
    simp only [reshape, List.prod_singleton, hsize]
    rw [if_neg hk, if_neg (by rw [mod_mul_zero _ _ _ hL]; simp), hq]
  have hblk : ∀ r ∈ ls, Komm.blockwise m f r = ((chunks m r).mapM f).map List.flatten := by
    intro r hr
    unfold Komm.blockwise
    rw [if_neg (by omega), if_neg (by rw [h r hr, hL]; simp)]
  have hmap : (ls.mapM fun r : List α => Komm.blockwise m f r) = (ls.mapM fun r : List α => (chunks m r).mapM f).map fun o => o.map List.flatten := by
    clear hsize hr hlen h
    induction ls with
    | nil => simp
    | cons r ls ih =>
      rw [List.mapM_cons, List.mapM_cons, hblk r (by simp), ih fun x hx => hblk x (by simp [hx])]
      simp only [Option.bind_eq_bind, Option.pure_def]
      cases List.mapM f (chunks m r) <;> simp only [Option.map_none, Option.map_some, Option.bind_none, Option.bind_some]
      cases List.mapM (fun r => List.mapM f (chunks m r)) ls <;> simp
  have hinner : applyBlocks vec n f ⟨lead ++ [L / m, m], ls.flatten⟩ = alongLast n f ⟨lead ++ [L / m, m], ls.flatten⟩ := by
    unfold applyBlocks
    cases hvec : vec with
    | false => simp
    | true =>
      rw [if_pos rfl, vectorize, if_neg]
      have e : (lead ++ [L / m, m]).dropLast = lead ++ [L / m] := by
        rw [show lead ++ [L / m, m] = (lead ++ [L / m]) ++ [m] by simp, List.dropLast_concat]
      dsimp only
      rw [e, List.prod_append, List.prod_singleton]
      refine Nat.mul_ne_zero hP fun h0 => hv ⟨hvec, ?_⟩
      rw [← hdiv, h0, Nat.zero_mul]
  unfold blockwise
  simp only [List.getLast?_append, List.getLast?_singleton, Option.some_or, List.dropLast_concat]
  rw [if_neg (by omega), if_neg (by rw [hL]; simp), hr]
  simp only [Option.bind_eq_bind, Option.bind_some]
  rw [hinner, hmap]
  have e1 : (lead ++ [L / m, m]).getLastD 1 = m := by
    rw [show lead ++ [L / m, m] = (lead ++ [L / m]) ++ [m] by simp, List.getLastD_concat]
  have e2 : (lead ++ [L / m, m]).dropLast = lead ++ [L / m] := by
    rw [show lead ++ [L / m, m] = (lead ++ [L / m]) ++ [m] by simp, List.dropLast_concat]
  simp only [alongLast, e1, e2]
  rw [chunks_flatten_rows m L hm hL ls h, mapM_flatten_option, List.mapM_map]
  simp only [Function.comp_def]
  cases hres : List.mapM (fun r => List.mapM f (chunks m r)) ls with
  | none => rfl
  | some o =>
    simp only [Option.map_some, Option.bind_some]
    have e3 : (lead ++ [L / m] ++ [n]).dropLast.dropLast = lead := by rw [List.dropLast_concat, List.dropLast_concat]
    rw [e3]
    obtain ⟨ho1, ho2⟩ := (mapM_option_eq_some _ _ _).mp hres
    have hrow : ∀ x ∈ o, x.length = L / m ∧ ∀ y ∈ x, y.length = n := by
      intro x hx
      obtain ⟨i, hi, rfl⟩ := List.getElem_of_mem hx
      have := ho2 i (by rw [ho1]; exact hi) hi
      obtain ⟨hc1, hc2⟩ := (mapM_option_eq_some _ _ _).mp this
      have hl : ls[i].length = L := h _ (List.getElem_mem _)
      refine ⟨by rw [← hc1]; simp [chunks, hl], ?_⟩
      intro y hy
      obtain ⟨j, hj, rfl⟩ := List.getElem_of_mem hy
      refine hf _ _ ?_ (hc2 j (by rw [hc1]; exact hj) hj)
      exact chunks_row_length m hm _ (by rw [hl]; exact hL) _ (List.getElem_mem _)
    have hfl : o.flatten.flatten = (o.map List.flatten).flatten := by rw [List.flatten_flatten]
    have hlen' : o.flatten.flatten.length = lead.prod * (L / m * n) := by
      rw [hfl, length_flatten_rows (L / m * n), List.length_map, ← ho1, hlen]
      intro r hr
      obtain ⟨x, hx, rfl⟩ := List.mem_map.mp hr
      rw [length_flatten_rows n x (hrow x hx).2, (hrow x hx).1]
    simp only [reshape, List.prod_nil, Nat.mul_one, hlen']
    rw [if_neg hP, if_neg (by rw [Nat.mul_mod_right]; simp), Nat.mul_div_cancel_left _ (Nat.pos_of_ne_zero hP), hfl]

theorem blockwise_none (vec : Bool) (m n : Nat) (f : List α → Option (List β)) (lead : List Nat) (L : Nat) (data : List α)
    (hd : data.length = lead.prod * L) (h : m = 0 ∨ L % m ≠ 0 ∨ lead.prod = 0 ∨ (vec = true ∧ L = 0)) : blockwise vec m n f ⟨lead ++ [L], data⟩ = none := by
  unfold blockwise
  simp only [List.getLast?_append, List.getLast?_singleton, Option.some_or, List.dropLast_concat]
  by_cases hm : m = 0
  · rw [if_pos hm]
  rw [if_neg hm]
  by_cases hL : L % m ≠ 0
  · rw [if_pos hL]
  rw [if_neg hL]
  by_cases hP : lead.prod = 0
  · have : reshape (⟨lead ++ [L], data⟩ : NDArray α) lead [m] = none := by simp [reshape, hP]
    rw [this]; rfl
  · have hv : vec = true ∧ L = 0 := by
      rcases h with h | h | h | h
      · exact absurd h hm
      · exact absurd h hL
      · exact absurd h hP
      · exact h
    obtain ⟨rfl, rfl⟩ := hv
    have hr : reshape (⟨lead ++ [0], data⟩ : NDArray α) lead [m] = some ⟨lead ++ [0, m], data⟩ := by
      simp only [reshape, List.prod_singleton, hd]
      rw [if_neg (Nat.mul_ne_zero hP hm), if_neg (by simp)]
      simp
    have e2 : (lead ++ [0, m]).dropLast = lead ++ [0] := by
      rw [show lead ++ [0, m] = (lead ++ [0]) ++ [m] by simp, List.dropLast_concat]
    rw [hr]
    simp [applyBlocks, vectorize, e2]

theorem row_eq (lead : List Nat) (L : Nat) (ls : List (List α)) (h : ∀ r ∈ ls, r.length = L) (p : Nat) (hp : p < ls.length) :
    row ⟨lead ++ [L], ls.flatten⟩ p = ls[p] := by
  simp only [row, List.getLastD_concat]
  exact take_drop_flatten L ls h p hp

theorem eq_mk (a : NDArray α) (ha : a.WF) (lead : List Nat) (L : Nat) (hs : a.shape = lead ++ [L]) :
    ∃ ls : List (List α), a = ⟨lead ++ [L], ls.flatten⟩ ∧ (∀ r ∈ ls, r.length = L) ∧ ls.length = lead.prod := by
  obtain ⟨shape, data⟩ := a
  subst hs
  have hd : data.length = lead.prod * L := by rw [show data.length = (lead ++ [L]).prod from ha, List.prod_append, List.prod_singleton]
  obtain ⟨ls, rfl, h1, h2⟩ := exists_rows_count lead.prod L data hd
  exact ⟨ls, rfl, h1, h2⟩

/-- A successful call: the leading axes are kept, the last axis has `n` entries for each block of `m`, and every row of the output is what the
method gives for that row of the input alone (a one-dimensional array). -/
theorem C108_rows (vec : Bool) (m n : Nat) (f : List α → Option (List β)) (hf : ∀ r o, r.length = m → f r = some o → o.length = n)
    (a : NDArray α) (ha : a.WF) (lead : List Nat) (L : Nat) (hs : a.shape = lead ++ [L]) (b : NDArray β) (h : blockwise vec m n f a = some b) :
    b.shape = lead ++ [L / m * n] ∧ b.WF ∧ ∀ p < lead.prod, Komm.blockwise m f (a.row p) = some (b.row p) := by
  obtain ⟨ls, rfl, h1, h2⟩ := eq_mk a ha lead L hs
  by_cases hc : m = 0 ∨ L % m ≠ 0 ∨ lead.prod = 0 ∨ (vec = true ∧ L = 0)
  · rw [blockwise_none vec m n f lead L _ (by rw [length_flatten_rows L ls h1, h2]) hc] at h
    exact absurd h (by simp)
  push Not at hc
  obtain ⟨hm, hL, hP, hv⟩ := hc
  have hm' : 0 < m := Nat.pos_of_ne_zero hm
  rw [blockwise_core vec m n f hf lead L hm' hL hP (fun hx => hv hx.1 hx.2) ls h1 h2] at h
  obtain ⟨outs, ho, rfl⟩ := Option.map_eq_some_iff.mp h
  obtain ⟨g1, g2⟩ := (mapM_option_eq_some _ _ _).mp ho
  have hlen : ∀ r ∈ outs, r.length = L / m * n := by
    intro r hr
    obtain ⟨i, hi, rfl⟩ := List.getElem_of_mem hr
    have hg := g2 i (by rw [g1]; exact hi) hi
    have hl : ls[i].length = L := h1 _ (List.getElem_mem _)
    unfold Komm.blockwise at hg
    rw [if_neg hm, if_neg (by rw [hl, hL]; simp)] at hg
    obtain ⟨c, hc, hcf⟩ := Option.map_eq_some_iff.mp hg
    rw [← hcf]
    obtain ⟨k1, k2⟩ := (mapM_option_eq_some _ _ _).mp hc
    rw [length_flatten_rows n c, ← k1]
    · simp [chunks, hl]
    · intro y hy
      obtain ⟨j, hj, rfl⟩ := List.getElem_of_mem hy
      exact hf _ _ (chunks_row_length m hm' _ (by rw [hl]; exact hL) _ (List.getElem_mem _)) (k2 j (by rw [k1]; exact hj) hj)
  refine ⟨rfl, ?_, ?_⟩
  · simp only [WF]
    rw [length_flatten_rows _ outs hlen, ← g1, h2, List.prod_append, List.prod_singleton]
  · intro p hp
    rw [row_eq lead L ls h1 p (by omega), row_eq lead _ outs hlen p (by omega)]
    exact g2 p (by omega) (by omega)

/-- Exactly the calls that raise: an array without axes, a last axis that is not a multiple of the block size (or block size zero), no row at all,
no block at all for the methods that use `@vectorize`, or a block on which the function itself raises. -/
theorem C108_raises_iff (vec : Bool) (m n : Nat) (f : List α → Option (List β)) (hf : ∀ r o, r.length = m → f r = some o → o.length = n)
    (a : NDArray α) (ha : a.WF) : blockwise vec m n f a = none ↔
      a.shape = [] ∨ ∃ lead L, a.shape = lead ++ [L] ∧ (m = 0 ∨ L % m ≠ 0 ∨ lead.prod = 0 ∨ (vec = true ∧ L = 0) ∨
        ∃ p < lead.prod, ∃ q < L / m, f (block m q (a.row p)) = none) := by
  rcases List.eq_nil_or_concat a.shape with h0 | ⟨lead, L, hs⟩
  · constructor
    · exact fun _ => Or.inl h0
    · intro _
      unfold blockwise
      rw [h0]
      rfl
  rw [List.concat_eq_append] at hs
  have hne : a.shape ≠ [] := by rw [hs]; simp
  obtain ⟨ls, rfl, h1, h2⟩ := eq_mk a ha lead L hs
  have key : blockwise vec m n f ⟨lead ++ [L], ls.flatten⟩ = none ↔ (m = 0 ∨ L % m ≠ 0 ∨ lead.prod = 0 ∨ (vec = true ∧ L = 0) ∨
        ∃ p < lead.prod, ∃ q < L / m, f (block m q (row ⟨lead ++ [L], ls.flatten⟩ p)) = none) := by
    by_cases hc : m = 0 ∨ L % m ≠ 0 ∨ lead.prod = 0 ∨ (vec = true ∧ L = 0)
    · rw [blockwise_none vec m n f lead L _ (by rw [length_flatten_rows L ls h1, h2]) hc]
      simp only [true_iff]
      tauto
    have hc' := hc
    push Not at hc
    obtain ⟨hm, hL, hP, hv⟩ := hc
    have hm' : 0 < m := Nat.pos_of_ne_zero hm
    rw [blockwise_core vec m n f hf lead L hm' hL hP (fun hx => hv hx.1 hx.2) ls h1 h2, Option.map_eq_none_iff, mapM_option_eq_none]
    have hrow : ∀ r ∈ ls, (Komm.blockwise m f r = none ↔ ∃ q < L / m, f (block m q r) = none) := by
      intro r hr
      unfold Komm.blockwise
      rw [if_neg hm, if_neg (by rw [h1 r hr, hL]; simp), Option.map_eq_none_iff, mapM_option_eq_none]
      simp only [chunks, h1 r hr, List.mem_map, List.mem_range, exists_exists_and_eq_and]
      rfl
    constructor
    · rintro ⟨r, hr, hn⟩
      obtain ⟨i, hi, rfl⟩ := List.getElem_of_mem hr
      refine Or.inr (Or.inr (Or.inr (Or.inr ⟨i, by omega, ?_⟩)))
      rw [row_eq lead L ls h1 i hi]
      exact (hrow _ hr).mp hn
    · intro h
      have hx : ∃ p < lead.prod, ∃ q < L / m, f (block m q (row ⟨lead ++ [L], ls.flatten⟩ p)) = none := by tauto
      obtain ⟨p, hp, hq⟩ := hx
      rw [row_eq lead L ls h1 p (by omega)] at hq
      exact ⟨ls[p], List.getElem_mem _, (hrow _ (List.getElem_mem _)).mpr hq⟩
  rw [key]
  constructor
  · exact fun h => Or.inr ⟨lead, L, rfl, h⟩
  · rintro (h | ⟨lead', L', he, h⟩)
    · simp at h
    · obtain ⟨e1, e2⟩ := List.append_inj' he rfl
      simp only [List.cons.injEq, and_true] at e2
      subst e1 e2
      exact h

/-- Block by block: the `q`-th block of row `p` of the output is the function of the `q`-th block of row `p` of the input. -/
theorem C108_blocks (vec : Bool) (m n : Nat) (f : List α → Option (List β)) (hf : ∀ r o, r.length = m → f r = some o → o.length = n)
    (a : NDArray α) (ha : a.WF) (lead : List Nat) (L : Nat) (hs : a.shape = lead ++ [L]) (b : NDArray β) (h : blockwise vec m n f a = some b)
    (p q : Nat) (hp : p < lead.prod) (hq : q < L / m) : f (block m q (a.row p)) = some (block n q (b.row p)) := by
  have hrows := (C108_rows vec m n f hf a ha lead L hs b h).2.2 p hp
  have hm : m ≠ 0 := by rintro rfl; simp at hq
  obtain ⟨ls, rfl, h1, h2⟩ := eq_mk a ha lead L hs
  have hl : (row ⟨lead ++ [L], ls.flatten⟩ p).length = L := by rw [row_eq lead L ls h1 p (by omega)]; exact h1 _ (List.getElem_mem _)
  unfold Komm.blockwise at hrows
  rw [if_neg hm] at hrows
  split at hrows
  · exact absurd hrows (by simp)
  rename_i hmod
  obtain ⟨c, hc, hcf⟩ := Option.map_eq_some_iff.mp hrows
  obtain ⟨k1, k2⟩ := (mapM_option_eq_some _ _ _).mp hc
  have hcl : c.length = L / m := by rw [← k1]; simp [chunks, hl]
  have hn : ∀ y ∈ c, y.length = n := by
    intro y hy
    obtain ⟨j, hj, rfl⟩ := List.getElem_of_mem hy
    exact hf _ _ (chunks_row_length m (Nat.pos_of_ne_zero hm) _ (by simpa using hmod) _ (List.getElem_mem _)) (k2 j (by rw [k1]; exact hj) hj)
  have hk := k2 q (by rw [k1]; omega) (by omega)
  rw [← hcf]
  simp only [block]
  rw [take_drop_flatten n c hn q (by omega), ← hk]
  simp [chunks]

/-- An empty message is accepted by the methods written with array operations (`BlockCode.encode([])` is `[]`) and rejected by those that use
`@vectorize` (`CyclicCode.encode([])` raises). -/
theorem C108_empty (m n : Nat) (hm : 0 < m) (f : List α → Option (List β)) :
    blockwise false m n f ⟨[0], []⟩ = some ⟨[0], []⟩ ∧ blockwise true m n f ⟨[0], []⟩ = none := by
  refine ⟨?_, blockwise_none true m n f [] 0 [] (by simp) (Or.inr (Or.inr (Or.inr ⟨rfl, rfl⟩)))⟩
  have e : (⟨[0], []⟩ : NDArray α) = ⟨[] ++ [0], ([] : List (List α)).flatten⟩ := rfl
  have h : blockwise false m n f ⟨[0], []⟩ = some ⟨[0], []⟩ := by
    unfold blockwise
    have hm0 : m ≠ 0 := by omega
    simp [hm0, reshape, applyBlocks, alongLast, chunks]
  exact h

/-- Two rows of two blocks each. -/
example : blockwise true 2 1 (fun r : List Nat => some [r.sum]) ⟨[2, 4], [1, 2, 3, 4, 5, 6, 7, 8]⟩ = some ⟨[2, 2], [3, 7, 11, 15]⟩ := by decide +kernel
example : blockwise false 3 1 (fun r : List Nat => some [r.sum]) ⟨[2, 4], [1, 2, 3, 4, 5, 6, 7, 8]⟩ = none := by decide +kernel

end Komm.NDArray
