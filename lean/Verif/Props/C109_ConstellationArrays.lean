import Verif.Model.ConstellationArrays
import Verif.Props.C108_ArrayBlocks
import Verif.Props.C75_PSK
/-! C109: the methods of a constellation on arrays of any shape. -/
namespace Komm
open Constellation NDArray

variable {𝕜 : Type} [RCLike 𝕜] {M N : Nat}

/-- `closest_indices` as it should be: whenever the last axis is a multiple of the dimension and no leading axis is empty, the call succeeds,
keeps the leading axes, has one index per block, and the index names a point of the constellation nearest to that block. -/
def Decides (m : Fin M → Fin N → 𝕜) (ci : NDArray 𝕜 → Option (NDArray ℤ)) : Prop :=
  ∀ (a : NDArray 𝕜) (lead : List Nat) (L : Nat), a.WF → a.shape = lead ++ [L] → L % N = 0 → lead.prod ≠ 0 →
    ∃ b, ci a = some b ∧ b.shape = lead ++ [L / N] ∧ b.WF ∧ ∀ p < lead.prod, ∀ q < L / N,
      ∃ i : Fin M, (b.row p)[q]? = some (i.val : ℤ) ∧ Nearest m (vec N (block N q (a.row p))) i

theorem wf_len {α : Type} (a : NDArray α) (ha : a.WF) (lead : List Nat) (L : Nat) (hs : a.shape = lead ++ [L]) : a.data.length = lead.prod * L := by
  rw [show a.data.length = a.shape.prod from ha, hs, List.prod_append, List.prod_singleton]

theorem mapBlocks_eq {α β : Type} (n : Nat) (f : List α → Option (List β)) (a : NDArray α) (ha : a.WF) (lead : List Nat) (L : Nat) (hs : a.shape = lead ++ [L])
    (hN : 0 < N) (hL : L % N = 0) (hP : lead.prod ≠ 0) : mapBlocks N f a = NDArray.blockwise false N n f a := by
  have hd := wf_len a ha lead L hs
  have r1 : a.reshape [] [N] = some ⟨[lead.prod * L / N, N], a.data⟩ := by
    simp only [reshape, List.prod_nil, List.prod_singleton, Nat.one_mul, hd]
    rw [if_neg (by omega), if_neg]
    · rfl
    · rw [Nat.mul_mod, hL]; simp
  have r2 : a.reshape lead [N] = some ⟨lead ++ [L / N, N], a.data⟩ := by
    have hq : lead.prod * L / (lead.prod * N) = L / N := Nat.mul_div_mul_left L N (Nat.pos_of_ne_zero hP)
    simp only [reshape, List.prod_singleton, hd]
    rw [if_neg (Nat.mul_ne_zero hP (by omega)), if_neg (by rw [mod_mul_zero _ _ _ hL]; simp), hq]
  have e1 : (lead ++ [L / N, N]).getLastD 1 = N := by
    rw [show lead ++ [L / N, N] = (lead ++ [L / N]) ++ [N] by simp, List.getLastD_concat]
  have e2 : (lead ++ [L / N, N]).dropLast = lead ++ [L / N] := by
    rw [show lead ++ [L / N, N] = (lead ++ [L / N]) ++ [N] by simp, List.dropLast_concat]
  unfold mapBlocks NDArray.blockwise
  rw [r1, hs]
  simp only [List.getLast?_append, List.getLast?_singleton, Option.some_or, List.dropLast_concat]
  rw [if_neg (by omega), if_neg (by rw [hL]; simp), r2]
  simp only [Option.bind_eq_bind, Option.bind_some, applyBlocks, alongLast, e1, e2, Bool.false_eq_true, if_false]
  cases List.mapM f (chunks N a.data) with
  | none => rfl
  | some o =>
    simp only [Option.bind_some, Option.map_some, List.dropLast_concat]
    rfl

/-- The calls without validation raise all the same when the last axis is not a multiple of the dimension. -/
theorem mapBlocks_none {α β : Type} (f : List α → Option (List β)) (hf : ∀ r o, r.length = N → f r = some o → o.length = 1) (a : NDArray α) (ha : a.WF)
    (lead : List Nat) (L : Nat) (hs : a.shape = lead ++ [L]) (h : N = 0 ∨ L % N ≠ 0 ∨ lead.prod = 0) : mapBlocks N f a = none := by
  have hd := wf_len a ha lead L hs
  unfold mapBlocks
  by_cases hN : N = 0
  · simp [reshape, hN]
  by_cases hk : lead.prod * L % N = 0
  · have r1 : a.reshape [] [N] = some ⟨[lead.prod * L / N, N], a.data⟩ := by
      simp only [reshape, List.prod_nil, List.prod_singleton, Nat.one_mul, hd]
      rw [if_neg hN, if_neg (by rw [hk]; simp)]
      rfl
    rw [r1]
    simp only [Option.bind_eq_bind, Option.bind_some]
    cases ho : List.mapM f (chunks N a.data) with
    | none => rfl
    | some o =>
      obtain ⟨g1, g2⟩ := (mapM_option_eq_some _ _ _).mp ho
      have hlen : o.flatten.length = lead.prod * L / N := by
        rw [length_flatten_rows 1 o, Nat.mul_one, ← g1]
        · simp [chunks, hd]
        · intro y hy
          obtain ⟨j, hj, rfl⟩ := List.getElem_of_mem hy
          exact hf _ _ (chunks_row_length N (by omega) _ (by rw [hd]; exact hk) _ (List.getElem_mem _)) (g2 j (by rw [g1]; exact hj) hj)
      simp only [Option.bind_some, reshape, hs, List.dropLast_concat, List.prod_nil, Nat.mul_one, hlen]
      by_cases hP : lead.prod = 0
      · rw [if_pos hP]
      · rw [if_neg hP, if_pos]
        intro h0
        have hL : L % N ≠ 0 := by tauto
        apply hL
        obtain ⟨c, hc⟩ := Nat.dvd_of_mod_eq_zero h0
        have : lead.prod * L = lead.prod * (c * N) := by
          rw [← Nat.div_mul_cancel (Nat.dvd_of_mod_eq_zero hk), hc, Nat.mul_assoc]
        rw [Nat.eq_of_mul_eq_mul_left (Nat.pos_of_ne_zero hP) this]
        simp
  · have : a.reshape [] [N] = none := by
      simp only [reshape, List.prod_nil, List.prod_singleton, Nat.one_mul, hd]
      rw [if_neg hN, if_pos hk]
    rw [this]
    rfl

theorem block_one {α : Type} (q : Nat) (r : List α) (x : α) (h : block 1 q r = [x]) : r[q]? = some x := by
  simp only [block, Nat.mul_one] at h
  have := congrArg (fun l => l[0]?) h
  simpa [List.getElem?_take, List.getElem?_drop] using this

/-- From the decision on one block to the decisions on an array. -/
theorem decides_of (hN : 0 < N) (m : Fin M → Fin N → 𝕜) (g : (Fin N → 𝕜) → Option (Fin M)) (hg : ∀ v, ∃ i, g v = some i ∧ Nearest m v i) :
    Decides m (mapBlocks N fun r => (g (vec N r)).map fun i => [(i.val : ℤ)]) := by
  intro a lead L ha hs hL hP
  have hf : ∀ (r : List 𝕜) (o : List ℤ), r.length = N → ((g (vec N r)).map fun i => [(i.val : ℤ)]) = some o → o.length = 1 := by
    intro r o _ h
    obtain ⟨i, _, rfl⟩ := Option.map_eq_some_iff.mp h
    rfl
  rw [mapBlocks_eq 1 _ a ha lead L hs hN hL hP]
  cases hb : NDArray.blockwise false N 1 (fun r => (g (vec N r)).map fun i => [(i.val : ℤ)]) a with
  | none =>
    exfalso
    rcases (C108_raises_iff false N 1 _ hf a ha).mp hb with h | ⟨lead', L', he, h⟩
    · rw [hs] at h; simp at h
    · rw [hs] at he
      obtain ⟨rfl, e2⟩ := List.append_inj' he rfl
      simp only [List.cons.injEq, and_true] at e2
      subst e2
      rcases h with h | h | h | h | ⟨p, _, q, _, h⟩
      · omega
      · exact h hL
      · exact hP h
      · simp at h
      · obtain ⟨i, hi, _⟩ := hg (vec N (block N q (a.row p)))
        rw [hi] at h
        simp at h
  | some b =>
    obtain ⟨h1, h2, _⟩ := C108_rows false N 1 _ hf a ha lead L hs b hb
    refine ⟨b, rfl, by rw [h1, Nat.mul_one], h2, ?_⟩
    intro p hp q hq
    obtain ⟨i, hi, hn⟩ := hg (vec N (block N q (a.row p)))
    have := C108_blocks false N 1 _ hf a ha lead L hs b hb p q hp hq
    rw [hi] at this
    simp only [Option.map_some, Option.some.injEq] at this
    exact ⟨i, block_one q _ _ this.symm, hn⟩

/-- The generic class (also `APSKConstellation` and `CrossQAMConstellation`). -/
theorem C109_generic (hM : 0 < M) (hN : 0 < N) (m : Fin M → Fin N → 𝕜) : Decides m (closestIndices m) := by
  intro a lead L ha hs hL hP
  have : closestIndices m a = mapBlocks N (fun r => (closest m (vec N r)).map fun i => [(i.val : ℤ)]) a := by
    unfold closestIndices validateReceived
    rw [hs]
    simp only [List.getLast?_append, List.getLast?_singleton, Option.some_or]
    rw [if_neg (by omega), if_neg (by rw [hL]; simp)]
    rfl
  rw [this]
  refine decides_of hN m (closest m) (fun v => ?_) a lead L ha hs hL hP
  obtain ⟨i, h1, h2, _⟩ := C75_generic hM m v
  exact ⟨i, h1, h2⟩

/-- Orthogonal signals. -/
theorem C109_orthogonal (hM : 0 < M) (A : ℝ) (hA : 0 ≤ A) : Decides (orthogonal M A) (orthogonalClosestArray M) :=
  decides_of hM (orthogonal M A) orthogonalClosest fun v => by
    obtain ⟨i, h⟩ := C75_orthogonal M hM A hA v
    exact ⟨i, h⟩

/-- Simplex signals. -/
theorem C109_simplex (hM : 0 < M) (A : ℝ) (hA : 0 ≤ A) : Decides (simplex M A) (orthogonalClosestArray M) :=
  decides_of hM (simplex M A) orthogonalClosest fun v => by
    obtain ⟨i, h⟩ := C75_simplex M hM A hA v
    exact ⟨i, h⟩

/-- Biorthogonal signals. -/
theorem C109_biorthogonal (hN : 0 < N) (A : ℝ) (hA : 0 ≤ A) : Decides (biorthogonal N A) (biorthogonalClosestArray N) :=
  decides_of hN (biorthogonal N A) biorthogonalClosest fun v => by
    obtain ⟨i, h⟩ := C75_biorthogonal N hN A hA v
    exact ⟨i, h⟩

/-- The classes that decide entry by entry. -/
theorem decides_entries (m : Fin M → Fin 1 → 𝕜) (f : 𝕜 → ℤ) (hf : ∀ r, ∃ i : Fin M, f r = i.val ∧ Nearest m (fun _ => r) i) : Decides m (closestEntries f) := by
  intro a lead L ha hs hL hP
  obtain ⟨ls, rfl, h1, h2⟩ := eq_mk a ha lead L hs
  have hmap : (ls.flatten.map f) = (ls.map fun r => r.map f).flatten := by rw [List.map_flatten]
  have h1' : ∀ r ∈ ls.map (fun r => r.map f), r.length = L := by
    intro r hr
    obtain ⟨x, hx, rfl⟩ := List.mem_map.mp hr
    rw [List.length_map, h1 x hx]
  refine ⟨_, rfl, by simp, ?_, ?_⟩
  · simp only [WF]
    rw [List.length_map]
    exact ha
  intro p hp q hq
  rw [Nat.div_one] at hq
  have hrow := row_eq lead L ls h1 p (by omega)
  have hx : q < ls[p].length := by rw [h1 _ (List.getElem_mem _)]; exact hq
  obtain ⟨i, hi, hn⟩ := hf ls[p][q]
  refine ⟨i, ?_, ?_⟩
  · dsimp only
    rw [hmap, row_eq lead L _ h1' p (by rw [List.length_map]; omega)]
    simp [hi, List.getElem?_eq_getElem hx]
  · have : vec 1 (block 1 q (row ⟨lead ++ [L], ls.flatten⟩ p)) = fun _ => ls[p][q] := by
      rw [hrow]
      funext j
      have hj : j.val = 0 := by omega
      simp [vec, block, hj, List.getElem?_drop, List.getElem?_take, List.getElem?_eq_getElem hx]
    rw [this]
    exact hn

/-- PAM. -/
theorem C109_pam (hM : 0 < M) (δ : ℝ) (hδ : δ ≠ 0) : Decides (pam M δ) (closestEntries (pamClosest M δ)) :=
  decides_entries _ _ fun r => C75_pam M hM δ hδ r

/-- ASK. -/
theorem C109_ask (hM : 0 < M) (A φ : ℝ) (hA : A ≠ 0) : Decides (ask M A φ) (closestEntries (askClosest M A φ)) :=
  decides_entries _ _ fun r => C75_ask M hM A φ hA r

/-- QAM. -/
theorem C109_qam (Mi Mq : Nat) (hi : 0 < Mi) (hq : 0 < Mq) (δi δq φ : ℝ) (hδi : δi ≠ 0) (hδq : δq ≠ 0) :
    Decides (qam Mi Mq δi δq φ) (closestEntries (qamClosest Mi Mq δi δq φ)) :=
  decides_entries _ _ fun r => C75_qam Mi Mq hi hq δi δq φ hδi hδq r

/-- PSK. -/
theorem C109_psk (hM : 0 < M) (A φ : ℝ) (hA : 0 ≤ A) : Decides (psk M A φ) (closestEntries (pskClosest M φ)) :=
  decides_entries _ _ fun r => C75_psk M hM A φ hA r

/-- Exactly the calls of the generic `closest_indices` that raise. -/
theorem C109_raises_iff (hM : 0 < M) (m : Fin M → Fin N → 𝕜) (a : NDArray 𝕜) (ha : a.WF) :
    closestIndices m a = none ↔ a.shape = [] ∨ ∃ lead L, a.shape = lead ++ [L] ∧ (N = 0 ∨ L % N ≠ 0 ∨ lead.prod = 0) := by
  rcases List.eq_nil_or_concat a.shape with h0 | ⟨lead, L, hs⟩
  · simp [closestIndices, validateReceived, h0]
  rw [List.concat_eq_append] at hs
  have hx : (a.shape = [] ∨ ∃ lead L, a.shape = lead ++ [L] ∧ (N = 0 ∨ L % N ≠ 0 ∨ lead.prod = 0)) ↔ (N = 0 ∨ L % N ≠ 0 ∨ lead.prod = 0) := by
    rw [hs]
    constructor
    · rintro (h | ⟨lead', L', he, h⟩)
      · simp at h
      · obtain ⟨rfl, e2⟩ := List.append_inj' he rfl
        simp only [List.cons.injEq, and_true] at e2
        subst e2
        exact h
    · exact fun h => Or.inr ⟨lead, L, rfl, h⟩
  rw [hx]
  constructor
  · intro h
    by_contra hc
    push Not at hc
    obtain ⟨b, hb, _⟩ := C109_generic hM (Nat.pos_of_ne_zero hc.1) m a lead L ha hs hc.2.1 hc.2.2
    rw [hb] at h
    exact absurd h (by simp)
  · intro h
    unfold closestIndices validateReceived
    rw [hs]
    simp only [List.getLast?_append, List.getLast?_singleton, Option.some_or]
    by_cases h0 : N = 0
    · rw [if_pos h0]; rfl
    by_cases h1 : L % N ≠ 0
    · rw [if_neg h0, if_pos h1]; rfl
    rw [if_neg h0, if_neg h1]
    refine mapBlocks_none _ ?_ a ha lead L hs h
    intro r o _ h
    obtain ⟨i, _, rfl⟩ := Option.map_eq_some_iff.mp h
    rfl

/-- The orthogonal, simplex and biorthogonal classes do not validate their argument, yet a last axis that is not a multiple of the dimension is
rejected all the same (by the second `reshape` if not by the first). -/
theorem C109_unvalidated_raises (a : NDArray ℝ) (ha : a.WF) (lead : List Nat) (L : Nat) (hs : a.shape = lead ++ [L]) (h : N = 0 ∨ L % N ≠ 0 ∨ lead.prod = 0) :
    orthogonalClosestArray N a = none ∧ biorthogonalClosestArray N a = none := by
  constructor
  · refine mapBlocks_none _ ?_ a ha lead L hs h
    intro r o _ h
    obtain ⟨i, _, rfl⟩ := Option.map_eq_some_iff.mp h
    rfl
  · refine mapBlocks_none _ ?_ a ha lead L hs h
    intro r o _ h
    obtain ⟨i, _, rfl⟩ := Option.map_eq_some_iff.mp h
    rfl

theorem chunks_one {α : Type} (l : List α) : chunks 1 l = l.map fun x => [x] := by
  induction l with
  | nil => simp [chunks_nil]
  | cons x l ih =>
    rw [show x :: l = [x] ++ l from rfl, chunks_append 1 (by omega) [x] l rfl, ih]
    rfl

theorem indicesToSymbols_eq (m : Fin M → Fin N → 𝕜) (idx : NDArray ℤ) (ha : idx.WF) (lead : List Nat) (B : Nat) (hs : idx.shape = lead ++ [B])
    (hP : lead.prod ≠ 0) : indicesToSymbols m idx = NDArray.blockwise false 1 N (fun r => matrixRow m (r.getD 0 0)) idx := by
  rw [← mapBlocks_eq N _ idx ha lead B hs (by omega) (by omega) hP]
  have hd := wf_len idx ha lead B hs
  have r1 : idx.reshape [] [1] = some ⟨[lead.prod * B, 1], idx.data⟩ := by
    simp only [reshape, List.prod_nil, List.prod_singleton, Nat.one_mul, hd]
    rw [if_neg (by omega), if_neg (by rw [Nat.mod_one]; simp), Nat.div_one]
    rfl
  unfold mapBlocks indicesToSymbols
  rw [r1]
  simp only [Option.bind_eq_bind, Option.bind_some]
  rw [chunks_one, List.mapM_map]
  have : ((fun r : List ℤ => matrixRow m (r.getD 0 0)) ∘ fun x => [x]) = matrixRow m := by
    funext x; rfl
  rw [this]
  rfl

theorem matrixRow_length (m : Fin M → Fin N → 𝕜) (i : ℤ) (o : List 𝕜) (h : matrixRow m i = some o) : o.length = N := by
  unfold matrixRow at h
  split at h
  · rw [← Option.some.inj h]; simp
  · split at h
    · rw [← Option.some.inj h]; simp
    · exact absurd h (by simp)

theorem matrixRow_fin (m : Fin M → Fin N → 𝕜) (i : Fin M) : matrixRow m (i.val : ℤ) = some (List.ofFn (m i)) := by
  unfold matrixRow
  rw [dif_pos ⟨by omega, by exact_mod_cast i.isLt⟩]
  simp

/-- Negative indices count from the end; indices outside `[-M, M)` raise. -/
theorem C109_index (m : Fin M → Fin N → 𝕜) (i : ℤ) : (matrixRow m i = none ↔ i < -(M : ℤ) ∨ (M : ℤ) ≤ i) ∧
    (-(M : ℤ) ≤ i → i < 0 → matrixRow m i = matrixRow m (i + M)) := by
  unfold matrixRow
  constructor
  · split
    · rename_i h; simp; omega
    · split
      · rename_i h; simp; omega
      · rename_i h1 h2; simp; omega
  · intro h1 h2
    rw [dif_neg (by omega), dif_pos ⟨h1, h2⟩, dif_pos ⟨by omega, by omega⟩]

theorem vec_ofFn (v : Fin N → 𝕜) : vec N (List.ofFn v) = v := by
  funext j
  simp [vec]

/-- The block of `indices_to_symbols` at each index is the point with that index. -/
theorem C109_symbols (m : Fin M → Fin N → 𝕜) (idx : NDArray ℤ) (ha : idx.WF) (lead : List Nat) (B : Nat) (hs : idx.shape = lead ++ [B])
    (hP : lead.prod ≠ 0) (h : ∀ x ∈ idx.data, 0 ≤ x ∧ x < M) :
    ∃ s, indicesToSymbols m idx = some s ∧ s.shape = lead ++ [B * N] ∧ s.WF ∧ ∀ p < lead.prod, ∀ q < B, ∃ i : Fin M,
      (idx.row p)[q]? = some (i.val : ℤ) ∧ vec N (block N q (s.row p)) = m i := by
  have hf : ∀ (r : List ℤ) (o : List 𝕜), r.length = 1 → matrixRow m (r.getD 0 0) = some o → o.length = N := fun r o _ h => matrixRow_length m _ o h
  obtain ⟨ls, hidx, h1, h2⟩ := eq_mk idx ha lead B hs
  have hentry : ∀ p < lead.prod, ∀ q < B, ∃ i : Fin M, (idx.row p)[q]? = some (i.val : ℤ) ∧ block 1 q (idx.row p) = [(i.val : ℤ)] := by
    intro p hp q hq
    have hrow : idx.row p = ls[p] := by rw [hidx]; exact row_eq lead B ls h1 p (by omega)
    have hx : q < ls[p].length := by rw [h1 _ (List.getElem_mem _)]; exact hq
    have hmem : ls[p][q] ∈ idx.data := by
      rw [hidx]
      exact List.mem_flatten.mpr ⟨ls[p], List.getElem_mem _, List.getElem_mem _⟩
    obtain ⟨i, hi⟩ := toFin _ (h _ hmem)
    refine ⟨i, by rw [hrow, List.getElem?_eq_getElem hx, hi], ?_⟩
    rw [hrow]
    simp only [block, Nat.mul_one]
    rw [List.drop_eq_getElem_cons hx, List.take_succ_cons, List.take_zero, hi]
  rw [indicesToSymbols_eq m idx ha lead B hs hP]
  cases hb : NDArray.blockwise false 1 N (fun r => matrixRow m (r.getD 0 0)) idx with
  | none =>
    exfalso
    rcases (C108_raises_iff false 1 N _ hf idx ha).mp hb with h | ⟨lead', L', he, h⟩
    · rw [hs] at h; simp at h
    · rw [hs] at he
      obtain ⟨rfl, e2⟩ := List.append_inj' he rfl
      simp only [List.cons.injEq, and_true] at e2
      subst e2
      rcases h with h | h | h | h | ⟨p, hp, q, hq, h⟩
      · omega
      · omega
      · exact hP h
      · simp at h
      · obtain ⟨i, _, hi⟩ := hentry p hp q (by omega)
        rw [hi] at h
        simp only [List.getD_cons_zero, matrixRow_fin] at h
        exact absurd h (by simp)
  | some s =>
    obtain ⟨g1, g2, _⟩ := C108_rows false 1 N _ hf idx ha lead B hs s hb
    refine ⟨s, rfl, by rw [g1, Nat.div_one], g2, ?_⟩
    intro p hp q hq
    obtain ⟨i, hi, hi'⟩ := hentry p hp q hq
    have := C108_blocks false 1 N _ hf idx ha lead B hs s hb p q hp (by omega)
    rw [hi'] at this
    simp only [List.getD_cons_zero, matrixRow_fin, Option.some.injEq] at this
    exact ⟨i, hi, by rw [← this, vec_ofFn]⟩

/-- `closest_symbols` keeps the shape of the received array and replaces every block by a nearest point of the constellation. -/
theorem C109_closest_symbols (m : Fin M → Fin N → 𝕜) (ci : NDArray 𝕜 → Option (NDArray ℤ)) (hd : Decides m ci)
    (a : NDArray 𝕜) (ha : a.WF) (lead : List Nat) (L : Nat) (hs : a.shape = lead ++ [L]) (hL : L % N = 0) (hP : lead.prod ≠ 0) :
    ∃ s, closestSymbols m ci a = some s ∧ s.shape = a.shape ∧ s.WF ∧ ∀ p < lead.prod, ∀ q < L / N, ∃ i : Fin M,
      vec N (block N q (s.row p)) = m i ∧ Nearest m (vec N (block N q (a.row p))) i := by
  obtain ⟨b, hb, hbs, hbw, hbd⟩ := hd a lead L ha hs hL hP
  obtain ⟨ls, hidx, h1, h2⟩ := eq_mk b hbw lead (L / N) hbs
  have hrange : ∀ x ∈ b.data, 0 ≤ x ∧ x < M := by
    intro x hx
    rw [hidx] at hx
    obtain ⟨r, hr, hxr⟩ := List.mem_flatten.mp hx
    obtain ⟨p, hp, rfl⟩ := List.getElem_of_mem hr
    obtain ⟨q, hq, rfl⟩ := List.getElem_of_mem hxr
    obtain ⟨i, hi, _⟩ := hbd p (by omega) q (by rw [h1 _ (List.getElem_mem _)] at hq; exact hq)
    rw [hidx, row_eq lead _ ls h1 p hp, List.getElem?_eq_getElem hq] at hi
    rw [Option.some.inj hi]
    exact ⟨by omega, by exact_mod_cast i.isLt⟩
  obtain ⟨s, hsy, hss, hsw, hsd⟩ := C109_symbols m b hbw lead (L / N) hbs hP hrange
  have hmul : L / N * N = L := Nat.div_mul_cancel (Nat.dvd_of_mod_eq_zero hL)
  rw [hmul] at hss
  have hlen := wf_len s hsw lead L hss
  have hre : s.reshape lead [] = some s := by
    simp only [reshape, List.prod_nil, Nat.mul_one, hlen]
    rw [if_neg hP, if_neg (by rw [Nat.mul_mod_right]; simp), Nat.mul_div_cancel_left _ (Nat.pos_of_ne_zero hP), ← hss]
  refine ⟨s, ?_, by rw [hss, hs], hsw, ?_⟩
  · unfold closestSymbols
    rw [hb]
    simp only [Option.bind_eq_bind, Option.bind_some, hsy, hs, List.dropLast_concat, hre]
  · intro p hp q hq
    obtain ⟨i, hi, hn⟩ := hbd p hp q hq
    obtain ⟨k, hk, hkm⟩ := hsd p hp q hq
    rw [hi] at hk
    have : i = k := by
      have := Option.some.inj hk
      exact Fin.ext (by exact_mod_cast this)
    subst this
    exact ⟨i, hkm, hn⟩

theorem nearest_self (m : Fin M → Fin N → 𝕜) (hm : Function.Injective m) (i k : Fin M) (h : Nearest m (m i) k) : k = i := by
  have h0 := h i
  have hz : ∑ j, ‖m i j - m i j‖ ^ 2 = 0 := by simp
  rw [hz] at h0
  have hs : ∑ j, ‖m i j - m k j‖ ^ 2 = 0 := le_antisymm h0 (Finset.sum_nonneg fun j _ => by positivity)
  rw [Finset.sum_eq_zero_iff_of_nonneg fun j _ => by positivity] at hs
  apply hm
  funext j
  have := hs j (Finset.mem_univ _)
  rw [sq_eq_zero_iff, norm_eq_zero, sub_eq_zero] at this
  exact this.symm

theorem ext_rows {α : Type} (a b : NDArray α) (ha : a.WF) (hb : b.WF) (lead : List Nat) (L : Nat) (hs : a.shape = lead ++ [L]) (hs' : b.shape = lead ++ [L])
    (h : ∀ p < lead.prod, ∀ q < L, (a.row p)[q]? = (b.row p)[q]?) : a = b := by
  obtain ⟨la, rfl, a1, a2⟩ := eq_mk a ha lead L hs
  obtain ⟨lb, rfl, b1, b2⟩ := eq_mk b hb lead L hs'
  have : la = lb := by
    apply List.ext_getElem (by omega)
    intro p hp hp'
    have h1 := row_eq lead L la a1 p hp
    have h2 := row_eq lead L lb b1 p hp'
    have l1 := a1 _ (List.getElem_mem hp)
    have l2 := b1 _ (List.getElem_mem hp')
    apply List.ext_getElem (by omega)
    intro q hq hq'
    have := h p (by omega) q (by omega)
    rw [h1, h2, List.getElem?_eq_getElem hq, List.getElem?_eq_getElem hq'] at this
    exact Option.some.inj this
  rw [this]

/-- Without noise: the indices come back, whatever the shape of the array of indices. -/
theorem C109_round_trip (hN : 0 < N) (m : Fin M → Fin N → 𝕜) (hm : Function.Injective m) (ci : NDArray 𝕜 → Option (NDArray ℤ)) (hd : Decides m ci)
    (idx : NDArray ℤ) (ha : idx.WF) (lead : List Nat) (B : Nat) (hs : idx.shape = lead ++ [B]) (hP : lead.prod ≠ 0) (h : ∀ x ∈ idx.data, 0 ≤ x ∧ x < M) :
    (indicesToSymbols m idx).bind ci = some idx := by
  obtain ⟨s, hsy, hss, hsw, hsd⟩ := C109_symbols m idx ha lead B hs hP h
  rw [hsy, Option.bind_some]
  obtain ⟨b, hb, hbs, hbw, hbd⟩ := hd s lead (B * N) hsw hss (Nat.mul_mod_left B N) hP
  rw [Nat.mul_div_cancel _ hN] at hbs hbd
  rw [hb]
  congr 1
  refine ext_rows b idx hbw ha lead B hbs hs ?_
  intro p hp q hq
  obtain ⟨i, hi, hv⟩ := hsd p hp q hq
  obtain ⟨k, hk, hn⟩ := hbd p hp q hq
  rw [hv] at hn
  rw [hk, hi, nearest_self m hm i k hn]

/-- Exactly the priors accepted, and the default. -/
theorem C109_priors (M : Nat) (p : List ℝ) : (validatePriors M (some p) = some p ↔ p.length = M ∧ (∀ x ∈ p, 0 ≤ x) ∧ p.sum = 1) ∧
    (validatePriors M (some p) = none ↔ ¬ (p.length = M ∧ (∀ x ∈ p, 0 ≤ x) ∧ p.sum = 1)) ∧
    (0 < M → validatePriors M none = some (List.replicate M (1 / (M : ℝ)))) := by
  refine ⟨?_, ?_, ?_⟩
  · simp only [validatePriors, Option.getD_some]
    split_ifs <;> simp <;> tauto
  · simp only [validatePriors, Option.getD_some]
    split_ifs <;> simp <;> tauto
  · intro hM
    have hM' : (M : ℝ) ≠ 0 := by exact_mod_cast hM.ne'
    simp only [validatePriors, Option.getD_none]
    rw [if_neg, if_neg, if_neg]
    · simp
    · simp only [List.sum_replicate, nsmul_eq_mul, not_not]
      field_simp
    · simp only [not_not]
      intro x hx
      rw [List.eq_of_mem_replicate hx]
      positivity

/-- `posteriors` on an array: `M` values for each block, those of that block alone. -/
theorem C109_posteriors (hN : 0 < N) (c : Bool) (m : Fin M → Fin N → 𝕜) (a : NDArray 𝕜) (ha : a.WF) (lead : List Nat) (L : Nat) (hs : a.shape = lead ++ [L])
    (hL : L % N = 0) (hP : lead.prod ≠ 0) (σ : ℝ) (priors : Option (List ℝ)) (w : List ℝ) (hw : validatePriors M priors = some w) :
    ∃ b, posteriorsArray c m a σ priors = some b ∧ b.shape = lead ++ [L / N * M] ∧ b.WF ∧ ∀ p < lead.prod, ∀ q < L / N,
      block M q (b.row p) = List.ofFn (posteriors c m (vec N (block N q (a.row p))) σ fun i => w.getD i.val 0) := by
  have hval : validateReceived N a = some a := by
    unfold validateReceived
    rw [hs]
    simp only [List.getLast?_append, List.getLast?_singleton, Option.some_or]
    rw [if_neg (by omega), if_neg (by rw [hL]; simp)]
  have hdef : posteriorsArray c m a σ priors = NDArray.blockwise false N M (fun r => some (List.ofFn (posteriors c m (vec N r) σ fun i => w.getD i.val 0))) a := by
    rw [← mapBlocks_eq M _ a ha lead L hs hN hL hP]
    unfold posteriorsArray
    rw [hw, hval]
    rfl
  have hf : ∀ (r : List 𝕜) (o : List ℝ), r.length = N → some (List.ofFn (posteriors c m (vec N r) σ fun i => w.getD i.val 0)) = some o → o.length = M := by
    intro r o _ h
    rw [← Option.some.inj h]
    simp
  rw [hdef]
  cases hb : NDArray.blockwise false N M (fun r => some (List.ofFn (posteriors c m (vec N r) σ fun i => w.getD i.val 0))) a with
  | none =>
    exfalso
    rcases (C108_raises_iff false N M _ hf a ha).mp hb with h | ⟨lead', L', he, h⟩
    · rw [hs] at h; simp at h
    · rw [hs] at he
      obtain ⟨rfl, e2⟩ := List.append_inj' he rfl
      simp only [List.cons.injEq, and_true] at e2
      subst e2
      rcases h with h | h | h | h | ⟨p, _, q, _, h⟩
      · omega
      · exact h hL
      · exact hP h
      · simp at h
      · exact absurd h (by simp)
  | some b =>
    obtain ⟨g1, g2, _⟩ := C108_rows false N M _ hf a ha lead L hs b hb
    refine ⟨b, rfl, g1, g2, fun p hp q hq => ?_⟩
    have := C108_blocks false N M _ hf a ha lead L hs b hb p q hp hq
    exact (Option.some.inj this).symm

/-- The orders accepted by `QAMConstellation(order)` are the perfect squares, split evenly; those of `BiorthogonalConstellation` are even. -/
theorem C109_orders (order : Nat) : (∀ p, qamOrders order = some p ↔ p.1 = p.2 ∧ p.1 * p.2 = order) ∧
    (biorthogonalAccepts order = true ↔ ∃ N, order = N + N) := by
  constructor
  · rintro ⟨x, y⟩
    unfold qamOrders
    constructor
    · intro h
      split at h
      · rename_i hs
        simp only [Option.some.injEq, Prod.mk.injEq] at h
        obtain ⟨rfl, rfl⟩ := h
        exact ⟨rfl, by rw [← sq]; exact hs⟩
      · exact absurd h (by simp)
    · rintro ⟨h1, h2⟩
      dsimp only at h1 h2
      subst h1 h2
      rw [Nat.sqrt_eq, if_pos (sq x)]
  · simp only [biorthogonalAccepts, decide_eq_true_eq]
    constructor
    · exact fun h => ⟨order / 2, by omega⟩
    · rintro ⟨N, rfl⟩; omega

/-- A list of scalars is a one-dimensional constellation; anything without one or two axes is rejected. -/
theorem C109_construct {α : Type} (a : NDArray α) (ha : a.WF) : (constructMatrix a = none ↔ a.shape.length ≠ 1 ∧ a.shape.length ≠ 2) ∧
    ∀ b, constructMatrix a = some b → b.WF ∧ b.data = a.data ∧ b.shape.length = 2 ∧ (a.shape.length = 2 → b = a) ∧
      (a.shape.length = 1 → b.shape = [a.data.length, 1]) := by
  obtain ⟨shape, data⟩ := a
  rcases shape with _ | ⟨x, _ | ⟨y, _ | ⟨z, t⟩⟩⟩
  · simp [constructMatrix]
  · simp only [WF, List.prod_singleton] at ha
    simp [constructMatrix, WF, ha]
  · simp only [constructMatrix]
    refine ⟨by simp, ?_⟩
    intro b hb
    simp only [Option.some.injEq] at hb
    subst hb
    exact ⟨ha, rfl, rfl, fun _ => rfl, fun h => by simp at h⟩
  · simp [constructMatrix]

/-- The hypotheses are met by a `2 × 2` array received over 2-PAM. -/
example : Decides (pam 2 2) (closestEntries (pamClosest 2 2)) ∧ (⟨[2, 2], [(0.5 : ℝ), -0.5, 3, -3]⟩ : NDArray ℝ).WF ∧ ([2] : List Nat).prod ≠ 0 :=
  ⟨C109_pam (by norm_num) 2 (by norm_num), by simp [WF], by decide⟩

end Komm
