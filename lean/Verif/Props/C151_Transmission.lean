import Verif.Props.C119_Modem
import Verif.Props.C57_BCH
import Verif.Props.C52_C53_ReedMuller
import Verif.Props.C89_Corrects
import Verif.Props.C26_C27_Huffman
/-! C151: whole transmissions.  A script that uses komm from end to end: (compress,) encode blockwise, label, modulate; the channel adds
noise; decide, unlabel, decode blockwise (, decompress).  The definitions below are the compositions such a script writes down. -/
namespace Komm
open Constellation NDArray

variable {𝕜 : Type} [RCLike 𝕜] {N : Nat}

/-- The sending half: `const.indices_to_symbols(lab.bits_to_indices(encode(u)))`, for a one-dimensional input. -/
noncomputable def transmitter (encode : List (ZMod 2) → Option (List (ZMod 2))) (L : Lab) (m : Fin (2 ^ L.numBits) → Fin N → 𝕜) (u : List (ZMod 2)) :
    Option (NDArray 𝕜) := do
  let v ← encode u
  let l ← L.bitsToIndices (v.map fun b : ZMod 2 => (b.val : Int))
  indicesToSymbols m ⟨[l.length], l.map fun i : Nat => (i : Int)⟩

/-- The receiving half: `decode(lab.indices_to_bits(const.closest_indices(r)))`. -/
noncomputable def receiver (decode : List (ZMod 2) → Option (List (ZMod 2))) (L : Lab) (ci : NDArray 𝕜 → Option (NDArray ℤ)) (r : NDArray 𝕜) :
    Option (List (ZMod 2)) := do
  let k ← ci r
  let b ← L.indicesToBits k.data
  decode (b.map fun b : Nat => (b : ZMod 2))

/-- `decode` of a hard-input block decoder (`@blockwise(self.code.length)`) in terms of its action on one word. -/
def blockDecode {k n : Nat} (dec : BVec n → Option (BVec k)) (l : List (ZMod 2)) : Option (List (ZMod 2)) :=
  blockwise n (fun row => (dec (vecOfList n row)).map fun u => List.ofFn u) l

/-- The size of the noise in symbol `q`: the distance between what was sent and what was received. -/
noncomputable def noiseSize (N : Nat) (s r : List 𝕜) (q : Nat) : ℝ := √ (∑ j, ‖vec N (block N q r) j - vec N (block N q s) j‖ ^ 2)

theorem getElem_flatten_rows {α : Type} (m : Nat) (hm : 0 < m) (ls : List (List α)) (h : ∀ r ∈ ls, r.length = m) (d : α) (i : Nat) (hi : i < ls.length * m) :
    ls.flatten.getD i d = (ls.getD (i / m) []).getD (i % m) d := by
  have hq : i / m < ls.length := Nat.div_lt_of_lt_mul (by rw [mul_comm]; exact hi)
  have h1 := take_drop_flatten m ls h (i / m) hq
  have h2 : (ls.flatten.drop (i / m * m)).take m = ls[i / m] := h1
  rw [List.getD_eq_getElem ls [] hq, ← h2]
  simp only [List.getD_eq_getElem?_getD, List.getElem?_take, List.getElem?_drop, if_pos (Nat.mod_lt i hm), Nat.div_add_mod']

theorem getD_flatMap_ofFn {n : Nat} (hn : 0 < n) (ws : List (BVec n)) (b : Nat) (hb : b < ws.length) (j : Fin n) :
    (ws.flatMap fun w : BVec n => List.ofFn w).getD (b * n + j) 0 = ws[b] j := by
  rw [List.flatMap_def, getElem_flatten_rows n hn _ (by
    intro r hr; obtain ⟨w, _, rfl⟩ := List.mem_map.mp hr; simp) 0 (b * n + j) (by
    rw [List.length_map]
    have := j.isLt
    calc b * n + j < b * n + n := by omega
      _ = (b + 1) * n := by ring
      _ ≤ ws.length * n := Nat.mul_le_mul_right _ hb)]
  have e1 : (b * n + j) / n = b := by
    rw [mul_comm, Nat.mul_add_div hn, Nat.div_eq_of_lt j.isLt, add_zero]
  have e2 : (b * n + j) % n = j := by
    rw [mul_comm, Nat.mul_add_mod, Nat.mod_eq_of_lt j.isLt]
  have e3 : (ws.map fun w : BVec n => List.ofFn w).getD b [] = List.ofFn ws[b] := by
    rw [List.getD_eq_getElem _ _ (by simpa using hb), List.getElem_map]
  rw [e1, e2, e3, List.getD_eq_getElem _ _ (by simp)]
  simp

theorem exists_words {n : Nat} (B : Nat) (x : List (ZMod 2)) (hx : x.length = B * n) :
    ∃ ws : List (BVec n), ws.length = B ∧ x = ws.flatMap fun w : BVec n => List.ofFn w := by
  refine ⟨List.ofFn fun b : Fin B => fun j : Fin n => x.getD (b * n + j) 0, by simp, ?_⟩
  have h1 : x = List.ofFn fun i : Fin (B * n) => x.getD i 0 := by
    apply List.ext_getElem (by simp [hx])
    intro i h1 h2
    rw [List.getElem_ofFn, List.getD_eq_getElem _ _ h1]
  rw [List.ofFn_mul] at h1
  conv_lhs => rw [h1]
  rw [List.flatMap_def, List.map_ofFn]
  rfl

theorem card_symbols (n m S : Nat) (hm : 0 < m) (hn : n = m * S) (P : Nat → Prop) [DecidablePred P] :
    ((Finset.range n).filter fun j => P (j / m)).card ≤ m * ((Finset.range S).filter P).card := by
  have hsub : ((Finset.range n).filter fun j => P (j / m)) ⊆
      (((Finset.range S).filter P) ×ˢ Finset.range m).image fun p : Nat × Nat => p.1 * m + p.2 := by
    intro j hj
    rw [Finset.mem_filter, Finset.mem_range] at hj
    rw [Finset.mem_image]
    refine ⟨(j / m, j % m), ?_, Nat.div_add_mod' j m⟩
    rw [Finset.mem_product, Finset.mem_filter, Finset.mem_range, Finset.mem_range]
    exact ⟨⟨Nat.div_lt_of_lt_mul (by rw [← hn]; exact hj.1), hj.2⟩, Nat.mod_lt _ hm⟩
  calc _ ≤ _ := Finset.card_le_card hsub
    _ ≤ _ := Finset.card_image_le
    _ = _ := by rw [Finset.card_product, Finset.card_range, mul_comm]

theorem card_fin_filter (n : Nat) (P : Nat → Prop) [DecidablePred P] :
    (Finset.univ.filter fun j : Fin n => P j).card = ((Finset.range n).filter P).card := by
  rw [← Finset.card_map Fin.valEmbedding]
  congr 1
  ext j
  simp only [Finset.mem_map, Finset.mem_filter, Finset.mem_univ, true_and, Fin.valEmbedding_apply, Finset.mem_range]
  constructor
  · rintro ⟨i, hi, rfl⟩; exact ⟨i.isLt, hi⟩
  · rintro ⟨h1, h2⟩; exact ⟨⟨j, h1⟩, h2, rfl⟩

variable {K n : Nat}

open Classical in
/-- The chain in general.  `E` is what the encoder does to one message, and the decoder is known to cope with up to `t` wrong bits in every
word.  A word of `n` bits occupies `S` symbols.  If in every word fewer than `t / num_bits + 1` symbols are hit by noise of half the minimum
distance of the constellation or more, however strong it is there, then every bit of the message arrives. -/
theorem C151_chain (E : BVec K → BVec n) (encode decode : List (ZMod 2) → Option (List (ZMod 2))) (t : Nat) (us : List (BVec K)) (hne : us ≠ [])
    (hE : encode (us.flatMap fun u : BVec K => List.ofFn u) = some (us.flatMap fun u : BVec K => List.ofFn (E u)))
    (hD : ∀ ws : List (BVec n), ws.length = us.length →
      (∀ b (h1 : b < us.length) (h2 : b < ws.length), hammingDist ws[b] (E us[b]) ≤ t) →
      decode (ws.flatMap fun w : BVec n => List.ofFn w) = some (us.flatMap fun u : BVec K => List.ofFn u))
    (L : Lab) (hm : 1 ≤ L.numBits) (hc : L.cardinality = 2 ^ L.numBits) (ht : IsLabelTable L.numBits L.matrix) (hN : 0 < N)
    (m : Fin (2 ^ L.numBits) → Fin N → 𝕜) (ci : NDArray 𝕜 → Option (NDArray ℤ)) (hd : Decides m ci) (d : ℝ)
    (hdist : minimumDistance m = (d : WithTop ℝ)) (S : Nat) (hS : 1 ≤ S) (hn : n = L.numBits * S) :
    ∃ s, transmitter encode L m (us.flatMap fun u : BVec K => List.ofFn u) = some ⟨[us.length * S * N], s⟩ ∧ s.length = us.length * S * N ∧
      ∀ r : List 𝕜, r.length = s.length →
        (∀ b < us.length, L.numBits * ((Finset.range S).filter fun q => d / 2 ≤ noiseSize N s r (b * S + q)).card ≤ t) →
        receiver decode L ci ⟨[us.length * S * N], r⟩ = some (us.flatMap fun u : BVec K => List.ofFn u) := by
  have hn0 : 0 < n := by rw [hn]; positivity
  obtain ⟨v, hv⟩ : ∃ v, v = us.flatMap fun u : BVec K => List.ofFn (E u) := ⟨_, rfl⟩
  have hvl : v.length = us.length * n := by
    rw [hv, List.flatMap_def, length_flatten_rows n _ (by
      intro r hr; obtain ⟨w, _, rfl⟩ := List.mem_map.mp hr; simp), List.length_map]
  have hul : 0 < us.length := List.length_pos_of_ne_nil hne
  have hvne : v.map (fun b : ZMod 2 => b.val) ≠ [] := by
    intro e
    have := congrArg List.length e
    rw [List.length_map, hvl, List.length_nil] at this
    exact absurd this (Nat.mul_pos hul hn0).ne'
  have hvdvd : L.numBits ∣ (v.map fun b : ZMod 2 => b.val).length := by
    rw [List.length_map, hvl, hn]
    exact Dvd.intro_left (us.length * S) (by ring)
  obtain ⟨l, s, h1, h2, h3, h4, h5, h6, h7⟩ := C119_modulate L hm hc ht m (v.map fun b : ZMod 2 => b.val) hvne hvdvd (by
    intro b hb
    obtain ⟨x, _, rfl⟩ := List.mem_map.mp hb
    exact (by decide : ∀ x : ZMod 2, x.val = 0 ∨ x.val = 1) x)
  have hll : l.length = us.length * S := by
    rw [List.length_map, hvl, hn] at h3
    have : L.numBits * l.length = L.numBits * (us.length * S) := by rw [h3]; ring
    exact Nat.eq_of_mul_eq_mul_left hm this
  have h1' : L.bitsToIndices (v.map fun b : ZMod 2 => (b.val : Int)) = some l := by
    rw [← h1, List.map_map]; rfl
  rw [hll] at h6
  refine ⟨s, ?_, h6, ?_⟩
  · simp only [transmitter, hE, Option.bind_eq_bind, Option.bind_some, ← hv, h1', h5]
    rw [hll]
  intro r hr hnoise
  obtain ⟨k, bits', g1, g2, g3, g4, g5, g6, -⟩ := C119_demodulate L hm hc ht hN m ci hd _ l h2 h4 r (by rw [hr, h6, hll])
  rw [hll] at g1 g2
  have hrow : ∀ l : List Nat, (∀ i ∈ l, i < 2 ^ L.numBits) → ∀ r ∈ l.map (fun i => L.matrix.getD i []), r.length = L.numBits := by
    intro l hl r hr
    obtain ⟨i, hi, rfl⟩ := List.mem_map.mp hr
    exact table_row L ht i (hl i hi)
  have e1 := indicesToBits_map L hc ht l h2
  rw [h4, Option.some_inj] at e1
  have e2 := indicesToBits_map L hc ht k g3
  rw [g5, Option.some_inj] at e2
  -- decided symbols are right where the noise is small
  have hsame : ∀ q (hq : q < us.length * S), noiseSize N s r q < d / 2 → k.getD q 0 = l.getD q 0 := by
    intro q hq hsm
    obtain ⟨i, hi, hnr⟩ := g4 q (by omega)
    obtain ⟨i', hi', hv'⟩ := h7 q (by omega)
    rw [List.getD_eq_getElem _ _ (by omega), List.getD_eq_getElem _ _ (by omega), hi, hi']
    have hw' : √ (∑ j, ‖vec N (block N q r) j - m i' j‖ ^ 2) < d / 2 := by rw [← hv']; exact hsm
    have := C75_small_noise m i' i (fun j => vec N (block N q r) j - m i' j) d hdist hw' (by
      have e : (fun j => m i' j + (vec N (block N q r) j - m i' j)) = vec N (block N q r) := by
        funext j; ring
      rw [e]; exact hnr)
    rw [this]
  -- the received bits as words
  have hb'l : (bits'.map fun b : Nat => (b : ZMod 2)).length = us.length * n := by
    rw [List.length_map, g6, List.length_map, hvl]
  obtain ⟨ws, hws, hwse⟩ := exists_words us.length _ hb'l
  simp only [receiver, g1, Option.bind_eq_bind, Option.bind_some, g5]
  rw [hwse]
  apply hD ws hws
  intro b hb1 hb2
  have hbit : ∀ j : Fin n, noiseSize N s r (b * S + j / L.numBits) < d / 2 → ws[b] j = E us[b] j := by
    intro j hj
    have a1 := getD_flatMap_ofFn hn0 ws b hb2 j
    have a2 := getD_flatMap_ofFn hn0 (us.map E) b (by simpa using hb1) j
    rw [List.getElem_map, List.flatMap_map, ← hv] at a2
    rw [← a1, ← a2, ← hwse]
    have hidx : b * n + j < us.length * n := by
      have := j.isLt
      calc b * n + j < b * n + n := by omega
        _ = (b + 1) * n := by ring
        _ ≤ us.length * n := Nat.mul_le_mul_right _ hb1
    have hdiv : (b * n + j) / L.numBits = b * S + j / L.numBits := by
      have e : b * n + (j : Nat) = L.numBits * (b * S) + (j : Nat) := by
        have : b * n = L.numBits * (b * S) := by rw [hn]; ring
        rw [this]
      rw [e, Nat.mul_add_div hm]
    have hjS : (j : Nat) / L.numBits < S := Nat.div_lt_of_lt_mul (lt_of_lt_of_eq j.isLt hn)
    have hq : b * S + j / L.numBits < us.length * S := by
      calc b * S + j / L.numBits < b * S + S := by omega
        _ = (b + 1) * S := by ring
        _ ≤ us.length * S := Nat.mul_le_mul_right _ hb1
    have hlm : us.length * n = us.length * S * L.numBits := by rw [hn]; ring
    have b1 : bits'.getD (b * n + j) 0 = (v.map fun b : ZMod 2 => b.val).getD (b * n + j) 0 := by
      rw [e1, e2, getElem_flatten_rows L.numBits hm _ (hrow k g3) 0 _ (by rw [List.length_map, g2, ← hlm]; exact hidx),
        getElem_flatten_rows L.numBits hm _ (hrow l h2) 0 _ (by rw [List.length_map, hll, ← hlm]; exact hidx), hdiv]
      have hs := hsame _ hq hj
      have hmg : ∀ l' : List Nat, b * S + j / L.numBits < l'.length →
          (l'.map fun i => L.matrix.getD i []).getD (b * S + j / L.numBits) [] = L.matrix.getD (l'.getD (b * S + j / L.numBits) 0) [] := by
        intro l' hl'
        rw [List.getD_eq_getElem _ _ (by simpa using hl'), List.getElem_map, List.getD_eq_getElem l' _ hl']
      rw [hmg k (by omega), hmg l (by omega), hs]
    have hbl : b * n + j < bits'.length := by rw [g6, List.length_map, hvl]; exact hidx
    rw [List.getD_eq_getElem _ _ hbl, List.getD_eq_getElem _ _ (by rw [List.length_map, hvl]; exact hidx), List.getElem_map] at b1
    rw [List.getD_eq_getElem _ _ (by rw [List.length_map]; exact hbl), List.getD_eq_getElem _ _ (by rw [hvl]; exact hidx), List.getElem_map, b1]
    simp
  refine le_trans ?_ (hnoise b hb1)
  have hfil : hammingDist ws[b] (E us[b]) ≤ (Finset.univ.filter fun j : Fin n => d / 2 ≤ noiseSize N s r (b * S + j / L.numBits)).card := by
    apply Finset.card_le_card
    intro j hj
    rw [Finset.mem_filter] at hj ⊢
    refine ⟨Finset.mem_univ _, ?_⟩
    by_contra hlt
    exact hj.2 (hbit j (not_le.mp hlt))
  refine hfil.trans ?_
  rw [card_fin_filter n fun j => d / 2 ≤ noiseSize N s r (b * S + j / L.numBits)]
  exact card_symbols n L.numBits S hm hn fun q => d / 2 ≤ noiseSize N s r (b * S + q)

theorem words_ofFn {a : Nat} (u : BVec a) : vecOfList a (List.ofFn u) = u := by funext i; simp [vecOfList]

theorem blockDecode_words (hn : 0 < n) (dec : BVec n → Option (BVec K)) (us : List (BVec K)) (ws : List (BVec n)) (hl : ws.length = us.length)
    (h : ∀ b (h1 : b < us.length) (h2 : b < ws.length), dec ws[b] = some us[b]) :
    blockDecode dec (ws.flatMap fun w : BVec n => List.ofFn w) = some (us.flatMap fun u : BVec K => List.ofFn u) := by
  have hvl : ∀ u : BVec n, vecOfList n (List.ofFn u) = u := by intro u; funext i; simp [vecOfList]
  rw [List.flatMap_def, blockDecode, blockwise_flatten n hn _ (fun row => List.ofFn ((dec (vecOfList n row)).getD 0))]
  · rw [List.flatMap_def, List.map_map]
    congr 2
    apply List.ext_getElem (by simp [hl])
    intro b h1 h2
    simp only [List.getElem_map, Function.comp_apply, hvl]
    rw [h b (by simpa using h2) (by simpa using h1)]
    rfl
  · intro r hr; obtain ⟨w, _, rfl⟩ := List.mem_map.mp hr; simp
  · intro r hr
    obtain ⟨w, hw, rfl⟩ := List.mem_map.mp hr
    obtain ⟨b, hb, rfl⟩ := List.getElem_of_mem hw
    rw [hvl, h b (by omega) hb]
    rfl

open Classical in
/-- Block codes: any decoder that corrects `t` errors. -/
theorem C151_block {M : Nat} (c : LinCode K M n) (h : c.Lawful) (hK : 1 ≤ K) (dec : BVec n → Option (BVec K)) (t : Nat)
    (hdec : ∀ u e, hammingNorm e ≤ t → dec (c.encode u + e) = some u) (us : List (BVec K)) (hne : us ≠ [])
    (L : Lab) (hm : 1 ≤ L.numBits) (hc : L.cardinality = 2 ^ L.numBits) (ht : IsLabelTable L.numBits L.matrix) (hN : 0 < N)
    (m : Fin (2 ^ L.numBits) → Fin N → 𝕜) (ci : NDArray 𝕜 → Option (NDArray ℤ)) (hd : Decides m ci) (d : ℝ)
    (hdist : minimumDistance m = (d : WithTop ℝ)) (S : Nat) (hn : n = L.numBits * S) :
    ∃ s, transmitter c.encodeStream L m (us.flatMap fun u : BVec K => List.ofFn u) = some ⟨[us.length * S * N], s⟩ ∧ s.length = us.length * S * N ∧
      ∀ r : List 𝕜, r.length = s.length →
        (∀ b < us.length, L.numBits * ((Finset.range S).filter fun q => d / 2 ≤ noiseSize N s r (b * S + q)).card ≤ t) →
        receiver (blockDecode dec) L ci ⟨[us.length * S * N], r⟩ = some (us.flatMap fun u : BVec K => List.ofFn u) := by
  have hn0 : 0 < n := by have := h.dim; omega
  refine C151_chain c.encode c.encodeStream (blockDecode dec) t us hne (C41_stream c h hK us).1 ?_ L hm hc ht hN m ci hd d hdist S ?_ hn
  · intro ws hws herr
    apply blockDecode_words hn0 dec us ws hws
    intro b h1 h2
    have := hdec us[b] (c.encode us[b] + ws[b]) (by
      rw [← hammingDist_eq_norm_add, hammingDist_comm]; exact herr b h1 h2)
    rw [← add_assoc, bvec_add_self, zero_add] at this
    exact this
  · rcases Nat.eq_zero_or_pos S with e | e
    · rw [e, Nat.mul_zero] at hn; omega
    · exact e

open Classical in
/-- `SyndromeTableDecoder`. -/
theorem C151_syndrome_table {M : Nat} (c : LinCode K M n) (h : c.Lawful) (hK : 1 ≤ K) (hM : 1 ≤ M) (fuel : Nat) (hf : n ≤ fuel) (dmin : Nat)
    (hdmin : c.minimumDistance = some dmin) (us : List (BVec K)) (hne : us ≠ [])
    (L : Lab) (hm : 1 ≤ L.numBits) (hc : L.cardinality = 2 ^ L.numBits) (ht : IsLabelTable L.numBits L.matrix) (hN : 0 < N)
    (m : Fin (2 ^ L.numBits) → Fin N → 𝕜) (ci : NDArray 𝕜 → Option (NDArray ℤ)) (hd : Decides m ci) (d : ℝ)
    (hdist : minimumDistance m = (d : WithTop ℝ)) (S : Nat) (hn : n = L.numBits * S) :
    ∃ T s, c.cosetLeaders fuel = some T ∧
      transmitter c.encodeStream L m (us.flatMap fun u : BVec K => List.ofFn u) = some ⟨[us.length * S * N], s⟩ ∧ s.length = us.length * S * N ∧
      ∀ r : List 𝕜, r.length = s.length →
        (∀ b < us.length, L.numBits * ((Finset.range S).filter fun q => d / 2 ≤ noiseSize N s r (b * S + q)).card ≤ (dmin - 1) / 2) →
        receiver (blockDecode fun w => some (syndromeTableDecode c T w)) L ci ⟨[us.length * S * N], r⟩ = some (us.flatMap fun u : BVec K => List.ofFn u) := by
  obtain ⟨T, h1, h2⟩ := C45_corrects c h hM fuel hf dmin hdmin
  obtain ⟨s, hs⟩ := C151_block c h hK (fun w => some (syndromeTableDecode c T w)) ((dmin - 1) / 2) (fun u e he => by rw [h2 u e he]) us hne
    L hm hc ht hN m ci hd d hdist S hn
  exact ⟨T, s, h1, hs⟩

open Classical in
/-- `ExhaustiveSearchDecoder(code, "hard")`. -/
theorem C151_exhaustive {M : Nat} (c : LinCode K M n) (h : c.Lawful) (hK : 1 ≤ K) (dmin : Nat) (hdmin : c.minimumDistance = some dmin)
    (us : List (BVec K)) (hne : us ≠ [])
    (L : Lab) (hm : 1 ≤ L.numBits) (hc : L.cardinality = 2 ^ L.numBits) (ht : IsLabelTable L.numBits L.matrix) (hN : 0 < N)
    (m : Fin (2 ^ L.numBits) → Fin N → 𝕜) (ci : NDArray 𝕜 → Option (NDArray ℤ)) (hd : Decides m ci) (d : ℝ)
    (hdist : minimumDistance m = (d : WithTop ℝ)) (S : Nat) (hn : n = L.numBits * S) :
    ∃ s, transmitter c.encodeStream L m (us.flatMap fun u : BVec K => List.ofFn u) = some ⟨[us.length * S * N], s⟩ ∧ s.length = us.length * S * N ∧
      ∀ r : List 𝕜, r.length = s.length →
        (∀ b < us.length, L.numBits * ((Finset.range S).filter fun q => d / 2 ≤ noiseSize N s r (b * S + q)).card ≤ (dmin - 1) / 2) →
        receiver (blockDecode (exhaustiveHard c)) L ci ⟨[us.length * S * N], r⟩ = some (us.flatMap fun u : BVec K => List.ofFn u) := by
  refine C151_block c h hK _ _ (fun u e he => ?_) us hne L hm hc ht hN m ci hd d hdist S hn
  obtain ⟨u', h1, h2⟩ := C47_hard c h (c.encode u + e)
  rw [h1, unique_decoding c h dmin hdmin u u' e he (h2 u)]

open Classical in
/-- `BCHCode(mu, delta)` with `BerlekampDecoder`. -/
theorem C151_berlekamp (mu delta : Nat) (F : Bifield) (g h : Nat) (hb : bchCreate mu delta = some (F, g, h)) (us : List (BVec (polyDeg h)))
    (hne : us ≠ []) (L : Lab) (hm : 1 ≤ L.numBits) (hc : L.cardinality = 2 ^ L.numBits) (ht : IsLabelTable L.numBits L.matrix) (hN : 0 < N)
    (m : Fin (2 ^ L.numBits) → Fin N → 𝕜) (ci : NDArray 𝕜 → Option (NDArray ℤ)) (hd : Decides m ci) (d : ℝ)
    (hdist : minimumDistance m = (d : WithTop ℝ)) (S : Nat) (hn : 2 ^ mu - 1 = L.numBits * S) :
    ∃ s, transmitter (cyclicSystematic (2 ^ mu - 1) g h).encodeStream L m (us.flatMap fun u : BVec (polyDeg h) => List.ofFn u) =
        some ⟨[us.length * S * N], s⟩ ∧ s.length = us.length * S * N ∧
      ∀ r : List 𝕜, r.length = s.length →
        (∀ b < us.length, L.numBits * ((Finset.range S).filter fun q => d / 2 ≤ noiseSize N s r (b * S + q)).card ≤ (delta - 1) / 2) →
        receiver (blockDecode (berlekampDecode F delta (cyclicSystematic (2 ^ mu - 1) g h))) L ci ⟨[us.length * S * N], r⟩ =
          some (us.flatMap fun u : BVec (polyDeg h) => List.ofFn u) :=
  C151_block _ (C57_codewords mu delta F g h hb).1 (C57_minimum_distance mu delta F g h hb).1 _ _
    (fun u e he => C57_berlekamp_corrects mu delta F g h hb u e he) us hne L hm hc ht hN m ci hd d hdist S hn

open Classical in
/-- `ReedMullerCode(rho, mu)` with `ReedDecoder`. -/
theorem C151_reed (rho mu : Nat) (hr : rho < mu) (us : List (BVec (rmRows rho mu).length)) (hne : us ≠ [])
    (L : Lab) (hm : 1 ≤ L.numBits) (hc : L.cardinality = 2 ^ L.numBits) (ht : IsLabelTable L.numBits L.matrix) (hN : 0 < N)
    (m : Fin (2 ^ L.numBits) → Fin N → 𝕜) (ci : NDArray 𝕜 → Option (NDArray ℤ)) (hd : Decides m ci) (d : ℝ)
    (hdist : minimumDistance m = (d : WithTop ℝ)) (S : Nat) (hn : 2 ^ mu = L.numBits * S) :
    ∃ c s, reedMullerCode rho mu = some c ∧
      transmitter c.encodeStream L m (us.flatMap fun u : BVec (rmRows rho mu).length => List.ofFn u) = some ⟨[us.length * S * N], s⟩ ∧
      s.length = us.length * S * N ∧
      ∀ r : List 𝕜, r.length = s.length →
        (∀ b < us.length, L.numBits * ((Finset.range S).filter fun q => d / 2 ≤ noiseSize N s r (b * S + q)).card ≤ (2 ^ (mu - rho) - 1) / 2) →
        receiver (blockDecode fun w => some (reedDecodeHard rho mu w)) L ci ⟨[us.length * S * N], r⟩ =
          some (us.flatMap fun u : BVec (rmRows rho mu).length => List.ofFn u) := by
  obtain ⟨c, h1, h2⟩ := C53_corrects hr
  obtain ⟨c', h3, h4, h5, _⟩ := C52_parameters hr
  rw [h1, Option.some.injEq] at h3
  subst h3
  have hK : 1 ≤ (rmRows rho mu).length := by
    rw [h5, Finset.sum_range_succ']
    simp
  obtain ⟨s, hs⟩ := C151_block c h4 hK (fun w => some (reedDecodeHard rho mu w)) ((2 ^ (mu - rho) - 1) / 2) (fun u e he => by
    have h2p : 0 < 2 ^ (mu - rho) := by positivity
    rw [h2 u e (by rw [reedMullerMinimumDistance]; omega)]) us hne L hm hc ht hN m ci hd d hdist S hn
  exact ⟨c, s, h1, hs⟩

/-- `TerminatedConvolutionalCode.encode` on a one-dimensional input (`@blockwise(self.dimension)`, TerminatedConvolutionalCode.py:126-134). -/
def Terminated.encodeBlocks {k n σ : Nat} (t : Terminated k n σ) (l : List (ZMod 2)) : Option (List (ZMod 2)) :=
  blockwise t.dimension (fun row => t.encode (vecOfList t.dimension row)) l

open Classical in
/-- Zero-terminated convolutional codes of rate `1/ν` with the hard `ViterbiDecoder`: the number of bits that may be wrong in every word is
given by `free_distance()`. -/
theorem C151_viterbi {ν : Nat} (c : ConvCode 1 ν) (hν0 : 0 < ν) (hq : (toPoly (c.feedback 0)).coeff 0 = 1)
    (hgen : ∃ j, c.feedforward 0 j ≠ 0) (hν : 1 ≤ c.constraintLength 0) (h : Nat) (hh : 1 ≤ h)
    (fuel dfree : Nat) (hdf : c.stateSpace.freeDistance fuel = some (some dfree)) (t : Terminated 1 ν c.degree)
    (htt : t = ⟨c.stateSpace, c.memoryOrder, h, .zeroTermination⟩) (us : List (BVec t.dimension)) (hne : us ≠ [])
    (L : Lab) (hm : 1 ≤ L.numBits) (hc : L.cardinality = 2 ^ L.numBits) (ht : IsLabelTable L.numBits L.matrix) (hN : 0 < N)
    (m : Fin (2 ^ L.numBits) → Fin N → 𝕜) (ci : NDArray 𝕜 → Option (NDArray ℤ)) (hd : Decides m ci) (d : ℝ)
    (hdist : minimumDistance m = (d : WithTop ℝ)) (S : Nat) (hn : t.length = L.numBits * S) :
    ∃ s, transmitter t.encodeBlocks L m (us.flatMap fun u : BVec t.dimension => List.ofFn u) = some ⟨[us.length * S * N], s⟩ ∧
      s.length = us.length * S * N ∧
      ∀ r : List 𝕜, r.length = s.length →
        (∀ b < us.length, L.numBits * ((Finset.range S).filter fun q => d / 2 ≤ noiseSize N s r (b * S + q)).card ≤ (dfree - 1) / 2) →
        receiver t.viterbiHard L ci ⟨[us.length * S * N], r⟩ = some (us.flatMap fun u : BVec t.dimension => List.ofFn u) := by
  have hμ : 1 ≤ c.memoryOrder := by
    have : c.constraintLength 0 ≤ c.memoryOrder :=
      (ConvCode.foldl_max_nat _ 0).2 _ (List.mem_map.mpr ⟨0, List.mem_finRange 0, rfl⟩)
    omega
  have hlen : t.length = (h + c.memoryOrder) * ν ∧ t.dimension = h * 1 := by
    obtain ⟨_, _, _, _, _, _, _, _, a, b⟩ := zeroTermination_spec c.stateSpace (by norm_num) c.memoryOrder h hμ hh c.controllable t htt 0
    exact ⟨a, b⟩
  have henc : ∀ u : BVec t.dimension, ∃ v : BVec t.length, t.encode u = some (List.ofFn v) := by
    intro u
    obtain ⟨_, out, _, _, _, _, g5, g6, g7, _⟩ := zeroTermination_spec c.stateSpace (by norm_num) c.memoryOrder h hμ hh c.controllable t htt u
    refine ⟨vecOfList t.length out, ?_⟩
    rw [g5]
    congr 1
    apply List.ext_getElem
    · rw [List.length_ofFn, g6, g7]
    · intro i i1 i2
      rw [List.getElem_ofFn, vecOfList, List.getD_eq_getElem _ _ i1]
  choose E hE using henc
  have ht0 : 0 < t.length := by rw [hlen.1]; positivity
  have hk0 : 0 < t.dimension := by rw [hlen.2]; omega
  have hdpos : 0 < dfree := (C66_result c.stateSpace (by norm_num) fuel dfree hdf).1.1
  refine C151_chain E t.encodeBlocks t.viterbiHard ((dfree - 1) / 2) us hne ?_ ?_ L hm hc ht hN m ci hd d hdist S ?_ hn
  · have hvl : ∀ u : BVec t.dimension, vecOfList t.dimension (List.ofFn u) = u := words_ofFn
    rw [List.flatMap_def, Terminated.encodeBlocks,
      blockwise_flatten t.dimension hk0 _ (fun row => List.ofFn (E (vecOfList t.dimension row)))]
    · rw [List.flatMap_def, List.map_map]
      congr 2
      apply List.map_congr_left
      intro u _
      simp only [Function.comp_apply, hvl]
    · intro r hr; obtain ⟨w, _, rfl⟩ := List.mem_map.mp hr; simp
    · intro r hr
      obtain ⟨w, hw, rfl⟩ := List.mem_map.mp hr
      rw [hvl, hE]
  · intro ws hws herr
    have := C89_blockwise t ht0 ws us hws (fun i i1 i2 => by
      have h0 := herr i i2 i1
      exact C89_corrects_rate_one c hν0 hq hgen hν h hh fuel dfree hdf t htt us[i] (E us[i]) ws[i] (hE _) (by omega))
    rw [List.flatMap_def, List.flatMap_def]
    exact this
  · rcases Nat.eq_zero_or_pos S with e | e
    · rw [e, Nat.mul_zero] at hn; omega
    · exact e

/-- Without errors in the decisions the length of the words need not be a multiple of the label size: the labels run across the words, and
any decoder that inverts the encoder will do. -/
theorem C151_quiet (E : BVec K → BVec n) (hn0 : 0 < n) (encode decode : List (ZMod 2) → Option (List (ZMod 2))) (us : List (BVec K)) (hne : us ≠ [])
    (hE : encode (us.flatMap fun u : BVec K => List.ofFn u) = some (us.flatMap fun u : BVec K => List.ofFn (E u)))
    (hD : decode (us.flatMap fun u : BVec K => List.ofFn (E u)) = some (us.flatMap fun u : BVec K => List.ofFn u))
    (L : Lab) (hm : 1 ≤ L.numBits) (hc : L.cardinality = 2 ^ L.numBits) (ht : IsLabelTable L.numBits L.matrix) (hN : 0 < N)
    (m : Fin (2 ^ L.numBits) → Fin N → 𝕜) (ci : NDArray 𝕜 → Option (NDArray ℤ)) (hd : Decides m ci) (d : ℝ)
    (hdist : minimumDistance m = (d : WithTop ℝ)) (S : Nat) (hn : us.length * n = L.numBits * S) :
    ∃ s, transmitter encode L m (us.flatMap fun u : BVec K => List.ofFn u) = some ⟨[S * N], s⟩ ∧ s.length = S * N ∧
      ∀ r : List 𝕜, r.length = s.length → (∀ q < S, noiseSize N s r q < d / 2) →
        receiver decode L ci ⟨[S * N], r⟩ = some (us.flatMap fun u : BVec K => List.ofFn u) := by
  obtain ⟨v, hv⟩ : ∃ v, v = us.flatMap fun u : BVec K => List.ofFn (E u) := ⟨_, rfl⟩
  have hvl : v.length = us.length * n := by
    rw [hv, List.flatMap_def, length_flatten_rows n _ (by
      intro r hr; obtain ⟨w, _, rfl⟩ := List.mem_map.mp hr; simp), List.length_map]
  have hul : 0 < us.length := List.length_pos_of_ne_nil hne
  have hvne : v.map (fun b : ZMod 2 => b.val) ≠ [] := by
    intro e
    have := congrArg List.length e
    rw [List.length_map, hvl, List.length_nil] at this
    exact absurd this (Nat.mul_pos hul hn0).ne'
  have hvdvd : L.numBits ∣ (v.map fun b : ZMod 2 => b.val).length := by
    rw [List.length_map, hvl, hn]
    exact Dvd.intro _ rfl
  have hvb : ∀ b ∈ v.map (fun b : ZMod 2 => b.val), b = 0 ∨ b = 1 := by
    intro b hb
    obtain ⟨x, _, rfl⟩ := List.mem_map.mp hb
    exact (by decide : ∀ x : ZMod 2, x.val = 0 ∨ x.val = 1) x
  obtain ⟨l, s, h1, h2, h3, h4, h5, h6, h7⟩ := C119_modulate L hm hc ht m (v.map fun b : ZMod 2 => b.val) hvne hvdvd hvb
  have hll : l.length = S := by
    rw [List.length_map, hvl, hn] at h3
    exact Nat.eq_of_mul_eq_mul_left hm h3
  have h1' : L.bitsToIndices (v.map fun b : ZMod 2 => (b.val : Int)) = some l := by
    rw [← h1, List.map_map]; rfl
  obtain ⟨l', s', k1, k2, k3⟩ := C119_round_trip L hm hc ht hN m ci hd d hdist (v.map fun b : ZMod 2 => b.val) hvne hvdvd hvb
  rw [k1, Option.some.injEq] at h1
  subst h1
  rw [k2, Option.some.injEq, NDArray.mk.injEq] at h5
  obtain ⟨-, rfl⟩ := h5
  rw [hll] at h6 k3
  refine ⟨s', ?_, h6, ?_⟩
  · simp only [transmitter, hE, Option.bind_eq_bind, Option.bind_some, ← hv, h1', k2]
    rw [hll]
  intro r hr hnoise
  obtain ⟨k, g1, g2⟩ := k3 r hr hnoise
  simp only [receiver, g1, g2, Option.bind_eq_bind, Option.bind_some]
  rw [← hD, ← hv, List.map_map]
  congr 1
  conv_rhs => rw [← List.map_id v]
  apply List.map_congr_left
  intro x _
  simp

open Classical in
/-- Compressed transmission: a prefix code before the channel code, zero padding up to a whole number of messages; the receiver drops the
padding and decompresses. -/
theorem C151_compressed {calX kk : Nat} {enc : List (Word × Word)} {fv : FVCode} (hf : FVCode.create calX 2 kk enc = some fv)
    (hkeys : (enc.map Prod.fst).Nodup) (hpf : fv.prefixFree = true) (hcw : ∀ w ∈ fv.codewords, w ≠ []) (x : Word) (hx0 : x ≠ [])
    (hx : kk ∣ x.length) (hxs : ∀ a ∈ x, a < calX)
    {M : Nat} (c : LinCode K M n) (h : c.Lawful) (hK : 1 ≤ K) (dec : BVec n → Option (BVec K)) (t : Nat)
    (hdec : ∀ u e, hammingNorm e ≤ t → dec (c.encode u + e) = some u)
    (L : Lab) (hm : 1 ≤ L.numBits) (hc : L.cardinality = 2 ^ L.numBits) (ht : IsLabelTable L.numBits L.matrix) (hN : 0 < N)
    (m : Fin (2 ^ L.numBits) → Fin N → 𝕜) (ci : NDArray 𝕜 → Option (NDArray ℤ)) (hd : Decides m ci) (d : ℝ)
    (hdist : minimumDistance m = (d : WithTop ℝ)) (S : Nat) (hn : n = L.numBits * S) :
    ∃ (y : Word) (B : Nat) (s : List 𝕜), fv.encode x = some y ∧ B * K = y.length + (K - y.length % K) % K ∧
      transmitter c.encodeStream L m ((y.map fun a : Nat => (a : ZMod 2)) ++ List.replicate ((K - y.length % K) % K) 0) = some ⟨[B * S * N], s⟩ ∧
      s.length = B * S * N ∧
      ∀ r : List 𝕜, r.length = s.length →
        (∀ b < B, L.numBits * ((Finset.range S).filter fun q => d / 2 ≤ noiseSize N s r (b * S + q)).card ≤ t) →
        ((receiver (blockDecode dec) L ci ⟨[B * S * N], r⟩).bind fun bits => fv.decode ((bits.take y.length).map fun b : ZMod 2 => b.val)) = some x := by
  have hpf' := (isPrefixFree_iff _).mp hpf
  obtain ⟨y, hy⟩ := (FVCode.encode_isSome_iff hf hkeys (isUniquelyParsable_of_prefixFree hpf' hcw) x).mpr ⟨hx, hxs⟩
  have hback := (FVCode.encode_decode_iff hf hkeys hpf' hcw x y).mp hy
  have hsym : y ≠ [] ∧ ∀ a ∈ y, a < 2 := by
    obtain ⟨rfl, hX, hY, hk, hdom, hval⟩ := FVCode.create_spec hf
    unfold FVCode.encode at hy
    split at hy
    · exact absurd hy (by simp)
    · obtain ⟨es, h1, h2, h3⟩ := (parseFixedLength_spec enc kk (by omega) x y).mp hy
      have hmem : ∀ e ∈ es, e ∈ enc := fun e he => (dictGet_eq_some hkeys _ _).mp (h1 e he).1
      constructor
      · rintro rfl
        cases es with
        | nil => exact hx0 (by simpa using h2)
        | cons e es =>
          have h4 := hcw e.2 (List.mem_map_of_mem (f := Prod.snd) (hmem e (by simp)))
          rw [List.map_cons, List.flatten_cons] at h3
          exact h4 (List.append_eq_nil_iff.mp h3.symm).1
      · intro a ha
        rw [h3, List.mem_flatten] at ha
        obtain ⟨w, hw, haw⟩ := ha
        obtain ⟨e, he, rfl⟩ := List.mem_map.mp hw
        exact hval e (hmem e he) a haw
  set pad := (K - y.length % K) % K with hpad
  obtain ⟨B, hB⟩ : K ∣ y.length + pad := by
    rw [Nat.dvd_iff_mod_eq_zero, hpad, Nat.add_mod_mod, ← Nat.mod_add_mod]
    have := Nat.mod_lt y.length hK
    rw [Nat.add_sub_cancel' this.le, Nat.mod_self]
  obtain ⟨us, hus, huse⟩ := exists_words (n := K) B ((y.map fun a : Nat => (a : ZMod 2)) ++ List.replicate pad 0) (by simp [hB, mul_comm])
  have hune : us ≠ [] := by
    rintro rfl
    have := congrArg List.length huse
    simp at this
    exact hsym.1 this.1
  obtain ⟨s, s1, s2, s3⟩ := C151_block c h hK dec t hdec us hune L hm hc ht hN m ci hd d hdist S hn
  rw [hus] at s1 s2 s3
  refine ⟨y, B, s, hy, by rw [hB, mul_comm], by rw [huse]; exact s1, s2, fun r hr hnoise => ?_⟩
  rw [s3 r hr hnoise, ← huse, Option.bind_some, List.take_append_of_le_length (by simp), List.take_of_length_le (by simp), List.map_map]
  have : y.map ((fun b : ZMod 2 => b.val) ∘ fun a : Nat => (a : ZMod 2)) = y := by
    conv_rhs => rw [← List.map_id y]
    apply List.map_congr_left
    intro a ha
    have := hsym.2 a ha
    simp only [Function.comp_apply, id]
    rw [ZMod.val_natCast, Nat.mod_eq_of_lt this]
  rw [this]
  exact hback

/-- A concrete case: two messages of three bits, the (6, 3) code with minimum distance 3, one bit per symbol, 2-PAM with amplitudes `±1`.
Whatever value `x` is received for the fourth symbol, the six bits arrive. -/
example (x : ℝ) : ∃ (c : LinCode 3 3 6) (L : Lab) (s : List ℝ), blockCodeOfGenerator exG = some c ∧ reflectedLab 1 = some L ∧
    transmitter c.encodeStream L (pam (2 ^ L.numBits) 2) [1, 0, 1, 0, 1, 1] = some ⟨[12], s⟩ ∧ s.length = 12 ∧
    receiver (blockDecode (exhaustiveHard c)) L (closestEntries (pamClosest (2 ^ L.numBits) 2)) ⟨[12], s.set 3 x⟩ = some [1, 0, 1, 0, 1, 1] := by
  classical
  have hG : LinearIndependent (ZMod 2) exG := by
    rw [linearIndependent_iff_card_eq_finrank_span, Fintype.card_fin, Set.finrank, ← rank_spec]; decide +kernel
  obtain ⟨c, h1, _, h3⟩ := C41_generator exG hG
  have hd3 : c.minimumDistance = some 3 := by
    have : (blockCodeOfGenerator exG).bind (fun c => c.minimumDistance) = some 3 := by decide +kernel
    rw [h1] at this; exact this
  obtain ⟨L, l1, l2, l3, l4, _⟩ := C38_reflected_matrix 1 (by norm_num)
  have hmd : minimumDistance (pam (2 ^ L.numBits) 2) = ((2 : ℝ) : WithTop ℝ) := by
    rw [l2]; exact (C76_pam _ (by norm_num) _).2.2 (by norm_num) (by norm_num)
  obtain ⟨s, s1, s2, s3⟩ := C151_exhaustive c h3 (by norm_num) 3 hd3 [![1, 0, 1], ![0, 1, 1]] (by simp) L (by omega) (by rw [l2]; exact l3)
    (by rw [l2]; exact l4) (by norm_num) (pam (2 ^ L.numBits) 2) _ (C109_pam (by positivity) 2 (by norm_num)) 2 hmd 6 (by rw [l2])
  have e : [![(1 : ZMod 2), 0, 1], ![0, 1, 1]].flatMap (fun u : BVec 3 => List.ofFn u) = [1, 0, 1, 0, 1, 1] := by decide +kernel
  rw [e] at s1 s3
  refine ⟨c, L, s, h1, l1, s1, s2, s3 _ (by simp) fun b hb => ?_⟩
  have hquiet : ∀ q, q ≠ 3 → noiseSize 1 s (s.set 3 x) q = 0 := by
    intro q hq
    have hbl : block 1 q (s.set 3 x) = block 1 q s := by
      apply List.ext_getElem?
      intro i
      simp only [block, List.getElem?_take, List.getElem?_drop]
      by_cases hi : i < 1
      · rw [if_pos hi, if_pos hi, List.getElem?_set_ne (by omega)]
      · rw [if_neg hi, if_neg hi]
    simp [noiseSize, hbl]
  have hsub : ((Finset.range 6).filter fun q => (2 : ℝ) / 2 ≤ noiseSize 1 s (s.set 3 x) (b * 6 + q)) ⊆ {3 - b * 6} := by
    intro q hq
    rw [Finset.mem_filter] at hq
    rw [Finset.mem_singleton]
    by_contra hne
    have h0 := hquiet (b * 6 + q) (by omega)
    rw [h0] at hq
    norm_num at hq
  have := Finset.card_le_card hsub
  rw [Finset.card_singleton] at this
  rw [l2]
  omega

/-- The outer code of a compressed transmission: the documented Huffman-like code of `C24`. -/
example : ∃ fv, FVCode.create 2 2 2 [([0, 0], [0]), ([0, 1], [1, 1, 1]), ([1, 0], [1, 0]), ([1, 1], [1, 1, 0])] = some fv ∧
    fv.prefixFree = true ∧ (∀ w ∈ fv.codewords, w ≠ []) ∧ fv.encode [0, 0, 1, 0, 0, 1] = some [0, 1, 0, 1, 1, 1] :=
  ⟨⟨2, 2, 2, [([0, 0], [0]), ([0, 1], [1, 1, 1]), ([1, 0], [1, 0]), ([1, 1], [1, 1, 0])]⟩, by decide +kernel⟩

/-- `ConvolutionalCode([[0o7, 0o5]])`, three blocks, zero termination: words of ten bits, free distance 5, so with one bit per symbol two
symbols of every word may be lost, with two bits per symbol one. -/
example : exampleTerm75.length = 1 * 10 ∧ exampleTerm75.length = 2 * 5 ∧ 1 * 2 ≤ (5 - 1) / 2 ∧ 2 * 1 ≤ (5 - 1) / 2 ∧
    exampleConv75.stateSpace.freeDistance 30 = some (some 5) := by decide +kernel

end Komm
