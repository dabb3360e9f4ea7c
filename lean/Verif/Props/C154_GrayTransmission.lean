import Verif.Props.C151_Transmission
import Verif.Props.C133_GrayBER
/-! C154: whole transmissions with Gray labels.  A disturbed PAM symbol costs the decoder no more bits than the number of steps the noise
can move the decision, and never more than the label has. -/
namespace Komm
open Constellation NDArray

theorem wordDist_eq_sum (a b : List Nat) (h : a.length = b.length) :
    wordDist a b = ∑ i ∈ Finset.range a.length, if a.getD i 0 = b.getD i 0 then 0 else 1 := by
  induction a generalizing b with
  | nil => cases b with
    | nil => rfl
    | cons _ _ => simp at h
  | cons x a ih =>
    cases b with
    | nil => simp at h
    | cons y b =>
      rw [wordDist, ih b (by simpa using h), List.length_cons, Finset.sum_range_succ']
      simp only [List.getD_cons_succ, List.getD_cons_zero]
      ring

theorem sum_range_blocks (m S : Nat) (hm : 0 < m) (F : Nat → Nat → Nat) :
    ∑ j ∈ Finset.range (m * S), F (j / m) (j % m) = ∑ q ∈ Finset.range S, ∑ i ∈ Finset.range m, F q i := by
  induction S with
  | zero => simp
  | succ S ih =>
    rw [Nat.mul_succ, Finset.sum_range_add, ih, Finset.sum_range_succ]
    congr 1
    apply Finset.sum_congr rfl
    intro i hi
    rw [Finset.mem_range] at hi
    rw [Nat.mul_add_div hm, Nat.mul_add_mod, Nat.div_eq_of_lt hi, Nat.mod_eq_of_lt hi, Nat.add_zero]

variable {𝕜 : Type} [RCLike 𝕜] {N K n : Nat}

/-- The chain with the actual number of wrong bits: if in every word the labels of the decided symbols differ from those of the symbols sent
in at most `t` bits altogether, every bit of the message arrives. -/
theorem C154_chain (E : BVec K → BVec n) (encode decode : List (ZMod 2) → Option (List (ZMod 2))) (t : Nat) (us : List (BVec K)) (hne : us ≠ [])
    (hE : encode (us.flatMap fun u : BVec K => List.ofFn u) = some (us.flatMap fun u : BVec K => List.ofFn (E u)))
    (hD : ∀ ws : List (BVec n), ws.length = us.length →
      (∀ b (h1 : b < us.length) (h2 : b < ws.length), hammingDist ws[b] (E us[b]) ≤ t) →
      decode (ws.flatMap fun w : BVec n => List.ofFn w) = some (us.flatMap fun u : BVec K => List.ofFn u))
    (L : Lab) (hm : 1 ≤ L.numBits) (hc : L.cardinality = 2 ^ L.numBits) (ht : IsLabelTable L.numBits L.matrix) (hN : 0 < N)
    (m : Fin (2 ^ L.numBits) → Fin N → 𝕜) (ci : NDArray 𝕜 → Option (NDArray ℤ)) (hd : Decides m ci) (S : Nat) (hS : 1 ≤ S) (hn : n = L.numBits * S) :
    ∃ (s : List 𝕜) (l : List Nat), transmitter encode L m (us.flatMap fun u : BVec K => List.ofFn u) = some ⟨[us.length * S * N], s⟩ ∧
      s.length = us.length * S * N ∧ l.length = us.length * S ∧
      (∀ q < l.length, ∃ i : Fin (2 ^ L.numBits), l.getD q 0 = i.val ∧ vec N (block N q s) = m i) ∧
      ∀ r : List 𝕜, r.length = s.length → ∃ k : List Nat, ci ⟨[us.length * S * N], r⟩ = some ⟨[us.length * S], k.map fun i : Nat => (i : Int)⟩ ∧
        k.length = us.length * S ∧ (∀ i ∈ k, i < 2 ^ L.numBits) ∧
        ((∀ b < us.length, ∑ q ∈ Finset.range S, wordDist (L.matrix.getD (l.getD (b * S + q) 0) []) (L.matrix.getD (k.getD (b * S + q) 0) []) ≤ t) →
          receiver decode L ci ⟨[us.length * S * N], r⟩ = some (us.flatMap fun u : BVec K => List.ofFn u)) := by
  have hn0 : 0 < n := by rw [hn]; positivity
  obtain ⟨v, hv⟩ : ∃ v, v = us.flatMap fun u : BVec K => List.ofFn (E u) := ⟨_, rfl⟩
  have hvl : v.length = us.length * n := by
    rw [hv, List.flatMap_def, length_flatten_rows n _ (by
      intro r hr; obtain ⟨w, _, rfl⟩ := List.mem_map.mp hr; simp), List.length_map]
  have hul : 0 < us.length := List.length_pos_of_ne_nil hne
  have hvne : v.map (fun b : ZMod 2 => b.val) ≠ [] := by
    intro e
    have := congrArg List.length e
    rw [List.length_map, hvl, List.length_nil] at this
    exact absurd this (Nat.mul_pos hul hn0).ne'
  have hvdvd : L.numBits ∣ (v.map fun b : ZMod 2 => b.val).length := by
    rw [List.length_map, hvl, hn]
    exact Dvd.intro_left (us.length * S) (by ring)
  obtain ⟨l, s, h1, h2, h3, h4, h5, h6, h7⟩ := C119_modulate L hm hc ht m (v.map fun b : ZMod 2 => b.val) hvne hvdvd (by
    intro b hb
    obtain ⟨x, _, rfl⟩ := List.mem_map.mp hb
    exact (by decide : ∀ x : ZMod 2, x.val = 0 ∨ x.val = 1) x)
  have hll : l.length = us.length * S := by
    rw [List.length_map, hvl, hn] at h3
    have : L.numBits * l.length = L.numBits * (us.length * S) := by rw [h3]; ring
    exact Nat.eq_of_mul_eq_mul_left hm this
  have h1' : L.bitsToIndices (v.map fun b : ZMod 2 => (b.val : Int)) = some l := by
    rw [← h1, List.map_map]; rfl
  rw [hll] at h6
  refine ⟨s, l, ?_, h6, hll, ?_, ?_⟩
  · simp only [transmitter, hE, Option.bind_eq_bind, Option.bind_some, ← hv, h1', h5]
    rw [hll]
  · intro q hq
    obtain ⟨i, hi, hs⟩ := h7 q hq
    exact ⟨i, by rw [List.getD_eq_getElem _ _ hq, hi], hs⟩
  intro r hr
  obtain ⟨k, bits', g1, g2, g3, g4, g5, g6, -⟩ := C119_demodulate L hm hc ht hN m ci hd _ l h2 h4 r (by rw [hr, h6, hll])
  rw [hll] at g1 g2
  refine ⟨k, g1, g2, g3, fun hcost => ?_⟩
  have hrow : ∀ l : List Nat, (∀ i ∈ l, i < 2 ^ L.numBits) → ∀ r ∈ l.map (fun i => L.matrix.getD i []), r.length = L.numBits := by
    intro l hl r hr
    obtain ⟨i, hi, rfl⟩ := List.mem_map.mp hr
    exact table_row L ht i (hl i hi)
  have e1 := indicesToBits_map L hc ht l h2
  rw [h4, Option.some_inj] at e1
  have e2 := indicesToBits_map L hc ht k g3
  rw [g5, Option.some_inj] at e2
  have hb'l : (bits'.map fun b : Nat => (b : ZMod 2)).length = us.length * n := by
    rw [List.length_map, g6, List.length_map, hvl]
  obtain ⟨ws, hws, hwse⟩ := exists_words us.length _ hb'l
  simp only [receiver, g1, Option.bind_eq_bind, Option.bind_some, g5]
  rw [hwse]
  apply hD ws hws
  intro b hb1 hb2
  refine le_trans ?_ (hcost b hb1)
  have hget : ∀ (l : List Nat), l.length = us.length * S → ∀ q < us.length * S, (l.map fun i => L.matrix.getD i []).getD q [] = L.matrix.getD (l.getD q 0) [] := by
    intro l hl q hq
    rw [List.getD_eq_getElem _ _ (by rw [List.length_map, hl]; exact hq), List.getElem_map, List.getD_eq_getElem l _ (by omega)]
  -- the bits of the word, through the labels
  have hlm : us.length * n = us.length * S * L.numBits := by rw [hn]; ring
  have hidx : ∀ j < n, b * n + j < us.length * n := by
    intro j hj
    calc b * n + j < b * n + n := by omega
      _ = (b + 1) * n := by ring
      _ ≤ us.length * n := Nat.mul_le_mul_right _ hb1
  have hdm : ∀ j, (b * n + j) / L.numBits = b * S + j / L.numBits ∧ (b * n + j) % L.numBits = j % L.numBits := by
    intro j
    have e : b * n + j = L.numBits * (b * S) + j := by
      have : b * n = L.numBits * (b * S) := by rw [hn]; ring
      rw [this]
    rw [e, Nat.mul_add_div hm, Nat.mul_add_mod]
    exact ⟨rfl, rfl⟩
  have hqS : ∀ j < n, b * S + j / L.numBits < us.length * S := by
    intro j hj
    have hjS : j / L.numBits < S := Nat.div_lt_of_lt_mul (lt_of_lt_of_eq hj hn)
    calc b * S + j / L.numBits < b * S + S := by omega
      _ = (b + 1) * S := by ring
      _ ≤ us.length * S := Nat.mul_le_mul_right _ hb1
  have hbits : ∀ (l : List Nat), (∀ i ∈ l, i < 2 ^ L.numBits) → l.length = us.length * S → ∀ j < n,
      (l.map fun i => L.matrix.getD i []).flatten.getD (b * n + j) 0 =
        (L.matrix.getD (l.getD (b * S + j / L.numBits) 0) []).getD (j % L.numBits) 0 := by
    intro l hl hlen j hj
    rw [getElem_flatten_rows L.numBits hm _ (hrow l hl) 0 _ (by rw [List.length_map, hlen, ← hlm]; exact hidx j hj), (hdm j).1, (hdm j).2,
      hget l hlen _ (hqS j hj)]
  have hfil : hammingDist ws[b] (E us[b]) ≤ ((Finset.range n).filter fun j =>
      (L.matrix.getD (l.getD (b * S + j / L.numBits) 0) []).getD (j % L.numBits) 0 ≠
        (L.matrix.getD (k.getD (b * S + j / L.numBits) 0) []).getD (j % L.numBits) 0).card := by
    rw [← card_fin_filter n]
    apply Finset.card_le_card
    intro j hj
    rw [Finset.mem_filter] at hj ⊢
    refine ⟨Finset.mem_univ _, fun heq => hj.2 ?_⟩
    have a1 := getD_flatMap_ofFn hn0 ws b hb2 j
    have a2 := getD_flatMap_ofFn hn0 (us.map E) b (by simpa using hb1) j
    rw [List.getElem_map, List.flatMap_map, ← hv] at a2
    rw [← a1, ← a2, ← hwse]
    have c1 := hbits l h2 hll j j.isLt
    have c2 := hbits k g3 g2 j j.isLt
    rw [← e1] at c1
    rw [← e2] at c2
    have b1 : (v.map fun b : ZMod 2 => b.val).getD (b * n + j) 0 = bits'.getD (b * n + j) 0 := by rw [c1, c2, heq]
    have hbl : b * n + j < bits'.length := by rw [g6, List.length_map, hvl]; exact hidx j j.isLt
    have hvl' : b * n + j < v.length := by rw [hvl]; exact hidx j j.isLt
    rw [List.getD_eq_getElem _ _ hbl, List.getD_eq_getElem _ _ (by rw [List.length_map]; exact hvl'), List.getElem_map] at b1
    rw [List.getD_eq_getElem _ _ (by rw [List.length_map]; exact hbl), List.getD_eq_getElem _ _ hvl', List.getElem_map, ← b1]
    simp
  refine hfil.trans (le_of_eq ?_)
  rw [Finset.card_filter]
  have hn' : Finset.range n = Finset.range (L.numBits * S) := by rw [hn]
  rw [hn', sum_range_blocks L.numBits S hm fun q i => if (L.matrix.getD (l.getD (b * S + q) 0) []).getD i 0 ≠
        (L.matrix.getD (k.getD (b * S + q) 0) []).getD i 0 then 1 else 0]
  apply Finset.sum_congr rfl
  intro q hq
  rw [Finset.mem_range] at hq
  have hqq : b * S + q < us.length * S := by
    calc b * S + q < b * S + S := by omega
      _ = (b + 1) * S := by ring
      _ ≤ us.length * S := Nat.mul_le_mul_right _ hb1
  have r1 : (L.matrix.getD (l.getD (b * S + q) 0) []).length = L.numBits := table_row L ht _ (by
    rw [List.getD_eq_getElem _ _ (by omega)]; exact h2 _ (List.getElem_mem _))
  have r2 : (L.matrix.getD (k.getD (b * S + q) 0) []).length = L.numBits := table_row L ht _ (by
    rw [List.getD_eq_getElem _ _ (by omega)]; exact g3 _ (List.getElem_mem _))
  rw [wordDist_eq_sum _ _ (by rw [r1, r2]), r1]
  apply Finset.sum_congr rfl
  intro i _
  simp only [ne_eq, ite_not]

theorem entry_getD (q : Nat) (s : List ℝ) : vec 1 (block 1 q s) 0 = s.getD q 0 := by
  simp only [vec, block, Fin.val_zero, Nat.mul_one, List.getD_eq_getElem?_getD, List.getElem?_take, List.getElem?_drop, Nat.add_zero,
    if_pos Nat.one_pos]

/-- PAM with `ReflectedLabeling`.  `e q` is any number of steps such that the noise in symbol `q` stays below `e q + 1/2` steps: a symbol
costs at most `e q` bits, and at most `num_bits` however strong the noise.  If that is at most `t` bits in every word, the message arrives. -/
theorem C154_pam_gray (E : BVec K → BVec n) (encode decode : List (ZMod 2) → Option (List (ZMod 2))) (t : Nat) (us : List (BVec K)) (hne : us ≠ [])
    (hE : encode (us.flatMap fun u : BVec K => List.ofFn u) = some (us.flatMap fun u : BVec K => List.ofFn (E u)))
    (hD : ∀ ws : List (BVec n), ws.length = us.length →
      (∀ b (h1 : b < us.length) (h2 : b < ws.length), hammingDist ws[b] (E us[b]) ≤ t) →
      decode (ws.flatMap fun w : BVec n => List.ofFn w) = some (us.flatMap fun u : BVec K => List.ofFn u))
    (mb : Nat) (hmb : 1 ≤ mb) (L : Lab) (hL : reflectedLab mb = some L) (δ : ℝ) (hδ : 0 < δ) (S : Nat) (hS : 1 ≤ S) (hn : n = mb * S) :
    ∃ s : List ℝ, transmitter encode L (pam (2 ^ L.numBits) δ) (us.flatMap fun u : BVec K => List.ofFn u) = some ⟨[us.length * S * 1], s⟩ ∧
      s.length = us.length * S * 1 ∧
      ∀ (r : List ℝ) (e : Nat → Nat), r.length = s.length →
        (∀ q < us.length * S, e q < mb → |r.getD q 0 - s.getD q 0| < (e q + 1 / 2) * δ) →
        (∀ b < us.length, ∑ q ∈ Finset.range S, min (e (b * S + q)) mb ≤ t) →
        receiver decode L (closestEntries (pamClosest (2 ^ L.numBits) δ)) ⟨[us.length * S * 1], r⟩ = some (us.flatMap fun u : BVec K => List.ofFn u) := by
  obtain ⟨L', l1, l2, l3, l4, l5⟩ := C38_reflected_matrix mb hmb
  rw [hL, Option.some.injEq] at l1
  subst l1
  obtain ⟨s, l, s1, s2, s3, s4, s5⟩ := C154_chain E encode decode t us hne hE hD L (by omega) (by rw [l2]; exact l3) (by rw [l2]; exact l4)
    (by norm_num) (pam (2 ^ L.numBits) δ) _ (C109_pam (by positivity) δ hδ.ne') S hS (by rw [l2]; exact hn)
  refine ⟨s, s1, s2, fun r e hr hnoise hcost => ?_⟩
  obtain ⟨k, k1, k2, k3, k4⟩ := s5 r hr
  apply k4
  intro b hb
  refine le_trans (Finset.sum_le_sum fun q hq => ?_) (hcost b hb)
  rw [Finset.mem_range] at hq
  have hqq : b * S + q < us.length * S := by
    calc b * S + q < b * S + S := by omega
      _ = (b + 1) * S := by ring
      _ ≤ us.length * S := Nat.mul_le_mul_right _ hb
  set p := b * S + q
  obtain ⟨i, hi, hs⟩ := s4 p (by omega)
  have hkp : k.getD p 0 < 2 ^ L.numBits := by rw [List.getD_eq_getElem _ _ (by omega)]; exact k3 _ (List.getElem_mem _)
  have hrow : ∀ i, i < 2 ^ L.numBits → L.matrix.getD i [] = reflectedIndicesToBits mb [i] := by
    intro i hi
    rw [l2] at hi
    rw [List.getD_eq_getElem?_getD, l5 i hi]; rfl
  rw [hi, hrow _ i.isLt, hrow _ hkp]
  have hlab : (reflectedIndicesToBits mb [i.val]).length = mb := by simp [reflectedIndicesToBits, intToBits_length]
  refine le_min ?_ ((wordDist_le_length _ _).trans hlab.le)
  by_cases hem : e p < mb
  · refine (C119_gray_distance mb i (k.getD p 0) (by rw [← l2]; exact i.isLt) (by rw [← l2]; exact hkp)).trans ?_
    have hoff := pam_off (2 ^ L.numBits) δ hδ i (r.getD p 0 - s.getD p 0) (e p) (hnoise p hqq hem)
    have hsp : pam (2 ^ L.numBits) δ i 0 = s.getD p 0 := by rw [← entry_getD, hs]
    rw [hsp, add_sub_cancel] at hoff
    have hk : (k.getD p 0 : ℤ) = pamClosest (2 ^ L.numBits) δ (r.getD p 0) := by
      simp only [closestEntries, Option.some.injEq, NDArray.mk.injEq] at k1
      have := congrArg (fun l => l.getD p 0) k1.2
      rw [List.getD_eq_getElem _ _ (by rw [List.length_map, hr, s2, mul_one]; exact hqq), List.getElem_map,
        List.getD_eq_getElem _ _ (by rw [List.length_map, k2]; exact hqq), List.getElem_map] at this
      rw [List.getD_eq_getElem k _ (by omega), List.getD_eq_getElem r _ (by rw [hr, s2, mul_one]; exact hqq), this]
    rw [← hk] at hoff
    rw [abs_le] at hoff
    omega
  · exact (wordDist_le_length _ _).trans (by rw [hlab]; omega)

theorem pamClosest_range (M : Nat) (hM : 0 < M) (δ : ℝ) (hδ : δ ≠ 0) (r : ℝ) : ∃ k : Nat, (k : ℤ) = pamClosest M δ r ∧ k < M := by
  obtain ⟨i, hi, -⟩ := C75_pam M hM δ hδ r
  exact ⟨i.val, hi.symm, i.isLt⟩

theorem decides_cast {M M' : Nat} (h : M' = M) (m : Fin M → Fin N → 𝕜) (ci : NDArray 𝕜 → Option (NDArray ℤ)) (hd : Decides m ci) :
    Decides (fun i : Fin M' => m (Fin.cast h i)) ci := by
  subst h
  exact hd

theorem entry_getD_complex (q : Nat) (s : List ℂ) : vec 1 (block 1 q s) 0 = s.getD q 0 := by
  simp only [vec, block, Fin.val_zero, Nat.mul_one, List.getD_eq_getElem?_getD, List.getElem?_take, List.getElem?_drop, Nat.add_zero,
    if_pos Nat.one_pos]

theorem C154_gray_cost (mb : Nat) (δ : ℝ) (hδ : 0 < δ) (i : Fin (2 ^ mb)) (w : ℝ) (e : Nat) (hw : e < mb → |w| < (e + 1 / 2) * δ) (k : Nat) (hk : k < 2 ^ mb)
    (hkw : (k : ℤ) = pamClosest (2 ^ mb) δ (pam (2 ^ mb) δ i 0 + w)) :
    wordDist (reflectedIndicesToBits mb [i.val]) (reflectedIndicesToBits mb [k]) ≤ min e mb := by
  have hlab : (reflectedIndicesToBits mb [i.val]).length = mb := by simp [reflectedIndicesToBits, intToBits_length]
  refine le_min ?_ ((wordDist_le_length _ _).trans hlab.le)
  by_cases hem : e < mb
  · refine (C119_gray_distance mb i k i.isLt hk).trans ?_
    have hoff := pam_off (2 ^ mb) δ hδ i w e (hw hem)
    rw [← hkw, abs_le] at hoff
    omega
  · exact (wordDist_le_length _ _).trans (by rw [hlab]; omega)

/-- QAM with `ReflectedRectangularLabeling((mi, mq))`: the noise is measured along the two axes of the (rotated) constellation; a symbol whose
noise stays below `ei + 1/2` steps in phase and `eq + 1/2` in quadrature costs at most `min ei mi + min eq mq` bits. -/
theorem C154_qam_gray (E : BVec K → BVec n) (encode decode : List (ZMod 2) → Option (List (ZMod 2))) (t : Nat) (us : List (BVec K)) (hne : us ≠ [])
    (hE : encode (us.flatMap fun u : BVec K => List.ofFn u) = some (us.flatMap fun u : BVec K => List.ofFn (E u)))
    (hD : ∀ ws : List (BVec n), ws.length = us.length →
      (∀ b (h1 : b < us.length) (h2 : b < ws.length), hammingDist ws[b] (E us[b]) ≤ t) →
      decode (ws.flatMap fun w : BVec n => List.ofFn w) = some (us.flatMap fun u : BVec K => List.ofFn u))
    (mi mq : Nat) (hmi : 1 ≤ mi) (hmq : 1 ≤ mq) (L : Lab) (hL : rectangularLab mi mq = some L) (hM : 2 ^ L.numBits = 2 ^ mi * 2 ^ mq)
    (δi δq φ : ℝ) (hδi : 0 < δi) (hδq : 0 < δq) (S : Nat) (hS : 1 ≤ S) (hn : n = (mi + mq) * S) :
    ∃ s : List ℂ, transmitter encode L (fun i : Fin (2 ^ L.numBits) => qam (2 ^ mi) (2 ^ mq) δi δq φ (Fin.cast hM i)) (us.flatMap fun u : BVec K => List.ofFn u) =
        some ⟨[us.length * S * 1], s⟩ ∧ s.length = us.length * S * 1 ∧
      ∀ (r : List ℂ) (ei eq : Nat → Nat), r.length = s.length →
        (∀ q < us.length * S, ei q < mi → |((r.getD q 0 - s.getD q 0) * phase (-φ)).re| < (ei q + 1 / 2) * δi) →
        (∀ q < us.length * S, eq q < mq → |((r.getD q 0 - s.getD q 0) * phase (-φ)).im| < (eq q + 1 / 2) * δq) →
        (∀ b < us.length, ∑ q ∈ Finset.range S, (min (ei (b * S + q)) mi + min (eq (b * S + q)) mq) ≤ t) →
        receiver decode L (closestEntries (qamClosest (2 ^ mi) (2 ^ mq) δi δq φ)) ⟨[us.length * S * 1], r⟩ =
          some (us.flatMap fun u : BVec K => List.ofFn u) := by
  obtain ⟨L', l1, l2, l3, l4, -⟩ := C39_rectangular mi mq hmi hmq
  rw [hL, Option.some.injEq] at l1
  subst l1
  obtain ⟨s, l, s1, s2, s3, s4, s5⟩ := C154_chain E encode decode t us hne hE hD L (by omega) (by rw [l2]; exact l3) (by rw [l2]; exact l4)
    (by norm_num) (fun i : Fin (2 ^ L.numBits) => qam (2 ^ mi) (2 ^ mq) δi δq φ (Fin.cast hM i)) _
    (decides_cast hM _ _ (C109_qam (2 ^ mi) (2 ^ mq) (by positivity) (by positivity) δi δq φ hδi.ne' hδq.ne')) S hS (by rw [l2]; exact hn)
  refine ⟨s, s1, s2, fun r ei eq hr hni hnq hcost => ?_⟩
  obtain ⟨k, k1, k2, k3, k4⟩ := s5 r hr
  apply k4
  intro b hb
  refine le_trans (Finset.sum_le_sum fun q hq => ?_) (hcost b hb)
  rw [Finset.mem_range] at hq
  have hqq : b * S + q < us.length * S := by
    calc b * S + q < b * S + S := by omega
      _ = (b + 1) * S := by ring
      _ ≤ us.length * S := Nat.mul_le_mul_right _ hb
  set p := b * S + q
  obtain ⟨x, hx, hs⟩ := s4 p (by omega)
  have hsp := congrFun hs 0
  rw [entry_getD_complex] at hsp
  have hxl : x.val < 2 ^ mi * 2 ^ mq := hM ▸ x.isLt
  have hpq : 0 < 2 ^ mq := by positivity
  set xi : Fin (2 ^ mi) := ⟨x.val / 2 ^ mq, Nat.div_lt_of_lt_mul (by rw [Nat.mul_comm]; exact hxl)⟩ with hxi
  set xq : Fin (2 ^ mq) := ⟨x.val % 2 ^ mq, Nat.mod_lt _ hpq⟩ with hxq
  have hspv : s.getD p 0 * phase (-φ) = ((pam (2 ^ mi) δi xi 0 : ℝ) : ℂ) + Complex.I * ((pam (2 ^ mq) δq xq 0 : ℝ) : ℂ) := by
    rw [hsp]
    simp only [qam, Fin.val_cast, pam]
    rw [mul_assoc, phase_mul_neg, mul_one]
  have hk : (k.getD p 0 : ℤ) = qamClosest (2 ^ mi) (2 ^ mq) δi δq φ (r.getD p 0) := by
    simp only [closestEntries, Option.some.injEq, NDArray.mk.injEq] at k1
    have := congrArg (fun l => l.getD p 0) k1.2
    rw [List.getD_eq_getElem _ _ (by rw [List.length_map, hr, s2, mul_one]; exact hqq), List.getElem_map,
      List.getD_eq_getElem _ _ (by rw [List.length_map, k2]; exact hqq), List.getElem_map] at this
    rw [List.getD_eq_getElem k _ (by omega), List.getD_eq_getElem r _ (by rw [hr, s2, mul_one]; exact hqq), this]
  rw [qamClosest_eq] at hk
  have hrp : r.getD p 0 * phase (-φ) = s.getD p 0 * phase (-φ) + (r.getD p 0 - s.getD p 0) * phase (-φ) := by ring
  rw [hrp, hspv] at hk
  set w := (r.getD p 0 - s.getD p 0) * phase (-φ) with hw
  simp only [Complex.add_re, Complex.add_im, Complex.mul_re, Complex.mul_im, Complex.ofReal_re, Complex.ofReal_im, Complex.I_re, Complex.I_im,
    zero_mul, one_mul, mul_zero, sub_zero, add_zero, zero_add] at hk
  have hbi := pamClosest_range (2 ^ mi) (by positivity) δi hδi.ne' (pam (2 ^ mi) δi xi 0 + w.re)
  have hbq := pamClosest_range (2 ^ mq) hpq δq hδq.ne' (pam (2 ^ mq) δq xq 0 + w.im)
  obtain ⟨ki, hki, hki'⟩ := hbi
  obtain ⟨kq, hkq, hkq'⟩ := hbq
  have hkk : k.getD p 0 = 2 ^ mq * ki + kq := by
    rw [← hki, ← hkq] at hk
    exact_mod_cast hk
  rw [hx, hkk, show x.val = 2 ^ mq * xi.val + xq.val from (Nat.div_add_mod _ _).symm,
    rectangular_row mi mq hmi hmq L hL _ _ xi.isLt xq.isLt, rectangular_row mi mq hmi hmq L hL _ _ hki' hkq',
    wordDist_append _ _ _ _ (by simp [reflectedIndicesToBits, intToBits_length])]
  exact Nat.add_le_add (C154_gray_cost mi δi hδi xi w.re (ei p) (hni p hqq) ki hki' hki) (C154_gray_cost mq δq hδq xq w.im (eq p) (hnq p hqq) kq hkq' hkq)

/-- Block codes with any decoder that corrects `t` errors; in particular, with noise below one and a half steps everywhere, `t` symbols of
every word may be decided wrongly, whatever the size of the labels. -/
theorem C154_block {M : Nat} (c : LinCode K M n) (h : c.Lawful) (hK : 1 ≤ K) (dec : BVec n → Option (BVec K)) (t : Nat)
    (hdec : ∀ u e, hammingNorm e ≤ t → dec (c.encode u + e) = some u) (us : List (BVec K)) (hne : us ≠ [])
    (mb : Nat) (hmb : 1 ≤ mb) (L : Lab) (hL : reflectedLab mb = some L) (δ : ℝ) (hδ : 0 < δ) (S : Nat) (hn : n = mb * S) :
    ∃ s : List ℝ, transmitter c.encodeStream L (pam (2 ^ L.numBits) δ) (us.flatMap fun u : BVec K => List.ofFn u) = some ⟨[us.length * S * 1], s⟩ ∧
      s.length = us.length * S * 1 ∧
      (∀ (r : List ℝ) (e : Nat → Nat), r.length = s.length →
        (∀ q < us.length * S, e q < mb → |r.getD q 0 - s.getD q 0| < (e q + 1 / 2) * δ) →
        (∀ b < us.length, ∑ q ∈ Finset.range S, min (e (b * S + q)) mb ≤ t) →
        receiver (blockDecode dec) L (closestEntries (pamClosest (2 ^ L.numBits) δ)) ⟨[us.length * S * 1], r⟩ =
          some (us.flatMap fun u : BVec K => List.ofFn u)) ∧
      (∀ r : List ℝ, r.length = s.length → (∀ q < us.length * S, |r.getD q 0 - s.getD q 0| < 3 / 2 * δ) →
        (∀ b < us.length, {q ∈ Finset.range S | δ / 2 ≤ |r.getD (b * S + q) 0 - s.getD (b * S + q) 0|}.card ≤ t) →
        receiver (blockDecode dec) L (closestEntries (pamClosest (2 ^ L.numBits) δ)) ⟨[us.length * S * 1], r⟩ =
          some (us.flatMap fun u : BVec K => List.ofFn u)) := by
  classical
  have hn0 : 0 < n := by have := h.dim; omega
  obtain ⟨s, s1, s2, s3⟩ := C154_pam_gray c.encode c.encodeStream (blockDecode dec) t us hne (C41_stream c h hK us).1 (by
    intro ws hws herr
    apply blockDecode_words hn0 dec us ws hws
    intro b h1 h2
    have := hdec us[b] (c.encode us[b] + ws[b]) (by
      rw [← hammingDist_eq_norm_add, hammingDist_comm]; exact herr b h1 h2)
    rw [← add_assoc, bvec_add_self, zero_add] at this
    exact this) mb hmb L hL δ hδ S (by
      rcases Nat.eq_zero_or_pos S with e | e
      · rw [e, Nat.mul_zero] at hn; omega
      · exact e) hn
  refine ⟨s, s1, s2, s3, fun r hr hnoise hcount => ?_⟩
  refine s3 r (fun q => if δ / 2 ≤ |r.getD q 0 - s.getD q 0| then 1 else 0) hr (fun q hq _ => ?_) fun b hb => ?_
  · split
    · have := hnoise q hq; push_cast; linarith
    · push_cast; linarith
  · refine le_trans (le_trans (Finset.sum_le_sum fun q _ => min_le_left _ _) (le_of_eq ?_)) (hcount b hb)
    rw [Finset.card_filter]

/-- The same for QAM with `ReflectedRectangularLabeling((mi, mq))` and any block decoder that corrects `t` errors. -/
theorem C154_block_qam {M : Nat} (c : LinCode K M n) (h : c.Lawful) (hK : 1 ≤ K) (dec : BVec n → Option (BVec K)) (t : Nat)
    (hdec : ∀ u e, hammingNorm e ≤ t → dec (c.encode u + e) = some u) (us : List (BVec K)) (hne : us ≠ [])
    (mi mq : Nat) (hmi : 1 ≤ mi) (hmq : 1 ≤ mq) (L : Lab) (hL : rectangularLab mi mq = some L) (hM : 2 ^ L.numBits = 2 ^ mi * 2 ^ mq)
    (δi δq φ : ℝ) (hδi : 0 < δi) (hδq : 0 < δq) (S : Nat) (hn : n = (mi + mq) * S) :
    ∃ s : List ℂ, transmitter c.encodeStream L (fun i : Fin (2 ^ L.numBits) => qam (2 ^ mi) (2 ^ mq) δi δq φ (Fin.cast hM i)) (us.flatMap fun u : BVec K => List.ofFn u) =
        some ⟨[us.length * S * 1], s⟩ ∧ s.length = us.length * S * 1 ∧
      ∀ (r : List ℂ) (ei eq : Nat → Nat), r.length = s.length →
        (∀ q < us.length * S, ei q < mi → |((r.getD q 0 - s.getD q 0) * phase (-φ)).re| < (ei q + 1 / 2) * δi) →
        (∀ q < us.length * S, eq q < mq → |((r.getD q 0 - s.getD q 0) * phase (-φ)).im| < (eq q + 1 / 2) * δq) →
        (∀ b < us.length, ∑ q ∈ Finset.range S, (min (ei (b * S + q)) mi + min (eq (b * S + q)) mq) ≤ t) →
        receiver (blockDecode dec) L (closestEntries (qamClosest (2 ^ mi) (2 ^ mq) δi δq φ)) ⟨[us.length * S * 1], r⟩ =
          some (us.flatMap fun u : BVec K => List.ofFn u) := by
  classical
  have hn0 : 0 < n := by have := h.dim; omega
  exact C154_qam_gray c.encode c.encodeStream (blockDecode dec) t us hne (C41_stream c h hK us).1 (by
    intro ws hws herr
    apply blockDecode_words hn0 dec us ws hws
    intro b h1 h2
    have := hdec us[b] (c.encode us[b] + ws[b]) (by
      rw [← hammingDist_eq_norm_add, hammingDist_comm]; exact herr b h1 h2)
    rw [← add_assoc, bvec_add_self, zero_add] at this
    exact this) mi mq hmi hmq L hL hM δi δq φ hδi hδq S (by
      rcases Nat.eq_zero_or_pos S with e | e
      · rw [e, Nat.mul_zero] at hn; omega
      · exact e) hn

/-- A concrete case: the (6, 3) code with minimum distance 3, which corrects one error, two bits per symbol, 4-PAM with amplitudes `±1, ±3`.
Noise of 2.9 in one symbol moves the decision, and the three bits still arrive. -/
example : ∃ (c : LinCode 3 3 6) (L : Lab) (s : List ℝ), blockCodeOfGenerator exG = some c ∧ reflectedLab 2 = some L ∧
    transmitter c.encodeStream L (pam (2 ^ L.numBits) 2) [1, 0, 1] = some ⟨[3], s⟩ ∧ s.length = 3 ∧
    receiver (blockDecode (exhaustiveHard c)) L (closestEntries (pamClosest (2 ^ L.numBits) 2)) ⟨[3], s.set 1 (s.getD 1 0 + 2.9)⟩ = some [1, 0, 1] := by
  classical
  have hG : LinearIndependent (ZMod 2) exG := by
    rw [linearIndependent_iff_card_eq_finrank_span, Fintype.card_fin, Set.finrank, ← rank_spec]; decide +kernel
  obtain ⟨c, h1, _, h3⟩ := C41_generator exG hG
  have hd3 : c.minimumDistance = some 3 := by
    have : (blockCodeOfGenerator exG).bind (fun c => c.minimumDistance) = some 3 := by decide +kernel
    rw [h1] at this; exact this
  obtain ⟨L, l1, -⟩ := C38_reflected_matrix 2 (by norm_num)
  obtain ⟨s, s1, s2, -, s3⟩ := C154_block c h3 (by norm_num) (exhaustiveHard c) 1 (fun u e he => by
      obtain ⟨u', g1, g2⟩ := C47_hard c h3 (c.encode u + e)
      rw [g1, unique_decoding c h3 3 hd3 u u' e he (g2 u)]) [![1, 0, 1]] (by simp) 2 (by norm_num) L l1 2 (by norm_num) 3 (by norm_num)
  have e : [![(1 : ZMod 2), 0, 1]].flatMap (fun u : BVec 3 => List.ofFn u) = [1, 0, 1] := by decide +kernel
  rw [e] at s1 s3
  simp only [List.length_cons, List.length_nil] at s2 s1 s3
  norm_num at s2
  have hq : ∀ q, (s.set 1 (s.getD 1 0 + 2.9)).getD q 0 - s.getD q 0 = if q = 1 then 2.9 else 0 := by
    intro q
    by_cases hq1 : q = 1
    · subst hq1
      rw [if_pos rfl, List.getD_eq_getElem (s.set _ _) _ (by simp [s2]), List.getElem_set_self, add_sub_cancel_left]
    · rw [if_neg hq1]
      simp only [List.getD_eq_getElem?_getD]
      rw [List.getElem?_set_ne (by omega), sub_self]
  refine ⟨c, L, s, h1, l1, s1, s2, s3 _ (by simp) (fun q _ => ?_) fun b hb => ?_⟩
  · rw [hq]; split <;> norm_num
  · refine le_trans (Finset.card_le_card (t := {1 - b * 3}) fun q hqm => ?_) (Finset.card_singleton _).le
    rw [Finset.mem_filter, hq] at hqm
    rw [Finset.mem_singleton]
    by_contra hne
    rw [if_neg (by omega)] at hqm
    norm_num at hqm

/-- The same code over a 4-QAM: whatever noise along the quadrature axis hits the second symbol, the three bits arrive. -/
example (x : ℝ) : ∃ (c : LinCode 3 3 6) (L : Lab) (hM : 2 ^ L.numBits = 2 ^ 1 * 2 ^ 1) (s : List ℂ), blockCodeOfGenerator exG = some c ∧
    rectangularLab 1 1 = some L ∧
    transmitter c.encodeStream L (fun i : Fin (2 ^ L.numBits) => qam (2 ^ 1) (2 ^ 1) 2 2 0 (Fin.cast hM i)) [1, 0, 1] = some ⟨[3], s⟩ ∧ s.length = 3 ∧
    receiver (blockDecode (exhaustiveHard c)) L (closestEntries (qamClosest (2 ^ 1) (2 ^ 1) 2 2 0)) ⟨[3], s.set 1 (s.getD 1 0 + x * Complex.I)⟩ = some [1, 0, 1] := by
  classical
  have hG : LinearIndependent (ZMod 2) exG := by
    rw [linearIndependent_iff_card_eq_finrank_span, Fintype.card_fin, Set.finrank, ← rank_spec]; decide +kernel
  obtain ⟨c, h1, _, h3⟩ := C41_generator exG hG
  have hd3 : c.minimumDistance = some 3 := by
    have : (blockCodeOfGenerator exG).bind (fun c => c.minimumDistance) = some 3 := by decide +kernel
    rw [h1] at this; exact this
  obtain ⟨L, l1, l2, -⟩ := C39_rectangular 1 1 le_rfl le_rfl
  have hM : 2 ^ L.numBits = 2 ^ 1 * 2 ^ 1 := by rw [l2]; norm_num
  obtain ⟨s, s1, s2, s3⟩ := C154_block_qam c h3 (by norm_num) (exhaustiveHard c) 1 (fun u e he => by
      obtain ⟨u', g1, g2⟩ := C47_hard c h3 (c.encode u + e)
      rw [g1, unique_decoding c h3 3 hd3 u u' e he (g2 u)]) [![1, 0, 1]] (by simp) 1 1 le_rfl le_rfl L l1 hM 2 2 0 (by norm_num) (by norm_num)
      3 (by norm_num)
  have e : [![(1 : ZMod 2), 0, 1]].flatMap (fun u : BVec 3 => List.ofFn u) = [1, 0, 1] := by decide +kernel
  rw [e] at s1 s3
  simp only [List.length_cons, List.length_nil] at s2 s1 s3
  norm_num at s2
  have hp : phase (-0) = 1 := by simp [phase]
  have hq : ∀ q, (s.set 1 (s.getD 1 0 + x * Complex.I)).getD q 0 - s.getD q 0 = if q = 1 then x * Complex.I else 0 := by
    intro q
    by_cases hq1 : q = 1
    · subst hq1
      rw [if_pos rfl, List.getD_eq_getElem (s.set _ _) _ (by simp [s2]), List.getElem_set_self, add_sub_cancel_left]
    · rw [if_neg hq1]
      simp only [List.getD_eq_getElem?_getD]
      rw [List.getElem?_set_ne (by omega), sub_self]
  refine ⟨c, L, hM, s, h1, l1, s1, s2, s3 _ (fun _ => 0) (fun q => if q = 1 then 1 else 0) (by simp) (fun q _ _ => ?_) (fun q _ h => ?_) fun b hb => ?_⟩
  · rw [hq, hp]; split <;> simp
  · rw [hq, hp]
    split at h
    · omega
    · rename_i hne; simp [hne]
  · have : b = 0 := by omega
    subst this
    decide

end Komm
