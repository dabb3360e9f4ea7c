import Verif.Lemmas.BlockDistance

/-! C41, C42, C44, C45, C47, C48, C58: block codes given by matrices, coset leaders, decoders.
`LinCode.Lawful` (Spec/BlockCode.lean) is the contract "encode is `u G`, check is `v Hᵀ`, project inverts encode, zero
syndrome means codeword"; the constructors are shown to satisfy it, everything else is derived from it. -/
namespace Komm

variable {k m n : Nat}

/-! ### C41 -/

/-- `BlockCode(generator_matrix=G)` with linearly independent rows. -/
theorem C41_generator (G : BMat k n) (hG : LinearIndependent (ZMod 2) G) :
    ∃ c, blockCodeOfGenerator G = some c ∧ c.generator = G ∧ c.Lawful :=
  ofGenerator_lawful G (by rw [rank_spec, finrank_span_eq_card hG, Fintype.card_fin])

/-- `BlockCode(check_matrix=H)` with linearly independent rows: the codewords are exactly the words orthogonal to the
rows of `H`, and the generator matrix is in reduced row echelon form. -/
theorem C41_check (H : BMat m n) (hH : LinearIndependent (ZMod 2) H) :
    ∃ c, blockCodeOfCheck H = some c ∧ c.checkMatrix = H ∧ IsRREF c.generator ∧ c.Lawful ∧
      ∀ v, (∃ u, c.encode u = v) ↔ ∀ i, ∑ j, H i j * v j = 0 := by
  obtain ⟨c, h1, h2, h3, h4⟩ := ofCheck_lawful H (by rw [rank_spec, finrank_span_eq_card hH, Fintype.card_fin])
  refine ⟨c, h1, h2, h3, h4, fun v => ?_⟩
  rw [← h4.check_zero v, funext_iff]
  apply forall_congr'
  intro i
  rw [h4.check_eq, h2, Pi.zero_apply]
  simp only [mul_comm]

/-- Rank-deficient matrices are rejected (when the check matrix is needed). -/
theorem C41_rank_deficient (G : BMat k n) (hG : ¬ LinearIndependent (ZMod 2) G) :
    blockCodeOfGenerator G = none ∧ blockCodeOfCheck G = none := by
  have : rank G ≠ k := by
    intro e
    apply hG
    rw [linearIndependent_iff_card_eq_finrank_span, Fintype.card_fin, Set.finrank, ← rank_spec, e]
  have h := (nullMatrix_spec G).1 this
  exact ⟨by rw [blockCodeOfGenerator, h]; rfl, by rw [blockCodeOfCheck, h]; rfl⟩

/-- `encode` is linear and injective. -/
theorem C41_encode_linear (c : LinCode k m n) (h : c.Lawful) :
    (∀ u v, c.encode (u + v) = c.encode u + c.encode v) ∧ c.encode 0 = 0 ∧ Function.Injective c.encode :=
  ⟨h.encode_add, h.encode_zero, h.encode_injective⟩

/-- `inverse_encode(encode(u)) == u`, and non-codewords are rejected. -/
theorem C41_inverse_encode (c : LinCode k m n) (h : c.Lawful) :
    (∀ u, c.inverseEncode (c.encode u) = some u) ∧
    (∀ v, (∀ u, c.encode u ≠ v) → c.inverseEncode v = none) := by
  constructor
  · intro u
    unfold LinCode.inverseEncode
    rw [if_neg (by rw [not_not]; exact h.check_encode u), h.project_encode]
  · intro v hv
    unfold LinCode.inverseEncode
    rw [if_pos]
    intro e
    obtain ⟨u, hu⟩ := (h.check_zero v).mp e
    exact hv u hu

/-- `codewords()` lists each codeword exactly once; row `i` is the encoding of the binary digits of `i` (LSB first). -/
theorem C41_codewords (c : LinCode k m n) (h : c.Lawful) :
    c.codewords.Nodup ∧ c.codewords.length = 2 ^ k ∧ (∀ v, v ∈ c.codewords ↔ ∃ u, c.encode u = v) ∧
    ∀ i < 2 ^ k, c.codewords[i]? = some (c.encode fun j => if i.testBit j then 1 else 0) := by
  refine ⟨codewords_nodup c h, by simp [LinCode.codewords], codewords_mem c, fun i hi => ?_⟩
  have : natToVec k i = fun j : Fin k => if i.testBit j then 1 else 0 := funext fun j => natToVec_apply k i j
  rw [← this]
  simp [LinCode.codewords, hi]

/-- Inputs of several blocks are processed block by block, and round-trip. -/
theorem C41_stream (c : LinCode k m n) (h : c.Lawful) (hk : 1 ≤ k) (us : List (BVec k)) :
    c.encodeStream (us.flatMap List.ofFn) = some (us.flatMap fun u => List.ofFn (c.encode u)) ∧
    c.inverseEncodeStream (us.flatMap fun u => List.ofFn (c.encode u)) = some (us.flatMap List.ofFn) := by
  have hn : 0 < n := by have := h.dim; omega
  have hvl : ∀ {a : Nat} (u : BVec a), vecOfList a (List.ofFn u) = u := by
    intro a u; funext i; simp [vecOfList]
  have hlen : ∀ {a : Nat} (ws : List (BVec a)), ∀ r ∈ ws.map List.ofFn, r.length = a := by
    intro a ws r hr; obtain ⟨u, _, rfl⟩ := List.mem_map.mp hr; simp
  constructor
  · unfold LinCode.encodeStream
    rw [List.flatMap_def, blockwise_flatten k hk _ (fun row => List.ofFn (c.encode (vecOfList k row))) _ (hlen us)
      (fun _ _ => rfl), List.map_map, List.flatMap_def]
    congr 3
    funext u
    simp [hvl]
  · have hrows : us.flatMap (fun u => List.ofFn (c.encode u)) = ((us.map c.encode).map List.ofFn).flatten := by
      rw [List.flatMap_def, List.map_map]; rfl
    unfold LinCode.inverseEncodeStream LinCode.checkStream LinCode.projectStream
    rw [hrows, blockwise_flatten n hn _ (fun row => List.ofFn (c.check (vecOfList n row))) _ (hlen _)
      (fun _ _ => rfl), blockwise_flatten n hn _ (fun row => List.ofFn (c.project (vecOfList n row))) _ (hlen _)
      (fun _ _ => rfl)]
    simp only [List.map_map]
    rw [if_neg]
    · rw [List.flatMap_def]
      congr 3
      funext u
      simp [hvl, h.project_encode]
    · rintro ⟨b, hb, hne⟩
      obtain ⟨r, hr, hb⟩ := List.mem_flatten.mp hb
      obtain ⟨u, _, rfl⟩ := List.mem_map.mp hr
      simp only [Function.comp, hvl, h.check_encode, List.mem_ofFn] at hb
      obtain ⟨i, hi⟩ := hb
      exact hne hi.symm

/-- Inputs whose length is not a multiple of the block size are rejected. -/
theorem C41_stream_rejects (c : LinCode k m n) (l : List (ZMod 2)) :
    (¬ k ∣ l.length → c.encodeStream l = none) ∧ (¬ n ∣ l.length → c.inverseEncodeStream l = none) := by
  constructor
  · intro h
    unfold LinCode.encodeStream blockwise
    split
    · rfl
    · rw [if_pos fun h' => h (Nat.dvd_of_mod_eq_zero h')]
  · intro h
    unfold LinCode.inverseEncodeStream LinCode.checkStream blockwise
    split
    · rfl
    · rename_i e
      split at e
      · simp at e
      · rw [if_pos fun h' => h (Nat.dvd_of_mod_eq_zero h')] at e
        simp at e

/-- Exactly one of the two matrices must be given. -/
theorem C41_arguments : ∀ g h, blockCodeArgs g h = true ↔ (g = true ∧ h = false) ∨ (g = false ∧ h = true) := by decide

/-- The documented example (BlockCode.py): a (6, 3) code. -/
def exG : BMat 3 6 := ![![1, 0, 0, 0, 1, 1], ![0, 1, 0, 1, 0, 1], ![0, 0, 1, 1, 1, 0]]
example : rank exG = 3 := by decide +kernel
example : (blockCodeOfGenerator exG).map LinCode.checkMatrix =
    some ![![0, 1, 1, 1, 0, 0], ![1, 0, 1, 0, 1, 0], ![1, 1, 0, 0, 0, 1]] := by decide +kernel
example : LinearIndependent (ZMod 2) exG := by
  rw [linearIndependent_iff_card_eq_finrank_span, Fintype.card_fin, Set.finrank, ← rank_spec]; decide +kernel
example : ¬ LinearIndependent (ZMod 2) (![![1, 1], ![1, 1]] : BMat 2 2) := by
  rw [linearIndependent_iff_card_eq_finrank_span, Fintype.card_fin, Set.finrank, ← rank_spec]; decide +kernel

/-! ### C42 -/

/-- Every accepted information set consists of `k` distinct positions, and every such (non-empty) list is accepted. -/
theorem C42_information_set (P : BMat k m) (info : List Nat) :
    (∃ c, systematicNew P info = some c) ↔ info ≠ [] ∧ info.length = k ∧ info.Nodup ∧ ∀ j ∈ info, j < k + m :=
  systematicNew_spec P info

/-- A systematic code satisfies the contract of a block code (orthogonal full-rank matrices, `check` vanishing exactly on
codewords, `project_word(encode(u)) == u`) and puts message symbol `t` at position `information_set[t]`. -/
theorem C42_systematic (P : BMat k m) (info : List Nat) (c : LinCode k m (k + m)) (hc : systematicNew P info = some c) :
    c.Lawful ∧ ∀ (u : BVec k) (t : Fin k) (j : Fin (k + m)), info[(t : Nat)]? = some (j : Nat) → c.encode u j = u t := by
  obtain ⟨h0, h1, h2, h3⟩ := (systematicNew_spec P info).mp ⟨c, hc⟩
  have hs := (isSplit_iff (k := k) (m := m) info).mpr ⟨h1, h2, h3⟩
  unfold systematicNew at hc
  split at hc
  · simp at hc
  · split at hc
    · simp at hc
    · have hcc := Option.some_inj.mp hc
      rw [← hcc]
      refine ⟨systematic_lawful hs P, fun u t j hj => ?_⟩
      have : j = hs.I t := by
        apply Fin.ext
        have ht : (t : Nat) < info.length := by rw [h1]; exact t.is_lt
        rw [List.getElem?_eq_getElem ht, Option.some_inj] at hj
        exact hj.symm
      rw [this, systematic_encode_I hs]

/-- `information_set="left"`: the message is the first `k` symbols, followed by the parity symbols `u P`. -/
theorem C42_left (P : BMat k m) : (systematicLeft P).Lawful ∧
    ∀ u, (∀ t : Fin k, (systematicLeft P).encode u (Fin.castAdd m t) = u t) ∧
      ∀ s : Fin m, (systematicLeft P).encode u (Fin.natAdd k s) = ∑ i, u i * P i s := by
  refine ⟨systematic_lawful isSplit_left P, fun u => ⟨fun t => ?_, fun s => ?_⟩⟩
  · have : Fin.castAdd m t = isSplit_left.I t := by
      apply Fin.ext
      simp [IsSplit.I]
    rw [this]; exact systematic_encode_I isSplit_left P u t
  · have : Fin.natAdd k s = isSplit_left.P s := by
      apply Fin.ext
      have hp : paritySet (k + m) (List.range k) = (List.range m).map (k + ·) := by
        rw [paritySet, List.range_add, List.filter_append]
        have h1 : (List.range k).filter (fun j => decide (j ∉ List.range k)) = [] := by
          rw [List.filter_eq_nil_iff]; intro a ha; simpa using ha
        have h2 : ((List.range m).map (k + ·)).filter (fun j => decide (j ∉ List.range k)) =
            (List.range m).map (k + ·) := by
          rw [List.filter_eq_self]; intro a ha
          obtain ⟨b, _, rfl⟩ := List.mem_map.mp ha
          simp
        rw [h1, h2, List.nil_append]
      simp [IsSplit.P, hp]
    rw [this]; exact systematic_encode_P isSplit_left P u s

/-- `information_set="right"`: the parity symbols come first. -/
theorem C42_right (P : BMat k m) : (systematicRight P).Lawful ∧
    ∀ u, (∀ t : Fin k, (systematicRight P).encode u ⟨m + t, by omega⟩ = u t) ∧
      ∀ s : Fin m, (systematicRight P).encode u ⟨s, by omega⟩ = ∑ i, u i * P i s := by
  refine ⟨systematic_lawful isSplit_right P, fun u => ⟨fun t => ?_, fun s => ?_⟩⟩
  · have : (⟨m + t, by omega⟩ : Fin (k + m)) = isSplit_right.I t := by
      apply Fin.ext
      simp [IsSplit.I]
    rw [this]; exact systematic_encode_I isSplit_right P u t
  · have : (⟨s, by omega⟩ : Fin (k + m)) = isSplit_right.P s := by
      apply Fin.ext
      have hp : paritySet (k + m) ((List.range k).map (m + ·)) = List.range m := by
        rw [paritySet, Nat.add_comm k m, List.range_add, List.filter_append]
        have h1 : (List.range m).filter (fun j => decide (j ∉ (List.range k).map (m + ·))) = List.range m := by
          rw [List.filter_eq_self]; intro a ha
          have := List.mem_range.mp ha
          simp only [decide_eq_true_eq, List.mem_map, not_exists, not_and]
          intro b _; omega
        have h2 : ((List.range k).map (m + ·)).filter (fun j => decide (j ∉ (List.range k).map (m + ·))) = [] := by
          rw [List.filter_eq_nil_iff]; intro a ha; simpa using ha
        rw [h1, h2, List.append_nil]
      simp [IsSplit.P, hp]
    rw [this]; exact systematic_encode_P isSplit_right P u s

example : ∃ c, systematicNew (![![0, 1, 1], ![1, 0, 1], ![1, 1, 0]] : BMat 3 3) [0, 2, 4] = some c ∧
    c.generator = ![![1, 0, 0, 1, 0, 1], ![0, 1, 1, 0, 0, 1], ![0, 1, 0, 1, 1, 0]] := ⟨_, rfl, by decide +kernel⟩

/-! ### C44 -/

/-- `coset_leaders()` of a code with positive redundancy terminates (after at most `n` rounds); entry `s` has syndrome
`int_to_bits(s, m)` and minimum weight among all words with that syndrome. -/
theorem C44_coset_leaders (c : LinCode k m n) (h : c.Lawful) (hm : 1 ≤ m) (fuel : Nat) (hf : n ≤ fuel) :
    ∃ T, c.cosetLeaders fuel = some T ∧ ∀ s < 2 ^ m, c.check (T s) = natToVec m s ∧
      ∀ v, c.check v = natToVec m s → hammingNorm (T s) ≤ hammingNorm v := by
  obtain ⟨T, h1, h2⟩ := h.cosetLeaders_spec hm fuel hf
  refine ⟨T, h1, fun s hs => ⟨?_, fun v hv => ?_⟩⟩
  · have := (h2 s hs).1
    apply vecToNat_inj
    rw [vecToNat_natToVec s hs]
    exact this
  · rw [(h2 s hs).2]
    have := LinCode.cw_le (c := c) v
    rwa [LinCode.syn, hv, vecToNat_natToVec s hs] at this

/-- `coset_leader_weight_distribution()`: entry `w` is the number of leaders of weight `w`; the cached and the uncached
computation agree. -/
theorem C44_weight_distribution (c : LinCode k m n) (h : c.Lawful) (hm : 1 ≤ m) (fuel : Nat) (hf : n ≤ fuel) :
    ∃ T D, c.cosetLeaders fuel = some T ∧ c.leaderWeightDistribution fuel = some D ∧ D.length = n + 1 ∧
      (∀ w ≤ n, D[w]? = some ((List.range (2 ^ m)).countP fun s => hammingNorm (T s) = w)) ∧
      LinCode.leaderWeightDistributionCached m n T = D := by
  obtain ⟨T, h1, h2⟩ := h.cosetLeaders_spec hm fuel hf
  have key : ∀ w, c.cosetsOfWeight w = (List.range (2 ^ m)).countP fun s => decide (hammingNorm (T s) = w) := by
    intro w
    unfold LinCode.cosetsOfWeight
    rw [List.countP_eq_length_filter, ← List.toFinset_card_of_nodup (List.nodup_range.filter _)]
    congr 1
    ext s
    simp only [Finset.mem_filter, Finset.mem_range, List.mem_toFinset, List.mem_filter, List.mem_range,
      decide_eq_true_eq]
    constructor
    · rintro ⟨a, b⟩; exact ⟨a, by rw [(h2 s a).2, b]⟩
    · rintro ⟨a, b⟩; exact ⟨a, by rw [← (h2 s a).2, b]⟩
  refine ⟨T, _, h1, h.leaderWeightDistribution_spec hm fuel hf, by simp, fun w hw => ?_, ?_⟩
  · rw [List.getElem?_map, List.getElem?_range (by omega), Option.map_some, key]
  · unfold LinCode.leaderWeightDistributionCached LinCode.bincount
    apply List.map_congr_left
    intro w _
    rw [key, List.count, List.countP_map]
    apply List.countP_congr
    intro s _
    simp [vsum_eq]

/-- Finding: with redundancy 0 the loop never returns. -/
theorem C44_redundancy_zero_hangs (c : LinCode k 0 n) (fuel : Nat) : c.cosetLeaders fuel = none :=
  cosetLeaders_zero c fuel

/-- The documented (6, 3) code: the leaders found (BlockCode.py:286-303). -/
example : (blockCodeOfGenerator exG).bind (fun c => (c.cosetLeaders 6).map fun T => (List.range 8).map T) =
    some [![0, 0, 0, 0, 0, 0], ![0, 0, 0, 1, 0, 0], ![0, 0, 0, 0, 1, 0], ![0, 0, 1, 0, 0, 0], ![0, 0, 0, 0, 0, 1],
      ![0, 1, 0, 0, 0, 0], ![1, 0, 0, 0, 0, 0], ![1, 0, 0, 1, 0, 0]] := by decide +kernel
example : (blockCodeOfGenerator exG).bind (fun c => c.leaderWeightDistribution 6) = some [1, 6, 1, 0, 0, 0, 0] := by
  decide +kernel

/-! ### C45 -/

/-- Syndrome-table decoding is minimum-distance decoding: the decoded codeword is at minimum Hamming distance from the
received word among all codewords. -/
theorem C45_minimum_distance (c : LinCode k m n) (h : c.Lawful) (hm : 1 ≤ m) (fuel : Nat) (hf : n ≤ fuel) :
    ∃ T, c.cosetLeaders fuel = some T ∧ ∀ r u', 
      hammingDist r (c.encode (syndromeTableDecode c T r)) ≤ hammingDist r (c.encode u') := by
  obtain ⟨T, h1, h2⟩ := C44_coset_leaders c h hm fuel hf
  refine ⟨T, h1, fun r u' => ?_⟩
  obtain ⟨h3, h4⟩ := h2 _ (vecToNat_lt (c.check r))
  rw [natToVec_vecToNat] at h3 h4
  have h5 : c.check (r + T (vecToNat (c.check r))) = 0 := by rw [h.check_add, h3, bvec_add_self]
  obtain ⟨u, hu⟩ := (h.check_zero _).mp h5
  have h6 : c.encode (syndromeTableDecode c T r) = r + T (vecToNat (c.check r)) := by
    rw [syndromeTableDecode, ← hu, h.project_encode]
  rw [h6, hammingDist_eq_norm_add, ← add_assoc, bvec_add_self, zero_add, hammingDist_eq_norm_add]
  apply h4
  rw [h.check_add, h.check_encode, add_zero]

/-- It corrects every error pattern of weight at most `(d - 1) // 2`. -/
theorem C45_corrects (c : LinCode k m n) (h : c.Lawful) (hm : 1 ≤ m) (fuel : Nat) (hf : n ≤ fuel) (d : Nat)
    (hd : c.minimumDistance = some d) :
    ∃ T, c.cosetLeaders fuel = some T ∧ ∀ u e, hammingNorm e ≤ (d - 1) / 2 →
      syndromeTableDecode c T (c.encode u + e) = u := by
  obtain ⟨T, h1, h2⟩ := C45_minimum_distance c h hm fuel hf
  exact ⟨T, h1, fun u e he => unique_decoding c h d hd u _ e he (h2 _ u)⟩

example : (blockCodeOfGenerator exG).bind (fun c => c.minimumDistance) = some 3 := by decide +kernel

/-! ### C47 -/

/-- Hard exhaustive search is minimum-distance decoding. -/
theorem C47_hard (c : LinCode k m n) (h : c.Lawful) (r : BVec n) : ∃ u, exhaustiveHard c r = some u ∧
    ∀ u', hammingDist r (c.encode u) ≤ hammingDist r (c.encode u') := by
  obtain ⟨v0, vs, hc⟩ := codewords_cons c
  unfold exhaustiveHard
  rw [hc]
  set f : BVec n → Nat := fun v => ∑ j, if r j ≠ v j then 1 else 0 with hf
  obtain ⟨h1, h2⟩ := argminOn_spec f v0 vs
  rw [← hc] at h1 h2
  obtain ⟨u, hu⟩ := (codewords_mem c _).mp h1
  refine ⟨u, by simp only; rw [← hu, h.project_encode], fun u' => ?_⟩
  have hfd : ∀ v, f v = hammingDist r v := by
    intro v; simp only [hf, hammingDist, Finset.card_filter]
  rw [← hfd, ← hfd, hu]
  exact h2 _ ((codewords_mem c _).mpr ⟨u', rfl⟩)

/-- Hard exhaustive search corrects every error pattern of weight at most `(d - 1) // 2`. -/
theorem C47_hard_corrects (c : LinCode k m n) (h : c.Lawful) (d : Nat) (hd : c.minimumDistance = some d) (u : BVec k)
    (e : BVec n) (he : hammingNorm e ≤ (d - 1) / 2) : exhaustiveHard c (c.encode u + e) = some u := by
  obtain ⟨u', h1, h2⟩ := C47_hard c h (c.encode u + e)
  rw [h1, unique_decoding c h d hd u u' e he (h2 u)]

/-- Soft exhaustive search maximises the correlation of the received vector with the bipolar codeword, equivalently
minimises the Euclidean distance to it (over any ordered commutative ring, e.g. the reals). -/
theorem C47_soft {K : Type} [CommRing K] [LinearOrder K] [IsStrictOrderedRing K] (c : LinCode k m n) (h : c.Lawful)
    (r : Fin n → K) : ∃ u, exhaustiveSoft c r = some u ∧ ∀ u',
      (∑ j, r j * (-1) ^ (c.encode u' j).val ≤ ∑ j, r j * (-1) ^ (c.encode u j).val) ∧
      (∑ j, (r j - (-1) ^ (c.encode u j).val) ^ 2 ≤ ∑ j, (r j - (-1) ^ (c.encode u' j).val) ^ 2) := by
  obtain ⟨v0, vs, hc⟩ := codewords_cons c
  unfold exhaustiveSoft
  rw [hc]
  set f : BVec n → K := fun v => ∑ j, -r j * (-1) ^ (v j).val with hf
  obtain ⟨h1, h2⟩ := argminOn_spec f v0 vs
  rw [← hc] at h1 h2
  obtain ⟨u, hu⟩ := (codewords_mem c _).mp h1
  refine ⟨u, by simp only; rw [← hu, h.project_encode], fun u' => ?_⟩
  have hle := h2 _ ((codewords_mem c _).mpr ⟨u', rfl⟩)
  rw [← hu] at hle
  simp only [hf, neg_mul, Finset.sum_neg_distrib, neg_le_neg_iff] at hle
  refine ⟨hle, ?_⟩
  have hsq : ∀ v : BVec n, ∑ j, (r j - (-1) ^ (v j).val) ^ 2 =
      ∑ j, (r j ^ 2 + 1) - 2 * ∑ j, r j * (-1) ^ (v j).val := by
    intro v
    rw [Finset.mul_sum, ← Finset.sum_sub_distrib]
    apply Finset.sum_congr rfl
    intro j _
    have : ((-1 : K) ^ (v j).val) ^ 2 = 1 := by rw [← pow_mul, mul_comm, pow_mul]; simp
    rw [sub_sq, this]; ring
  rw [hsq, hsq]
  have := mul_le_mul_of_nonneg_left hle (by norm_num : (0 : K) ≤ 2)
  linarith

example : (blockCodeOfGenerator exG).bind (fun c => exhaustiveHard c ![1, 0, 0, 0, 1, 0]) = some ![1, 0, 0] := by
  decide +kernel

/-! ### C48 -/

/-- `minimum_distance()` is the minimum Hamming distance between distinct codewords. -/
theorem C48_minimum_distance (c : LinCode k m n) (h : c.Lawful) (hk : 1 ≤ k) : ∃ d, c.minimumDistance = some d ∧
    (∃ u u', u ≠ u' ∧ hammingDist (c.encode u) (c.encode u') = d) ∧
    ∀ u u', u ≠ u' → d ≤ hammingDist (c.encode u) (c.encode u') := by
  obtain ⟨d, hd⟩ := minimumDistance_exists c h hk
  obtain ⟨⟨u, hu, h1⟩, h2⟩ := (minimumDistance_spec c h d).mp hd
  refine ⟨d, hd, ⟨u, 0, hu, ?_⟩, fun v v' hne => ?_⟩
  · rw [h.encode_zero, hammingDist_zero_right, h1]
  · rw [hammingDist_eq_norm_add, ← h.encode_add]
    apply h2
    intro e0
    apply hne
    have := congrArg (· + v') e0
    simpa only [bvec_add_add, zero_add] using this

/-- `packing_radius()` is the largest radius for which the balls around the codewords are disjoint. -/
theorem C48_packing_radius (c : LinCode k m n) (h : c.Lawful) (hk : 1 ≤ k) : ∃ t, c.packingRadius = some t ∧
    (∀ r u u', hammingDist r (c.encode u) ≤ t → hammingDist r (c.encode u') ≤ t → u = u') ∧
    ∃ r u u', u ≠ u' ∧ hammingDist r (c.encode u) ≤ t + 1 ∧ hammingDist r (c.encode u') ≤ t + 1 := by
  obtain ⟨d, hd, ⟨u, u', hne, hdist⟩, hmin⟩ := C48_minimum_distance c h hk
  have hd0 : 0 < d := by
    rw [← hdist, hammingDist_pos]
    intro e; exact hne (h.encode_injective e)
  refine ⟨(d - 1) / 2, by rw [LinCode.packingRadius, hd]; rfl, fun r v v' h1 h2 => ?_, ?_⟩
  · by_contra hc
    have h3 := hmin v v' hc
    have h4 := hammingDist_triangle_left (c.encode v) (c.encode v') r
    omega
  · -- move from `encode u` towards `encode u'` along `t + 1` differing positions
    obtain ⟨S, hS1, hS2⟩ := Finset.exists_subset_card_eq
      (s := Finset.univ.filter fun i => c.encode u i ≠ c.encode u' i) (n := (d - 1) / 2 + 1) (by
        change _ ≤ hammingDist (c.encode u) (c.encode u')
        omega)
    have hdc : (Finset.univ.filter fun i => c.encode u i ≠ c.encode u' i).card = d := hdist
    refine ⟨fun i => if i ∈ S then c.encode u' i else c.encode u i, u, u', hne, ?_, ?_⟩
    · rw [← hS2, hammingDist]
      apply Finset.card_le_card
      intro i hi
      by_contra hc
      simp [hc] at hi
    · have : (Finset.univ.filter fun i => (if i ∈ S then c.encode u' i else c.encode u i) ≠ c.encode u' i) ⊆
          (Finset.univ.filter fun i => c.encode u i ≠ c.encode u' i) \ S := by
        intro i hi
        rw [Finset.mem_filter] at hi
        rw [Finset.mem_sdiff, Finset.mem_filter]
        by_cases hiS : i ∈ S
        · simp [hiS] at hi
        · simp only [hiS, if_false] at hi
          exact ⟨hi, hiS⟩
      have h3 := Finset.card_le_card this
      rw [Finset.card_sdiff_of_subset hS1, hdc, hS2] at h3
      rw [hammingDist]
      omega

/-- The distance of a word to the code is the weight of the leader of its coset. -/
theorem dist_to_code (c : LinCode k m n) (h : c.Lawful) (r : BVec n) :
    (∃ u, hammingDist r (c.encode u) = c.cw (c.syn r)) ∧ ∀ u, c.cw (c.syn r) ≤ hammingDist r (c.encode u) := by
  have key : ∀ u, c.syn (r + c.encode u) = c.syn r := by
    intro u; rw [LinCode.syn, h.check_add, h.check_encode, add_zero]; rfl
  constructor
  · obtain ⟨v, h1, h2⟩ := h.cw_attained _ (LinCode.syn_lt (c := c) r)
    have h5 : c.check (r + v) = 0 := by
      rw [h.check_add, vecToNat_inj (h1 : vecToNat (c.check v) = vecToNat (c.check r)), bvec_add_self]
    obtain ⟨u, hu⟩ := (h.check_zero _).mp h5
    exact ⟨u, by rw [hu, hammingDist_eq_norm_add, ← add_assoc, bvec_add_self, zero_add, h2]⟩
  · intro u
    rw [hammingDist_eq_norm_add, ← key u]
    exact LinCode.cw_le _

/-- `covering_radius()` is the largest distance of a word from the code. -/
theorem C48_covering_radius (c : LinCode k m n) (h : c.Lawful) (hm : 1 ≤ m) (fuel : Nat) (hf : n ≤ fuel) :
    ∃ ρ, c.coveringRadius fuel = some ρ ∧ (∀ r, ∃ u, hammingDist r (c.encode u) ≤ ρ) ∧
      ∃ r, ∀ u, ρ ≤ hammingDist r (c.encode u) := by
  have hD := h.leaderWeightDistribution_spec hm fuel hf
  unfold LinCode.coveringRadius
  rw [hD]
  simp only
  set l := LinCode.flatnonzero ((List.range (n + 1)).map c.cosetsOfWeight) with hl
  have hmem : ∀ w, w ∈ l ↔ w < n + 1 ∧ c.cosetsOfWeight w ≠ 0 := by
    intro w
    simp only [hl, LinCode.flatnonzero, List.length_map, List.length_range, List.mem_filter, List.mem_range,
      decide_eq_true_eq]
    constructor
    · rintro ⟨a, b⟩
      rw [List.getD_eq_getElem _ _ (by simpa using a)] at b
      exact ⟨a, by simpa using b⟩
    · rintro ⟨a, b⟩
      rw [List.getD_eq_getElem _ _ (by simpa using a)]
      exact ⟨a, by simpa using b⟩
  have hcos : ∀ w, c.cosetsOfWeight w ≠ 0 ↔ ∃ s < 2 ^ m, c.cw s = w := by
    intro w
    rw [LinCode.cosetsOfWeight, ne_eq, Finset.card_eq_zero, Finset.filter_eq_empty_iff]
    push Not
    constructor
    · rintro ⟨s, a, b⟩; exact ⟨s, Finset.mem_range.mp a, b⟩
    · rintro ⟨s, a, b⟩; exact ⟨s, Finset.mem_range.mpr a, b⟩
  have hne : l ≠ [] := by
    intro e
    have : 0 ∈ l := (hmem 0).mpr ⟨by omega, (hcos 0).mpr ⟨0, Nat.two_pow_pos m, h.cw_zero⟩⟩
    rw [e] at this
    simp at this
  have hsorted : l.Pairwise (· < ·) := List.pairwise_lt_range.filter _
  refine ⟨l.getLast hne, List.getLast?_eq_getLast_of_ne_nil hne, fun r => ?_, ?_⟩
  · obtain ⟨u, hu⟩ := (dist_to_code c h r).1
    refine ⟨u, ?_⟩
    rw [hu]
    have hw : c.cw (c.syn r) ∈ l := (hmem _).mpr
      ⟨Nat.lt_succ_of_le (h.cw_le_n _ (LinCode.syn_lt (c := c) r)), (hcos _).mpr ⟨_, LinCode.syn_lt (c := c) r, rfl⟩⟩
    rw [← List.dropLast_append_getLast hne, List.mem_append, List.mem_singleton] at hw
    rcases hw with hw | hw
    · have hs := hsorted
      rw [← List.dropLast_append_getLast hne, List.pairwise_append] at hs
      exact (hs.2.2 _ hw _ (by simp)).le
    · exact hw.le
  · obtain ⟨s, hs1, hs2⟩ := (hcos _).mp ((hmem _).mp (List.getLast_mem hne)).2
    obtain ⟨v, hv⟩ := h.syn_surj s hs1
    refine ⟨v, fun u => ?_⟩
    rw [← hs2, ← hv]
    exact (dist_to_code c h v).2 u

example : (blockCodeOfGenerator exG).bind (fun c => c.packingRadius) = some 1 ∧
    (blockCodeOfGenerator exG).bind (fun c => c.coveringRadius 6) = some 2 := by decide +kernel

/-! ### C58 -/

/-- The Slepian array: entry `(i, j)` is leader `i` plus codeword `j`; row 0 lists the codewords, column 0 the
leaders; every word occurs exactly once; each row is a coset; column 0 has minimum weight in its row. -/
theorem C58_slepian (c : LinCode k m n) (h : c.Lawful) (hm : 1 ≤ m) (fuel : Nat) (hf : n ≤ fuel) :
    ∃ T, c.cosetLeaders fuel = some T ∧
      (∀ v : BVec n, ∃! ij : Nat × Nat, ij.1 < 2 ^ m ∧ ij.2 < 2 ^ k ∧ slepianEntry c T ij.1 ij.2 = v) ∧
      (∀ i < 2 ^ m, ∀ v, v ∈ slepianRow c T i ↔ c.check v = natToVec m i) ∧
      slepianRow c T 0 = c.codewords ∧
      (∀ i < 2 ^ m, ∀ v ∈ slepianRow c T i, hammingNorm (slepianEntry c T i 0) ≤ hammingNorm v) ∧
      (∀ i < 2 ^ m, ∀ j < 2 ^ k, (slepianRow c T i)[j]? = some (slepianEntry c T i j) ∧
        (slepianCol c T j)[i]? = some (slepianEntry c T i j) ∧
        slepianEntry c T i j = slepianEntry c T i 0 + slepianEntry c T 0 j) := by
  obtain ⟨T, h1, h2⟩ := C44_coset_leaders c h hm fuel hf
  have hT0 : T 0 = 0 := by
    have := (h2 0 (Nat.two_pow_pos m)).2 0 (by
      rw [← h.encode_zero, h.check_encode]
      funext i; rw [natToVec_apply]; simp)
    rw [hammingNorm_zero, Nat.le_zero, hammingNorm_eq_zero] at this
    exact this
  have hk0 : c.encode (natToVec k 0) = 0 := by
    have : natToVec k 0 = 0 := by funext i; rw [natToVec_apply]; simp
    rw [this, h.encode_zero]
  have hchk : ∀ i < 2 ^ m, ∀ j, c.check (slepianEntry c T i j) = natToVec m i := by
    intro i hi j
    rw [slepianEntry, h.check_add, h.check_encode, add_zero, (h2 i hi).1]
  have hrow : ∀ i < 2 ^ m, ∀ v, c.check v = natToVec m i → ∃ j < 2 ^ k, slepianEntry c T i j = v := by
    intro i hi v hv
    obtain ⟨u, hu⟩ := (h.check_zero (v + T i)).mp (by rw [h.check_add, hv, (h2 i hi).1, bvec_add_self])
    obtain ⟨j, hj, rfl⟩ := natToVec_surj u
    exact ⟨j, hj, by rw [slepianEntry, hu, add_comm, bvec_add_add]⟩
  refine ⟨T, h1, fun v => ?_, fun i hi v => ?_, ?_, fun i hi v hv => ?_, fun i hi j hj => ?_⟩
  · obtain ⟨j, hj, e⟩ := hrow _ (vecToNat_lt (c.check v)) v (natToVec_vecToNat _).symm
    refine ⟨(vecToNat (c.check v), j), ⟨vecToNat_lt _, hj, e⟩, ?_⟩
    rintro ⟨i', j'⟩ ⟨a1, a2, a3⟩
    simp only at a1 a2 a3
    have hi' : i' = vecToNat (c.check v) := by
      rw [← a3, hchk i' a1 j', vecToNat_natToVec i' a1]
    subst hi'
    have : j' = j := by
      have e2 : slepianEntry c T (vecToNat (c.check v)) j' = slepianEntry c T (vecToNat (c.check v)) j := by
        rw [a3, e]
      rw [slepianEntry, slepianEntry, add_right_inj] at e2
      have := congrArg vecToNat (h.encode_injective e2)
      rwa [vecToNat_natToVec _ a2, vecToNat_natToVec _ hj] at this
    rw [this]
  · constructor
    · intro hv
      obtain ⟨j, _, rfl⟩ := List.mem_map.mp hv
      exact hchk i hi j
    · intro hv
      obtain ⟨j, hj, rfl⟩ := hrow i hi v hv
      exact List.mem_map.mpr ⟨j, List.mem_range.mpr hj, rfl⟩
  · unfold slepianRow LinCode.codewords
    apply List.map_congr_left
    intro j _
    rw [slepianEntry, hT0, zero_add]
  · obtain ⟨j, _, rfl⟩ := List.mem_map.mp hv
    rw [slepianEntry, hk0, add_zero]
    exact (h2 i hi).2 _ (hchk i hi j)
  · refine ⟨by simp [slepianRow, hj], by simp [slepianCol, hi], ?_⟩
    rw [slepianEntry, slepianEntry, slepianEntry, hk0, hT0, add_zero, zero_add]

example : (blockCodeOfGenerator exG).bind (fun c => (c.cosetLeaders 6).map fun T => slepianEntry c T 7 5) =
    some ![0, 0, 1, 0, 0, 1] := by decide +kernel

/-! The documented (5, 2) code (BlockCode.py:22-51, 243-342; SystematicBlockCode.py:22-48). -/
def docG : BMat 2 5 := ![![1, 0, 0, 1, 1], ![0, 1, 1, 1, 0]]
def docH : BMat 3 5 := ![![0, 1, 1, 0, 0], ![1, 1, 0, 1, 0], ![1, 0, 0, 0, 1]]
example : (blockCodeOfGenerator docG).map LinCode.checkMatrix = some docH := by decide +kernel
example : (blockCodeOfCheck docH).map LinCode.generator = some docG := by decide +kernel
example : (blockCodeOfGenerator docG).map LinCode.codewords = some
    [![0, 0, 0, 0, 0], ![1, 0, 0, 1, 1], ![0, 1, 1, 1, 0], ![1, 1, 1, 0, 1]] := by decide +kernel
example : (blockCodeOfGenerator docG).map LinCode.weightDistribution = some [1, 0, 0, 2, 1, 0] := by decide +kernel
example : (blockCodeOfGenerator docG).bind (fun c => (c.cosetLeaders 5).map fun T => (List.range 8).map T) = some
    [![0, 0, 0, 0, 0], ![0, 0, 1, 0, 0], ![0, 0, 0, 1, 0], ![0, 1, 0, 0, 0], ![0, 0, 0, 0, 1], ![1, 1, 0, 0, 0],
     ![1, 0, 0, 0, 0], ![1, 0, 1, 0, 0]] := by decide +kernel
example : (blockCodeOfGenerator docG).bind (fun c => c.leaderWeightDistribution 5) = some [1, 5, 2, 0, 0, 0] := by
  decide +kernel
example : (systematicLeft (![![0, 1, 1], ![1, 1, 0]] : BMat 2 3)).generator = docG ∧
    (systematicLeft (![![0, 1, 1], ![1, 1, 0]] : BMat 2 3)).checkMatrix = docH ∧
    (systematicRight (![![0, 1, 1], ![1, 1, 0]] : BMat 2 3)).generator = ![![0, 1, 1, 1, 0], ![1, 1, 0, 0, 1]] ∧
    (systematicRight (![![0, 1, 1], ![1, 1, 0]] : BMat 2 3)).checkMatrix =
      ![![1, 0, 0, 0, 1], ![0, 1, 0, 1, 1], ![0, 0, 1, 1, 0]] := by decide +kernel

end Komm
