import Verif.Lemmas.Labelings

/-! C37–C40: labelings.  Specification vocabulary (`IsLabelTable`, `wordDist`) in `Spec/Labelings.lean`. -/
namespace Komm

/-! ### C37 natural labelings -/

/-- Row `i` of the matrix is the label of index `i`: the `m` binary digits of `i`, most significant first; and the
rows are exactly the binary words of length `m`, each once. -/
theorem C37_natural_matrix (m : Nat) (hm : 1 ≤ m) : ∃ L, naturalLab m = some L ∧ L.numBits = m ∧
    L.cardinality = 2 ^ m ∧ IsLabelTable m L.matrix ∧
    ∀ i < 2 ^ m, L.matrix[i]? = some (naturalIndicesToBits m [i]) ∧
      ∀ j < m, (naturalIndicesToBits m [i])[j]? = some (i / 2 ^ (m - 1 - j) % 2) := by
  refine ⟨_, if_neg (by omega), rfl, rfl, naturalTable m, fun i hi => ⟨?_, fun j hj => ?_⟩⟩
  · simp [naturalIndicesToBits, Nat.one_shiftLeft, hi]
  · simp [naturalIndicesToBits, intToBits, hj, Nat.shiftRight_eq_div_pow]

theorem C37_natural_rejects_zero : naturalLab 0 = none := rfl

/-- `bits_to_indices(indices_to_bits(l)) == l` for every non-empty list of indices in range. -/
theorem C37_natural_bits_of_indices (m : Nat) (hm : 1 ≤ m) (l : List Nat) (hne : l ≠ [])
    (hl : ∀ i ∈ l, i < 2 ^ m) : naturalBitsToIndices m (naturalIndicesToBits m l) = some l := by
  have hrow : ∀ r ∈ l.map (fun i => intToBits .msbFirst i m), r.length = m := by
    intro r hr; obtain ⟨i, _, rfl⟩ := List.mem_map.mp hr; exact intToBits_length _ _ _
  unfold naturalBitsToIndices naturalIndicesToBits
  rw [List.flatMap_def, if_neg (by rw [not_not, flatten_length_mod m _ hrow, Nat.mul_mod_right]), if_neg,
    chunks_flatten m hm _ hrow, List.map_map, Option.some_inj]
  · conv_rhs => rw [← List.map_id l]
    apply List.map_congr_left
    intro i hi
    simp only [Function.comp, id, bitsToInt_intToBits]
    exact Nat.mod_eq_of_lt (hl i hi)
  · intro h
    have h1 := congrArg List.length h
    rw [flatten_length_mod m _ hrow, List.length_map, List.length_nil] at h1
    rcases Nat.mul_eq_zero.mp h1 with h1 | h1
    · omega
    · exact hne (List.length_eq_zero_iff.mp h1)

/-- `indices_to_bits(bits_to_indices(b)) == b` for every non-empty 0/1 list whose length is a multiple of `m`. -/
theorem C37_natural_indices_of_bits (m : Nat) (hm : 1 ≤ m) (bits : List Nat) (hne : bits ≠ [])
    (hlen : m ∣ bits.length) (hb : ∀ b ∈ bits, b = 0 ∨ b = 1) :
    ∃ l, naturalBitsToIndices m bits = some l ∧ (∀ i ∈ l, i < 2 ^ m) ∧ m * l.length = bits.length ∧
      naturalIndicesToBits m l = bits := by
  have hmod := Nat.mod_eq_zero_of_dvd hlen
  have hrl := chunks_row_length m hm bits hmod
  refine ⟨(chunks m bits).map (bitsToInt .msbFirst), ?_, ?_, ?_, ?_⟩
  · unfold naturalBitsToIndices
    rw [if_neg (by simpa using hmod), if_neg hne]
  · intro i hi
    obtain ⟨r, hr, rfl⟩ := List.mem_map.mp hi
    have := bitsToInt_lt .msbFirst r
    rwa [hrl r hr] at this
  · rw [List.length_map, ← flatten_length_mod m _ hrl, flatten_chunks m hm bits hmod]
  · unfold naturalIndicesToBits
    rw [List.flatMap_def, List.map_map]
    conv_rhs => rw [← flatten_chunks m hm bits hmod]
    congr 1
    conv_rhs => rw [← List.map_id (chunks m bits)]
    apply List.map_congr_left
    intro r hr
    simp only [Function.comp, id]
    have := intToBits_bitsToInt .msbFirst r fun b h => by
      have := hb b (chunks_row_mem m bits r hr b h); omega
    rwa [hrl r hr] at this

/-- Lengths that are not multiples of `m` are rejected. -/
theorem C37_natural_rejects (m : Nat) (bits : List Nat) (h : ¬ m ∣ bits.length) :
    naturalBitsToIndices m bits = none := by
  unfold naturalBitsToIndices
  rw [if_pos fun h' => h (Nat.dvd_of_mod_eq_zero h')]

/-- Finding: the empty index list encodes to the empty bit list, which `bits_to_indices` rejects. -/
theorem C37_empty_is_rejected (m : Nat) :
    naturalBitsToIndices m (naturalIndicesToBits m []) = none := by
  simp [naturalBitsToIndices, naturalIndicesToBits]

example : naturalIndicesToBits 3 [2, 0] = [0, 1, 0, 0, 0, 0] ∧
    naturalBitsToIndices 3 [0, 1, 0, 0, 0, 0] = some [2, 0] := by decide +kernel
example : ([2, 0] : List Nat) ≠ [] ∧ ∀ i ∈ [2, 0], i < 2 ^ 3 := by decide
example : ¬ 3 ∣ [0, 1, 0, 0].length := by decide

/-! ### C38 reflected (Gray) labelings -/

/-- Row `i` of the matrix is the label of index `i`, and the rows are exactly the binary words of length `m`, each
once. -/
theorem C38_reflected_matrix (m : Nat) (hm : 1 ≤ m) : ∃ L, reflectedLab m = some L ∧ L.numBits = m ∧
    L.cardinality = 2 ^ m ∧ IsLabelTable m L.matrix ∧
    ∀ i < 2 ^ m, L.matrix[i]? = some (reflectedIndicesToBits m [i]) := by
  refine ⟨_, if_neg (by omega), rfl, rfl, reflectedTable m, fun i hi => ?_⟩
  simp [reflectedIndicesToBits, Nat.one_shiftLeft, hi]

/-- The labels of `i` and `i + 1` differ in exactly one bit. -/
theorem C38_gray_adjacent (m i : Nat) (h : i + 1 < 2 ^ m) :
    wordDist (reflectedIndicesToBits m [i]) (reflectedIndicesToBits m [i + 1]) = 1 := by
  obtain ⟨t, h1, h2⟩ := gray_succ_xor i
  simp only [reflectedIndicesToBits, List.flatMap_cons, List.flatMap_nil, List.append_nil]
  exact wordDist_msb _ _ t m h1 ((Nat.pow_lt_pow_iff_right (by omega)).mp (lt_of_le_of_lt h2 h))

/-- The labels of the last index and of `0` differ in exactly one bit. -/
theorem C38_gray_cyclic (m : Nat) (hm : 1 ≤ m) :
    wordDist (reflectedIndicesToBits m [2 ^ m - 1]) (reflectedIndicesToBits m [0]) = 1 := by
  obtain ⟨n, rfl⟩ : ∃ n, m = n + 1 := ⟨m - 1, by omega⟩
  simp only [reflectedIndicesToBits, List.flatMap_cons, List.flatMap_nil, List.append_nil]
  apply wordDist_msb _ _ n (n + 1) _ (by omega)
  apply Nat.eq_of_testBit_eq
  intro j
  rw [Nat.testBit_xor, Nat.testBit_xor, Nat.testBit_shiftRight, Nat.testBit_two_pow_sub_one,
    Nat.testBit_two_pow_sub_one, Nat.testBit_two_pow]
  rcases Nat.lt_trichotomy j n with h | h | h
  · simp [show j < n + 1 by omega, show 1 + j < n + 1 by omega, show n ≠ j by omega]
  · subst h; simp; omega
  · simp [show ¬ j < n + 1 by omega, show ¬ 1 + j < n + 1 by omega, show n ≠ j by omega]

/-- `bits_to_indices(indices_to_bits(l)) == l`. -/
theorem C38_reflected_bits_of_indices (m : Nat) (hm : 1 ≤ m) (l : List Nat) (hne : l ≠ [])
    (hl : ∀ i ∈ l, i < 2 ^ m) : reflectedBitsToIndices m (reflectedIndicesToBits m l) = some l := by
  have hrow : ∀ r ∈ l.map (fun i => intToBits .msbFirst (i ^^^ (i >>> 1)) m), r.length = m := by
    intro r hr; obtain ⟨i, _, rfl⟩ := List.mem_map.mp hr; exact intToBits_length _ _ _
  unfold reflectedBitsToIndices reflectedIndicesToBits
  rw [List.flatMap_def, if_neg (by rw [not_not, flatten_length_mod m _ hrow, Nat.mul_mod_right]), if_neg,
    chunks_flatten m hm _ hrow, List.map_map, Option.some_inj]
  · conv_rhs => rw [← List.map_id l]
    apply List.map_congr_left
    intro i hi
    simp only [Function.comp, id, bitsToInt_intToBits]
    rw [Nat.mod_eq_of_lt (gray_lt m i (hl i hi)), grayInverse_gray, shiftRight_of_lt _ _ (hl i hi), Nat.xor_zero]
  · intro h
    have h1 := congrArg List.length h
    rw [flatten_length_mod m _ hrow, List.length_map, List.length_nil] at h1
    rcases Nat.mul_eq_zero.mp h1 with h1 | h1
    · omega
    · exact hne (List.length_eq_zero_iff.mp h1)

/-- `indices_to_bits(bits_to_indices(b)) == b`. -/
theorem C38_reflected_indices_of_bits (m : Nat) (hm : 1 ≤ m) (bits : List Nat) (hne : bits ≠ [])
    (hlen : m ∣ bits.length) (hb : ∀ b ∈ bits, b = 0 ∨ b = 1) :
    ∃ l, reflectedBitsToIndices m bits = some l ∧ (∀ i ∈ l, i < 2 ^ m) ∧ m * l.length = bits.length ∧
      reflectedIndicesToBits m l = bits := by
  have hmod := Nat.mod_eq_zero_of_dvd hlen
  have hrl := chunks_row_length m hm bits hmod
  have hlt : ∀ r ∈ chunks m bits, bitsToInt .msbFirst r < 2 ^ m := by
    intro r hr
    have := bitsToInt_lt .msbFirst r
    rwa [hrl r hr] at this
  refine ⟨(chunks m bits).map fun row => grayInverse m (bitsToInt .msbFirst row), ?_, ?_, ?_, ?_⟩
  · unfold reflectedBitsToIndices
    rw [if_neg (by simpa using hmod), if_neg hne]
  · intro i hi
    obtain ⟨r, hr, rfl⟩ := List.mem_map.mp hi
    exact grayInverse_lt _ _ (hlt r hr)
  · rw [List.length_map, ← flatten_length_mod m _ hrl, flatten_chunks m hm bits hmod]
  · unfold reflectedIndicesToBits
    rw [List.flatMap_def, List.map_map]
    conv_rhs => rw [← flatten_chunks m hm bits hmod]
    congr 1
    conv_rhs => rw [← List.map_id (chunks m bits)]
    apply List.map_congr_left
    intro r hr
    simp only [Function.comp, id]
    rw [gray_grayInverse, shiftRight_of_lt _ _ (hlt r hr), Nat.xor_zero]
    have := intToBits_bitsToInt .msbFirst r fun b h => by
      have := hb b (chunks_row_mem m bits r hr b h); omega
    rwa [hrl r hr] at this

/-- Lengths that are not multiples of `m` are rejected. -/
theorem C38_reflected_rejects (m : Nat) (bits : List Nat) (h : ¬ m ∣ bits.length) :
    reflectedBitsToIndices m bits = none := by
  unfold reflectedBitsToIndices
  rw [if_pos fun h' => h (Nat.dvd_of_mod_eq_zero h')]

example : (reflectedLab 2).map Lab.matrix = some [[0, 0], [0, 1], [1, 1], [1, 0]] := by decide +kernel
example : 4 + 1 < 2 ^ 3 ∧ reflectedIndicesToBits 3 [4] = [1, 1, 0] ∧ reflectedIndicesToBits 3 [5] = [1, 1, 1] := by
  decide +kernel
example : reflectedBitsToIndices 2 [1, 0, 0, 1] = some [3, 1] := by decide +kernel

/-! ### C40 table labelings (base class) -/

/-- The constructor accepts exactly the `2^m × m` arrays whose rows are all the binary words of length `m`. -/
theorem C40_constructor (rows : List (List Int)) (m : Nat) (hshape : ∀ r ∈ rows, r.length = m) :
    (∃ L, labelingNew rows m = some L) ↔
      (∀ r ∈ rows, ∀ b ∈ r, b = 0 ∨ b = 1) ∧ IsLabelTable m (rows.map fun r => r.map Int.toNat) := by
  have hinj : (∀ r ∈ rows, ∀ b ∈ r, b = 0 ∨ b = 1) → rows.Nodup →
      (rows.map fun r => r.map Int.toNat).Nodup := by
    intro hb hnd
    apply List.Nodup.map_on _ hnd
    intro x hx y hy hxy
    apply List.ext_getElem
    · simpa using congrArg List.length hxy
    · intro i h1 h2
      have : (x.map Int.toNat)[i]? = (y.map Int.toNat)[i]? := by rw [hxy]
      simp only [List.getElem?_map, List.getElem?_eq_getElem h1, List.getElem?_eq_getElem h2, Option.map_some,
        Option.some_inj] at this
      have hx' := hb x hx _ (List.getElem_mem h1)
      have hy' := hb y hy _ (List.getElem_mem h2)
      omega
  have hrows : (∀ r ∈ rows, ∀ b ∈ r, b = 0 ∨ b = 1) →
      ∀ w ∈ rows.map (fun r => r.map Int.toNat), w.length = m ∧ ∀ b ∈ w, b = 0 ∨ b = 1 := by
    intro hb w hw
    obtain ⟨r, hr, rfl⟩ := List.mem_map.mp hw
    refine ⟨by simpa using hshape r hr, fun b h => ?_⟩
    obtain ⟨c, hc, rfl⟩ := List.mem_map.mp h
    have := hb r hr c hc
    omega
  unfold labelingNew
  constructor
  · rintro ⟨L, h⟩
    split at h
    · simp at h
    · rename_i h1
      split at h
      · simp at h
      · rename_i h2
        split at h
        · simp at h
        · rename_i h3
          have hb : ∀ r ∈ rows, ∀ b ∈ r, b = 0 ∨ b = 1 := by
            intro r hr b hb
            by_contra hc
            exact h2 ⟨r, hr, b, hb, by omega⟩
          have hnd : rows.Nodup := by
            rw [not_not] at h3
            have := (List.dedup_sublist rows).eq_of_length h3
            rw [← this]
            exact List.nodup_dedup _
          exact ⟨hb, table_of_length m _ (hinj hb hnd) (by simpa using h1) (hrows hb)⟩
  · rintro ⟨hb, ht⟩
    have hnd : rows.Nodup := List.Nodup.of_map _ ht.1
    have hlen := table_length m _ ht
    rw [if_neg (by simpa using hlen), if_neg, if_neg (by rw [hnd.dedup]; simp)]
    · exact ⟨_, rfl⟩
    · rintro ⟨r, hr, b, hbr, h⟩
      have := hb r hr b hbr
      omega

/-- What an accepted table looks like afterwards. -/
theorem C40_constructor_value (rows : List (List Int)) (m : Nat) (hshape : ∀ r ∈ rows, r.length = m) (L : Lab)
    (h : labelingNew rows m = some L) : L.numBits = m ∧ L.cardinality = 2 ^ m ∧ IsLabelTable m L.matrix := by
  have ht := ((C40_constructor rows m hshape).mp ⟨L, h⟩).2
  unfold labelingNew at h
  split at h
  · simp at h
  · split at h
    · simp at h
    · split at h
      · simp at h
      · have hL := (Option.some_inj.mp h).symm
        subst hL
        exact ⟨rfl, by simpa using table_length m _ ht, ht⟩

/-- Base-class `bits_to_indices(indices_to_bits(l)) == l` for every table labeling. -/
theorem C40_bits_of_indices (L : Lab) (hm : 1 ≤ L.numBits) (hc : L.cardinality = 2 ^ L.numBits)
    (ht : IsLabelTable L.numBits L.matrix) (l : List Nat) (hne : l ≠ []) (hl : ∀ i ∈ l, i < 2 ^ L.numBits) :
    ∃ bits, L.indicesToBits (l.map fun i : Nat => (i : Int)) = some bits ∧
      bits.length = L.numBits * l.length ∧
      (∀ k < l.length, some ((bits.drop (k * L.numBits)).take L.numBits) = L.matrix[l.getD k 0]?) ∧
      L.bitsToIndices (bits.map fun b : Nat => (b : Int)) = some l := by
  have hlen := table_length _ _ ht
  set g : Nat → List Nat := fun i => L.matrix.getD i [] with hg
  have hgi : ∀ i ∈ l, L.matrix[i]? = some (g i) := by
    intro i hi
    have : i < L.matrix.length := by rw [hlen]; exact hl i hi
    simp [hg, this]
  have hgm : ∀ i ∈ l, g i ∈ L.matrix := fun i hi => List.mem_of_getElem? (hgi i hi)
  have hrow : ∀ r ∈ l.map g, r.length = L.numBits := by
    intro r hr; obtain ⟨i, hi, rfl⟩ := List.mem_map.mp hr; exact ((ht.2 _).mp (hgm i hi)).1
  have hbit : ∀ b ∈ (l.map g).flatten, b = 0 ∨ b = 1 := by
    intro b hb
    obtain ⟨r, hr, hb⟩ := List.mem_flatten.mp hb
    obtain ⟨i, hi, rfl⟩ := List.mem_map.mp hr
    exact ((ht.2 _).mp (hgm i hi)).2 b hb
  have hfl : (l.map g).flatten.length = L.numBits * l.length := by
    rw [flatten_length_mod _ _ hrow, List.length_map]
  refine ⟨(l.map g).flatten, ?_, hfl, ?_, ?_⟩
  · unfold Lab.indicesToBits
    rw [if_neg]
    · have : (l.map fun i : Nat => (i : Int)).mapM (fun i => L.matrix[i.toNat]?) = l.mapM fun i => L.matrix[i]? := by
        rw [List.mapM_map]; rfl
      rw [this, mapM_some _ g l hgi]
      rfl
    · rw [not_not]
      constructor
      · intro i hi; obtain ⟨j, _, rfl⟩ := List.mem_map.mp hi; omega
      · intro i hi
        obtain ⟨j, hj, rfl⟩ := List.mem_map.mp hi
        rw [hc]
        exact_mod_cast hl j hj
  · intro k hk
    have h1 := chunks_flatten L.numBits hm (l.map g) hrow
    have h2 : (chunks L.numBits (l.map g).flatten)[k]? = some (g l[k]) := by
      rw [h1]; simp [hk]
    have h3 : (chunks L.numBits (l.map g).flatten)[k]? =
        some (((l.map g).flatten.drop (k * L.numBits)).take L.numBits) := by
      unfold chunks
      rw [List.getElem?_map, List.getElem?_range]
      · rfl
      · rw [hfl, Nat.mul_div_cancel_left _ hm]; exact hk
    rw [← h3, h2, List.getD_eq_getElem _ _ hk, hgi _ (List.getElem_mem hk)]
  · unfold Lab.bitsToIndices
    have hmap : ((l.map g).flatten.map fun b : Nat => (b : Int)).map Int.toNat = (l.map g).flatten := by
      simp [List.map_map, Function.comp_def]
    rw [if_neg (by omega), if_neg, if_neg, if_neg, hmap, chunks_flatten _ hm _ hrow, List.mapM_map]
    · rw [mapM_some _ id l, List.map_id]
      intro i hi
      have hi' : i < L.matrix.length := by rw [hlen]; exact hl i hi
      have : g i = L.matrix[i] := by simp [hg, hi']
      simp only [Function.comp, id]
      rw [this]
      exact inverseMapping_get L ht.1 i hi'
    · intro h
      have h1 := congrArg List.length h
      rw [List.length_map, hfl, List.length_nil] at h1
      rcases Nat.mul_eq_zero.mp h1 with h1 | h1
      · omega
      · exact hne (List.length_eq_zero_iff.mp h1)
    · rw [not_not]
      intro b hb
      obtain ⟨c, hc', rfl⟩ := List.mem_map.mp hb
      have := hbit c hc'
      omega
    · rw [not_not, List.length_map, hfl, Nat.mul_mod_right]

/-- Base-class `indices_to_bits(bits_to_indices(b)) == b`. -/
theorem C40_indices_of_bits (L : Lab) (hm : 1 ≤ L.numBits) (hc : L.cardinality = 2 ^ L.numBits)
    (ht : IsLabelTable L.numBits L.matrix) (bits : List Nat) (hne : bits ≠ []) (hlen : L.numBits ∣ bits.length)
    (hb : ∀ b ∈ bits, b = 0 ∨ b = 1) :
    ∃ l, L.bitsToIndices (bits.map fun b : Nat => (b : Int)) = some l ∧ (∀ i ∈ l, i < 2 ^ L.numBits) ∧
      L.indicesToBits (l.map fun i : Nat => (i : Int)) = some bits := by
  have hmod := Nat.mod_eq_zero_of_dvd hlen
  have hrl := chunks_row_length _ hm bits hmod
  have hmem : ∀ r ∈ chunks L.numBits bits, r ∈ L.matrix := fun r hr =>
    (ht.2 r).mpr ⟨hrl r hr, fun b h => hb b (chunks_row_mem _ bits r hr b h)⟩
  -- the indices of the rows
  have hex : ∀ rows : List (List Nat), (∀ r ∈ rows, r ∈ L.matrix) →
      ∃ l : List Nat, (∀ i ∈ l, i < L.matrix.length) ∧ rows = l.map fun i => L.matrix.getD i [] := by
    intro rows
    induction rows with
    | nil => intro _; exact ⟨[], by simp, by simp⟩
    | cons r rows ih =>
      intro h
      obtain ⟨l, h1, h2⟩ := ih fun r hr => h r (by simp [hr])
      obtain ⟨i, hi, hr⟩ := List.mem_iff_getElem.mp (h r (by simp))
      refine ⟨i :: l, ?_, ?_⟩
      · intro j hj
        rcases List.mem_cons.mp hj with rfl | hj
        · exact hi
        · exact h1 j hj
      · rw [List.map_cons, ← h2, List.getD_eq_getElem _ _ hi, hr]
  obtain ⟨l, h1, h2⟩ := hex _ hmem
  have hl : ∀ i ∈ l, i < 2 ^ L.numBits := by rw [table_length _ _ ht] at h1; exact h1
  have hlne : l ≠ [] := by
    rintro rfl
    exact chunks_ne_nil _ hm bits hmod hne h2
  obtain ⟨bits', e1, e2, e3, e4⟩ := C40_bits_of_indices L hm hc ht l hlne hl
  have hbb : bits' = bits := by
    have hml : bits'.length % L.numBits = 0 := by rw [e2, Nat.mul_mod_right]
    rw [← flatten_chunks _ hm bits hmod, ← flatten_chunks _ hm bits' hml, h2]
    congr 1
    unfold chunks
    rw [e2, Nat.mul_div_cancel_left _ hm]
    apply List.ext_getElem (by simp)
    intro k hk1 hk2
    have hk : k < l.length := by simpa using hk2
    have := e3 k hk
    rw [List.getD_eq_getElem _ _ hk] at this
    simp only [List.getElem_map, List.getElem_range]
    rw [List.getD_eq_getElem?_getD, ← this]
    rfl
  subst hbb
  exact ⟨l, e4, hl, e1⟩

/-- Index out of range, length not a multiple of `m`, or an entry that is not a bit: rejected. -/
theorem C40_rejects (L : Lab) :
    (∀ l : List Int, (∃ i ∈ l, i < 0 ∨ (L.cardinality : Int) ≤ i) → L.indicesToBits l = none) ∧
    (∀ b : List Int, ¬ L.numBits ∣ b.length → L.bitsToIndices b = none) ∧
    (∀ b : List Int, (∃ x ∈ b, x ≠ 0 ∧ x ≠ 1) → L.bitsToIndices b = none) := by
  refine ⟨?_, ?_, ?_⟩
  · rintro l ⟨i, hi, h⟩
    unfold Lab.indicesToBits
    rw [if_pos]
    rintro ⟨h1, h2⟩
    have := h1 i hi
    have := h2 i hi
    omega
  · intro b h
    unfold Lab.bitsToIndices
    split
    · rfl
    · rw [if_pos fun h' => h (Nat.dvd_of_mod_eq_zero h')]
  · rintro b ⟨x, hx, h1, h2⟩
    unfold Lab.bitsToIndices
    split
    · rfl
    · split
      · rfl
      · rw [if_pos]
        intro h
        have := h x hx
        omega

example : ∃ L, labelingNew [[0, 0], [1, 1], [0, 1], [1, 0]] 2 = some L ∧
    L.indicesToBits [2, 1] = some [0, 1, 1, 1] ∧ L.bitsToIndices [0, 1, 1, 1] = some [2, 1] :=
  ⟨_, rfl, by decide +kernel, by decide +kernel⟩
example : labelingNew [[0, 0], [1, 1], [0, 1], [1, 1]] 2 = none := by decide +kernel

/-! ### C39 product and rectangular labelings -/

/-- The product of labelings (repeated `rep` times) is a labeling: all binary words of the total width, each once, with
the right `num_bits` and `cardinality`; by C40 `bits_to_indices` and `indices_to_bits` are mutually inverse. -/
theorem C39_product (labs : List Lab) (rep : Nat) (hne : labs ≠ []) (hrep : 1 ≤ rep)
    (h : ∀ L ∈ labs, L.cardinality = 2 ^ L.numBits ∧ IsLabelTable L.numBits L.matrix) :
    ∃ P, productLab labs rep = some P ∧ P.numBits = rep * (labs.map Lab.numBits).sum ∧
      P.cardinality = 2 ^ P.numBits ∧ IsLabelTable P.numBits P.matrix := by
  have hlabs : ∀ L ∈ (List.replicate rep labs).flatten,
      L.cardinality = 2 ^ L.numBits ∧ IsLabelTable L.numBits L.matrix := by
    intro L hL
    obtain ⟨l, hl, hL⟩ := List.mem_flatten.mp hL
    rw [List.eq_of_mem_replicate hl] at hL
    exact h L hL
  have hcard : ∀ ls : List Lab, (∀ L ∈ ls, L.cardinality = 2 ^ L.numBits) →
      (ls.map Lab.cardinality).prod = 2 ^ (ls.map Lab.numBits).sum := by
    intro ls
    induction ls with
    | nil => simp
    | cons L ls ih =>
      intro h
      rw [List.map_cons, List.prod_cons, ih fun L' h' => h L' (by simp [h']), h L (by simp), List.map_cons,
        List.sum_cons, pow_add]
  have hsum : ∀ r : Nat, ((List.replicate r labs).flatten.map Lab.numBits).sum = r * (labs.map Lab.numBits).sum := by
    intro r
    induction r with
    | zero => simp
    | succ r ih =>
      rw [List.replicate_succ, List.flatten_cons, List.map_append, List.sum_append, ih]; ring
  have hl : ¬ labs.length < 1 := by
    have := List.length_pos_iff.mpr hne
    omega
  refine ⟨_, by unfold productLab; rw [if_neg hl, if_neg (by omega)], hsum rep,
    hcard _ fun L hL => (hlabs L hL).1, productTable _ fun L hL => (hlabs L hL).2⟩

/-- Indices follow the product order: with two factors, row `i * |B| + j` is the label of `i` followed by the label of
`j`. -/
theorem C39_product_order (A B : Lab) (i j : Nat) (hi : i < A.matrix.length) (hj : j < B.matrix.length) :
    ∃ P, productLab [A, B] = some P ∧
      P.matrix[i * B.matrix.length + j]? = some (A.matrix[i] ++ B.matrix[j]) := by
  refine ⟨_, rfl, ?_⟩
  have hB : productRows [B.matrix] = B.matrix := by
    simp only [productRows, List.map_cons, List.map_nil, List.append_nil]
    exact List.flatMap_singleton' B.matrix
  have : (List.map Lab.matrix (List.replicate 1 [A, B]).flatten) = [A.matrix, B.matrix] := by simp
  simp only [this]
  rw [productRows, hB]
  clear this
  generalize A.matrix = M at hi
  clear A
  induction M generalizing i with
  | nil => simp at hi
  | cons r M ih =>
    rw [List.flatMap_cons]
    cases i with
    | zero => rw [List.getElem?_append_left (by simpa using hj)]; simp [hj]
    | succ i =>
      have hlen : (i + 1) * B.matrix.length + j =
          (B.matrix.map (r ++ ·)).length + (i * B.matrix.length + j) := by rw [List.length_map]; ring
      rw [hlen, List.getElem?_append_right (by omega), Nat.add_sub_cancel_left, ih i (by simpa using hi)]
      rfl

theorem C39_product_rejects (labs : List Lab) :
    productLab [] = none ∧ productLab labs 0 = none := by
  refine ⟨rfl, ?_⟩
  unfold productLab
  split <;> rfl

/-- The reflected rectangular labeling is a labeling on the grid (`index = 2^mq * i + q`) whose horizontal and vertical
neighbours differ in exactly one bit. -/
theorem C39_rectangular (mi mq : Nat) (hi : 1 ≤ mi) (hq : 1 ≤ mq) : ∃ L, rectangularLab mi mq = some L ∧
    L.numBits = mi + mq ∧ L.cardinality = 2 ^ (mi + mq) ∧ IsLabelTable (mi + mq) L.matrix ∧
    (∀ i q, i < 2 ^ mi → q + 1 < 2 ^ mq →
      wordDist (L.matrix.getD (2 ^ mq * i + q) []) (L.matrix.getD (2 ^ mq * i + (q + 1)) []) = 1) ∧
    (∀ i q, i + 1 < 2 ^ mi → q < 2 ^ mq →
      wordDist (L.matrix.getD (2 ^ mq * i + q) []) (L.matrix.getD (2 ^ mq * (i + 1) + q) []) = 1) := by
  obtain ⟨A, hA1, hA2, hA3, hA4, hA5⟩ := C38_reflected_matrix mi hi
  obtain ⟨B, hB1, hB2, hB3, hB4, hB5⟩ := C38_reflected_matrix mq hq
  obtain ⟨P, hP1, hP2, hP3, hP4⟩ := C39_product [A, B] 1 (by simp) le_rfl (by
    intro L hL
    rcases List.mem_cons.mp hL with h | h
    · rw [h]; exact ⟨by rw [hA3, hA2], by rw [hA2]; exact hA4⟩
    · rw [List.mem_singleton.mp h]; exact ⟨by rw [hB3, hB2], by rw [hB2]; exact hB4⟩)
  have hn : P.numBits = mi + mq := by rw [hP2]; simp [hA2, hB2]
  have hAl := table_length _ _ hA4
  have hBl := table_length _ _ hB4
  have hget : ∀ i q, i < 2 ^ mi → q < 2 ^ mq →
      P.matrix.getD (2 ^ mq * i + q) [] = reflectedIndicesToBits mi [i] ++ reflectedIndicesToBits mq [q] := by
    intro i q hi hq
    obtain ⟨P', h1, h2⟩ := C39_product_order A B i q (by rw [hAl]; exact hi) (by rw [hBl]; exact hq)
    rw [hP1, Option.some_inj] at h1
    subst h1
    rw [List.getD_eq_getElem?_getD, Nat.mul_comm, ← hBl, h2]
    have e1 := hA5 i hi
    have e2 := hB5 q hq
    rw [List.getElem?_eq_getElem (by rw [hAl]; exact hi), Option.some_inj] at e1
    rw [List.getElem?_eq_getElem (by rw [hBl]; exact hq), Option.some_inj] at e2
    rw [e1, e2]
    rfl
  have hlen : ∀ m i, (reflectedIndicesToBits m [i]).length = m := by
    intro m i; simp [reflectedIndicesToBits, intToBits_length]
  refine ⟨⟨P.matrix, mi + mq, 2 ^ (mi + mq)⟩, ?_, rfl, rfl, by rw [← hn]; exact hP4, ?_, ?_⟩
  · unfold rectangularLab
    rw [if_neg (by rw [not_not]; exact ⟨hi, hq⟩), hA1, hB1]
    simp only [hP1, Option.map_some]
  · intro i q h1 h2
    simp only
    rw [hget i q h1 (by omega), hget i (q + 1) h1 h2, wordDist_append _ _ _ _ rfl, wordDist_self,
      C38_gray_adjacent mq q h2]
  · intro i q h1 h2
    simp only
    rw [hget i q (by omega) h2, hget (i + 1) q h1 h2, wordDist_append _ _ _ _ (by rw [hlen, hlen]), wordDist_self,
      C38_gray_adjacent mi i h1]

/-- A single integer argument must be positive and even, and means a square grid. -/
theorem C39_rectangular_square (k : Nat) :
    (1 ≤ k → rectangularLabSquare (2 * k) = rectangularLab k k) ∧ rectangularLabSquare 0 = none ∧
      rectangularLabSquare (2 * k + 1) = none := by
  refine ⟨fun hk => ?_, rfl, ?_⟩
  · unfold rectangularLabSquare
    rw [if_neg (by omega), Nat.mul_div_cancel_left _ (by omega)]
  · unfold rectangularLabSquare
    rw [if_pos (by omega)]

/-! The documented examples (ReflectedRectangularLabeling.py:40-58, ProductLabeling.py:25-36). -/
example : (rectangularLabSquare 4).map Lab.matrix = some
    [[0, 0, 0, 0], [0, 0, 0, 1], [0, 0, 1, 1], [0, 0, 1, 0], [0, 1, 0, 0], [0, 1, 0, 1], [0, 1, 1, 1], [0, 1, 1, 0],
     [1, 1, 0, 0], [1, 1, 0, 1], [1, 1, 1, 1], [1, 1, 1, 0], [1, 0, 0, 0], [1, 0, 0, 1], [1, 0, 1, 1], [1, 0, 1, 0]] := by
  decide +kernel
example : ((productLab [⟨[[0, 0], [1, 1], [1, 0], [0, 1]], 2, 4⟩, ⟨[[1], [0]], 1, 2⟩]).map Lab.matrix) = some
    [[0, 0, 1], [0, 0, 0], [1, 1, 1], [1, 1, 0], [1, 0, 1], [1, 0, 0], [0, 1, 1], [0, 1, 0]] := by decide +kernel

end Komm
