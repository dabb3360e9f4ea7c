import Verif.Lemmas.ReedMuller2
import Verif.Props.C41_C48_BlockCodes
import Mathlib.LinearAlgebra.Dimension.OrzechProperty

/-! C52: Reed–Muller codes; C53: Reed decoding. -/
namespace Komm

variable {rho mu : Nat}

/-! ### C52 -/

/-- `ReedMullerCode(rho, mu)` is accepted for `rho < mu`; length `2^mu`, dimension `∑_{i ≤ rho} C(mu, i)`, redundancy
`∑_{i ≤ mu - rho - 1} C(mu, i)`, and the generic `minimum_distance` of the base class agrees with the override
`2^(mu - rho)`. -/
theorem C52_parameters (h : rho < mu) :
    ∃ c, reedMullerCode rho mu = some c ∧ c.Lawful ∧
      (rmRows rho mu).length = ∑ i ∈ Finset.range (rho + 1), mu.choose i ∧
      2 ^ mu - (rmRows rho mu).length = ∑ i ∈ Finset.range (mu - rho - 1 + 1), mu.choose i ∧
      c.minimumDistance = some (reedMullerMinimumDistance rho mu) ∧
      reedMullerMinimumDistance rho mu = 2 ^ (mu - rho) := by
  obtain ⟨c, h1, h2, h3⟩ := C41_generator (rmGenerator rho mu) rm_independent
  refine ⟨c, by rw [reedMullerCode, if_neg (by omega), h1], h3, rmRows_length, ?_, ?_, rfl⟩
  · have := rmDim_add h
    rw [← rmRows_length]; omega
  have henc : ∀ u, c.encode u = rmWord mu (List.ofFn u) (rmLists rho mu) := by
    intro u
    rw [← rm_encode]
    funext j
    rw [h3.encode_eq, h2]
  have hlen : ∀ u : BVec (rmRows rho mu).length, (List.ofFn u).length = (rmLists rho mu).length := by
    intro u
    rw [List.length_ofFn, rmRows_eq, List.length_map]
  rw [minimumDistance_spec c h3]
  constructor
  · -- a row of maximal degree
    have hmem : List.range rho ∈ rmLists rho mu := by
      rw [mem_rmLists]
      exact ⟨by rw [show mu = rho + (mu - rho) by omega, List.range_add]; exact List.sublist_append_left _ _, by simp⟩
    have hmem' : rmRow mu (List.range rho) ∈ rmRows rho mu := by rw [rmRows_eq]; exact List.mem_map_of_mem hmem
    obtain ⟨i, hi', hget⟩ := List.getElem_of_mem hmem'
    refine ⟨Pi.single ⟨i, hi'⟩ 1, by simp, ?_⟩
    have : c.encode (Pi.single ⟨i, hi'⟩ 1) = rmRow mu (List.range rho) := by
      funext j
      rw [h3.encode_eq, Finset.sum_eq_single ⟨i, hi'⟩]
      · rw [h2, Pi.single_eq_same, one_mul, ← hget]
        rfl
      · intro b _ hb
        rw [Pi.single_eq_of_ne hb, zero_mul]
      · simp
    rw [this, rmRow_norm ((mem_rmLists _).mp hmem).1, List.length_range]
    rfl
  · intro u hu
    rw [henc]
    apply rmWord_norm _ _ (hlen u) (fun J hJ => (mem_rmLists J).mp hJ) rmLists_pairwise
    by_contra hc
    push Not at hc
    exact hu (funext fun i => hc (u i) (by simp))

/-- `0 <= rho < mu` is required. -/
theorem C52_rejects (h : mu ≤ rho) : reedMullerCode rho mu = none := by
  rw [reedMullerCode, if_pos (by omega)]

/-- The rows of the generator matrix are exactly the monomials of degree at most `rho` in the binary digits of the
position, each once. -/
theorem C52_rows :
    (∀ w : BVec (2 ^ mu), w ∈ rmRows rho mu ↔ ∃ I : Finset (Fin mu), I.card ≤ rho ∧
      ∀ j, w j = if ∀ i ∈ I, (j : Nat).testBit i = true then 1 else 0) ∧
    (rmRows rho mu).Nodup := by
  constructor
  · intro w
    rw [rmRows_eq, List.mem_map]
    constructor
    · rintro ⟨I, hI, rfl⟩
      rw [mem_rmLists] at hI
      refine ⟨Finset.univ.filter fun i : Fin mu => (i : Nat) ∈ I, ?_, ?_⟩
      · refine le_trans ?_ hI.2
        rw [← List.toFinset_card_of_nodup (List.nodup_range.sublist hI.1)]
        refine Finset.card_le_card_of_injOn (fun i : Fin mu => (i : Nat)) ?_ ?_
        · intro i hi
          simp only [Finset.coe_filter, Set.mem_setOf_eq, Finset.mem_univ, true_and] at hi
          simpa using hi
        · intro a _ b _ e
          exact Fin.ext e
      · intro j
        rw [rmRow_apply hI.1, mon_eq_ite]
        apply if_congr _ rfl rfl
        constructor
        · intro h i hi
          simp only [Finset.mem_filter, Finset.mem_univ, true_and] at hi
          exact h _ (List.mem_toFinset.mpr hi)
        · intro h i hi
          have hi' := List.mem_toFinset.mp hi
          exact h ⟨i, List.mem_range.mp (hI.1.subset hi')⟩ (by simpa using hi')
    · rintro ⟨I, hI, hw⟩
      have hsub : ((List.range mu).filter fun i => ∃ h : i < mu, (⟨i, h⟩ : Fin mu) ∈ I).Sublist (List.range mu) :=
        List.filter_sublist
      refine ⟨_, (mem_rmLists _).mpr ⟨hsub, ?_⟩, ?_⟩
      · refine le_trans ?_ hI
        rw [← List.toFinset_card_of_nodup (List.nodup_range.filter _)]
        refine le_trans (Finset.card_le_card (t := I.image fun i : Fin mu => (i : Nat)) ?_) Finset.card_image_le
        intro i hi
        simp only [List.mem_toFinset, List.mem_filter, decide_eq_true_eq] at hi
        obtain ⟨_, h, hm⟩ := hi
        exact Finset.mem_image.mpr ⟨⟨i, h⟩, hm, rfl⟩
      · funext j
        rw [hw j, rmRow_apply hsub, mon_eq_ite]
        apply if_congr _ rfl rfl
        constructor
        · intro h i hi
          apply h
          simp only [List.mem_toFinset, List.mem_filter, decide_eq_true_eq, List.mem_range]
          exact ⟨i.2, i.2, hi⟩
        · intro h i hi
          simp only [List.mem_toFinset, List.mem_filter, decide_eq_true_eq] at hi
          obtain ⟨_, h', hm⟩ := hi
          exact h ⟨i, h'⟩ hm
  · have := (rm_independent (rho := rho) (mu := mu)).injective
    rw [List.nodup_iff_injective_get]
    exact this

/-- The dual of `ReedMullerCode(rho, mu)` is `ReedMullerCode(mu - rho - 1, mu)`. -/
theorem C52_dual (h : rho < mu) :
    ∃ c c', reedMullerCode rho mu = some c ∧ reedMullerCode (mu - rho - 1) mu = some c' ∧
      ∀ v, (∀ u, ∑ j, v j * c.encode u j = 0) ↔ ∃ u', c'.encode u' = v := by
  obtain ⟨c, h1, h2, h3⟩ := C41_generator (rmGenerator rho mu) rm_independent
  obtain ⟨c', h1', h2', h3'⟩ := C41_generator (rmGenerator (mu - rho - 1) mu) rm_independent
  refine ⟨c, c', by rw [reedMullerCode, if_neg (by omega), h1], by rw [reedMullerCode, if_neg (by omega), h1'], ?_⟩
  -- orthogonality
  have horth : ∀ i i', ∑ j, rmGenerator (mu - rho - 1) mu i' j * rmGenerator rho mu i j = 0 := by
    intro i i'
    have m1 : rmGenerator rho mu i ∈ rmRows rho mu := List.getElem_mem _
    have m2 : rmGenerator (mu - rho - 1) mu i' ∈ rmRows (mu - rho - 1) mu := List.getElem_mem _
    rw [rmRows_eq, List.mem_map] at m1 m2
    obtain ⟨I, hI, e1⟩ := m1
    obtain ⟨J, hJ, e2⟩ := m2
    rw [mem_rmLists] at hI hJ
    rw [← e1, ← e2]
    exact rmRow_orth hJ.1 hI.1 (by omega)
  exact dual_of_orth c c' h3 h3' (h2 ▸ rm_independent) (rmDim_add h) (by rw [h2, h2']; exact horth)

/-- The documented example `ReedMullerCode(2, 4)`. -/
example : (rmRows 2 4).length = 11 ∧ 2 ^ 4 - (rmRows 2 4).length = 5 ∧ reedMullerMinimumDistance 2 4 = 4 := by
  decide +kernel
example : (rmRows 2 4).map List.ofFn =
    [[0, 0, 0, 1, 0, 0, 0, 1, 0, 0, 0, 1, 0, 0, 0, 1],
     [0, 0, 0, 0, 0, 1, 0, 1, 0, 0, 0, 0, 0, 1, 0, 1],
     [0, 0, 0, 0, 0, 0, 0, 0, 0, 1, 0, 1, 0, 1, 0, 1],
     [0, 0, 0, 0, 0, 0, 1, 1, 0, 0, 0, 0, 0, 0, 1, 1],
     [0, 0, 0, 0, 0, 0, 0, 0, 0, 0, 1, 1, 0, 0, 1, 1],
     [0, 0, 0, 0, 0, 0, 0, 0, 0, 0, 0, 0, 1, 1, 1, 1],
     [0, 1, 0, 1, 0, 1, 0, 1, 0, 1, 0, 1, 0, 1, 0, 1],
     [0, 0, 1, 1, 0, 0, 1, 1, 0, 0, 1, 1, 0, 0, 1, 1],
     [0, 0, 0, 0, 1, 1, 1, 1, 0, 0, 0, 0, 1, 1, 1, 1],
     [0, 0, 0, 0, 0, 0, 0, 0, 1, 1, 1, 1, 1, 1, 1, 1],
     [1, 1, 1, 1, 1, 1, 1, 1, 1, 1, 1, 1, 1, 1, 1, 1]] := by decide +kernel
example : (reedPartitions 2 4)[1]? = some [[0, 1, 4, 5], [2, 3, 6, 7], [8, 9, 12, 13], [10, 11, 14, 15]] := by
  decide +kernel
example : (reedPartitions 2 4)[8]? =
    some [[0, 4], [1, 5], [2, 6], [3, 7], [8, 12], [9, 13], [10, 14], [11, 15]] := by decide +kernel

/-! ### C53 -/

/-- Hard-decision Reed decoding corrects every error pattern of weight less than half the minimum distance. -/
theorem C53_corrects (h : rho < mu) :
    ∃ c, reedMullerCode rho mu = some c ∧ ∀ u e, 2 * hammingNorm e < reedMullerMinimumDistance rho mu →
      reedDecodeHard rho mu (c.encode u + e) = u := by
  obtain ⟨c, h1, h2, h3⟩ := C41_generator (rmGenerator rho mu) rm_independent
  refine ⟨c, by rw [reedMullerCode, if_neg (by omega), h1], ?_⟩
  intro u e he
  have henc : c.encode u = rmWord mu (List.ofFn u) (rmLists rho mu) := by
    rw [← rm_encode]
    funext j
    rw [h3.encode_eq, h2]
  have h4 : hammingNorm e < 2 ^ (mu - rho - 1) := by
    have : 2 ^ (mu - rho) = 2 * 2 ^ (mu - rho - 1) := by rw [← pow_succ']; congr 1; omega
    rw [reedMullerMinimumDistance, this] at he
    omega
  rw [reedDecodeHard, zip_eq, henc, reedHardLoop_correct rho h e h4 _ _
    (by rw [List.length_ofFn, rmRows_eq, List.length_map]) (fun J hJ => (mem_rmLists J).mp hJ) rmLists_pairwise]
  funext i
  simp [vecOfList]

/-- Soft-decision Reed decoding with equal reliabilities is hard-decision Reed decoding of the signs. -/
theorem C53_soft_equal_reliability (a : ℚ) (ha : 0 < a) (r : Fin (2 ^ mu) → ℚ) (hr : ∀ j, |r j| = a) :
    reedDecodeSoft rho mu r = reedDecodeHard rho mu fun j => if r j < 0 then 1 else 0 := by
  rw [reedDecodeSoft, reedDecodeHard, zip_eq,
    reedSoftLoop_const a ha r hr _ fun J hJ => ((mem_rmLists J).mp hJ).1]

/-- Soft-decision Reed decoding returns the message whenever the signs of the (non-zero) L-values spell its codeword,
whatever the reliabilities. -/
theorem C53_soft_noiseless (h : rho < mu) :
    ∃ c, reedMullerCode rho mu = some c ∧ ∀ u (r : Fin (2 ^ mu) → ℚ),
      (∀ j, r j ≠ 0) → (∀ j, c.encode u j = if r j < 0 then 1 else 0) → reedDecodeSoft rho mu r = u := by
  obtain ⟨c, h1, h2, h3⟩ := C41_generator (rmGenerator rho mu) rm_independent
  refine ⟨c, by rw [reedMullerCode, if_neg (by omega), h1], ?_⟩
  intro u r hr hs
  have henc : (fun j => if r j < 0 then 1 else 0) = rmWord mu (List.ofFn u) (rmLists rho mu) := by
    rw [← rm_encode]
    funext j
    rw [← hs, h3.encode_eq, h2]
  rw [reedDecodeSoft, zip_eq, henc, reedSoftLoop_clean r hr _ _
    (by rw [List.length_ofFn, rmRows_eq, List.length_map]) (fun J hJ => ((mem_rmLists J).mp hJ).1) rmLists_pairwise]
  funext i
  simp [vecOfList]

theorem listMin_spec : ∀ l : List ℚ, l ≠ [] → (∀ x ∈ l, listMin l ≤ x) ∧ listMin l ∈ l
  | [], h => absurd rfl h
  | [x], _ => by simp [listMin]
  | x :: y :: l, _ => by
    obtain ⟨h1, h2⟩ := listMin_spec (y :: l) (by simp)
    rw [listMin]
    constructor
    · intro z hz
      rcases List.mem_cons.mp hz with rfl | hz
      · exact min_le_left _ _
      · exact (min_le_right _ _).trans (h1 z hz)
    · rcases min_choice x (listMin (y :: l)) with h | h
      · rw [h]; simp
      · rw [h]; exact List.mem_cons_of_mem _ h2

/-- Soft-decision Reed decoding corrects errors: let every position whose sign is right have reliability at least `m`.  If the positions whose sign is wrong satisfy
`∑ (m + |r j|) < d · m`, where `d = 2^(mu - rho)` is the minimum distance, the message is returned. -/
theorem C53_soft_corrects (h : rho < mu) :
    ∃ c, reedMullerCode rho mu = some c ∧ ∀ u (r : Fin (2 ^ mu) → ℚ) (m : ℚ), 0 ≤ m →
      (∀ j, c.encode u j = (if r j < 0 then 1 else 0) → m ≤ |r j|) →
      ∑ j, (if c.encode u j = (if r j < 0 then 1 else 0) then 0 else m + |r j|) < reedMullerMinimumDistance rho mu * m → reedDecodeSoft rho mu r = u := by
  obtain ⟨c, h1, h2, h3⟩ := C41_generator (rmGenerator rho mu) rm_independent
  refine ⟨c, by rw [reedMullerCode, if_neg (by omega), h1], ?_⟩
  intro u r m hm hgood hlt
  have henc : c.encode u = rmWord mu (List.ofFn u) (rmLists rho mu) := by
    rw [← rm_encode]
    funext j
    rw [h3.encode_eq, h2]
  obtain ⟨e, he⟩ : ∃ e : BVec (2 ^ mu), e = fun j => c.encode u j + (if r j < 0 then 1 else 0) := ⟨_, rfl⟩
  have he0 : ∀ j, e j = 0 ↔ c.encode u j = (if r j < 0 then 1 else 0) := by
    intro j
    rw [he]
    exact CharTwo.add_eq_zero
  have hbx : (fun j => if r j < 0 then 1 else 0) = rmWord mu (List.ofFn u) (rmLists rho mu) + e := by
    funext j
    rw [Pi.add_apply, ← henc, he]
    have := CharTwo.add_self_eq_zero (c.encode u j)
    linear_combination -this
  rw [reedDecodeSoft, zip_eq, hbx, reed_loop_generic (fun bx P => if decVar (reedChecksums bx P) (reliab r P) < 0 then 1 else 0) (reedSoftLoop r) (fun _ => rfl)
    (fun bx P g rest => reedSoftLoop_cons r bx P g rest) e _ _
    (by rw [List.length_ofFn, rmRows_eq, List.length_map]) (fun J hJ => ((mem_rmLists J).mp hJ).1) rmLists_pairwise ?_]
  · funext i
    simp [vecOfList]
  intro I hIm bx u0 hchk
  obtain ⟨hI, hl⟩ := (mem_rmLists I).mp hIm
  have hpos := margin_pos hI hl (fun x => if h : x < 2 ^ mu then |r ⟨x, h⟩| else 0) (fun x => by split <;> simp) e m 0 le_rfl zero_le_one hm
    (by
      intro x hx hx0
      rw [dif_pos hx]
      apply hgood
      rw [← he0]
      simpa [vget, hx] using hx0)
    (fun row => listMin (row.map fun j => if h : j < 2 ^ mu then |r ⟨j, h⟩| else 0))
    (by
      intro row hrow
      obtain ⟨a, b⟩ := listMin_spec (row.map fun j => if h : j < 2 ^ mu then |r ⟨j, h⟩| else 0) (by simpa using partition_row_ne_nil hrow)
      refine ⟨fun x hx => a _ (List.mem_map_of_mem hx), ?_⟩
      obtain ⟨x, hx, hx'⟩ := List.mem_map.mp b
      exact ⟨x, hx, hx'.symm⟩)
    (by
      refine lt_of_le_of_lt (le_of_eq ?_) (lt_of_lt_of_eq hlt ?_)
      · apply Finset.sum_congr rfl
        intro j _
        rw [if_congr (he0 j) rfl rfl]
        simp
      · rw [reedMullerMinimumDistance]; push_cast; ring)
  simp only [sub_zero, add_zero, one_mul] at hpos
  have hv := vote_sum bx e u0 _ hchk (fun row => listMin (row.map fun j => if h : j < 2 ^ mu then |r ⟨j, h⟩| else 0))
  have hdec : decVar (reedChecksums bx (reedPartition mu I.length I)) (reliab r (reedPartition mu I.length I)) =
      (List.zipWith (fun (c : Nat) (x : ℚ) => if c = 0 then x else -x) (reedChecksums bx (reedPartition mu I.length I)) (reliab r (reedPartition mu I.length I))).sum := by
    unfold decVar reedChecksums reliab
    congr 1
    rw [List.zipWith_map, List.zipWith_map, List.zipWith_self, List.zipWith_self]
    apply List.map_congr_left
    intro row _
    rcases Nat.mod_two_eq_zero_or_one (row.countP fun j => vget bx j ≠ 0) with h | h <;> rw [h] <;> norm_num
  beta_reduce
  rw [hdec, reliab, hv]
  rcases zmod2_cases u0 with rfl | rfl
  · rw [if_pos rfl, one_mul, if_neg (not_lt.mpr hpos.le)]
  · rw [if_neg (show (1 : ZMod 2) ≠ 0 by decide), if_pos (by linarith)]

/-- The hypotheses of `C53_soft_corrects` are met by a word with a wrong sign (position 4 of the documented example). -/
example : ∑ j, (if (![0, 0, 0, 0, 0, 0, 0, 0] : BVec 8) j = (if (![1, 1, 9/10, 1, -8/10, 1, 1, 9/10] : Fin 8 → ℚ) j < 0 then 1 else 0) then 0 else
    9/10 + |(![1, 1, 9/10, 1, -8/10, 1, 1, 9/10] : Fin 8 → ℚ) j|) < reedMullerMinimumDistance 1 3 * (9/10 : ℚ) := by decide +kernel

/-- The documented examples of `ReedDecoder` for `ReedMullerCode(1, 3)`. -/
example : List.ofFn (reedDecodeHard 1 3 ![0, 0, 0, 0, 0, 1, 0, 0]) = [0, 0, 0, 0] := by decide +kernel
example : List.ofFn (reedDecodeHard 1 3 ![1, 1, 0, 1, 1, 1, 1, 1]) = [0, 0, 0, 1] := by decide +kernel
example : List.ofFn (reedDecodeSoft 1 3 ![13/10, 1, 9/10, 4/10, -8/10, 2/10, 3/10, 8/10]) = [0, 0, 0, 0] := by
  decide +kernel
/-- The hypothesis of `C53_corrects` is met by a non-zero pattern, and the bound is sharp: weight 2 is not corrected. -/
example : 2 * hammingNorm (![0, 0, 0, 0, 0, 1, 0, 0] : BVec (2 ^ 3)) < reedMullerMinimumDistance 1 3 := by decide +kernel
example : List.ofFn (reedDecodeHard 1 3 ![0, 0, 0, 0, 0, 0, 1, 1]) ≠ [0, 0, 0, 0] ∨
    List.ofFn (reedDecodeHard 1 3 ![0, 0, 0, 0, 1, 1, 0, 0]) ≠ [0, 0, 1, 0] := by decide +kernel

end Komm
