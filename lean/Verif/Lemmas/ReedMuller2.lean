import Verif.Lemmas.ReedMuller
import Verif.Lemmas.BlockFamilies
import Mathlib.Data.Nat.Choose.Sum
import Mathlib.Tactic.Linarith

namespace Komm

variable {rho mu : Nat}

theorem ofCheck_lawful' {m n : Nat} (H : BMat m n) (hH : LinearIndependent (ZMod 2) H) :
    ∃ c, blockCodeOfCheck H = some c ∧ c.checkMatrix = H ∧ IsRREF c.generator ∧ c.Lawful ∧
      ∀ v, (∃ u, c.encode u = v) ↔ ∀ i, ∑ j, H i j * v j = 0 := by
  obtain ⟨c, h1, h2, h3, h4⟩ := ofCheck_lawful H (by rw [rank_spec, finrank_span_eq_card hH, Fintype.card_fin])
  refine ⟨c, h1, h2, h3, h4, fun v => ?_⟩
  rw [← h4.check_zero v, funext_iff]
  apply forall_congr'
  intro i
  rw [h4.check_eq, h2, Pi.zero_apply]
  simp only [mul_comm]

theorem combinations_length {α : Type} (xs : List α) (w : Nat) :
    (combinations xs w).length = xs.length.choose w := by
  induction xs generalizing w with
  | nil => cases w <;> simp [combinations]
  | cons x xs ih => cases w with
    | zero => simp [combinations]
    | succ w => simp [combinations, ih, Nat.choose_succ_succ]

theorem mem_rmLists (I : List Nat) : I ∈ rmLists rho mu ↔ I.Sublist (List.range mu) ∧ I.length ≤ rho := by
  simp only [rmLists, List.mem_flatMap, List.mem_reverse, List.mem_range, mem_combinations]
  constructor
  · rintro ⟨ell, h1, h2, h3⟩; exact ⟨h2, by omega⟩
  · rintro ⟨h1, h2⟩; exact ⟨I.length, by omega, h1, rfl⟩

theorem sublist_subset_eq {I J : List Nat} (hI : I.Sublist (List.range mu)) (hJ : J.Sublist (List.range mu))
    (hs : I ⊆ J) (hl : J.length ≤ I.length) : I = J := by
  have h1 := List.nodup_range.sublist hI
  have h2 := List.nodup_range.sublist hJ
  have hp : I.Perm J := (List.subperm_of_subset h1 hs).perm_of_length_le hl
  rw [sublist_range_eq hI, sublist_range_eq hJ]
  apply List.filter_congr
  intro s _
  simp [hp.mem_iff]

theorem rmLists_pairwise : (rmLists rho mu).Pairwise fun I J => ¬ I ⊆ J := by
  rw [rmLists, List.pairwise_flatMap]
  constructor
  · intro ell _
    have h := combinations_nodup (List.range mu) List.nodup_range ell
    refine List.Pairwise.imp_of_mem ?_ h
    intro I J hI hJ hne hs
    rw [mem_combinations] at hI hJ
    exact hne (sublist_subset_eq hI.1 hJ.1 hs (by omega))
  · rw [List.pairwise_reverse]
    refine List.Pairwise.imp ?_ List.pairwise_lt_range
    intro a b hab I hI J hJ hs
    rw [mem_combinations] at hI hJ
    have := (List.subperm_of_subset (List.nodup_range.sublist hI.1) hs).length_le
    omega

theorem rmRows_eq : rmRows rho mu = (rmLists rho mu).map (rmRow mu) := by
  rw [rmRows, rmLists, List.map_flatMap, List.range_succ_eq_map, List.reverse_cons, List.flatMap_append,
    ← List.map_reverse]
  congr 1
  simp [combinations]
  rfl

theorem reedPartitions_eq :
    reedPartitions rho mu = (rmLists rho mu).map fun I => reedPartition mu I.length I := by
  rw [reedPartitions, rmLists, List.map_flatMap]
  congr 1
  funext ell
  apply List.map_congr_left
  intro I hI
  rw [mem_combinations] at hI
  rw [hI.2]

theorem zip_eq : (reedPartitions rho mu).zip (rmRows rho mu) = rmPairs mu (rmLists rho mu) := by
  rw [reedPartitions_eq, rmRows_eq, rmPairs, List.zip_map']

theorem rmRows_length : (rmRows rho mu).length = ∑ i ∈ Finset.range (rho + 1), mu.choose i := by
  rw [rmRows_eq, List.length_map, rmLists, List.length_flatMap]
  have : ((List.range (rho + 1)).reverse.map fun ell => (combinations (List.range mu) ell).length) =
      ((List.range (rho + 1)).map fun ell => mu.choose ell).reverse := by
    rw [List.map_reverse]
    congr 1
    apply List.map_congr_left
    intro ell _
    rw [combinations_length, List.length_range]
  rw [this, List.sum_reverse]
  rfl

theorem rmWord_apply (us : List (ZMod 2)) (Ls : List (List Nat)) (j : Fin (2 ^ mu)) :
    rmWord mu us Ls j = (List.zipWith (fun a (r : BVec (2 ^ mu)) => a * r j) us (Ls.map (rmRow mu))).sum := by
  induction Ls generalizing us with
  | nil => cases us <;> simp [rmWord]
  | cons I Ls ih => cases us with
    | nil => simp [rmWord]
    | cons u us => simp [rmWord, ih]

theorem sum_zipWith_ofFn {n : Nat} (R : List (BVec n)) (u : BVec R.length) (j : Fin n) :
    ∑ i, u i * R[i] j = (List.zipWith (fun a (r : BVec n) => a * r j) (List.ofFn u) R).sum := by
  induction R with
  | nil => simp
  | cons r R ih =>
    have := ih fun i => u i.succ
    have e : List.ofFn u = u 0 :: List.ofFn fun i : Fin R.length => u i.succ := List.ofFn_succ
    rw [e, List.zipWith_cons_cons, List.sum_cons, ← this]
    exact Fin.sum_univ_succ _

theorem rm_encode (u : BVec (rmRows rho mu).length) :
    (fun j => ∑ i, u i * rmGenerator rho mu i j) = rmWord mu (List.ofFn u) (rmLists rho mu) := by
  funext j
  rw [rmWord_apply, ← rmRows_eq, ← sum_zipWith_ofFn]
  rfl

/-- Weight of the words: a non-zero word has weight at least `2^(mu - rho)`. -/
theorem rmWord_norm (Ls : List (List Nat)) (us : List (ZMod 2)) (hlen : us.length = Ls.length)
    (hs : ∀ J ∈ Ls, J.Sublist (List.range mu) ∧ J.length ≤ rho) (hp : Ls.Pairwise fun I J => ¬ I ⊆ J)
    (hu : ∃ a ∈ us, a ≠ 0) : 2 ^ (mu - rho) ≤ hammingNorm (rmWord mu us Ls) := by
  induction Ls generalizing us with
  | nil =>
    obtain rfl : us = [] := by simpa using hlen
    obtain ⟨a, ha, _⟩ := hu; simp at ha
  | cons I Ls ih =>
    obtain _ | ⟨u, us⟩ := us
    · simp at hlen
    obtain ⟨hp1, hp2⟩ := List.pairwise_cons.mp hp
    have hI := (hs I (by simp)).1
    have hIl := (hs I (by simp)).2
    rcases zmod2_cases u with h0 | h1
    · have : rmWord mu (u :: us) (I :: Ls) = rmWord mu us Ls := by
        funext j; simp [rmWord, h0]
      rw [this]
      apply ih us (by simpa using hlen) (fun J hJ => hs J (by simp [hJ])) hp2
      obtain ⟨a, ha, hne⟩ := hu
      rcases List.mem_cons.mp ha with rfl | ha
      · exact absurd h0 hne
      · exact ⟨a, ha, hne⟩
    · have hle := countP_chk_le hI (rmWord mu (u :: us) (I :: Ls))
      have : ((reedPartition mu I.length I).countP fun row => chk (rmWord mu (u :: us) (I :: Ls)) row ≠ 0) =
          (reedPartition mu I.length I).length := by
        rw [List.countP_eq_length]
        intro row hrow
        rw [chk_lead u us Ls (fun J hJ => (hs J hJ).1) hp1 hrow, h1]
        decide
      rw [this, partition_length hI] at hle
      exact le_trans (Nat.pow_le_pow_right (by omega) (by omega)) hle

theorem rm_independent : LinearIndependent (ZMod 2) (rmGenerator rho mu) := by
  rw [Fintype.linearIndependent_iff]
  intro g hg
  by_contra hc
  push Not at hc
  obtain ⟨i, hi⟩ := hc
  have hw : rmWord mu (List.ofFn g) (rmLists rho mu) = 0 := by
    rw [← rm_encode]
    funext j
    have := congrFun hg j
    simpa [Finset.sum_apply] using this
  have hlen : (List.ofFn g).length = (rmLists rho mu).length := by
    rw [List.length_ofFn, rmRows_eq, List.length_map]
  have := rmWord_norm (rho := rho) (mu := mu) _ _ hlen (fun J hJ => (mem_rmLists J).mp hJ) rmLists_pairwise
    ⟨g i, by simp, hi⟩
  rw [hw, hammingNorm_zero] at this
  have : 0 < 2 ^ (mu - rho) := by positivity
  omega

theorem mon_eq_ite (R : Type) [CommSemiring R] (J : Finset Nat) (x : Nat) :
    mon R J x = if ∀ i ∈ J, x.testBit i = true then 1 else 0 := by
  rw [mon]
  split
  · rename_i h
    exact Finset.prod_eq_one fun i hi => by simp [h i hi]
  · rename_i h
    push Not at h
    obtain ⟨i, hi, hx⟩ := h
    exact Finset.prod_eq_zero hi (by simp [hx])

theorem rmRow_norm {I : List Nat} (hI : I.Sublist (List.range mu)) :
    hammingNorm (rmRow mu I) = 2 ^ (mu - I.length) := by
  have hnd := List.nodup_range.sublist hI
  have h1 : hammingNorm (rmRow mu I) = ∑ x ∈ Finset.range (2 ^ mu), mon ℕ I.toFinset x := by
    rw [hammingNorm, Finset.card_filter, Finset.sum_range]
    apply Finset.sum_congr rfl
    intro j _
    rw [rmRow_apply hI, mon_eq_ite, mon_eq_ite]
    split <;> simp
  have h2 := sumS_mon (R := ℕ) (List.range mu) List.nodup_range I.toFinset 0 (by simp)
  have h3 : I.toFinset \ (List.range mu).toFinset = ∅ := by
    rw [Finset.sdiff_eq_empty_iff_subset]
    intro x hx
    exact List.mem_toFinset.mpr (hI.subset (List.mem_toFinset.mp hx))
  have h4 : ((List.range mu).toFinset \ I.toFinset).card = mu - I.length := by
    rw [Finset.card_sdiff_of_subset (Finset.sdiff_eq_empty_iff_subset.mp h3), List.toFinset_card_of_nodup hnd,
      List.toFinset_card_of_nodup List.nodup_range, List.length_range]
  simp only [add_zero] at h2
  rw [h1, ← sumS_range, h2, h3, h4, mon_empty, mul_one]

theorem rmRow_orth {I J : List Nat} (hI : I.Sublist (List.range mu)) (hJ : J.Sublist (List.range mu))
    (hl : I.length + J.length < mu) : ∑ j, rmRow mu I j * rmRow mu J j = 0 := by
  have h1 : ∀ j : Fin (2 ^ mu), rmRow mu I j * rmRow mu J j = mon (ZMod 2) (I.toFinset ∪ J.toFinset) j := by
    intro j
    rw [rmRow_apply hI, rmRow_apply hJ, mon_eq_ite, mon_eq_ite, mon_eq_ite]
    simp only [Finset.mem_union, or_imp, forall_and]
    by_cases a : ∀ i ∈ I.toFinset, (j : Nat).testBit i = true
    · by_cases b : ∀ i ∈ J.toFinset, (j : Nat).testBit i = true
      · rw [if_pos a, if_pos b, if_pos ⟨a, b⟩, mul_one]
      · rw [if_neg b, mul_zero, if_neg fun h => b h.2]
    · rw [if_neg a, zero_mul, if_neg fun h => a h.1]
  have h2 := sumS_mon (R := ZMod 2) (List.range mu) List.nodup_range (I.toFinset ∪ J.toFinset) 0 (by simp)
  simp only [add_zero] at h2
  rw [sumS_range, Finset.sum_range] at h2
  rw [Finset.sum_congr rfl fun j _ => h1 j, h2]
  have : ((List.range mu).toFinset \ (I.toFinset ∪ J.toFinset)).card ≠ 0 := by
    have h3 := Finset.le_card_sdiff (I.toFinset ∪ J.toFinset) (List.range mu).toFinset
    have h4 := Finset.card_union_le I.toFinset J.toFinset
    have h5 := I.toFinset_card_le
    have h6 := J.toFinset_card_le
    rw [List.toFinset_card_of_nodup List.nodup_range, List.length_range] at h3
    omega
  rw [show (2 : ZMod 2) = 0 from rfl, zero_pow this, zero_mul]

theorem rmDim_add (h : rho < mu) :
    (rmRows rho mu).length + (rmRows (mu - rho - 1) mu).length = 2 ^ mu := by
  rw [rmRows_length, rmRows_length, ← Nat.sum_range_choose]
  have h1 : mu + 1 = rho + 1 + (mu - rho) := by omega
  have h2 : mu - rho - 1 + 1 = mu - rho := by omega
  rw [h1, h2, Finset.sum_range_add _ (rho + 1)]
  congr 1
  rw [← Finset.sum_range_reflect]
  apply Finset.sum_congr rfl
  intro i hi
  rw [Finset.mem_range] at hi
  rw [← Nat.choose_symm (by omega)]
  congr 1
  omega

/-- Two orthogonal codes of complementary dimensions are dual to each other. -/
theorem dual_of_orth {k m k' m' n : Nat} (c : LinCode k m n) (c' : LinCode k' m' n) (h : c.Lawful) (h' : c'.Lawful)
    (hG : LinearIndependent (ZMod 2) c.generator) (hk : k + k' = n)
    (horth : ∀ i i', ∑ j, c'.generator i' j * c.generator i j = 0) (v : BVec n) :
    (∀ u, ∑ j, v j * c.encode u j = 0) ↔ ∃ u', c'.encode u' = v := by
  classical
  have hsub : ∀ u' i, ∑ j, c.generator i j * c'.encode u' j = 0 := by
    intro u' i
    simp only [h'.encode_eq, Finset.mul_sum]
    rw [Finset.sum_comm]
    apply Finset.sum_eq_zero
    intro i' _
    have h1 := horth i i'
    have : ∑ j, c.generator i j * (u' i' * c'.generator i' j) = u' i' * ∑ j, c'.generator i' j * c.generator i j := by
      rw [Finset.mul_sum]; apply Finset.sum_congr rfl; intro j _; ring
    rw [this, h1, mul_zero]
  obtain ⟨d, _, _, _, hd, hcw⟩ := ofCheck_lawful' c.generator hG
  have key : Finset.univ.image c'.encode = Finset.univ.image d.encode := by
    apply Finset.eq_of_subset_of_card_le
    · intro w hw
      simp only [Finset.mem_image, Finset.mem_univ, true_and] at hw ⊢
      obtain ⟨u', rfl⟩ := hw
      exact (hcw _).mpr (hsub u')
    · rw [Finset.card_image_of_injective _ hd.encode_injective, Finset.card_image_of_injective _ h'.encode_injective]
      simp only [Finset.card_univ, Fintype.card_fun, ZMod.card, Fintype.card_fin]
      exact Nat.pow_le_pow_right (by omega) (by omega)
  have hmem : (∃ u', c'.encode u' = v) ↔ ∀ i, ∑ j, c.generator i j * v j = 0 := by
    rw [← hcw]
    have := Finset.ext_iff.mp key v
    simpa using this
  rw [hmem]
  constructor
  · intro hv i
    rw [← hv (Pi.single i 1)]
    apply Finset.sum_congr rfl
    intro j _
    rw [h.encode_eq, Finset.sum_eq_single i (fun b _ hb => by rw [Pi.single_eq_of_ne hb, zero_mul]) (by simp),
      Pi.single_eq_same, one_mul, mul_comm]
  · intro hv u
    simp only [h.encode_eq, Finset.mul_sum]
    rw [Finset.sum_comm]
    apply Finset.sum_eq_zero
    intro i _
    have : ∑ j, v j * (u i * c.generator i j) = u i * ∑ j, c.generator i j * v j := by
      rw [Finset.mul_sum]; apply Finset.sum_congr rfl; intro j _; ring
    rw [this, hv, mul_zero]

/-! ### the soft loop -/

theorem listMin_const (a : ℚ) : ∀ l : List ℚ, l ≠ [] → (∀ x ∈ l, x = a) → listMin l = a
  | [], h, _ => absurd rfl h
  | [x], _, h => h x (by simp)
  | x :: y :: l, _, h => by
    rw [listMin, listMin_const a (y :: l) (by simp) (fun z hz => h z (by simp [hz])), h x (by simp), min_self]

theorem listMin_pos : ∀ l : List ℚ, l ≠ [] → (∀ x ∈ l, 0 < x) → 0 < listMin l
  | [], h, _ => absurd rfl h
  | [x], _, h => h x (by simp)
  | x :: y :: l, _, h =>
    lt_min (h x (by simp)) (listMin_pos (y :: l) (by simp) (fun z hz => h z (by simp [hz])))

/-- The reliabilities of one partition. -/
def reliab {n : Nat} (r : Fin n → ℚ) (P : List (List Nat)) : List ℚ :=
  P.map fun row => listMin (row.map fun j => if h : j < n then |r ⟨j, h⟩| else 0)

/-- The decision variable of one partition. -/
def decVar (cs : List Nat) (ws : List ℚ) : ℚ :=
  (List.zipWith (fun (c : Nat) w => (1 - 2 * (c : ℚ)) * w) cs ws).sum

theorem reedSoftLoop_cons {n : Nat} (r : Fin n → ℚ) (bx : BVec n) (P : List (List Nat)) (g : BVec n)
    (rest : List (List (List Nat) × BVec n)) :
    reedSoftLoop r bx ((P, g) :: rest) =
      (if decVar (reedChecksums bx P) (reliab r P) < 0 then 1 else 0) ::
        reedSoftLoop r (fun j => bx j + (if decVar (reedChecksums bx P) (reliab r P) < 0 then 1 else 0) * g j) rest := rfl

theorem decVar_const (a : ℚ) (cs : List Nat) (hcs : ∀ c ∈ cs, c = 0 ∨ c = 1) (ws : List ℚ) (hlen : ws.length = cs.length)
    (hw : ∀ w ∈ ws, w = a) : decVar cs ws = a * ((cs.length : ℚ) - 2 * (cs.countP (· ≠ 0) : ℕ)) := by
  induction cs generalizing ws with
  | nil => simp [decVar]
  | cons c cs ih =>
    obtain _ | ⟨w, ws⟩ := ws
    · simp at hlen
    have := ih (fun d hd => hcs d (by simp [hd])) ws (by simpa using hlen) fun x hx => hw x (by simp [hx])
    unfold decVar at this ⊢
    rw [List.zipWith_cons_cons, List.sum_cons, this, hw w (by simp)]
    rcases hcs c (by simp) with rfl | rfl
    · simp; ring
    · simp; ring

theorem decVar_sign (u : Nat) (cs : List Nat) (hcs : ∀ c ∈ cs, c = u) (ws : List ℚ) (hlen : ws.length = cs.length)
    (hw : ∀ w ∈ ws, 0 < w) : decVar cs ws = (1 - 2 * (u : ℚ)) * ws.sum := by
  induction cs generalizing ws with
  | nil =>
    obtain rfl : ws = [] := by simpa using hlen
    simp [decVar]
  | cons c cs ih =>
    obtain _ | ⟨w, ws⟩ := ws
    · simp at hlen
    have := ih (fun d hd => hcs d (by simp [hd])) ws (by simpa using hlen) fun x hx => hw x (by simp [hx])
    unfold decVar at this ⊢
    rw [List.zipWith_cons_cons, List.sum_cons, this, hcs c (by simp), List.sum_cons]
    ring

variable {I : List Nat}

theorem partition_row_ne_nil {ell : Nat} {row : List Nat} (hrow : row ∈ reedPartition mu ell I) : row ≠ [] := by
  unfold reedPartition at hrow
  obtain ⟨q, _, rfl⟩ := List.mem_map.mp hrow
  have : 0 < 2 ^ ell := by positivity
  intro e
  have := congrArg List.length e
  simp [scatterAll] at this

theorem reliab_const (hI : I.Sublist (List.range mu)) (a : ℚ) (r : Fin (2 ^ mu) → ℚ) (hr : ∀ j, |r j| = a) :
    ∀ w ∈ reliab r (reedPartition mu I.length I), w = a := by
  intro w hw
  obtain ⟨row, hrow, rfl⟩ := List.mem_map.mp hw
  apply listMin_const _ _ (by simpa using partition_row_ne_nil hrow)
  intro x hx
  obtain ⟨j, hj, rfl⟩ := List.mem_map.mp hx
  rw [dif_pos (partition_lt hI hrow hj), hr]

theorem reliab_pos (hI : I.Sublist (List.range mu)) (r : Fin (2 ^ mu) → ℚ) (hr : ∀ j, r j ≠ 0) :
    ∀ w ∈ reliab r (reedPartition mu I.length I), 0 < w := by
  intro w hw
  obtain ⟨row, hrow, rfl⟩ := List.mem_map.mp hw
  apply listMin_pos _ (by simpa using partition_row_ne_nil hrow)
  intro x hx
  obtain ⟨j, hj, rfl⟩ := List.mem_map.mp hx
  rw [dif_pos (partition_lt hI hrow hj)]
  exact abs_pos.mpr (hr _)

theorem reedSoftLoop_const (a : ℚ) (ha : 0 < a) (r : Fin (2 ^ mu) → ℚ) (hr : ∀ j, |r j| = a) (Ls : List (List Nat))
    (hs : ∀ J ∈ Ls, J.Sublist (List.range mu)) (bx : BVec (2 ^ mu)) :
    reedSoftLoop r bx (rmPairs mu Ls) = reedHardLoop bx (rmPairs mu Ls) := by
  induction Ls generalizing bx with
  | nil => rfl
  | cons I Ls ih =>
    have hI := hs I (by simp)
    have hu : (if decVar (reedChecksums bx (reedPartition mu I.length I)) (reliab r (reedPartition mu I.length I)) < 0
          then (1 : ZMod 2) else 0) =
        if (reedChecksums bx (reedPartition mu I.length I)).countP (· ≠ 0) >
          (reedChecksums bx (reedPartition mu I.length I)).length / 2 then 1 else 0 := by
      rw [decVar_const a _ ?_ _ ?_ (reliab_const hI a r hr)]
      · generalize (reedChecksums bx (reedPartition mu I.length I)).countP (· ≠ 0) = x
        generalize (reedChecksums bx (reedPartition mu I.length I)).length = y
        have : a * ((y : ℚ) - 2 * (x : ℕ)) < 0 ↔ x > y / 2 := by
          rw [mul_neg_iff]
          constructor
          · rintro (⟨_, h⟩ | ⟨h, _⟩)
            · have h' : (y : ℚ) < 2 * (x : ℚ) := by linarith
              have : y < 2 * x := by exact_mod_cast h'
              omega
            · linarith
          · intro h
            left
            have h1 : y < 2 * x := by omega
            have : (y : ℚ) < 2 * (x : ℚ) := by exact_mod_cast h1
            exact ⟨ha, by linarith⟩
        by_cases h : x > y / 2
        · rw [if_pos h, if_pos (this.mpr h)]
        · rw [if_neg h, if_neg fun h' => h (this.mp h')]
      · intro c hc
        obtain ⟨row, _, rfl⟩ := List.mem_map.mp hc
        omega
      · simp [reliab, reedChecksums]
    rw [rmPairs, List.map_cons, reedSoftLoop_cons, hu, reedHardLoop]
    exact congrArg _ (ih (fun J hJ => hs J (by simp [hJ])) _)

theorem reedSoftLoop_clean (r : Fin (2 ^ mu) → ℚ) (hr : ∀ j, r j ≠ 0) (Ls : List (List Nat)) (us : List (ZMod 2))
    (hlen : us.length = Ls.length) (hs : ∀ J ∈ Ls, J.Sublist (List.range mu)) (hp : Ls.Pairwise fun I J => ¬ I ⊆ J) :
    reedSoftLoop r (rmWord mu us Ls) (rmPairs mu Ls) = us := by
  induction Ls generalizing us with
  | nil => cases us with
    | nil => rfl
    | cons _ _ => simp at hlen
  | cons I Ls ih =>
    obtain _ | ⟨u, us⟩ := us
    · simp at hlen
    obtain ⟨hp1, hp2⟩ := List.pairwise_cons.mp hp
    have hI := hs I (by simp)
    have hu : (if decVar (reedChecksums (rmWord mu (u :: us) (I :: Ls)) (reedPartition mu I.length I))
        (reliab r (reedPartition mu I.length I)) < 0 then (1 : ZMod 2) else 0) = u := by
      have hpos := reliab_pos hI r hr
      rw [decVar_sign u.val _ ?_ _ ?_ hpos]
      · have hne : reliab r (reedPartition mu I.length I) ≠ [] := by
          intro e
          have := congrArg List.length e
          simp [reliab, partition_length hI] at this
        have : 0 < (reliab r (reedPartition mu I.length I)).sum := List.sum_pos _ hpos hne
        rcases zmod2_cases u with h | h
        · subst h; rw [if_neg]; simp; exact this.le
        · subst h; rw [if_pos]
          rw [show ((1 : ZMod 2).val : ℚ) = 1 by rw [show (1 : ZMod 2).val = 1 from rfl]; rfl]
          linarith
      · intro c hc
        obtain ⟨row, hrow, rfl⟩ := List.mem_map.mp hc
        have h1 := chk_lead u us Ls hs hp1 hrow
        have h2 := mod_two_ne (row.countP fun j => vget (rmWord mu (u :: us) (I :: Ls)) j ≠ 0)
        rw [cast_countP] at h2
        change _ ↔ chk (rmWord mu (u :: us) (I :: Ls)) row ≠ 0 at h2
        rw [h1] at h2
        rcases zmod2_cases u with h | h
        · rw [zmod2_val, if_pos h]
          by_contra hc
          exact h2.mp hc h
        · rw [zmod2_val, if_neg (by rw [h]; decide)]
          have := h2.mpr (by rw [h]; decide)
          omega
      · simp [reliab, reedChecksums]
    rw [rmPairs, List.map_cons, reedSoftLoop_cons, hu]
    congr 1
    refine Eq.trans ?_ (ih us (by simpa using hlen) (fun J hJ => hs J (by simp [hJ])) hp2)
    have : (fun j => rmWord mu (u :: us) (I :: Ls) j + u * rmRow mu I j) = rmWord mu us Ls := by
      funext j
      simp only [rmWord, Pi.add_apply]
      have := CharTwo.add_self_eq_zero (u * rmRow mu I j)
      linear_combination this
    rw [this]
    rfl

/-! ### errors and reliabilities -/

/-- Any loop whose decisions are right when the earlier ones are returns the message. -/
theorem reed_loop_generic (dec : BVec (2 ^ mu) → List (List Nat) → ZMod 2) (loop : BVec (2 ^ mu) → List (List (List Nat) × BVec (2 ^ mu)) → List (ZMod 2))
    (hnil : ∀ bx, loop bx [] = []) (hcons : ∀ bx P g rest, loop bx ((P, g) :: rest) = dec bx P :: loop (fun j => bx j + dec bx P * g j) rest) (e : BVec (2 ^ mu))
    (Ls : List (List Nat)) (us : List (ZMod 2)) (hlen : us.length = Ls.length) (hs : ∀ J ∈ Ls, J.Sublist (List.range mu)) (hp : Ls.Pairwise fun I J => ¬ I ⊆ J)
    (hdec : ∀ I ∈ Ls, ∀ (bx : BVec (2 ^ mu)) (u : ZMod 2), (∀ row ∈ reedPartition mu I.length I, chk bx row = u + chk e row) → dec bx (reedPartition mu I.length I) = u) :
    loop (rmWord mu us Ls + e) (rmPairs mu Ls) = us := by
  induction Ls generalizing us with
  | nil => cases us with
    | nil => exact hnil _
    | cons _ _ => simp at hlen
  | cons I Ls ih =>
    obtain _ | ⟨u, us⟩ := us
    · simp at hlen
    obtain ⟨hp1, hp2⟩ := List.pairwise_cons.mp hp
    have hd := hdec I (by simp) (rmWord mu (u :: us) (I :: Ls) + e) u (by
      intro row hrow
      rw [chk_add, chk_lead u us Ls hs hp1 hrow])
    rw [rmPairs, List.map_cons, hcons, hd]
    congr 1
    refine Eq.trans ?_ (ih us (by simpa using hlen) (fun J hJ => hs J (by simp [hJ])) hp2 fun J hJ => hdec J (by simp [hJ]))
    have : (fun j => (rmWord mu (u :: us) (I :: Ls) + e) j + u * rmRow mu I j) = rmWord mu us Ls + e := by
      funext j
      simp only [rmWord, Pi.add_apply]
      have := CharTwo.add_self_eq_zero (u * rmRow mu I j)
      linear_combination this
    rw [this]
    rfl

/-- The weighted majority of one partition: `w` is the smallest reliability of a row, `e` marks the errors, `m` bounds the reliabilities of the other positions from below. -/
theorem row_margin {K : Type} [Field K] [LinearOrder K] [IsStrictOrderedRing K] (hI : I.Sublist (List.range mu)) (ρ : Nat → K) (hρ : ∀ x, 0 ≤ ρ x) (e : BVec (2 ^ mu)) (m δ : K)
    (hδ : 0 ≤ δ) (hδ' : δ ≤ 1) (hm : 0 ≤ m) (hgood : ∀ x < 2 ^ mu, vget e x = 0 → m ≤ ρ x) (w : List Nat → K)
    (hw : ∀ row ∈ reedPartition mu I.length I, (∀ x ∈ row, w row ≤ ρ x) ∧ ∃ x ∈ row, w row = ρ x) :
    (1 - δ) * m * 2 ^ (mu - I.length) - ∑ x ∈ Finset.range (2 ^ mu), (if vget e x = 0 then 0 else (1 - δ) * m + (1 + δ) * ρ x) ≤
      ((reedPartition mu I.length I).map fun row => if chk e row = 0 then (1 - δ) * w row else -((1 + δ) * w row)).sum := by
  have hrow : ∀ row ∈ reedPartition mu I.length I, (1 - δ) * m - (row.map fun x => if vget e x = 0 then 0 else (1 - δ) * m + (1 + δ) * ρ x).sum ≤
      if chk e row = 0 then (1 - δ) * w row else -((1 + δ) * w row) := by
    intro row hrow
    obtain ⟨w1, x0, hx0, w2⟩ := hw row hrow
    have hw0 : 0 ≤ w row := by rw [w2]; exact hρ x0
    have hm' : 0 ≤ (1 - δ) * m := mul_nonneg (by linarith) hm
    by_cases herr : ∃ x ∈ row, vget e x ≠ 0
    · obtain ⟨x, hx, hxe⟩ := herr
      have hsum : (1 - δ) * m + (1 + δ) * ρ x ≤ (row.map fun x => if vget e x = 0 then 0 else (1 - δ) * m + (1 + δ) * ρ x).sum := by
        refine le_trans ?_ (List.single_le_sum ?_ _ (List.mem_map_of_mem hx))
        · rw [if_neg hxe]
        · intro y hy
          obtain ⟨z, _, rfl⟩ := List.mem_map.mp hy
          split
          · exact le_rfl
          · exact add_nonneg hm' (mul_nonneg (by linarith) (hρ z))
      have h1 : (1 + δ) * w row ≤ (1 + δ) * ρ x := mul_le_mul_of_nonneg_left (w1 x hx) (by linarith)
      split
      · have : 0 ≤ (1 - δ) * w row := mul_nonneg (by linarith) hw0
        have : 0 ≤ (1 + δ) * ρ x := mul_nonneg (by linarith) (hρ x)
        linarith
      · linarith
    · have herr' : ∀ x ∈ row, vget e x = 0 := by
        intro x hx
        by_contra h
        exact herr ⟨x, hx, h⟩
      have hc : chk e row = 0 := by
        unfold chk
        apply List.sum_eq_zero
        intro y hy
        obtain ⟨x, hx, rfl⟩ := List.mem_map.mp hy
        exact herr' x hx
      rw [if_pos hc]
      have hsum : (row.map fun x => if vget e x = 0 then 0 else (1 - δ) * m + (1 + δ) * ρ x).sum = 0 := by
        apply List.sum_eq_zero
        intro y hy
        obtain ⟨x, hx, rfl⟩ := List.mem_map.mp hy
        rw [if_pos (herr' x hx)]
      rw [hsum, sub_zero, w2]
      exact mul_le_mul_of_nonneg_left (hgood x0 (partition_lt hI hrow hx0) (herr' x0 hx0)) (by linarith)
  have h1 := List.sum_le_sum (l := reedPartition mu I.length I) hrow
  refine le_trans (le_of_eq ?_) h1
  have hp : (2 : K) ^ (mu - I.length) = ((reedPartition mu I.length I).length : K) := by
    rw [partition_length hI]; push_cast; rfl
  rw [← partition_sum hI, hp]
  generalize reedPartition mu I.length I = P
  induction P with
  | nil => simp
  | cons a P ih =>
    have : (((a :: P).length : Nat) : K) = P.length + 1 := by push_cast [List.length_cons]; ring
    rw [this, List.map_cons, List.map_cons, List.sum_cons, List.sum_cons, ← ih]
    ring

/-- The sign of a bit. -/
theorem checksum_zero_iff {n : Nat} (w : BVec n) (row : List Nat) : (row.countP fun j => vget w j ≠ 0) % 2 = 0 ↔ chk w row = 0 := by
  have h := mod_two_ne (row.countP fun j => vget w j ≠ 0)
  rw [cast_countP] at h
  change _ ↔ chk w row ≠ 0 at h
  exact not_iff_not.mp h

/-- The votes of the rows, up to the sign of the bit that is being decided. -/
theorem vote_sum {K : Type} [Field K] {n : Nat} (bx e : BVec n) (u : ZMod 2) (P : List (List Nat)) (h : ∀ row ∈ P, chk bx row = u + chk e row) (w : List Nat → K) :
    (List.zipWith (fun (c : Nat) (x : K) => if c = 0 then x else -x) (reedChecksums bx P) (P.map w)).sum =
      (if u = 0 then 1 else -1) * (P.map fun row => if chk e row = 0 then w row else -w row).sum := by
  induction P with
  | nil => simp [reedChecksums]
  | cons row P ih =>
    have ih := ih fun r hr => h r (by simp [hr])
    have h1 := h row (by simp)
    unfold reedChecksums at ih ⊢
    rw [List.map_cons, List.map_cons, List.zipWith_cons_cons, List.sum_cons, ih, List.map_cons, List.sum_cons, mul_add]
    congr 1
    rw [if_congr (checksum_zero_iff bx row) rfl rfl, h1]
    rcases zmod2_cases u with rfl | rfl <;> rcases zmod2_cases (chk e row) with h2 | h2 <;> rw [h2]
    · simp
    · simp
    · simp
    · rw [if_pos (by decide), if_neg (by decide), if_neg (by decide)]; ring

/-- The positions in error cost their own reliability and that of a position that they cancel. -/
theorem margin_pos {K : Type} [Field K] [LinearOrder K] [IsStrictOrderedRing K] {rho : Nat} (hI : I.Sublist (List.range mu)) (hl : I.length ≤ rho) (ρ : Nat → K)
    (hρ : ∀ x, 0 ≤ ρ x) (e : BVec (2 ^ mu)) (m δ : K) (hδ : 0 ≤ δ) (hδ' : δ ≤ 1) (hm : 0 ≤ m) (hgood : ∀ x < 2 ^ mu, vget e x = 0 → m ≤ ρ x) (w : List Nat → K)
    (hw : ∀ row ∈ reedPartition mu I.length I, (∀ x ∈ row, w row ≤ ρ x) ∧ ∃ x ∈ row, w row = ρ x)
    (hlt : ∑ j : Fin (2 ^ mu), (if e j = 0 then 0 else (1 - δ) * m + (1 + δ) * ρ j) < (1 - δ) * m * 2 ^ (mu - rho)) :
    0 < ((reedPartition mu I.length I).map fun row => if chk e row = 0 then (1 - δ) * w row else -((1 + δ) * w row)).sum := by
  refine lt_of_lt_of_le ?_ (row_margin hI ρ hρ e m δ hδ hδ' hm hgood w hw)
  have h1 : (1 - δ) * m * 2 ^ (mu - rho) ≤ (1 - δ) * m * 2 ^ (mu - I.length) :=
    mul_le_mul_of_nonneg_left (pow_le_pow_right₀ (by norm_num) (by omega)) (mul_nonneg (by linarith) hm)
  have h2 : ∑ x ∈ Finset.range (2 ^ mu), (if vget e x = 0 then 0 else (1 - δ) * m + (1 + δ) * ρ x) =
      ∑ j : Fin (2 ^ mu), (if e j = 0 then 0 else (1 - δ) * m + (1 + δ) * ρ j) := by
    rw [Finset.sum_range]
    apply Finset.sum_congr rfl
    intro j _
    simp [vget]
  rw [h2]
  linarith

end Komm
