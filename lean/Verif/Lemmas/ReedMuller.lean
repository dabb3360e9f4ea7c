import Verif.Model.ReedMuller
import Verif.Lemmas.Hamming
import Mathlib.Algebra.BigOperators.Intervals
import Mathlib.Algebra.CharP.Two

namespace Komm

/-! ### bits of sums of powers of two -/

theorem testBit_add_two_pow : ∀ (i q j : Nat), q.testBit i = false →
    (q + 2 ^ i).testBit j = (q.testBit j || decide (i = j)) := by
  intro i
  induction i with
  | zero =>
    intro q j h
    have h0 : q % 2 = 0 := by
      rw [Nat.testBit_zero] at h; simp at h; omega
    cases j with
    | zero => simp [Nat.testBit_zero, h0]; omega
    | succ j =>
      rw [Nat.testBit_add_one, Nat.testBit_add_one]
      have : (q + 2 ^ 0) / 2 = q / 2 := by simp; omega
      rw [this]; simp
  | succ i ih =>
    intro q j h
    rw [Nat.testBit_add_one] at h
    cases j with
    | zero =>
      rw [Nat.testBit_zero, Nat.testBit_zero, pow_succ]
      have : (q + 2 ^ i * 2) % 2 = q % 2 := by omega
      rw [this]; simp
    | succ j =>
      rw [Nat.testBit_add_one, Nat.testBit_add_one]
      have : (q + 2 ^ (i + 1)) / 2 = q / 2 + 2 ^ i := by rw [pow_succ]; omega
      rw [this, ih _ _ h]; simp

/-! ### sums over all subset sums -/

section sumS
variable {M : Type} [AddCommMonoid M]

/-- Sum of `f` over the sums of `2 ^ i` over all subsets of a list. -/
def sumS (f : Nat → M) : List Nat → M
  | [] => f 0
  | i :: L => sumS f L + sumS (fun x => f (x + 2 ^ i)) L

theorem sumS_add (f g : Nat → M) (L : List Nat) : sumS (fun x => f x + g x) L = sumS f L + sumS g L := by
  induction L generalizing f g with
  | nil => rfl
  | cons i L ih => simp only [sumS, ih]; abel

theorem sumS_zero (L : List Nat) : sumS (fun _ => (0 : M)) L = 0 := by
  induction L with
  | nil => rfl
  | cons i L ih => simp [sumS, ih]

theorem sumS_perm {L L' : List Nat} (h : L.Perm L') (f : Nat → M) : sumS f L = sumS f L' := by
  induction h generalizing f with
  | nil => rfl
  | cons i _ ih => simp only [sumS, ih]
  | swap i j L =>
    simp only [sumS]
    have : ∀ x, x + 2 ^ i + 2 ^ j = x + 2 ^ j + 2 ^ i := fun x => by omega
    simp only [this]; abel
  | trans _ _ ih1 ih2 => rw [ih1, ih2]

theorem sumS_append (E I : List Nat) (f : Nat → M) :
    sumS (fun q => sumS (fun s => f (s + q)) I) E = sumS f (E ++ I) := by
  induction E generalizing f with
  | nil => simp [sumS]
  | cons i E ih =>
    simp only [sumS, List.cons_append]
    rw [ih f, ← ih fun x => f (x + 2 ^ i)]
    simp only [add_assoc]

theorem sumS_range (mu : Nat) (f : Nat → M) : sumS f (List.range mu) = ∑ x ∈ Finset.range (2 ^ mu), f x := by
  induction mu generalizing f with
  | zero => simp [sumS]
  | succ mu ih =>
    rw [List.range_succ, sumS_perm (List.perm_append_singleton mu (List.range mu)), sumS, ih, ih, pow_succ, mul_two,
      Finset.sum_range_add]
    simp only [Nat.add_comm]

theorem sum_range_two_mul (f : Nat → M) (N : Nat) :
    ∑ a ∈ Finset.range (2 * N), f a = ∑ a ∈ Finset.range N, (f (2 * a) + f (2 * a + 1)) := by
  induction N with
  | zero => simp
  | succ N ih => rw [mul_add, mul_one, Finset.sum_range_succ, Finset.sum_range_succ, ih, Finset.sum_range_succ, add_assoc]

theorem dotPow_cons (a i : Nat) (L : List Nat) :
    dotPow (intToBits .lsbFirst a (L.length + 1)) (i :: L) =
      a % 2 * 2 ^ i + dotPow (intToBits .lsbFirst (a / 2) L.length) L := by
  have : intToBits .lsbFirst a (L.length + 1) = a % 2 :: intToBits .lsbFirst (a / 2) L.length := by
    unfold intToBits
    rw [List.range_succ_eq_map]
    simp only [List.map_cons, List.map_map, Nat.shiftRight_zero, List.cons.injEq, true_and]
    apply List.map_congr_left
    intro x _
    simp only [Function.comp]
    rw [Nat.succ_eq_add_one, Nat.add_comm, Nat.shiftRight_add, Nat.shiftRight_one]
  rw [this]
  simp [dotPow]

theorem sum_scatter (L : List Nat) (f : Nat → M) :
    ((scatterAll L.length L).map f).sum = sumS f L := by
  have key : ∑ a ∈ Finset.range (2 ^ L.length), f (dotPow (intToBits .lsbFirst a L.length) L) = sumS f L := by
    induction L generalizing f with
    | nil => simp [sumS, dotPow]
    | cons i L ih =>
      rw [List.length_cons, pow_succ, mul_comm, sum_range_two_mul, Finset.sum_add_distrib, sumS, ← ih, ← ih]
      congr 1
      · apply Finset.sum_congr rfl
        intro a _
        rw [dotPow_cons]
        congr 1
        rw [Nat.mul_mod_right, Nat.mul_div_cancel_left _ (by omega)]; omega
      · apply Finset.sum_congr rfl
        intro a _
        rw [dotPow_cons]
        congr 1
        have h1 : (2 * a + 1) % 2 = 1 := by omega
        have h2 : (2 * a + 1) / 2 = a := by omega
        rw [h1, h2]; omega
  rw [← key]
  unfold scatterAll
  rw [List.map_map]
  rfl

end sumS

/-! ### monomials -/

section mon
variable {R : Type} [CommSemiring R]

/-- The monomial `∏_{i ∈ J} x_i` on the binary digits of `x`. -/
def mon (R : Type) [CommSemiring R] (J : Finset Nat) (x : Nat) : R := ∏ i ∈ J, if x.testBit i then 1 else 0

theorem mon_empty (x : Nat) : mon R ∅ x = 1 := by simp [mon]

theorem mon_eq_zero {J : Finset Nat} {i x : Nat} (hi : i ∈ J) (hx : x.testBit i = false) : mon R J x = 0 :=
  Finset.prod_eq_zero hi (by simp [hx])

theorem mon_add_notMem {J : Finset Nat} {i q : Nat} (hi : i ∉ J) (hq : q.testBit i = false) :
    mon R J (q + 2 ^ i) = mon R J q := by
  apply Finset.prod_congr rfl
  intro j hj
  have : i ≠ j := fun e => hi (e ▸ hj)
  rw [testBit_add_two_pow _ _ _ hq]
  simp [this]

theorem mon_add_mem {J : Finset Nat} {i q : Nat} (hi : i ∈ J) (hq : q.testBit i = false) :
    mon R J (q + 2 ^ i) = mon R (J.erase i) q := by
  rw [mon, ← Finset.mul_prod_erase _ _ hi, testBit_add_two_pow _ _ _ hq]
  simp only [decide_true, Bool.or_true, if_true, one_mul]
  exact mon_add_notMem (by simp) hq

theorem sumS_mon (I : List Nat) (hI : I.Nodup) (J : Finset Nat) (q : Nat) (hq : ∀ i ∈ I, q.testBit i = false) :
    sumS (fun s => mon R J (s + q)) I = 2 ^ (I.toFinset \ J).card * mon R (J \ I.toFinset) q := by
  induction I generalizing q with
  | nil => simp [sumS]
  | cons i L ih =>
    obtain ⟨hi, hL⟩ := List.nodup_cons.mp hI
    have hqi := hq i (by simp)
    have h1 := ih hL q fun j hj => hq j (by simp [hj])
    have h2 := ih hL (q + 2 ^ i) fun j hj => by
      rw [testBit_add_two_pow _ _ _ hqi, hq j (by simp [hj])]
      simp; rintro rfl; exact hi hj
    rw [sumS, h1]
    have : ∀ x, x + 2 ^ i + q = x + (q + 2 ^ i) := fun x => by omega
    simp only [this]
    rw [h2]
    by_cases hJ : i ∈ J
    · have hm : i ∈ J \ L.toFinset := by simp [hJ, hi]
      rw [mon_eq_zero hm hqi, mon_add_mem hm hqi, mul_zero, zero_add]
      congr 2
      · congr 1; ext x; simp only [List.toFinset_cons, Finset.mem_sdiff, Finset.mem_insert, List.mem_toFinset]
        constructor
        · rintro ⟨a, b⟩; exact ⟨Or.inr a, b⟩
        · rintro ⟨rfl | a, b⟩
          · exact absurd hJ b
          · exact ⟨a, b⟩
      · ext x; simp only [List.toFinset_cons, Finset.mem_sdiff, Finset.mem_insert, Finset.mem_erase, List.mem_toFinset]
        tauto
    · have hm : i ∉ J \ L.toFinset := by simp [hJ]
      rw [mon_add_notMem hm hqi]
      have e1 : J \ (i :: L).toFinset = J \ L.toFinset := by
        ext x; simp only [List.toFinset_cons, Finset.mem_sdiff, Finset.mem_insert, List.mem_toFinset]
        constructor
        · tauto
        · rintro ⟨a, b⟩; exact ⟨a, by rintro (rfl | c); exacts [hJ a, b c]⟩
      have e2 : (i :: L).toFinset \ J = insert i (L.toFinset \ J) := by
        ext x; simp only [List.toFinset_cons, Finset.mem_sdiff, Finset.mem_insert, List.mem_toFinset]
        constructor
        · tauto
        · rintro (rfl | ⟨a, b⟩)
          · exact ⟨Or.inl rfl, hJ⟩
          · exact ⟨Or.inr a, b⟩
      rw [e1, e2, Finset.card_insert_of_notMem (by simp [hi]), pow_succ]
      ring

end mon

/-! ### rows of the generator matrix -/

theorem getD_tile {α : Type} (b : List α) (d : α) (r j : Nat) (hj : j < r * b.length) :
    (tile b r).getD j d = b.getD (j % b.length) d := by
  induction r generalizing j with
  | zero => simp at hj
  | succ r ih =>
    unfold tile at ih ⊢
    rw [List.replicate_succ, List.flatten_cons]
    by_cases h : j < b.length
    · rw [List.getD_append _ _ _ _ h, Nat.mod_eq_of_lt h]
    · rw [List.getD_append_right _ _ _ _ (by omega), ih _ (by rw [Nat.add_mul] at hj; omega)]
      congr 1
      rw [← Nat.mod_eq_sub_mod (by omega)]

theorem rmV_get (mu r j : Nat) (hr : r < mu) (hj : j < 2 ^ mu) :
    (rmV mu r).getD j 0 = if j.testBit r then 1 else 0 := by
  have e1 : mu - (mu - r - 1) - 1 = r := by omega
  have hlen : (rmBlock mu (mu - r - 1)).length = 2 ^ (r + 1) := by
    simp [rmBlock, e1, pow_succ]; omega
  have e2 : 2 ^ (mu - r - 1) * 2 ^ (r + 1) = 2 ^ mu := by rw [← pow_add]; congr 1; omega
  rw [rmV, getD_tile _ _ _ _ (by rw [hlen, e2]; exact hj), hlen]
  have hm : j % 2 ^ (r + 1) = j % 2 ^ r + 2 ^ r * (j / 2 ^ r % 2) := by rw [pow_succ, Nat.mod_mul]
  have hlt : j % 2 ^ r < 2 ^ r := Nat.mod_lt _ (by positivity)
  rw [Nat.testBit_eq_decide_div_mod_eq]
  unfold rmBlock
  rw [e1]
  rcases Nat.mod_two_eq_zero_or_one (j / 2 ^ r) with h | h
  · rw [h] at hm
    rw [List.getD_append _ _ _ _ (by simp; omega), List.getD_replicate (h := by omega)]
    simp [h]
  · rw [h] at hm
    rw [List.getD_append_right _ _ _ _ (by simp; omega), List.getD_replicate (h := by simp; omega)]
    simp [h]

theorem rmRow_apply {mu : Nat} {J : List Nat} (hJ : J.Sublist (List.range mu)) (j : Fin (2 ^ mu)) :
    rmRow mu J j = mon (ZMod 2) J.toFinset j := by
  unfold rmRow mon
  rw [List.prod_toFinset _ (List.nodup_range.sublist hJ)]
  congr 1
  apply List.map_congr_left
  intro r hr
  exact rmV_get mu r j (List.mem_range.mp (hJ.subset hr)) j.2

/-! ### Reed partitions -/

theorem scatter_bits (L : List Nat) (hL : L.Nodup) : ∀ a i,
    (dotPow (intToBits .lsbFirst a L.length) L).testBit i = true → i ∈ L := by
  induction L with
  | nil => intro a i h; simp [dotPow] at h
  | cons l L ih =>
    obtain ⟨hl, hL⟩ := List.nodup_cons.mp hL
    intro a i h
    rw [List.length_cons, dotPow_cons] at h
    rcases Nat.mod_two_eq_zero_or_one a with e | e
    · rw [e, zero_mul, zero_add] at h
      exact List.mem_cons_of_mem _ (ih hL _ _ h)
    · rw [e, one_mul, Nat.add_comm, testBit_add_two_pow] at h
      · rw [Bool.or_eq_true] at h
        rcases h with h | h
        · exact List.mem_cons_of_mem _ (ih hL _ _ h)
        · simp at h; simp [h]
      · by_contra hc
        exact hl (ih hL _ _ (by simpa using hc))

theorem mem_scatter {L : List Nat} (hL : L.Nodup) {x i : Nat} (hx : x ∈ scatterAll L.length L)
    (hb : x.testBit i = true) : i ∈ L := by
  obtain ⟨a, _, rfl⟩ := List.mem_map.mp hx
  exact scatter_bits L hL a i hb

/-- `setE`. -/
def compl (mu : Nat) (I : List Nat) : List Nat := (List.range mu).filter fun i => i ∉ I

theorem compl_perm {mu : Nat} {I : List Nat} (hI : I.Sublist (List.range mu)) :
    (compl mu I ++ I).Perm (List.range mu) := by
  rw [List.perm_ext_iff_of_nodup]
  · intro i
    simp only [compl, List.mem_append, List.mem_filter, List.mem_range, decide_eq_true_eq]
    constructor
    · rintro (h | h)
      · exact h.1
      · exact List.mem_range.mp (hI.subset h)
    · intro h
      by_cases h' : i ∈ I
      · exact Or.inr h'
      · exact Or.inl ⟨h, h'⟩
  · rw [List.nodup_append]
    refine ⟨List.nodup_range.filter _, List.nodup_range.sublist hI, ?_⟩
    intro a ha b hb e
    subst e
    simp only [compl, List.mem_filter, decide_eq_true_eq] at ha
    exact ha.2 hb
  · exact List.nodup_range

theorem compl_length {mu : Nat} {I : List Nat} (hI : I.Sublist (List.range mu)) :
    (compl mu I).length = mu - I.length := by
  have := (compl_perm hI).length_eq
  simp at this; omega

variable {mu : Nat} {I J : List Nat}

/-- The rows of the partition, indexed by `setQ`. -/
theorem reedPartition_eq (hI : I.Sublist (List.range mu)) :
    reedPartition mu I.length I =
      (scatterAll (compl mu I).length (compl mu I)).map fun q => (scatterAll I.length I).map fun s => s + q := by
  rw [compl_length hI]; rfl

theorem partition_sum {M : Type} [AddCommMonoid M] (hI : I.Sublist (List.range mu)) (F : Nat → M) :
    ((reedPartition mu I.length I).map fun row => (row.map F).sum).sum = ∑ x ∈ Finset.range (2 ^ mu), F x := by
  rw [reedPartition_eq hI, List.map_map]
  have : ((fun row : List Nat => (row.map F).sum) ∘ fun q => (scatterAll I.length I).map fun s => s + q) =
      fun q => sumS (fun s => F (s + q)) I := by
    funext q
    simp only [Function.comp, List.map_map]
    rw [← sum_scatter]
    rfl
  rw [this, sum_scatter, sumS_append, sumS_perm (compl_perm hI), sumS_range]

theorem partition_lt (hI : I.Sublist (List.range mu)) {row : List Nat} (hrow : row ∈ reedPartition mu I.length I)
    {x : Nat} (hx : x ∈ row) : x < 2 ^ mu := by
  have h := partition_sum hI fun x => if x < 2 ^ mu then 0 else 1
  rw [Finset.sum_eq_zero fun x hx => by simp only [Finset.mem_range] at hx; simp [hx]] at h
  rw [List.sum_eq_zero_iff] at h
  have h1 := h _ (List.mem_map.mpr ⟨row, hrow, rfl⟩)
  rw [List.sum_eq_zero_iff] at h1
  have h2 := h1 _ (List.mem_map.mpr ⟨x, hx, rfl⟩)
  by_contra hc
  simp [hc] at h2

/-- Parity of a word over a set of positions. -/
def chk {n : Nat} (w : BVec n) (row : List Nat) : ZMod 2 := (row.map (vget w)).sum

theorem vget_add {n : Nat} (v w : BVec n) (x : Nat) : vget (v + w) x = vget v x + vget w x := by
  unfold vget; split <;> simp

theorem vget_smul {n : Nat} (a : ZMod 2) (w : BVec n) (x : Nat) : vget (fun j => a * w j) x = a * vget w x := by
  unfold vget; split <;> simp

theorem chk_add {n : Nat} (v w : BVec n) (row : List Nat) : chk (v + w) row = chk v row + chk w row := by
  unfold chk
  rw [← List.sum_map_add]
  exact congrArg List.sum (List.map_congr_left fun x _ => vget_add v w x)

theorem chk_smul {n : Nat} (a : ZMod 2) (w : BVec n) (row : List Nat) :
    chk (fun j => a * w j) row = a * chk w row := by
  unfold chk
  rw [← List.sum_map_mul_left]
  exact congrArg List.sum (List.map_congr_left fun x _ => vget_smul a w x)

theorem chk_zero {n : Nat} (row : List Nat) : chk (0 : BVec n) row = 0 := by
  apply List.sum_eq_zero
  intro y hy
  obtain ⟨x, _, rfl⟩ := List.mem_map.mp hy
  simp [vget]

theorem chk_monomial (hI : I.Sublist (List.range mu)) (hJ : J.Sublist (List.range mu)) {row : List Nat}
    (hrow : row ∈ reedPartition mu I.length I) :
    (¬ I ⊆ J → chk (rmRow mu J) row = 0) ∧ (I = J → chk (rmRow mu J) row = 1) := by
  have h1 : chk (rmRow mu J) row = (row.map (mon (ZMod 2) J.toFinset)).sum := by
    unfold chk
    congr 1
    apply List.map_congr_left
    intro x hx
    have := partition_lt hI hrow hx
    rw [vget, dif_pos this, rmRow_apply hJ]
  rw [h1]
  rw [reedPartition_eq hI] at hrow
  obtain ⟨q, hq, rfl⟩ := List.mem_map.mp hrow
  have hnd := List.nodup_range.sublist hI
  have hnE : (compl mu I).Nodup := List.nodup_range.filter _
  have h2 : ∀ i ∈ I, q.testBit i = false := by
    intro i hi
    by_contra hc
    have := mem_scatter hnE hq (by simpa using hc)
    simp only [compl, List.mem_filter, decide_eq_true_eq] at this
    exact this.2 hi
  have h3 := sumS_mon (R := ZMod 2) I hnd J.toFinset q h2
  rw [← sum_scatter] at h3
  rw [List.map_map]
  constructor
  · intro h
    change ((scatterAll I.length I).map fun s => mon (ZMod 2) J.toFinset (s + q)).sum = 0
    rw [h3]
    have : (I.toFinset \ J.toFinset).card ≠ 0 := by
      rw [Finset.card_ne_zero]
      by_contra hc
      rw [Finset.not_nonempty_iff_eq_empty, Finset.sdiff_eq_empty_iff_subset] at hc
      exact h fun x hx => List.mem_toFinset.mp (hc (List.mem_toFinset.mpr hx))
    rw [show (2 : ZMod 2) = 0 from rfl, zero_pow this, zero_mul]
  · rintro rfl
    change ((scatterAll I.length I).map fun s => mon (ZMod 2) I.toFinset (s + q)).sum = 1
    rw [h3]; simp [mon_empty]

/-! ### counting -/

theorem cast_countP (l : List Nat) (f : Nat → ZMod 2) : ((l.countP fun j => f j ≠ 0 : Nat) : ZMod 2) = (l.map f).sum := by
  induction l with
  | nil => rfl
  | cons a l ih =>
    rw [List.countP_cons, List.map_cons, List.sum_cons, Nat.cast_add, ih, add_comm]
    congr 1
    rcases zmod2_cases (f a) with h | h <;> simp [h]

theorem mod_two_ne (c : Nat) : c % 2 ≠ 0 ↔ (c : ZMod 2) ≠ 0 := by
  rw [Ne, Ne, ZMod.natCast_eq_zero_iff]; omega

/-- The number of failing checksums. -/
theorem checksums_count {n : Nat} (w : BVec n) (P : List (List Nat)) :
    (reedChecksums w P).countP (· ≠ 0) = P.countP fun row => chk w row ≠ 0 := by
  unfold reedChecksums
  rw [List.countP_map]
  apply List.countP_congr
  intro row _
  simp only [Function.comp, decide_eq_true_eq, mod_two_ne, cast_countP]
  rfl

theorem partition_norm (hI : I.Sublist (List.range mu)) (e : BVec (2 ^ mu)) :
    ((reedPartition mu I.length I).map fun row => (row.map fun x => if vget e x ≠ 0 then 1 else 0).sum).sum =
      hammingNorm e := by
  rw [partition_sum hI, Finset.sum_range, hammingNorm, Finset.card_filter]
  apply Finset.sum_congr rfl
  intro i _
  simp [vget]

theorem countP_chk_le (hI : I.Sublist (List.range mu)) (e : BVec (2 ^ mu)) :
    ((reedPartition mu I.length I).countP fun row => chk e row ≠ 0) ≤ hammingNorm e := by
  rw [← partition_norm hI]
  generalize reedPartition mu I.length I = P
  induction P with
  | nil => simp
  | cons row P ih =>
    rw [List.countP_cons, List.map_cons, List.sum_cons, add_comm]
    apply add_le_add _ ih
    split
    · rename_i h
      by_contra hc
      have h0 : (row.map fun x => if vget e x ≠ 0 then 1 else 0).sum = 0 := by omega
      rw [List.sum_eq_zero_iff] at h0
      apply (decide_eq_true_eq.mp h)
      unfold chk
      apply List.sum_eq_zero
      intro y hy
      obtain ⟨x, hx, rfl⟩ := List.mem_map.mp hy
      have := h0 _ (List.mem_map.mpr ⟨x, hx, rfl⟩)
      by_contra hne
      simp [hne] at this
    · omega

theorem partition_length (hI : I.Sublist (List.range mu)) :
    (reedPartition mu I.length I).length = 2 ^ (mu - I.length) := by
  simp [reedPartition, scatterAll]

/-! ### words and the decoding loop -/

/-- The index lists in the order of the rows. -/
def rmLists (rho mu : Nat) : List (List Nat) :=
  (List.range (rho + 1)).reverse.flatMap fun ell => combinations (List.range mu) ell

/-- The word with coefficients `us` on the monomials `Ls`. -/
def rmWord (mu : Nat) : List (ZMod 2) → List (List Nat) → BVec (2 ^ mu)
  | u :: us, I :: Ls => (fun j => u * rmRow mu I j) + rmWord mu us Ls
  | _, _ => 0

/-- Inputs of the decoding loop for a list of monomials. -/
def rmPairs (mu : Nat) (Ls : List (List Nat)) : List (List (List Nat) × BVec (2 ^ mu)) :=
  Ls.map fun I => (reedPartition mu I.length I, rmRow mu I)

theorem chk_word (hI : I.Sublist (List.range mu)) {row : List Nat} (hrow : row ∈ reedPartition mu I.length I)
    (us : List (ZMod 2)) (Ls : List (List Nat)) (hs : ∀ J ∈ Ls, J.Sublist (List.range mu)) (hne : ∀ J ∈ Ls, ¬ I ⊆ J) :
    chk (rmWord mu us Ls) row = 0 := by
  induction Ls generalizing us with
  | nil => cases us <;> exact chk_zero row
  | cons J Ls ih =>
    cases us with
    | nil => exact chk_zero row
    | cons u us =>
      rw [rmWord, chk_add, chk_smul, (chk_monomial hI (hs J (by simp)) hrow).1 (hne J (by simp)), mul_zero, zero_add]
      exact ih us (fun K hK => hs K (by simp [hK])) fun K hK => hne K (by simp [hK])

/-- First-row checksum of a word: the leading coefficient. -/
theorem chk_lead (u : ZMod 2) (us : List (ZMod 2)) (Ls : List (List Nat))
    (hs : ∀ J ∈ I :: Ls, J.Sublist (List.range mu)) (hne : ∀ J ∈ Ls, ¬ I ⊆ J) {row : List Nat}
    (hrow : row ∈ reedPartition mu I.length I) : chk (rmWord mu (u :: us) (I :: Ls)) row = u := by
  have hI := hs I (by simp)
  rw [rmWord, chk_add, chk_smul, (chk_monomial hI hI hrow).2 rfl, mul_one,
    chk_word hI hrow us Ls (fun J hJ => hs J (by simp [hJ])) hne, add_zero]

theorem reedHardLoop_correct (rho : Nat) (hrm : rho < mu) (e : BVec (2 ^ mu)) (he : hammingNorm e < 2 ^ (mu - rho - 1))
    (Ls : List (List Nat)) (us : List (ZMod 2)) (hlen : us.length = Ls.length)
    (hs : ∀ J ∈ Ls, J.Sublist (List.range mu) ∧ J.length ≤ rho) (hp : Ls.Pairwise fun I J => ¬ I ⊆ J) :
    reedHardLoop (rmWord mu us Ls + e) (rmPairs mu Ls) = us := by
  induction Ls generalizing us with
  | nil => cases us with
    | nil => rfl
    | cons _ _ => simp at hlen
  | cons I Ls ih =>
    obtain _ | ⟨u, us⟩ := us
    · simp at hlen
    obtain ⟨hp1, hp2⟩ := List.pairwise_cons.mp hp
    have hI := (hs I (by simp)).1
    have hIl := (hs I (by simp)).2
    have hdec : (if (reedChecksums (rmWord mu (u :: us) (I :: Ls) + e) (reedPartition mu I.length I)).countP (· ≠ 0) >
        (reedChecksums (rmWord mu (u :: us) (I :: Ls) + e) (reedPartition mu I.length I)).length / 2
        then (1 : ZMod 2) else 0) = u := by
      have hl : (reedChecksums (rmWord mu (u :: us) (I :: Ls) + e) (reedPartition mu I.length I)).length =
          2 ^ (mu - I.length) := by
        rw [reedChecksums, List.length_map, partition_length hI]
      rw [hl, checksums_count]
      have hchk : ∀ row ∈ reedPartition mu I.length I, chk (rmWord mu (u :: us) (I :: Ls) + e) row = u + chk e row := by
        intro row hrow
        rw [chk_add, chk_lead u us Ls (fun J hJ => (hs J hJ).1) hp1 hrow]
      have hle := countP_chk_le hI e
      have h2 : 2 ^ (mu - I.length) = 2 * 2 ^ (mu - I.length - 1) := by
        rw [← pow_succ']; congr 1; omega
      have h3 : 2 ^ (mu - rho - 1) ≤ 2 ^ (mu - I.length - 1) := Nat.pow_le_pow_right (by omega) (by omega)
      rcases zmod2_cases u with hu | hu
      · have : ((reedPartition mu I.length I).countP fun row => chk (rmWord mu (u :: us) (I :: Ls) + e) row ≠ 0) =
            (reedPartition mu I.length I).countP fun row => chk e row ≠ 0 := by
          apply List.countP_congr
          intro row hrow
          rw [hchk row hrow, hu, zero_add]
        rw [this, if_neg (by omega), hu]
      · have hnot : ((reedPartition mu I.length I).countP fun row => chk (rmWord mu (u :: us) (I :: Ls) + e) row ≠ 0) =
            (reedPartition mu I.length I).countP fun row => ¬ decide (chk e row ≠ 0) = true := by
          apply List.countP_congr
          intro row hrow
          rw [hchk row hrow, hu]
          rcases zmod2_cases (chk e row) with h | h <;> simp [h]
          decide
        have := List.length_eq_countP_add_countP (fun row => decide (chk e row ≠ 0)) (l := reedPartition mu I.length I)
        rw [partition_length hI] at this
        rw [hnot, if_pos (by omega), hu]
    rw [rmPairs, List.map_cons, reedHardLoop]
    simp only [hdec]
    congr 1
    rw [← ih us (by simpa using hlen) (fun J hJ => hs J (by simp [hJ])) hp2]
    congr 1
    · rw [ih us (by simpa using hlen) (fun J hJ => hs J (by simp [hJ])) hp2]
      funext j
      simp only [rmWord, Pi.add_apply]
      have := CharTwo.add_self_eq_zero (u * rmRow mu I j)
      linear_combination this

end Komm
