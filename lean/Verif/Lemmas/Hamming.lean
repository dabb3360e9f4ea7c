import Verif.Lemmas.BlockFamilies
import Mathlib.Data.List.Sublists
import Mathlib.Data.Finset.Sort
namespace Komm

variable {k m n : Nat}

/-! ### combinations -/

theorem mem_combinations {α : Type} (xs : List α) (w : Nat) (l : List α) :
    l ∈ combinations xs w ↔ l.Sublist xs ∧ l.length = w := by
  induction xs generalizing w l with
  | nil =>
    cases w with
    | zero => simp [combinations]
    | succ w =>
      simp only [combinations, List.not_mem_nil, false_iff]
      rintro ⟨h1, h2⟩
      rw [List.sublist_nil] at h1
      subst h1; simp at h2
  | cons x xs ih =>
    cases w with
    | zero =>
      simp only [combinations, List.mem_singleton]
      constructor
      · rintro rfl; exact ⟨List.nil_sublist _, rfl⟩
      · rintro ⟨_, h⟩; exact List.eq_nil_of_length_eq_zero h
    | succ w =>
      rw [combinations, List.mem_append, List.mem_map]
      constructor
      · rintro (⟨l', h1, rfl⟩ | h1)
        · rw [ih] at h1
          exact ⟨h1.1.cons_cons x, by simp [h1.2]⟩
        · rw [ih] at h1
          exact ⟨h1.1.cons x, h1.2⟩
      · rintro ⟨h1, h2⟩
        cases h1 with
        | cons _ h => exact Or.inr ((ih _ _).mpr ⟨h, h2⟩)
        | cons_cons _ h => exact Or.inl ⟨_, (ih _ _).mpr ⟨h, by simpa using h2⟩, rfl⟩

theorem combinations_nodup {α : Type} (xs : List α) (hx : xs.Nodup) (w : Nat) : (combinations xs w).Nodup := by
  induction xs generalizing w with
  | nil => cases w <;> simp [combinations]
  | cons x xs ih =>
    cases w with
    | zero => simp [combinations]
    | succ w =>
      rw [List.nodup_cons] at hx
      rw [combinations, List.nodup_append]
      refine ⟨(ih hx.2 w).map (fun a b e => by simpa using e), ih hx.2 (w + 1), ?_⟩
      intro a ha b hb e
      subst e
      obtain ⟨l, _, rfl⟩ := List.mem_map.mp ha
      rw [mem_combinations] at hb
      exact hx.1 (hb.1.subset (by simp))

/-! ### rows of the Hamming parity submatrix -/

/-- indicator word of an index list -/
def indic (m : Nat) (l : List Nat) : BVec m := fun s => if (s : Nat) ∈ l then 1 else 0

theorem mem_hammingIndexLists (m : Nat) (l : List Nat) :
    l ∈ hammingIndexLists m ↔ l.Sublist (List.range m) ∧ 2 ≤ l.length := by
  unfold hammingIndexLists
  rw [List.mem_flatMap]
  constructor
  · rintro ⟨w, h1, h2⟩
    rw [mem_combinations] at h2
    refine ⟨h2.1, ?_⟩
    rw [h2.2]
    rw [List.mem_iff_getElem] at h1
    obtain ⟨i, hi, rfl⟩ := h1
    rw [List.getElem_drop, List.getElem_range]; omega
  · rintro ⟨h1, h2⟩
    refine ⟨l.length, ?_, (mem_combinations _ _ _).mpr ⟨h1, rfl⟩⟩
    rw [List.mem_iff_getElem]
    have h3 := h1.length_le
    rw [List.length_range] at h3
    refine ⟨l.length - 2, by simp; omega, ?_⟩
    rw [List.getElem_drop, List.getElem_range]; omega

theorem hammingIndexLists_nodup (m : Nat) : (hammingIndexLists m).Nodup := by
  unfold hammingIndexLists
  rw [List.nodup_flatMap]
  refine ⟨fun w _ => combinations_nodup _ List.nodup_range w, ?_⟩
  have h : ((List.range (m + 1)).drop 2).Nodup := List.nodup_range.sublist (List.drop_sublist _ _)
  apply h.imp
  intro a b hab l ha hb
  rw [mem_combinations] at ha hb
  exact hab (ha.2.symm.trans hb.2)

theorem sublist_range_eq {m : Nat} {l : List Nat} (h : l.Sublist (List.range m)) :
    l = (List.range m).filter (· ∈ l) := by
  have hs : l.Pairwise (· < ·) := List.pairwise_lt_range.sublist h
  have hf : ((List.range m).filter (· ∈ l)).Pairwise (· < ·) := List.pairwise_lt_range.filter _
  apply List.Perm.eq_of_pairwise (le := (· < ·)) _ hs hf
  · rw [List.perm_ext_iff_of_nodup (List.nodup_range.sublist h) (List.nodup_range.filter _)]
    intro a
    simp only [List.mem_filter, decide_eq_true_eq]
    exact ⟨fun ha => ⟨h.subset ha, ha⟩, fun ha => ha.2⟩
  · intro a b _ _ h1 h2; omega

theorem indic_inj {l l' : List Nat} (h : l.Sublist (List.range m)) (h' : l'.Sublist (List.range m))
    (e : indic m l = indic m l') : l = l' := by
  rw [sublist_range_eq h, sublist_range_eq h']
  apply List.filter_congr
  intro s hs
  have := congrFun e ⟨s, List.mem_range.mp hs⟩
  simp only [indic] at this
  by_cases a : s ∈ l <;> by_cases b : s ∈ l' <;> simp_all

theorem indic_norm {l : List Nat} (h : l.Sublist (List.range m)) : hammingNorm (indic m l) = l.length := by
  have hnd : l.Nodup := List.nodup_range.sublist h
  rw [← List.toFinset_card_of_nodup hnd]
  unfold hammingNorm
  have e : l.toFinset = (Finset.univ.filter fun i => indic m l i ≠ 0).map Fin.valEmbedding := by
    ext s
    simp only [List.mem_toFinset, Finset.mem_map, Finset.mem_filter, Finset.mem_univ, true_and, Fin.valEmbedding_apply]
    constructor
    · intro hs
      exact ⟨⟨s, List.mem_range.mp (h.subset hs)⟩, by simp [indic, hs], rfl⟩
    · rintro ⟨i, hi, rfl⟩
      by_contra hc
      exact hi (by simp [indic, hc])
  rw [e, Finset.card_map]

theorem indic_surj (x : BVec m) : ∃ l : List Nat, l.Sublist (List.range m) ∧ indic m l = x := by
  refine ⟨(List.range m).filter fun s => vget x s ≠ 0, List.filter_sublist, ?_⟩
  funext s
  simp only [indic, List.mem_filter, List.mem_range, s.is_lt, true_and, vget, dif_pos, ne_eq, decide_not,
    Bool.not_eq_true', decide_eq_false_iff_not]
  rcases zmod2_cases (x s) with e | e <;> simp [e]

theorem card_norm_ge_two (m : Nat) : (Finset.univ.filter fun x : BVec m => 2 ≤ hammingNorm x).card = 2 ^ m - m - 1 := by
  have h1 : (Finset.univ : Finset (BVec m)) = (Finset.univ.filter fun x : BVec m => hammingNorm x = 0) ∪
      (Finset.univ.filter fun x : BVec m => hammingNorm x = 1) ∪
      (Finset.univ.filter fun x : BVec m => 2 ≤ hammingNorm x) := by
    ext x
    simp only [Finset.mem_univ, Finset.mem_union, Finset.mem_filter, true_and, true_iff]
    omega
  have h2 := congrArg Finset.card h1
  rw [Finset.card_union_of_disjoint, Finset.card_union_of_disjoint, card_norm, card_norm, Finset.card_univ,
    Fintype.card_fun, Nat.choose_zero_right, Nat.choose_one_right] at h2
  · simp only [ZMod.card, Fintype.card_fin] at h2
    omega
  · rw [Finset.disjoint_left]; intro x a b
    simp only [Finset.mem_filter, Finset.mem_univ, true_and] at a b; omega
  · rw [Finset.disjoint_left]; intro x a b
    simp only [Finset.mem_filter, Finset.mem_univ, true_and, Finset.mem_union] at a b; omega

theorem hammingIndexLists_length (m : Nat) : (hammingIndexLists m).length = 2 ^ m - m - 1 := by
  have hnd : ((hammingIndexLists m).map (indic m)).Nodup := by
    apply List.Nodup.map_on _ (hammingIndexLists_nodup m)
    intro a ha b hb e
    exact indic_inj ((mem_hammingIndexLists m a).mp ha).1 ((mem_hammingIndexLists m b).mp hb).1 e
  rw [← List.length_map (f := indic m), ← List.toFinset_card_of_nodup hnd, ← card_norm_ge_two]
  congr 1
  ext x
  simp only [List.mem_toFinset, List.mem_map, Finset.mem_filter, Finset.mem_univ, true_and]
  constructor
  · rintro ⟨l, hl, rfl⟩
    rw [mem_hammingIndexLists] at hl
    rw [indic_norm hl.1]; exact hl.2
  · intro hx
    obtain ⟨l, h1, rfl⟩ := indic_surj x
    exact ⟨l, (mem_hammingIndexLists m l).mpr ⟨h1, by rw [← indic_norm h1]; exact hx⟩, rfl⟩

theorem hammingParity_eq (i : Fin (2 ^ m - m - 1)) :
    hammingParity m i = indic m ((hammingIndexLists m)[(i : Nat)]'(by rw [hammingIndexLists_length]; exact i.is_lt)) := by
  funext s
  rw [hammingParity, List.getD_eq_getElem]
  rfl

theorem hammingParity_injective (m : Nat) : Function.Injective (hammingParity m) := by
  intro i j e
  rw [hammingParity_eq, hammingParity_eq] at e
  have := indic_inj ((mem_hammingIndexLists m _).mp (List.getElem_mem _)).1
    ((mem_hammingIndexLists m _).mp (List.getElem_mem _)).1 e
  exact Fin.ext ((hammingIndexLists_nodup m).getElem_inj_iff.mp this)

theorem hammingParity_range (x : BVec m) : (∃ i, hammingParity m i = x) ↔ 2 ≤ hammingNorm x := by
  constructor
  · rintro ⟨i, rfl⟩
    rw [hammingParity_eq]
    have := (mem_hammingIndexLists m _).mp (List.getElem_mem (l := hammingIndexLists m) (n := (i : Nat))
      (by rw [hammingIndexLists_length]; exact i.is_lt))
    rw [indic_norm this.1]; exact this.2
  · intro hx
    obtain ⟨l, h1, rfl⟩ := indic_surj x
    have hl : l ∈ hammingIndexLists m := (mem_hammingIndexLists m l).mpr ⟨h1, by rw [← indic_norm h1]; exact hx⟩
    obtain ⟨i, hi, rfl⟩ := List.mem_iff_getElem.mp hl
    exact ⟨⟨i, by rw [← hammingIndexLists_length]; exact hi⟩, hammingParity_eq _⟩

/-! ### systematic codes on the left -/

theorem norm_split {a b : Nat} (v : BVec (a + b)) :
    hammingNorm v = hammingNorm (fun t : Fin a => v (Fin.castAdd b t)) + hammingNorm (fun s : Fin b => v (Fin.natAdd a s)) := by
  unfold hammingNorm
  rw [Finset.card_filter, Finset.card_filter, Finset.card_filter, Fin.sum_univ_add]

theorem left_encode (P : BMat k m) (u : BVec k) :
    (∀ t : Fin k, (systematicLeft P).encode u (Fin.castAdd m t) = u t) ∧
      ∀ s : Fin m, (systematicLeft P).encode u (Fin.natAdd k s) = ∑ i, u i * P i s := by
  refine ⟨fun t => ?_, fun s => ?_⟩
  · have : Fin.castAdd m t = isSplit_left.I t := by
      apply Fin.ext
      simp [IsSplit.I]
    rw [this]; exact systematic_encode_I isSplit_left P u t
  · have : Fin.natAdd k s = isSplit_left.P s := by
      apply Fin.ext
      have hp : paritySet (k + m) (List.range k) = (List.range m).map (k + ·) := by
        rw [paritySet, List.range_add, List.filter_append]
        have h1 : (List.range k).filter (fun j => decide (j ∉ List.range k)) = [] := by
          rw [List.filter_eq_nil_iff]; intro a ha; simpa using ha
        have h2 : ((List.range m).map (k + ·)).filter (fun j => decide (j ∉ List.range k)) =
            (List.range m).map (k + ·) := by
          rw [List.filter_eq_self]; intro a ha
          obtain ⟨b, _, rfl⟩ := List.mem_map.mp ha
          simp
        rw [h1, h2, List.nil_append]
      simp [IsSplit.P, hp]
    rw [this]; exact systematic_encode_P isSplit_left P u s

theorem left_lawful (P : BMat k m) : (systematicLeft P).Lawful := systematic_lawful isSplit_left P

theorem left_norm (P : BMat k m) (u : BVec k) :
    hammingNorm ((systematicLeft P).encode u) = hammingNorm u + hammingNorm (fun s => ∑ i, u i * P i s) := by
  rw [norm_split]
  obtain ⟨h1, h2⟩ := left_encode P u
  simp only [h1, h2]

theorem left_column (P : BMat k m) (i : Fin m) :
    (∀ t : Fin k, (systematicLeft P).checkMatrix i (Fin.castAdd m t) = P t i) ∧
    (∀ s : Fin m, (systematicLeft P).checkMatrix i (Fin.natAdd k s) = if s = i then 1 else 0) := by
  -- read the columns off the syndromes of unit vectors
  have hl := left_lawful P
  have hsingle : ∀ j, (systematicLeft P).check (Pi.single j 1) i = (systematicLeft P).checkMatrix i j := by
    intro j
    rw [hl.check_eq, Finset.sum_eq_single j]
    · simp
    · intro b _ hb; simp [Pi.single_apply, hb]
    · simp
  have hnat : ∀ s : Fin m, (Fin.natAdd k s : Fin (k + m)) = isSplit_left.P s := by
    intro s
    apply Fin.ext
    have hp : paritySet (k + m) (List.range k) = (List.range m).map (k + ·) := by
        rw [paritySet, List.range_add, List.filter_append]
        have h1 : (List.range k).filter (fun j => decide (j ∉ List.range k)) = [] := by
          rw [List.filter_eq_nil_iff]; intro a ha; simpa using ha
        have h2 : ((List.range m).map (k + ·)).filter (fun j => decide (j ∉ List.range k)) =
            (List.range m).map (k + ·) := by
          rw [List.filter_eq_self]; intro a ha
          obtain ⟨b, _, rfl⟩ := List.mem_map.mp ha
          simp
        rw [h1, h2, List.nil_append]
    simp [IsSplit.P, hp]
  have hcast : ∀ t : Fin k, (Fin.castAdd m t : Fin (k + m)) = isSplit_left.I t := by
    intro t; apply Fin.ext; simp [IsSplit.I]
  have hch : ∀ r : BVec (k + m), (systematicLeft P).check r i =
      (∑ t, r (Fin.castAdd m t) * P t i) + r (Fin.natAdd k i) := by
    intro r
    change vecMat (fun t : Fin k => vget r ((List.range k).getD t 0)) P i +
      vget r ((paritySet (k + m) (List.range k)).getD i 0) = _
    rw [isSplit_left.vget_par r i, hnat]
    congr 1
    rw [vecMat]
    apply Finset.sum_congr rfl
    intro t _
    rw [isSplit_left.vget_info r t, hcast]
  constructor
  · intro t
    rw [← hsingle, hch, Finset.sum_eq_single t]
    · rw [Pi.single_eq_same, one_mul, Pi.single_eq_of_ne, add_zero]
      intro e; have := congrArg Fin.val e; simp at this; omega
    · intro b _ hb
      rw [Pi.single_eq_of_ne, zero_mul]
      intro e; apply hb; apply Fin.ext; simpa using congrArg Fin.val e
    · simp
  · intro s
    rw [← hsingle, hch, Finset.sum_eq_zero, zero_add]
    · by_cases e : s = i
      · subst e; simp
      · rw [if_neg e, Pi.single_eq_of_ne]
        intro e'; apply e; apply Fin.ext; have := congrArg Fin.val e'; simp at this; omega
    · intro t _
      rw [Pi.single_eq_of_ne, zero_mul]
      intro e; have := congrArg Fin.val e; simp at this; omega

/-- Extension by an overall parity symbol. -/
theorem extended_norm (P : BMat k m) (u : BVec k) :
    hammingNorm ((systematicLeft (extendedParity P)).encode u) =
      hammingNorm ((systematicLeft P).encode u) + hammingNorm ((systematicLeft P).encode u) % 2 := by
  rw [left_norm, left_norm, norm_split (a := m) (b := 1)]
  have h1 : (fun t : Fin m => ∑ i, u i * extendedParity P i (Fin.castAdd 1 t)) = fun s => ∑ i, u i * P i s := by
    funext t
    apply Finset.sum_congr rfl
    intro i _
    simp [extendedParity]
  have h2 : ∀ s : Fin 1, (∑ i, u i * extendedParity P i (Fin.natAdd m s)) =
      ((hammingNorm u + hammingNorm fun s => ∑ i, u i * P i s : Nat) : ZMod 2) := by
    intro s
    rw [Nat.cast_add, ← sum_eq_norm, ← sum_eq_norm, Finset.sum_comm, ← Finset.sum_add_distrib]
    apply Finset.sum_congr rfl
    intro i _
    simp [extendedParity, mul_add, Finset.mul_sum]
  rw [h1]
  simp only [h2]
  have h3 : ∀ N : Nat, hammingNorm (fun _ : Fin 1 => ((N : Nat) : ZMod 2)) = N % 2 := by
    intro N
    rcases Nat.mod_two_eq_zero_or_one N with e | e
    · have : ((N : Nat) : ZMod 2) = 0 := by rw [ZMod.natCast_eq_zero_iff_even, Nat.even_iff]; exact e
      rw [this, e]; simp [hammingNorm]
    · have : ((N : Nat) : ZMod 2) ≠ 0 := by rw [Ne, ZMod.natCast_eq_zero_iff_even, Nat.even_iff]; omega
      rw [e]; simp [hammingNorm, this]
  rw [h3]
  omega

theorem extended_distance (P : BMat k m) (d : Nat) (hd : (systematicLeft P).minimumDistance = some d) (hodd : d % 2 = 1) :
    (systematicLeft (extendedParity P)).minimumDistance = some (d + 1) := by
  rw [minimumDistance_spec _ (left_lawful P)] at hd
  rw [minimumDistance_spec _ (left_lawful _)]
  obtain ⟨⟨u, h1, h2⟩, h3⟩ := hd
  refine ⟨⟨u, h1, by rw [extended_norm, h2, hodd]⟩, fun u hu => ?_⟩
  have := h3 u hu
  rw [extended_norm]
  omega

/-! ### distance three -/

theorem norm_single (j : Fin n) : hammingNorm (Pi.single j 1 : BVec n) = 1 := by
  unfold hammingNorm
  rw [Finset.card_eq_one]
  refine ⟨j, ?_⟩
  ext i
  simp only [Finset.mem_filter, Finset.mem_univ, true_and, Finset.mem_singleton, Pi.single_apply]
  by_cases h : i = j <;> simp [h]

theorem check_single {c : LinCode k m n} (h : c.Lawful) (j : Fin n) :
    c.check (Pi.single j 1) = fun i => c.checkMatrix i j := by
  funext i
  rw [h.check_eq, Finset.sum_eq_single j]
  · simp
  · intro b _ hb; simp [Pi.single_apply, hb]
  · simp

/-- a word of weight one or two is a sum of unit words -/
theorem small_norm (v : BVec n) (hv : v ≠ 0) (h : hammingNorm v ≤ 2) :
    (∃ j, v = Pi.single j 1) ∨ ∃ i j, i ≠ j ∧ v = Pi.single i 1 + Pi.single j 1 := by
  have hp := hammingNorm_pos_iff.mpr hv
  have hval : ∀ i, v i = if i ∈ (Finset.univ.filter fun i => v i ≠ 0) then 1 else 0 := by
    intro i
    simp only [Finset.mem_filter, Finset.mem_univ, true_and]
    rcases zmod2_cases (v i) with e | e <;> simp [e]
  have h12 : hammingNorm v = 1 ∨ hammingNorm v = 2 := by omega
  unfold hammingNorm at h12
  rcases h12 with e | e
  · left
    obtain ⟨j, hj⟩ := Finset.card_eq_one.mp e
    refine ⟨j, funext fun i => ?_⟩
    rw [hval, hj, Pi.single_apply]
    simp only [Finset.mem_singleton]
  · right
    obtain ⟨i, j, hij, hj⟩ := Finset.card_eq_two.mp e
    refine ⟨i, j, hij, funext fun t => ?_⟩
    rw [hval, hj, Pi.add_apply, Pi.single_apply, Pi.single_apply]
    simp only [Finset.mem_insert, Finset.mem_singleton]
    by_cases a : t = i
    · subst a; simp [hij]
    · simp [a]

theorem distance_ge_three {c : LinCode k m n} (h : c.Lawful) (h0 : ∀ j, (fun i => c.checkMatrix i j) ≠ 0)
    (hinj : ∀ j j', (fun i => c.checkMatrix i j) = (fun i => c.checkMatrix i j') → j = j') (v : BVec n) (hv : v ≠ 0)
    (hc : c.check v = 0) : 3 ≤ hammingNorm v := by
  by_contra hlt
  rcases small_norm v hv (by omega) with ⟨j, rfl⟩ | ⟨i, j, hij, rfl⟩
  · rw [check_single h] at hc; exact h0 j hc
  · rw [h.check_add, check_single h, check_single h] at hc
    apply hij
    apply hinj
    have := congrArg (· + (fun t => c.checkMatrix t j)) hc
    simp only [bvec_add_add, zero_add] at this
    exact this

/-- half of the words have odd inner product with a non-zero word -/
theorem card_inner (a : BVec m) (ha : a ≠ 0) (b : ZMod 2) :
    2 * (Finset.univ.filter fun x : BVec m => ∑ s, a s * x s = b).card = 2 ^ m := by
  obtain ⟨s0, hs0⟩ : ∃ s, a s ≠ 0 := by
    by_contra hc
    push Not at hc
    exact ha (funext hc)
  have hs1 := zmod2_ne_zero hs0
  have hflip : ∀ x : BVec m, ∑ s, a s * (x + Pi.single s0 1 : BVec m) s = ∑ s, a s * x s + 1 := by
    intro x
    simp only [Pi.add_apply, mul_add, Finset.sum_add_distrib]
    congr 1
    rw [Finset.sum_eq_single s0]
    · simp [hs1]
    · intro t _ ht; simp [Pi.single_apply, ht]
    · simp
  have hbij : (Finset.univ.filter fun x : BVec m => ∑ s, a s * x s = b).card =
      (Finset.univ.filter fun x : BVec m => ¬ ∑ s, a s * x s = b).card := by
    refine Finset.card_bij' (fun x _ => x + Pi.single s0 1) (fun x _ => x + Pi.single s0 1) ?_ ?_ ?_ ?_
    · intro x hx
      simp only [Finset.mem_filter, Finset.mem_univ, true_and] at hx ⊢
      rw [hflip, hx]
      exact (by decide : ∀ b : ZMod 2, ¬ b + 1 = b) b
    · intro x hx
      simp only [Finset.mem_filter, Finset.mem_univ, true_and] at hx ⊢
      rw [hflip]
      exact (by decide : ∀ c b : ZMod 2, ¬ c = b → c + 1 = b) _ _ hx
    · intro x _; exact bvec_add_add _ _
    · intro x _; exact bvec_add_add _ _
  have h2 := Finset.card_filter_add_card_filter_not (s := (Finset.univ : Finset (BVec m)))
    (fun x => ∑ s, a s * x s = b)
  rw [← hbij, Finset.card_univ, Fintype.card_fun] at h2
  simp only [ZMod.card, Fintype.card_fin] at h2
  omega

end Komm
