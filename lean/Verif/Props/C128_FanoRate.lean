import Verif.Props.C28_C30_Lossless
import Verif.Props.C100_Rates
import Mathlib.Analysis.SpecialFunctions.BinaryEntropy
/-! C128: the rate of a Fano code (and hence of a Huffman code) for every pmf, zeros included. -/
namespace Komm
open Real

/-! ### the split -/

theorem argminAux_min (vs : List ℚ) : ∀ (pre : List ℚ) (best : ℚ) (bi : Nat), bi < pre.length → pre[bi]? = some best →
    (∀ j (h : j < pre.length), best ≤ pre[j]) → (∀ j (h : j < pre.length), j < bi → best < pre[j]) →
    ∃ (i : Nat) (hi : i < (pre ++ vs).length), argminAux best bi pre.length vs = i ∧
      (∀ j (h : j < (pre ++ vs).length), (pre ++ vs)[i] ≤ (pre ++ vs)[j]) ∧ (∀ j (h : j < (pre ++ vs).length), j < i → (pre ++ vs)[i] < (pre ++ vs)[j]) := by
  induction vs with
  | nil =>
    intro pre best bi hbi hb h1 h2
    rw [List.getElem?_eq_getElem hbi, Option.some_inj] at hb
    refine ⟨bi, by simpa using hbi, rfl, ?_, ?_⟩
    · intro j h; simp only [List.append_nil] at h ⊢; rw [hb]; exact h1 j h
    · intro j h hj; simp only [List.append_nil] at h ⊢; rw [hb]; exact h2 j h hj
  | cons v vs ih =>
    intro pre best bi hbi hb h1 h2
    rw [argminAux]
    have hlen : (pre ++ [v]).length = pre.length + 1 := by simp
    have happ : pre ++ [v] ++ vs = pre ++ v :: vs := by simp
    split
    · rename_i hv
      have := ih (pre ++ [v]) v pre.length (by simp) (by simp) (by
        intro j h
        by_cases hj : j < pre.length
        · rw [List.getElem_append_left hj]; exact hv.le.trans (h1 j hj)
        · have : j = pre.length := by simp at h; omega
          subst this; simp) (by
        intro j h hj
        rw [List.getElem_append_left hj]; exact hv.trans_le (h1 j hj))
      rw [hlen] at this
      simpa only [happ] using this
    · rename_i hv
      have := ih (pre ++ [v]) best bi (by simp; omega) (by rw [List.getElem?_append_left hbi]; exact hb) (by
        intro j h
        by_cases hj : j < pre.length
        · rw [List.getElem_append_left hj]; exact h1 j hj
        · have : j = pre.length := by simp at h; omega
          subst this; simpa using hv) (by
        intro j h hj
        have hj' : j < pre.length := by omega
        rw [List.getElem_append_left hj']; exact h2 j hj' hj)
      rw [hlen] at this
      simpa only [happ] using this

theorem argminList_min (l : List ℚ) (hl : l ≠ []) : ∃ (hi : argminList l < l.length),
    (∀ j (h : j < l.length), l[argminList l] ≤ l[j]) ∧ (∀ j (h : j < l.length), j < argminList l → l[argminList l] < l[j]) := by
  match l, hl with
  | v :: vs, _ =>
    obtain ⟨i, hi, he, h1, h2⟩ := argminAux_min vs [v] v 0 (by simp) (by simp) (by intro j h; simp at h; subst h; simp) (by intro j h hj; omega)
    have he' : argminList (v :: vs) = i := he
    simp only [he']
    exact ⟨hi, h1, h2⟩

theorem cumsumFrom_getElem (acc : ℚ) (ps : List ℚ) (j : Nat) (hj : j < ps.length) :
    (cumsumFrom acc ps)[j]'(by rw [cumsumFrom_length]; omega) = acc + (ps.take (j + 1)).sum := by
  induction ps generalizing acc j with
  | nil => simp at hj
  | cons p ps ih =>
    cases j with
    | zero => simp [cumsumFrom]
    | succ j =>
      simp only [cumsumFrom, List.getElem_cons_succ]
      rw [ih (acc + p) j (by simpa using hj), List.take_succ_cons, List.sum_cons]; ring

theorem take_sum_succ (ps : List ℚ) (j : Nat) (hj : j < ps.length) : (ps.take (j + 1)).sum = (ps.take j).sum + ps[j] := by
  rw [List.take_succ_eq_append_getElem hj, List.sum_append]; simp

/-- The two parts of a split differ by at most the last probability of the first part. -/
theorem fanoSplit_balance (ps : List ℚ) (hn : 2 ≤ ps.length) (h0 : ∀ p ∈ ps, 0 ≤ p) (hs : ps.Pairwise (· ≥ ·)) :
    ∃ hi : fanoSplit ps < ps.length, |2 * (ps.take (fanoSplit ps + 1)).sum - ps.sum| ≤ ps[fanoSplit ps] := by
  have hlast := fanoSplit_lt ps hn h0
  have hL : ((cumsumFrom 0 ps).map fun s => |s - ps.sum / 2|).length = ps.length := by simp [cumsumFrom_length]
  obtain ⟨hi, hmin, hfirst⟩ := argminList_min ((cumsumFrom 0 ps).map fun s => |s - ps.sum / 2|) (by
    intro h; rw [h] at hL; simp at hL; omega)
  change fanoSplit ps < _ at hi
  change ∀ j h, _[fanoSplit ps] ≤ _ at hmin
  change ∀ j h, j < fanoSplit ps → _[fanoSplit ps] < _ at hfirst
  have hget : ∀ j (h : j < ps.length), ((cumsumFrom 0 ps).map fun s => |s - ps.sum / 2|)[j]'(by rw [hL]; exact h) = |(ps.take (j + 1)).sum - ps.sum / 2| := by
    intro j h
    rw [List.getElem_map, cumsumFrom_getElem _ _ _ h, zero_add]
  generalize hidx : fanoSplit ps = i at *
  refine ⟨by omega, ?_⟩
  have hnn : ∀ j (h : j < ps.length), 0 ≤ ps[j] := fun j h => h0 _ (List.getElem_mem h)
  have htail : ps.sum = (ps.take (i + 1)).sum + (ps.drop (i + 1)).sum := by
    rw [← List.sum_append, List.take_append_drop]
  have htake : ∀ j, 0 ≤ (ps.take j).sum := fun j => List.sum_nonneg fun x hx => h0 x (List.mem_of_mem_take hx)
  have hdrop : ∀ j, 0 ≤ (ps.drop j).sum := fun j => List.sum_nonneg fun x hx => h0 x (List.mem_of_mem_drop hx)
  have hci := take_sum_succ ps i (by omega)
  have hci1 := take_sum_succ ps (i + 1) hlast
  rw [abs_le]
  constructor
  · -- the first part is too light
    by_contra hc
    push Not at hc
    have hsort : ps[i + 1] ≤ ps[i] := List.pairwise_iff_getElem.mp hs i (i + 1) (by omega) hlast (by omega)
    have hm := hmin (i + 1) (by rw [hL]; exact hlast)
    rw [hget i (by omega), hget (i + 1) hlast] at hm
    by_cases hz : ps[i + 1] = 0
    · have hzero : (ps.drop (i + 1)).sum = 0 := by
        refine List.sum_eq_zero fun x hx => ?_
        obtain ⟨j, hj, rfl⟩ := List.getElem_of_mem hx
        rw [List.getElem_drop]
        simp only [List.length_drop] at hj
        refine le_antisymm ?_ (hnn _ (by omega))
        rcases Nat.eq_zero_or_pos j with rfl | hjp
        · simp only [add_zero]; exact hz.le
        · have := List.pairwise_iff_getElem.mp hs (i + 1) (i + 1 + j) hlast (by omega) (by omega)
          exact (this : ps[i + 1 + j] ≤ ps[i + 1]).trans hz.le
      have := htake (i + 1)
      have h3 := hnn i (by omega)
      linarith
    · have hp1 : 0 < ps[i + 1] := lt_of_le_of_ne (hnn _ _) (Ne.symm hz)
      have h3 := hnn i (by omega)
      rcases abs_cases ((ps.take (i + 1)).sum - ps.sum / 2) with ⟨e1, _⟩ | ⟨e1, _⟩ <;>
      rcases abs_cases ((ps.take (i + 1 + 1)).sum - ps.sum / 2) with ⟨e2, _⟩ | ⟨e2, _⟩ <;>
      rw [e1, e2] at hm <;> linarith
  · -- the first part is too heavy
    by_contra hc
    push Not at hc
    rcases Nat.eq_zero_or_pos i with hi0 | hip
    · subst hi0
      have h3 : (ps.take 0).sum = 0 := by simp
      have := hdrop (0 + 1)
      linarith
    · have hm := hfirst (i - 1) (by omega) (by omega)
      rw [hget i (by omega), hget (i - 1) (by omega)] at hm
      rw [show i - 1 + 1 = i by omega] at hm
      have h3 := hnn i (by omega)
      rcases abs_cases ((ps.take (i + 1)).sum - ps.sum / 2) with ⟨e1, _⟩ | ⟨e1, _⟩ <;>
      rcases abs_cases ((ps.take i).sum - ps.sum / 2) with ⟨e2, _⟩ | ⟨e2, _⟩ <;>
      rw [e1, e2] at hm <;> linarith

/-! ### the entropy of a split -/

theorem binEntropy_lower (x : ℝ) (h0 : 0 ≤ x) (h1 : x ≤ 1 / 2) : 2 * x * log 2 ≤ binEntropy x := by
  have hc := strictConcave_binEntropy.concaveOn.2
  have h := hc (show (0 : ℝ) ∈ Set.Icc 0 1 from ⟨le_rfl, zero_le_one⟩) (show (1 / 2 : ℝ) ∈ Set.Icc 0 1 from ⟨by norm_num, by norm_num⟩)
    (show 0 ≤ 1 - 2 * x by linarith) (show 0 ≤ 2 * x by linarith) (by ring)
  simp only [smul_eq_mul, binEntropy_zero, mul_zero, zero_add] at h
  rw [show (1 / 2 : ℝ) = 2⁻¹ by norm_num, binEntropy_two_inv, show 2 * x * (2 : ℝ)⁻¹ = x by ring] at h
  exact h

theorem binEntropy_lower' (x : ℝ) (h0 : 0 ≤ x) (h1 : x ≤ 1) : (1 - |2 * x - 1|) * log 2 ≤ binEntropy x := by
  rcases le_total x (1 / 2) with h | h
  · rw [abs_of_nonpos (by linarith)]
    have := binEntropy_lower x h0 h
    linarith
  · rw [abs_of_nonneg (by linarith), ← binEntropy_one_sub]
    have := binEntropy_lower (1 - x) (by linarith) (by linarith)
    linarith

theorem entropy_split (a b : ℝ) (ha : 0 ≤ a) (hb : 0 ≤ b) :
    (a + b - |a - b|) * log 2 ≤ negMulLog a + negMulLog b - negMulLog (a + b) := by
  rcases (add_nonneg ha hb).eq_or_lt with h | h
  · have h1 : a = 0 := by linarith
    have h2 : b = 0 := by linarith
    simp [h1, h2]
  · obtain ⟨x, hx⟩ : ∃ x, x = a / (a + b) := ⟨_, rfl⟩
    have ea : a = (a + b) * x := by rw [hx]; field_simp
    have eb : b = (a + b) * (1 - x) := by rw [hx]; field_simp; ring
    have hx0 : 0 ≤ x := by rw [hx]; positivity
    have hx1 : x ≤ 1 := by rw [hx, div_le_one h]; linarith
    have key : negMulLog a + negMulLog b - negMulLog (a + b) = (a + b) * binEntropy x := by
      rw [binEntropy_eq_negMulLog_add_negMulLog_one_sub]
      have n1 : negMulLog a = negMulLog ((a + b) * x) := congrArg _ ea
      have n2 : negMulLog b = negMulLog ((a + b) * (1 - x)) := congrArg _ eb
      rw [n1, n2, negMulLog_mul, negMulLog_mul]
      ring
    rw [key]
    have e : a + b - |a - b| = (a + b) * (1 - |2 * x - 1|) := by
      have : a - b = (a + b) * (2 * x - 1) := by rw [hx]; field_simp; ring
      rw [this, abs_mul, abs_of_pos h]; ring
    rw [e, mul_assoc]
    exact mul_le_mul_of_nonneg_left (binEntropy_lower' x hx0 hx1) h.le

/-! ### the loop -/

/-- Probability and index of the `i`-th item. -/
noncomputable def itemProb (items : List (Nat × ℚ)) (i : Nat) : ℝ := (((items.getD i (0, 0)).2 : ℚ) : ℝ)

def itemIndex (items : List (Nat × ℚ)) (i : Nat) : Nat := (items.getD i (0, 0)).1

/-- The total probability of an interval. -/
noncomputable def segment (items : List (Nat × ℚ)) (lo hi : Nat) : ℝ := ∑ i ∈ Finset.Ico lo hi, itemProb items i

/-- What the items of a stacked interval will contribute to the expected length at most. -/
noncomputable def fanoCost (items : List (Nat × ℚ)) (t : Nat × Nat × Nat) : ℝ :=
  segment items t.1 t.2.1 * t.2.2 + (∑ i ∈ Finset.Ico t.1 t.2.1, negMulLog (itemProb items i) - negMulLog (segment items t.1 t.2.1)) / log 2 +
    segment items t.1 (t.2.1 - 1)

theorem segment_split (items : List (Nat × ℚ)) {lo mid hi : Nat} (h1 : lo ≤ mid) (h2 : mid ≤ hi) :
    segment items lo hi = segment items lo mid + segment items mid hi := (Finset.sum_Ico_consecutive _ h1 h2).symm

theorem segment_list (items : List (Nat × ℚ)) (lo len : Nat) (h : lo + len ≤ items.length) :
    segment items lo (lo + len) = (((((items.drop lo).take len).map Prod.snd).sum : ℚ) : ℝ) := by
  induction len with
  | zero => simp [segment]
  | succ len ih =>
    rw [show lo + (len + 1) = lo + len + 1 by omega, segment, Finset.sum_Ico_succ_top (by omega), ← segment, ih (by omega)]
    have hlt : len < (items.drop lo).length := by simp; omega
    rw [List.take_succ_eq_append_getElem hlt, List.map_append, List.sum_append, Rat.cast_add]
    congr 1
    rw [itemProb, List.getD_eq_getElem _ _ (show lo + len < items.length by omega)]
    simp

theorem fanoCost_split (items : List (Nat × ℚ)) (hnn : ∀ e ∈ items, 0 ≤ e.2) (hs : items.Pairwise fun a b => b.2 ≤ a.2) (lo hi len mid : Nat)
    (hlo : lo + 2 ≤ hi) (hhi : hi ≤ items.length) (hmid : mid = lo + fanoSplit (((items.drop lo).take (hi - lo)).map Prod.snd) + 1) :
    lo < mid ∧ mid < hi ∧ fanoCost items (lo, mid, len + 1) + fanoCost items (mid, hi, len + 1) ≤ fanoCost items (lo, hi, len) := by
  generalize hps : ((items.drop lo).take (hi - lo)).map Prod.snd = ps at hmid
  have hlen : ps.length = hi - lo := by rw [← hps]; simp; omega
  have h0 : ∀ p ∈ ps, 0 ≤ p := by
    intro p hp
    rw [← hps] at hp
    obtain ⟨e, he, rfl⟩ := List.mem_map.mp hp
    exact hnn e (List.mem_of_mem_drop (List.mem_of_mem_take he))
  have hsort : ps.Pairwise (· ≥ ·) := by
    rw [← hps, List.pairwise_map]
    exact hs.sublist ((List.take_sublist _ _).trans (List.drop_sublist _ _))
  have hlast := fanoSplit_lt ps (by omega) h0
  obtain ⟨hi', hbal⟩ := fanoSplit_balance ps (by omega) h0 hsort
  have hm1 : lo < mid := by omega
  have hm2 : mid < hi := by omega
  refine ⟨hm1, hm2, ?_⟩
  -- in terms of the intervals
  have hS : segment items lo hi = ((ps.sum : ℚ) : ℝ) := by
    have := segment_list items lo (hi - lo) (by omega)
    rw [show lo + (hi - lo) = hi by omega, hps] at this
    exact this
  have hA : segment items lo mid = (((ps.take (fanoSplit ps + 1)).sum : ℚ) : ℝ) := by
    have := segment_list items lo (fanoSplit ps + 1) (by omega)
    rw [show lo + (fanoSplit ps + 1) = mid by omega] at this
    rw [this, ← hps, ← List.map_take, List.take_take, Nat.min_eq_left (by rw [hps]; omega)]
  have hP : itemProb items (mid - 1) = ((ps[fanoSplit ps] : ℚ) : ℝ) := by
    have e : mid - 1 = lo + fanoSplit ps := by omega
    rw [itemProb, e, List.getD_eq_getElem _ _ (by omega)]
    congr 1
    simp only [← hps]
    rw [List.getElem_map, List.getElem_take, List.getElem_drop]
  have hsplit := segment_split items hm1.le hm2.le
  have hbal' : |segment items lo mid - segment items mid hi| ≤ itemProb items (mid - 1) := by
    have e : segment items lo mid - segment items mid hi = ((2 * (ps.take (fanoSplit ps + 1)).sum - ps.sum : ℚ) : ℝ) := by
      rw [Rat.cast_sub, Rat.cast_mul, ← hA, ← hS, hsplit]; push_cast; ring
    rw [e, hP, ← Rat.cast_abs]
    exact_mod_cast hbal
  have hnn' : ∀ i, 0 ≤ itemProb items i := by
    intro i
    rw [itemProb]
    by_cases h : i < items.length
    · rw [List.getD_eq_getElem _ _ h]; exact_mod_cast hnn _ (List.getElem_mem h)
    · rw [List.getD_eq_default _ _ (by omega)]; simp
  have hent := entropy_split (segment items lo mid) (segment items mid hi) (Finset.sum_nonneg fun i _ => hnn' i) (Finset.sum_nonneg fun i _ => hnn' i)
  rw [← hsplit] at hent
  have hE := Finset.sum_Ico_consecutive (fun i => negMulLog (itemProb items i)) hm1.le hm2.le
  have hB1 : segment items lo (hi - 1) = segment items lo mid + segment items mid (hi - 1) := segment_split items hm1.le (by omega)
  have hB2 : segment items lo mid = segment items lo (mid - 1) + itemProb items (mid - 1) := by
    have := Finset.sum_Ico_succ_top (show lo ≤ mid - 1 by omega) (itemProb items)
    rw [show mid - 1 + 1 = mid by omega] at this
    exact this
  have hlog : 0 < log 2 := log_pos (by norm_num)
  simp only [fanoCost]
  rw [hB1, ← hE]
  have h3 : (segment items lo hi - |segment items lo mid - segment items mid hi|) ≤
      (negMulLog (segment items lo mid) + negMulLog (segment items mid hi) - negMulLog (segment items lo hi)) / log 2 := by
    rw [le_div_iff₀ hlog]; exact hent
  push_cast
  simp only [sub_div, add_div] at h3 ⊢
  rw [hsplit] at h3 ⊢
  linarith

theorem fanoCost_leaf (items : List (Nat × ℚ)) (lo len : Nat) : fanoCost items (lo, lo + 1, len) = itemProb items lo * len := by
  simp [fanoCost, segment]

/-- The loop never spends more than the costs of the stacked intervals. -/
theorem fanoLoop_cost (items : List (Nat × ℚ)) (hnn : ∀ e ∈ items, 0 ≤ e.2) (hs : items.Pairwise fun a b => b.2 ≤ a.2)
    (hperm : (items.map Prod.fst).Perm (List.range items.length)) (fuel : Nat) :
    ∀ (stack : List (Nat × Nat × Nat)) (lengths lengths' : List Nat), fanoLoop items fuel stack lengths = some lengths' →
      (∀ t ∈ stack, t.1 < t.2.1 ∧ t.2.1 ≤ items.length) → (stack.flatMap fun t => List.range' t.1 (t.2.1 - t.1)).Nodup →
      lengths.length = items.length →
      (∀ i < items.length, i ∉ (stack.flatMap fun t => List.range' t.1 (t.2.1 - t.1)) → lengths'.getD (itemIndex items i) 0 = lengths.getD (itemIndex items i) 0) ∧
      (stack.map fun t => ∑ i ∈ Finset.Ico t.1 t.2.1, itemProb items i * (lengths'.getD (itemIndex items i) 0 : ℕ)).sum ≤ (stack.map (fanoCost items)).sum := by
  have hitem : ∀ i, i < items.length → itemIndex items i < items.length := by
    intro i hi
    have : itemIndex items i ∈ items.map Prod.fst := by
      rw [itemIndex, List.getD_eq_getElem _ _ hi]; exact List.mem_map_of_mem (List.getElem_mem hi)
    exact List.mem_range.mp (hperm.subset this)
  have hinj : ∀ i j, i < items.length → j < items.length → i ≠ j → itemIndex items i ≠ itemIndex items j := by
    intro i j hi hj hij heq
    have hnd : (items.map Prod.fst).Nodup := hperm.nodup_iff.mpr List.nodup_range
    rw [itemIndex, itemIndex, List.getD_eq_getElem _ _ hi, List.getD_eq_getElem _ _ hj] at heq
    have := (List.Nodup.getElem_inj_iff hnd (i := i) (j := j) (hi := by simpa using hi)
      (hj := by simpa using hj)).mp (by simpa using heq)
    exact hij this
  induction fuel with
  | zero =>
    intro stack lengths lengths' h h1 h2 h3
    match stack with
    | [] =>
      simp only [fanoLoop, Option.some_inj] at h
      subst h
      simp
    | t :: stack => simp [fanoLoop] at h
  | succ fuel ih =>
    intro stack lengths lengths' h h1 h2 h3
    match stack with
    | [] =>
      simp only [fanoLoop, Option.some_inj] at h
      subst h
      simp
    | (lo, hi, len) :: stack =>
      have ht := h1 (lo, hi, len) (by simp)
      simp only at ht
      rw [fanoLoop] at h
      split at h
      · rename_i hone
        have hhi : hi = lo + 1 := by omega
        subst hhi
        have hlo : lo < items.length := by omega
        simp only [List.flatMap_cons, hone, List.range'_one, List.singleton_append, List.nodup_cons] at h2
        obtain ⟨q1, q2⟩ := ih stack _ lengths' h (fun t ht => h1 t (by simp [ht])) h2.2 (by simpa using h3)
        constructor
        · intro i hi hmem
          simp only [List.flatMap_cons, hone, List.range'_one, List.singleton_append, List.mem_cons, not_or] at hmem
          rw [q1 i hi hmem.2]
          have hne : (items.getD lo (0, 0)).1 ≠ itemIndex items i := hinj lo i hlo hi (Ne.symm hmem.1)
          simp only [List.getD_eq_getElem?_getD] at hne ⊢
          rw [List.getElem?_set_ne hne]
        · have hval := q1 lo hlo h2.1
          rw [List.getD_eq_getElem?_getD (l := lengths.set _ _)] at hval
          change _ = ((lengths.set (itemIndex items lo) len)[itemIndex items lo]?).getD 0 at hval
          rw [List.getElem?_set_self (by rw [h3]; exact hitem lo hlo), Option.getD_some] at hval
          rw [List.map_cons, List.sum_cons, List.map_cons, List.sum_cons, fanoCost_leaf]
          refine add_le_add (le_of_eq ?_) q2
          simp only [Nat.Ico_succ_singleton, Finset.sum_singleton, hval]
      · rename_i hone
        obtain ⟨hm1, hm2, hc⟩ := fanoCost_split items hnn hs lo hi len _ (by omega) ht.2 rfl
        dsimp only at h
        generalize hmid : lo + fanoSplit (((items.drop lo).take (hi - lo)).map Prod.snd) + 1 = mid at *
        have hrange : (((lo, mid, len + 1) :: (mid, hi, len + 1) :: stack).flatMap fun t => List.range' t.1 (t.2.1 - t.1)) =
            ((lo, hi, len) :: stack).flatMap fun t => List.range' t.1 (t.2.1 - t.1) := by
          simp only [List.flatMap_cons]
          rw [range'_split lo mid hi hm1.le hm2.le]
          simp
        obtain ⟨q1, q2⟩ := ih _ _ lengths' h (by
            intro t ht'
            rcases List.mem_cons.mp ht' with rfl | ht'
            · exact ⟨hm1, by simp; omega⟩
            · rcases List.mem_cons.mp ht' with rfl | ht'
              · exact ⟨hm2, ht.2⟩
              · exact h1 t (by simp [ht'])) (by rw [hrange]; exact h2) h3
        rw [hrange] at q1
        refine ⟨q1, ?_⟩
        simp only [List.map_cons, List.sum_cons] at q2 ⊢
        rw [← Finset.sum_Ico_consecutive _ hm1.le hm2.le]
        linarith

/-! ### the rate -/

theorem sum_items (items : List (Nat × ℚ)) (f : Nat × ℚ → ℝ) : ∑ i ∈ Finset.Ico 0 items.length, f (items.getD i (0, 0)) = (items.map f).sum := by
  rw [← Finset.range_eq_Ico, Finset.sum_range]
  conv_rhs => rw [← List.ofFn_getElem (xs := items), List.map_ofFn, List.sum_ofFn]
  exact Finset.sum_congr rfl fun i _ => by rw [List.getD_eq_getElem _ _ i.2]; rfl

theorem fanoLengths_cost (pmf : List ℚ) (hp : IsPmf pmf) (hn : 2 ≤ pmf.length) (ls : List Nat) (hl : fanoLengths pmf = some ls) (hlen : ls.length = pmf.length)
    (m : ℚ) (hm : ∀ p ∈ pmf, m ≤ p) :
    (((List.zipWith (fun (l : Nat) (p : ℚ) => (l : ℚ) * p) ls pmf).sum : ℚ) : ℝ) ≤ (pmf.map fun p : ℚ => negMulLog (p : ℝ)).sum / log 2 + (1 - m) := by
  unfold fanoLengths at hl
  dsimp only at hl
  generalize hitems : (pmf.mapIdx fun i p => (i, p)).insertionSort (fun a b => b.2 ≤ a.2) = items at hl
  have hpm := List.perm_insertionSort (fun a b : Nat × ℚ => b.2 ≤ a.2) (pmf.mapIdx fun i p => (i, p))
  have htot : Std.Total (fun a b : Nat × ℚ => b.2 ≤ a.2) := ⟨fun a b => le_total _ _⟩
  have htr : IsTrans (Nat × ℚ) (fun a b : Nat × ℚ => b.2 ≤ a.2) := ⟨fun a b c h1 h2 => le_trans h2 h1⟩
  have hsort := List.pairwise_insertionSort (fun a b : Nat × ℚ => b.2 ≤ a.2) (pmf.mapIdx fun i p => (i, p))
  rw [hitems] at hpm hsort
  have hlen' : items.length = pmf.length := by rw [hpm.length_eq]; simp
  have hfst : (pmf.mapIdx fun i p => (i, p)).map Prod.fst = List.range pmf.length := by
    apply List.ext_getElem (by simp)
    intro i h1 h2
    simp
  have hsnd : (pmf.mapIdx fun i p => (i, p)).map Prod.snd = pmf := by
    apply List.ext_getElem (by simp)
    intro i h1 h2
    simp
  have hperm : (items.map Prod.fst).Perm (List.range items.length) := by
    rw [hlen', ← hfst]; exact hpm.map _
  have hmem : ∀ e ∈ items, e.2 ∈ pmf := by
    intro e he
    rw [← hsnd]
    exact List.mem_map_of_mem (hpm.subset he)
  obtain ⟨-, hcost⟩ := fanoLoop_cost items (fun e he => hp.1 _ (hmem e he)) hsort hperm _ _ _ _ hl (by
      intro t ht
      simp only [List.mem_singleton] at ht
      subst ht
      exact ⟨by simp only; omega, by simp only; omega⟩) (by simp [List.nodup_range']) (by simp [hlen'])
  simp only [List.map_cons, List.map_nil, List.sum_cons, List.sum_nil, add_zero, ← hlen'] at hcost
  have e1 : ∑ i ∈ Finset.Ico 0 items.length, itemProb items i * (ls.getD (itemIndex items i) 0 : ℕ) =
      (((List.zipWith (fun (l : Nat) (p : ℚ) => (l : ℚ) * p) ls pmf).sum : ℚ) : ℝ) := by
    have h1 := sum_items items fun e => ((e.2 : ℚ) : ℝ) * ((ls.getD e.1 0 : ℕ) : ℝ)
    have h2 : (items.map fun e => ((e.2 : ℚ) : ℝ) * ((ls.getD e.1 0 : ℕ) : ℝ)).sum = ((pmf.mapIdx fun i p => (i, p)).map fun e => ((e.2 : ℚ) : ℝ) * ((ls.getD e.1 0 : ℕ) : ℝ)).sum :=
      (hpm.map _).sum_eq
    rw [h2] at h1
    refine h1.trans ?_
    rw [Rat.cast_list_sum]
    congr 1
    apply List.ext_getElem (by simp [hlen])
    intro i h3 h4
    simp only [List.length_map, List.length_zipWith, lt_min_iff] at h4
    simp only [List.getElem_map, List.getElem_mapIdx, List.getElem_zipWith]
    rw [List.getD_eq_getElem _ _ h4.1]
    push_cast
    ring
  have e2 : ∑ i ∈ Finset.Ico 0 items.length, negMulLog (itemProb items i) = (pmf.map fun p : ℚ => negMulLog (p : ℝ)).sum := by
    have h1 := sum_items items fun e => negMulLog ((e.2 : ℚ) : ℝ)
    have h2 : (items.map fun e => negMulLog ((e.2 : ℚ) : ℝ)).sum = ((pmf.mapIdx fun i p => (i, p)).map fun e => negMulLog ((e.2 : ℚ) : ℝ)).sum :=
      (hpm.map _).sum_eq
    rw [h2] at h1
    refine h1.trans ?_
    conv_rhs => rw [← hsnd]
    rw [List.map_map]
    rfl
  have e3 : segment items 0 items.length = 1 := by
    have h1 := sum_items items fun e => ((e.2 : ℚ) : ℝ)
    have h2 : (items.map fun e => ((e.2 : ℚ) : ℝ)).sum = ((pmf.mapIdx fun i p => (i, p)).map fun e => ((e.2 : ℚ) : ℝ)).sum :=
      (hpm.map _).sum_eq
    rw [h2] at h1
    have h3 : ((pmf.mapIdx fun i p => (i, p)).map fun e => ((e.2 : ℚ) : ℝ)) = pmf.map fun p : ℚ => (p : ℝ) := by
      conv_rhs => rw [← hsnd]
      rw [List.map_map]
      rfl
    rw [h3, ← Rat.cast_list_sum, hp.2, Rat.cast_one] at h1
    exact h1
  have e4 : segment items 0 (items.length - 1) ≤ 1 - m := by
    have h1 := Finset.sum_Ico_succ_top (show 0 ≤ items.length - 1 by omega) (itemProb items)
    rw [show items.length - 1 + 1 = items.length by omega] at h1
    have h2 : (m : ℝ) ≤ itemProb items (items.length - 1) := by
      rw [itemProb, List.getD_eq_getElem _ _ (by omega)]
      exact_mod_cast hm _ (hmem _ (List.getElem_mem _))
    rw [segment] at e3 ⊢
    linarith
  rw [e1, fanoCost] at hcost
  simp only [e2, e3, negMulLog_one, sub_zero] at hcost
  push_cast at hcost e4 ⊢
  linarith

theorem negMulLog_block (pmf : List ℚ) (hsum : pmf.sum = 1) (k : Nat) :
    ((FVCode.blockProbabilities pmf k).map fun p : ℚ => negMulLog (p : ℝ)).sum = k * (pmf.map fun p : ℚ => negMulLog (p : ℝ)).sum := by
  induction k with
  | zero => simp [FVCode.blockProbabilities]
  | succ k ih =>
    rw [FVCode.blockProbabilities]
    have hB : (FVCode.blockProbabilities pmf k).sum = 1 := by rw [blockProbabilities_sum, hsum, one_pow]
    generalize FVCode.blockProbabilities pmf k = B at *
    have hone : ∀ p : ℚ, ((B.map (p * ·)).map fun p : ℚ => negMulLog (p : ℝ)).sum = negMulLog (p : ℝ) + p * (B.map fun p : ℚ => negMulLog (p : ℝ)).sum := by
      intro p
      have h1 : ∀ l : List ℚ, ((l.map (p * ·)).map fun p : ℚ => negMulLog (p : ℝ)).sum = negMulLog (p : ℝ) * ((l.sum : ℚ) : ℝ) + p * (l.map fun p : ℚ => negMulLog (p : ℝ)).sum := by
        intro l
        induction l with
        | nil => simp
        | cons x l ih =>
          simp only [List.map_cons, List.sum_cons] at ih ⊢
          rw [ih, Rat.cast_mul, negMulLog_mul, Rat.cast_add]
          ring
      rw [h1 B, hB, Rat.cast_one, mul_one]
    have h2 : ∀ l : List ℚ, ((l.flatMap fun p => B.map (p * ·)).map fun p : ℚ => negMulLog (p : ℝ)).sum =
        (l.map fun p : ℚ => negMulLog (p : ℝ)).sum + ((l.sum : ℚ) : ℝ) * (B.map fun p : ℚ => negMulLog (p : ℝ)).sum := by
      intro l
      induction l with
      | nil => simp
      | cons x l ih =>
        rw [List.flatMap_cons, List.map_append, List.sum_append, hone, ih]
        simp only [List.map_cons, List.sum_cons]
        rw [Rat.cast_add]
        ring
    rw [h2, hsum, ih]
    push_cast
    ring

theorem blockProbabilities_lower {pmf : List ℚ} {m : ℚ} (h0 : 0 ≤ m) (hm : ∀ p ∈ pmf, m ≤ p) (k : Nat) : ∀ p ∈ FVCode.blockProbabilities pmf k, m ^ k ≤ p := by
  induction k with
  | zero => simp [FVCode.blockProbabilities]
  | succ k ih =>
    intro x hx
    obtain ⟨p, hpm, hx⟩ := List.mem_flatMap.mp hx
    obtain ⟨y, hy, rfl⟩ := List.mem_map.mp hx
    rw [pow_succ, mul_comm]
    exact mul_le_mul (hm p hpm) (ih y hy) (pow_nonneg h0 _) (h0.trans (hm p hpm))

theorem blockProbabilities_isPmf {pmf : List ℚ} (hp : IsPmf pmf) (k : Nat) : IsPmf (FVCode.blockProbabilities pmf k) := by
  constructor
  · induction k with
    | zero => simp [FVCode.blockProbabilities]
    | succ k ih =>
      intro x hx
      obtain ⟨p, hpm, hx⟩ := List.mem_flatMap.mp hx
      obtain ⟨y, hy, rfl⟩ := List.mem_map.mp hx
      exact mul_nonneg (hp.1 p hpm) (ih y hy)
  · rw [blockProbabilities_sum, hp.2, one_pow]

/-- For every pmf with at least two symbols (zero probabilities allowed) and every block size, the rate of the Fano code is at least the entropy and exceeds
it by at most `(1 - m ^ k) / k`, where `m` is any lower bound of the probabilities. -/
theorem C128_fano (pmf : List ℚ) (hp : IsPmf pmf) (k : Nat) (h2 : 2 ≤ pmf.length) (hk : 1 ≤ k) :
    ∃ c h r, fanoCode pmf k = some c ∧ entropy (pmfVec pmf) (.num 2) = some h ∧ c.rate pmf = some r ∧ h ≤ (r : ℝ) ∧
      ∀ m : ℚ, 0 ≤ m → (∀ p ∈ pmf, m ≤ p) → (r : ℝ) ≤ h + (1 - (m : ℝ) ^ k) / k := by
  obtain ⟨c, hc, hkeys, hwords, hpf, -, hup⟩ := C28_fano_complete_prefix pmf hp.1 k h2 hk
  have hb1 : (1 : ℝ) < 2 := by norm_num
  have hent := entropy_pmfVec hp.1 hp.2 hb1
  have hnd := hpf.nodup fun w hw => (hwords w hw).1
  have hkr := mcmillan (b := 2) (by norm_num) hnd hup fun w hw => (hwords w hw).2
  obtain ⟨h, hh, hle⟩ := expectedRate_lower (b := 2) c.encMapping pmf h2 le_rfl hk rfl hp (by rw [hkeys]) hkr
  -- the lengths of the codewords
  have hB := blockProbabilities_isPmf hp k
  obtain ⟨j, hj⟩ : ∃ j, k = j + 1 := ⟨k - 1, by omega⟩
  have hext : extendedPmf pmf k = FVCode.blockProbabilities pmf k := by rw [hj]; exact extendedPmf_eq pmf j
  have hlenB : (FVCode.blockProbabilities pmf k).length = pmf.length ^ k := by rw [← hext, hj]; exact extendedPmf_length pmf j
  have hge : 2 ≤ (FVCode.blockProbabilities pmf k).length := by
    rw [hlenB]
    calc 2 ≤ pmf.length := h2
      _ = pmf.length ^ 1 := (pow_one _).symm
      _ ≤ _ := Nat.pow_le_pow_right (by omega) (by omega)
  obtain ⟨ls, hls, hlsl, hls0, hkr'⟩ := fanoLengths_spec (FVCode.blockProbabilities pmf k) hB.1 hge
  obtain ⟨cs, hcs⟩ := (canonicalCode_isSome_iff ls 2 le_rfl).mpr ⟨by
    rintro rfl; simp at hlsl; omega, hkr'.le⟩
  obtain ⟨_, _, _, h3, h4, h5⟩ := canonicalCode_spec hcs
  have hlen : cs.length = pmf.length ^ k := by rw [← hlenB, ← hlsl, ← h3, List.length_map]
  obtain ⟨hc1, hc2, hc3⟩ := create_zip h2 le_rfl hk hlen h4
  have hceq : c = ⟨pmf.length, 2, k, (allWords pmf.length k).zip cs⟩ := by
    unfold fanoCode at hc
    rw [if_neg (by omega), hext, hls] at hc
    simp only [hcs] at hc
    rw [hc1] at hc
    exact (Option.some_inj.mp hc).symm
  have hcw : c.codewords.map List.length = ls := by rw [hceq, hc2, h3]
  have hcb : c.sourceBlockSize = k := by rw [hceq]
  obtain ⟨r, hr⟩ : ∃ r, r = (List.zipWith (fun (l : Nat) (p : ℚ) => (l : ℚ) * p) ls (FVCode.blockProbabilities pmf k)).sum / k := ⟨_, rfl⟩
  have hrate : c.rate pmf = some r := by
    unfold FVCode.rate
    simp only [hcw, hcb]
    rw [if_neg (by rw [hlsl]; exact not_not.mpr rfl), hr]
  have hrate' := C79_rate_lexicographic_partial c pmf (by rw [hcb]; exact hkeys)
  have hk0 : (0 : ℝ) < k := by exact_mod_cast hk
  refine ⟨c, h, r, hc, by exact_mod_cast hh, hrate, ?_, ?_⟩
  · rw [hrate, Option.some_inj] at hrate'
    rw [hrate', expectedRate, hcb]
    exact hle
  · intro m hm0 hm
    have hcost := fanoLengths_cost _ hB hge ls hls hlsl (m ^ k) (blockProbabilities_lower hm0 hm k)
    rw [negMulLog_block pmf hp.2] at hcost
    have hhe : h = (pmf.map fun p : ℚ => negMulLog (p : ℝ)).sum / log 2 := by
      rw [show ((2 : ℕ) : ℝ) = 2 by norm_num, hent] at hh
      rw [← Option.some_inj.mp hh, Finset.sum_range]
      congr 1
      conv_rhs => rw [← List.ofFn_getElem (xs := pmf), List.map_ofFn, List.sum_ofFn]
      refine Finset.sum_congr rfl fun i _ => ?_
      simp only [symbolProb, Function.comp]
      rw [List.getD_eq_getElem _ _ i.2]
    rw [hr, Rat.cast_div, Rat.cast_natCast, div_le_iff₀ hk0]
    refine hcost.trans (le_of_eq ?_)
    rw [hhe]
    push_cast
    field_simp

/-- Hence a rate below `H + 1 / k` for positive probabilities. -/
theorem C128_fano_strict (pmf : List ℚ) (hpos : ∀ x ∈ pmf, 0 < x) (hsum : pmf.sum = 1) (k : Nat) (h2 : 2 ≤ pmf.length) (hk : 1 ≤ k) :
    ∃ c h r, fanoCode pmf k = some c ∧ entropy (pmfVec pmf) (.num 2) = some h ∧ c.rate pmf = some r ∧ h ≤ (r : ℝ) ∧ (r : ℝ) < h + 1 / k := by
  obtain ⟨c, h, r, h3, h4, h5, h6, h7⟩ := C128_fano pmf ⟨fun x hx => (hpos x hx).le, hsum⟩ k h2 hk
  refine ⟨c, h, r, h3, h4, h5, h6, ?_⟩
  obtain ⟨m, hm, hmin⟩ : ∃ m ∈ pmf, ∀ p ∈ pmf, m ≤ p := by
    have hne : pmf ≠ [] := by rintro rfl; simp at h2
    obtain ⟨m, hm, hmin⟩ := Finset.exists_min_image pmf.toFinset id ⟨pmf.head hne, by simp⟩
    exact ⟨m, List.mem_toFinset.mp hm, fun p hp => hmin p (List.mem_toFinset.mpr hp)⟩
  have hk0 : (0 : ℝ) < k := by exact_mod_cast hk
  refine (h7 m (hpos m hm).le hmin).trans_lt ?_
  have : (0 : ℝ) < (m : ℝ) ^ k := pow_pos (by exact_mod_cast hpos m hm) _
  have := div_lt_div_of_pos_right (show 1 - (m : ℝ) ^ k < 1 by linarith) hk0
  linarith

/-- The same bound for Huffman codes, which are at least as good (`C27`). -/
theorem C128_huffman (pmf : List ℚ) (hp : IsPmf pmf) (k : Nat) (policy : HuffmanPolicy) (assignment : HuffmanAssignment) (h2 : 2 ≤ pmf.length) (hk : 1 ≤ k) :
    ∃ c h r, huffmanCode pmf k policy assignment = some c ∧ entropy (pmfVec pmf) (.num 2) = some h ∧ c.rate pmf = some r ∧ h ≤ (r : ℝ) ∧
      ∀ m : ℚ, 0 ≤ m → (∀ p ∈ pmf, m ≤ p) → (r : ℝ) ≤ h + (1 - (m : ℝ) ^ k) / k := by
  obtain ⟨c, hc, hr, hopt⟩ := C27_huffman_optimal pmf hp.1 k policy assignment h2 hk
  obtain ⟨c₁, hc₁, hkeys, hwords, hpf, -, hup⟩ := C26_huffman_complete_prefix pmf k policy assignment h2 hk
  rw [hc] at hc₁; cases hc₁
  obtain ⟨c₁, h1, -, -, -, -, -, -, -, h9⟩ := huffmanCode_facts pmf k policy assignment h2 hk
  rw [hc] at h1; cases h1
  obtain ⟨f, h, rf, f1, f2, f3, f4, f5⟩ := C128_fano pmf hp k h2 hk
  obtain ⟨f', f1', fkeys, fwords, fpf, -, fup⟩ := C28_fano_complete_prefix pmf hp.1 k h2 hk
  rw [f1] at f1'; cases f1'
  have hnd := hpf.nodup fun w hw => (hwords w hw).1
  have hkr := mcmillan (b := 2) (by norm_num) hnd hup fun w hw => (hwords w hw).2
  obtain ⟨h', hh', hle⟩ := expectedRate_lower (b := 2) c.encMapping pmf h2 le_rfl hk rfl hp (by rw [hkeys]) hkr
  have heq : h' = h := by
    rw [show ((2 : ℕ) : ℝ) = 2 by norm_num, f2] at hh'
    exact (Option.some_inj.mp hh').symm
  have hrate := C79_rate_lexicographic_partial c pmf (by rw [h9]; exact hkeys)
  refine ⟨c, h, _, hc, f2, hr, ?_, fun m hm0 hm => le_trans ?_ (f5 m hm0 hm)⟩
  · rw [hr, Option.some_inj] at hrate
    rw [hrate, expectedRate, h9, ← heq]
    exact hle
  · have hfs : f.sourceBlockSize = k := by
      unfold fanoCode at f1
      split at f1
      · cases f1
      · split at f1
        · cases f1
        · split at f1
          · cases f1
          · obtain ⟨-, -, -, -, -, rfl⟩ := FVCode.create_facts f1
            rfl
    have hrf : rf = expectedLength (FVCode.blockProbabilities pmf k) f.codewords / k := by
      unfold FVCode.rate at f3
      simp only [hfs] at f3
      split at f3
      · cases f3
      · rw [← Option.some.inj f3, expectedLength, List.zipWith_map_left]
    have hlenc : f.codewords.length = pmf.length ^ k := by
      rw [FVCode.codewords, List.length_map, ← List.length_map (f := Prod.fst), fkeys, allWords_length]
    have := hopt f.codewords hlenc (fun w hw => (fwords w hw).2) (fpf.nodup fun w hw => (fwords w hw).1) fup
    have hk0 : (0 : ℚ) < k := by exact_mod_cast hk
    rw [hrf]
    exact_mod_cast div_le_div_of_nonneg_right this hk0.le

/-- Non-vacuity: a pmf with a zero, for which the bound `H + 1` is reached (the entropy is 0 and the rate 1), and the pmf of the documentation. -/
example : IsPmf [1, 0] ∧ (∃ c, fanoCode [1, 0] 1 = some c ∧ c.rate [1, 0] = some 1) ∧ IsPmf [8/10, 1/10, 1/10] ∧
    (∃ c, fanoCode [8/10, 1/10, 1/10] 1 = some c ∧ c.rate [8/10, 1/10, 1/10] = some (12/10)) := by
  refine ⟨by constructor <;> decide +kernel, ?_, by constructor <;> decide +kernel, ?_⟩
  · exact ⟨⟨2, 2, 1, [([0], [0]), ([1], [1])]⟩, by decide +kernel, by decide +kernel⟩
  · exact ⟨⟨3, 2, 1, [([0], [0]), ([1], [1, 0]), ([2], [1, 1])]⟩, by decide +kernel, by decide +kernel⟩

end Komm
