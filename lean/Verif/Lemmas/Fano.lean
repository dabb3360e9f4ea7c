import Verif.Model.FanoShannon
import Verif.Lemmas.HuffmanCode

namespace Komm

theorem argminAux_spec (vs : List ℚ) : ∀ (best : ℚ) (bi next : Nat), bi < next →
    argminAux best bi next vs = bi ∨
      ∃ j, ∃ h : j < vs.length, argminAux best bi next vs = next + j ∧ vs[j] < best := by
  induction vs with
  | nil => intro best bi next _; exact Or.inl rfl
  | cons v vs ih =>
    intro best bi next hlt
    rw [argminAux]
    split
    · rename_i hv
      rcases ih v next (next + 1) (by omega) with h | ⟨j, hj, h, h'⟩
      · exact Or.inr ⟨0, by simp, by simp [h], hv⟩
      · exact Or.inr ⟨j + 1, by simpa using hj, by rw [h]; omega, by simpa using h'.trans hv⟩
    · rcases ih best bi (next + 1) (by omega) with h | ⟨j, hj, h, h'⟩
      · exact Or.inl h
      · exact Or.inr ⟨j + 1, by simpa using hj, by rw [h]; omega, by simpa using h'⟩

theorem argminList_zero_or (v : ℚ) (vs : List ℚ) : argminList (v :: vs) = 0 ∨
    ∃ j, ∃ h : j < vs.length, argminList (v :: vs) = j + 1 ∧ vs[j] < v := by
  rcases argminAux_spec vs v 0 1 (by omega) with h | ⟨j, hj, h, h'⟩
  · exact Or.inl h
  · exact Or.inr ⟨j, hj, by rw [argminList, h]; omega, h'⟩

theorem cumsumFrom_length (acc : ℚ) (ps : List ℚ) : (cumsumFrom acc ps).length = ps.length := by
  induction ps generalizing acc with
  | nil => rfl
  | cons p ps ih => simp [cumsumFrom, ih]

theorem cumsumFrom_last (acc : ℚ) (ps : List ℚ) (j : Nat) (hj : j + 1 = ps.length) :
    (cumsumFrom acc ps)[j]'(by rw [cumsumFrom_length]; omega) = acc + ps.sum := by
  induction ps generalizing acc j with
  | nil => simp at hj
  | cons p ps ih =>
    cases j with
    | zero =>
      have : ps = [] := List.length_eq_zero_iff.mp (by simpa using hj.symm)
      subst this
      simp [cumsumFrom]
    | succ j =>
      simp only [cumsumFrom, List.getElem_cons_succ]
      rw [ih (acc + p) j (by simpa using hj), List.sum_cons]; ring

/-- The split point is never the last position. -/
theorem fanoSplit_lt (probs : List ℚ) (hn : 2 ≤ probs.length) (hp : ∀ p ∈ probs, 0 ≤ p) :
    fanoSplit probs + 1 < probs.length := by
  match probs, hn with
  | p :: q :: ps, _ =>
    unfold fanoSplit
    generalize hS : (p :: q :: ps).sum = S
    simp only [cumsumFrom, List.map_cons, zero_add]
    rcases argminList_zero_or (|p - S / 2|) (|p + q - S / 2| :: (cumsumFrom (p + q) ps).map fun s => |s - S / 2|)
      with h | ⟨j, hj, h, h'⟩
    · rw [h]; simp
    · rw [h]
      simp only [List.length_cons, List.length_map, cumsumFrom_length] at hj ⊢
      by_contra hc
      have hj2 : j = ps.length := by omega
      have hlast : (|p + q - S / 2| :: (cumsumFrom (p + q) ps).map fun s => |s - S / 2|)[j]'(by
          simp [cumsumFrom_length]; omega) = |S - S / 2| := by
        have := cumsumFrom_last p (q :: ps) j (by simp [hj2])
        have h2 : (|p + q - S / 2| :: (cumsumFrom (p + q) ps).map fun s => |s - S / 2|) =
            (cumsumFrom p (q :: ps)).map fun s => |s - S / 2| := by simp [cumsumFrom]
        simp only [h2, List.getElem_map, this]
        rw [← hS]; simp
      rw [hlast] at h'
      have hpp := hp p (by simp)
      have hrest : 0 ≤ (q :: ps).sum := List.sum_nonneg (fun x hx => hp x (by simp [hx]))
      have hS' : S = p + (q :: ps).sum := by rw [← hS, List.sum_cons]
      rw [show S - S / 2 = S / 2 by ring, abs_of_nonneg (by linarith)] at h'
      have : |p - S / 2| ≤ S / 2 := abs_le.mpr ⟨by linarith, by linarith⟩
      linarith

def fanoMeasure (stack : List (Nat × Nat × Nat)) : Nat := (stack.map fun t => 2 * (t.2.1 - t.1) - 1).sum

theorem range'_split (lo mid hi : Nat) (h1 : lo ≤ mid) (h2 : mid ≤ hi) :
    List.range' lo (hi - lo) = List.range' lo (mid - lo) ++ List.range' mid (hi - mid) := by
  rw [show hi - lo = (mid - lo) + (hi - mid) by omega, ← List.range'_append]
  congr 2
  omega

/-- Loop invariant and result of `fano_code_lengths`. -/
theorem fanoLoop_spec (items : List (Nat × ℚ)) (hnn : ∀ e ∈ items, 0 ≤ e.2)
    (hperm : (items.map Prod.fst).Perm (List.range items.length)) (fuel : Nat) :
    ∀ (stack : List (Nat × Nat × Nat)) (lengths : List Nat) (G : List (Nat × Nat)),
      (∀ t ∈ stack, t.1 < t.2.1 ∧ t.2.1 ≤ items.length) →
      (G.map Prod.fst ++ stack.flatMap fun t => List.range' t.1 (t.2.1 - t.1)).Perm (List.range items.length) →
      (G.map fun e => (1 : ℚ) / 2 ^ e.2).sum + (stack.map fun t => (1 : ℚ) / 2 ^ t.2.2).sum = 1 →
      lengths.length = items.length →
      (∀ e ∈ G, lengths[(items.getD e.1 (0, 0)).1]? = some e.2) →
      fanoMeasure stack ≤ fuel →
      ∃ (lengths' : List Nat) (G' : List (Nat × Nat)), fanoLoop items fuel stack lengths = some lengths' ∧
        (G'.map Prod.fst).Perm (List.range items.length) ∧ (G'.map fun e => (1 : ℚ) / 2 ^ e.2).sum = 1 ∧
        lengths'.length = items.length ∧
        (∀ e ∈ G', lengths'[(items.getD e.1 (0, 0)).1]? = some e.2) ∧
        ((∀ e ∈ G, e.2 ≠ 0) → (∀ t ∈ stack, t.2.2 ≠ 0) → ∀ e ∈ G', e.2 ≠ 0) := by
  induction fuel with
  | zero =>
    intro stack lengths G h1 h2 h3 h4 h5 h6
    match stack with
    | [] =>
      refine ⟨lengths, G, by simp [fanoLoop], by simpa using h2, by simpa using h3, h4, h5, fun h _ => h⟩
    | t :: stack =>
      have := h1 t (by simp)
      simp only [fanoMeasure, List.map_cons, List.sum_cons] at h6
      omega
  | succ fuel ih =>
    intro stack lengths G h1 h2 h3 h4 h5 h6
    match stack with
    | [] =>
      refine ⟨lengths, G, by simp [fanoLoop], by simpa using h2, by simpa using h3, h4, h5, fun h _ => h⟩
    | (lo, hi, len) :: stack =>
      have ht := h1 (lo, hi, len) (by simp)
      simp only at ht
      simp only [fanoMeasure, List.map_cons, List.sum_cons] at h6
      rw [fanoLoop]
      split
      · rename_i hone
        have hitem : ∀ i, i < items.length → (items.getD i (0, 0)).1 < items.length := by
          intro i hi
          have : (items.getD i (0, 0)).1 ∈ items.map Prod.fst := by
            rw [List.getD_eq_getElem _ _ hi]; exact List.mem_map_of_mem (List.getElem_mem hi)
          exact List.mem_range.mp (hperm.subset this)
        have hinj : ∀ i j, i < items.length → j < items.length → i ≠ j →
            (items.getD i (0, 0)).1 ≠ (items.getD j (0, 0)).1 := by
          intro i j hi hj hij heq
          have hnd : (items.map Prod.fst).Nodup := hperm.nodup_iff.mpr List.nodup_range
          rw [List.getD_eq_getElem _ _ hi, List.getD_eq_getElem _ _ hj] at heq
          have := (List.Nodup.getElem_inj_iff hnd (i := i) (j := j) (hi := by simpa using hi)
            (hj := by simpa using hj)).mp (by simpa using heq)
          exact hij this
        have hlo : lo < items.length := by omega
        obtain ⟨ls, G', q1, q2, q3, q4, q5, q6⟩ := ih stack (lengths.set (items.getD lo (0, 0)).1 len)
          ((lo, len) :: G) (fun t ht => h1 t (by simp [ht])) (by
            refine List.Perm.trans ?_ h2
            simp only [List.map_cons, List.flatMap_cons, hone, List.range'_one]
            simp only [List.cons_append, List.nil_append]
            exact List.perm_middle.symm) (by
            simp only [List.map_cons, List.sum_cons] at h3 ⊢; linarith) (by simpa using h4) (by
            intro e he
            rcases List.mem_cons.mp he with rfl | he
            · simp only
              rw [List.getElem?_set_self (by rw [h4]; exact hitem lo hlo)]
            · have hnd := h2.nodup_iff.mpr List.nodup_range
              have he1 : e.1 ∈ G.map Prod.fst := List.mem_map_of_mem he
              have hne : lo ≠ e.1 := by
                intro hc
                rw [List.nodup_append] at hnd
                exact hnd.2.2 _ he1 lo (by simp [hone]) hc.symm
              have helt : e.1 < items.length := List.mem_range.mp (h2.subset (by simp [-List.mem_map, he1]))
              rw [List.getElem?_set_ne (hinj lo e.1 hlo helt hne)]
              exact h5 e he) (by unfold fanoMeasure; omega)
        refine ⟨ls, G', q1, q2, q3, q4, q5, ?_⟩
        intro hG hs
        apply q6
        · intro e he
          rcases List.mem_cons.mp he with rfl | he
          · exact hs (lo, hi, len) (by simp)
          · exact hG e he
        · intro t ht; exact hs t (by simp [ht])
      · rename_i hone
        dsimp only
        generalize hprobs : ((items.drop lo).take (hi - lo)).map Prod.snd = probs
        have hlen : probs.length = hi - lo := by
          rw [← hprobs]; simp; omega
        have hsplit := fanoSplit_lt probs (by omega) (by
          intro p hp
          rw [← hprobs] at hp
          obtain ⟨e, he, rfl⟩ := List.mem_map.mp hp
          exact hnn e (List.mem_of_mem_drop (List.mem_of_mem_take he)))
        generalize hmid : lo + fanoSplit probs + 1 = mid
        have hm1 : lo < mid := by omega
        have hm2 : mid < hi := by omega
        obtain ⟨ls, G', q1, q2, q3, q4, q5, q6⟩ := ih ((lo, mid, len + 1) :: (mid, hi, len + 1) :: stack) lengths G (by
            intro t ht
            rcases List.mem_cons.mp ht with rfl | ht
            · exact ⟨hm1, by simp; omega⟩
            · rcases List.mem_cons.mp ht with rfl | ht
              · exact ⟨hm2, by simp; omega⟩
              · exact h1 t (by simp [ht])) (by
            refine List.Perm.trans (List.Perm.of_eq ?_) h2
            simp only [List.flatMap_cons]
            rw [range'_split lo mid hi hm1.le hm2.le]
            simp) (by
            have hh : (1 : ℚ) / 2 ^ (len + 1) = 1 / 2 ^ len / 2 := by rw [pow_succ]; field_simp
            simp only [List.map_cons, List.sum_cons, hh] at h3 ⊢
            linarith) h4 h5 (by
            simp only [fanoMeasure, List.map_cons, List.sum_cons]; omega)
        refine ⟨ls, G', q1, q2, q3, q4, q5, ?_⟩
        intro hG hs
        apply q6 hG
        intro t ht
        rcases List.mem_cons.mp ht with rfl | ht
        · simp
        · rcases List.mem_cons.mp ht with rfl | ht
          · simp
          · exact hs t (by simp [ht])

theorem fanoLengths_spec (pmf : List ℚ) (hp : ∀ p ∈ pmf, 0 ≤ p) (hn : 2 ≤ pmf.length) :
    ∃ lengths, fanoLengths pmf = some lengths ∧ lengths.length = pmf.length ∧
      (∀ l ∈ lengths, l ≠ 0) ∧ kraftSum lengths 2 = 1 := by
  unfold fanoLengths
  dsimp only
  set items := (pmf.mapIdx fun i p => (i, p)).insertionSort fun a b => b.2 ≤ a.2 with hitems
  have hpm := List.perm_insertionSort (fun a b : Nat × ℚ => b.2 ≤ a.2) (pmf.mapIdx fun i p => (i, p))
  rw [← hitems] at hpm
  have hlen : items.length = pmf.length := by rw [hpm.length_eq]; simp
  have hfst : (pmf.mapIdx fun i p => (i, p)).map Prod.fst = List.range pmf.length := by
    apply List.ext_getElem (by simp)
    intro i h1 h2
    simp
  have hperm : (items.map Prod.fst).Perm (List.range items.length) := by
    rw [hlen, ← hfst]; exact hpm.map _
  have hnn : ∀ e ∈ items, 0 ≤ e.2 := by
    intro e he
    obtain ⟨i, hi, rfl⟩ := List.getElem_of_mem (hpm.subset he)
    simp only [List.length_mapIdx] at hi
    simp only [List.getElem_mapIdx]
    exact hp _ (List.getElem_mem hi)
  have hsplitfirst := fanoSplit_lt (((items.drop 0).take (pmf.length - 0)).map Prod.snd) (by
    simp [hlen]; omega) (by
      intro p hp
      obtain ⟨e, he, rfl⟩ := List.mem_map.mp hp
      exact hnn e (List.mem_of_mem_drop (List.mem_of_mem_take he)))
  have hsplen : (((items.drop 0).take (pmf.length - 0)).map Prod.snd).length = pmf.length := by
    simp [hlen]
  -- unfold the first round so that all lengths are positive
  obtain ⟨f, hf⟩ : ∃ f, 2 * pmf.length = f + 1 := ⟨2 * pmf.length - 1, by omega⟩
  rw [hf, fanoLoop, if_neg (by omega)]
  dsimp only
  generalize hmid : 0 + fanoSplit (((items.drop 0).take (pmf.length - 0)).map Prod.snd) + 1 = mid
  rw [hsplen] at hsplitfirst
  obtain ⟨ls, G, q1, q2, q3, q4, q5, q6⟩ := fanoLoop_spec items hnn hperm f
    [(0, mid, 0 + 1), (mid, pmf.length, 0 + 1)] (List.replicate pmf.length 0) [] (by
      intro t ht
      simp only [List.mem_cons, List.not_mem_nil, or_false] at ht
      rcases ht with rfl | rfl <;> simp <;> omega) (by
      simp only [List.map_nil, List.nil_append, List.flatMap_cons, List.flatMap_nil, List.append_nil]
      rw [← range'_split 0 mid pmf.length (by omega) (by omega), hlen, List.range_eq_range', Nat.sub_zero])
    (by norm_num) (by simp [hlen]) (by simp) (by
      simp only [fanoMeasure, List.map_cons, List.map_nil, List.sum_cons, List.sum_nil]; omega)
  have hG0 := q6 (by simp) (by simp)
  -- lengths as a permutation of the assigned lengths
  have hls : (G.map Prod.snd).Perm ls := by
    have h1 : G.map Prod.snd = (G.map Prod.fst).map fun i => ls.getD (items.getD i (0, 0)).1 0 := by
      rw [List.map_map]
      apply List.map_congr_left
      intro e he
      have := q5 e he
      rw [Function.comp_apply, List.getD_eq_getElem?_getD, this]; rfl
    rw [h1]
    refine (q2.map _).trans ?_
    have h2 : (List.range items.length).map (fun i => ls.getD (items.getD i (0, 0)).1 0) =
        (items.map Prod.fst).map fun i => ls.getD i 0 := by
      apply List.ext_getElem (by simp)
      intro i h3 h4
      simp only [List.length_map, List.length_range] at h3
      simp [List.getD_eq_getElem?_getD, h3]
    rw [h2]
    refine (hperm.map _).trans (List.Perm.of_eq ?_)
    apply List.ext_getElem (by simp [q4])
    intro i h3 h4
    simp [List.getD_eq_getElem?_getD, h4]
  have hpos : ∀ l ∈ ls, l ≠ 0 := by
    intro l hl
    obtain ⟨e, he, rfl⟩ := List.mem_map.mp (hls.symm.subset hl)
    exact hG0 e he
  refine ⟨ls, q1, by rw [q4, hlen], hpos, ?_⟩
  rw [kraftSum_pos hpos, ← (hls.map _).sum_eq, List.map_map]
  exact q3

end Komm
