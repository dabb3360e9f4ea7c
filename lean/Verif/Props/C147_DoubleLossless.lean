import Verif.Model.DoubleLossless
import Verif.Lemmas.Fano
import Verif.Lemmas.TunstallOptimal
import Verif.Props.C134_DoubleViterbi
import Verif.Props.C137_DoubleHuffman
import Verif.Props.C28_C30_Lossless
import Verif.Props.C100_Rates
import Verif.Props.C146_DoubleMutual

/-! C147: Fano and Tunstall codes in double precision. -/
namespace Komm
open WordTree

/-! ### rounding is symmetric -/

theorem npRound_neg (x : ℝ) : npRound (-x) = -npRound x := by
  have hf := Int.floor_le x
  have hf2 := Int.lt_floor_add_one x
  rcases eq_or_lt_of_le hf with h | h
  · generalize ⌊x⌋ = f at *
    subst h
    have e : ∀ k : ℤ, npRound (k : ℝ) = k := by
      intro k
      unfold npRound
      simp
    rw [e, ← Int.cast_neg, e]
  · have hfl : ⌊-x⌋ = -⌊x⌋ - 1 := by
      rw [Int.floor_eq_iff]
      push_cast
      constructor <;> linarith
    unfold npRound
    simp only [hfl]
    generalize ⌊x⌋ = f at *
    push_cast
    split_ifs <;> first | omega | (exfalso; linarith)

theorem rnd_neg (x : ℝ) : rnd (-x) = -rnd x := by
  have e : ulpExp (-x) = ulpExp x := by unfold ulpExp; rw [abs_neg]
  unfold rnd
  rw [e, neg_div, npRound_neg]
  push_cast
  ring

theorem rnd_half_le {s : ℝ} (hs : IsDouble s) : 2 * rnd (s / 2) ≤ s + 2 ^ (-1074 : ℤ) := by
  have ht : (2 : ℝ) ^ (-1074 : ℤ) = 2 * 2 ^ (-1075 : ℤ) := by
    rw [show (-1074 : ℤ) = 1 + -1075 by norm_num, zpow_add₀ (by norm_num), zpow_one]
  have tp := two_zpow_pos (-1075)
  obtain ⟨k, hk⟩ := isDouble_multiple hs
  obtain ⟨m, e, hm, he, hse⟩ := id hs
  rcases lt_or_ge e (-1073) with h | h
  · have he' : e = -1074 := by omega
    subst he'
    have hy : IsDouble (((m / 2 : ℤ) : ℝ) * 2 ^ (-1074 : ℤ)) := ⟨m / 2, -1074, by
      rw [abs_lt] at hm ⊢
      constructor <;> omega, le_rfl, rfl⟩
    have hn := rnd_nearest (s / 2) hy
    have hm2 : (m : ℝ) = 2 * ((m / 2 : ℤ) : ℝ) + ((m % 2 : ℤ) : ℝ) := by exact_mod_cast (Int.mul_ediv_add_emod m 2).symm
    have h01 : ((m % 2 : ℤ) : ℝ) = 0 ∨ ((m % 2 : ℤ) : ℝ) = 1 := by
      rcases Int.emod_two_eq_zero_or_one m with h | h <;> rw [h] <;> simp
    have e1 : ((m / 2 : ℤ) : ℝ) * 2 ^ (-1074 : ℤ) - s / 2 = -(((m % 2 : ℤ) : ℝ) * 2 ^ (-1075 : ℤ)) := by
      rw [hse, hm2, ht]; ring
    rw [e1, abs_neg, abs_of_nonneg (a := ((m % 2 : ℤ) : ℝ) * 2 ^ (-1075 : ℤ)) (by rcases h01 with h | h <;> rw [h] <;> linarith)] at hn
    have := (abs_le.mp hn).2
    rw [ht]
    generalize (2 : ℝ) ^ (-1075 : ℤ) = t at *
    rcases h01 with h | h <;> rw [h] at this <;> linarith
  · have hd : IsDouble (s / 2) := ⟨m, e - 1, hm, by omega, by rw [hse, zpow_sub_one₀ (by norm_num)]; ring⟩
    rw [rnd_of_isDouble hd]
    have := two_zpow_pos (-1074)
    generalize (2 : ℝ) ^ (-1074 : ℤ) = t at *
    linarith

/-! ### the split of Fano's algorithm -/

theorem cumsumD_facts (acc : Double) (h0 : 0 ≤ acc.val) (done : List Double) (hacc : SumOf done acc) (ps : List Double) (hp : ∀ p ∈ ps, 0 ≤ p.val) :
    (cumsumD acc ps).length = ps.length ∧ (∀ c ∈ cumsumD acc ps, acc.val ≤ c.val) ∧
      ∀ (j : Nat) (hj : j < (cumsumD acc ps).length), j + 1 = ps.length → SumOf (done ++ ps) ((cumsumD acc ps)[j]) := by
  induction ps generalizing acc done with
  | nil => simp [cumsumD]
  | cons p ps ih =>
    have hge : acc.val ≤ (acc + p).val := by
      rw [Double.add_val]
      have := rnd_mono (by linarith [hp p (by simp)] : acc.val ≤ acc.val + p.val)
      rwa [rnd_of_isDouble (x := acc.val) acc.2] at this
    obtain ⟨i1, i2, i3⟩ := ih (acc + p) (h0.trans hge) (done ++ [p]) (SumOf.add hacc (SumOf.one p)) (fun q hq => hp q (by simp [hq]))
    refine ⟨by simp [cumsumD, i1], ?_, ?_⟩
    · intro c hc
      rw [cumsumD] at hc
      rcases List.mem_cons.mp hc with rfl | hc
      · exact hge
      · exact hge.trans (i2 c hc)
    · intro j hj hlast
      cases j with
      | zero =>
        have : ps = [] := List.length_eq_zero_iff.mp (by simpa using hlast.symm)
        subst this
        exact SumOf.add hacc (SumOf.one p)
      | succ j =>
        have := i3 j (by simpa [cumsumD] using hj) (by simpa using hlast)
        simpa [cumsumD] using this

theorem argminReal_spec (vs : List ℝ) : ∀ (best : ℝ) (bi next : Nat), bi < next →
    argminReal best bi next vs = bi ∨ ∃ j, ∃ h : j < vs.length, argminReal best bi next vs = next + j ∧ vs[j] < best := by
  induction vs with
  | nil => intro best bi next _; exact Or.inl rfl
  | cons v vs ih =>
    intro best bi next hlt
    rw [argminReal]
    split
    · rename_i hv
      rcases ih v next (next + 1) (by omega) with h | ⟨j, hj, h, h'⟩
      · exact Or.inr ⟨0, by simp, by simp [h], hv⟩
      · exact Or.inr ⟨j + 1, by simpa using hj, by rw [h]; omega, by simpa using h'.trans hv⟩
    · rcases ih best bi (next + 1) (by omega) with h | ⟨j, hj, h, h'⟩
      · exact Or.inl h
      · exact Or.inr ⟨j + 1, by simpa using hj, by rw [h]; omega, by simpa using h'⟩

/-- The comparison behind the split: the first cumulative sum is at least as close to half the sum as the last one. -/
theorem first_beats_last {c0 cl h : ℝ} (h1 : c0 ≤ cl) (h2 : 2 * h ≤ c0 + cl) : |rnd (c0 - h)| ≤ |rnd (cl - h)| := by
  have hl : 0 ≤ cl - h := by linarith
  have hl0 : 0 ≤ rnd (cl - h) := by have := rnd_mono hl; rwa [rnd_zero] at this
  rw [abs_of_nonneg hl0, abs_le]
  constructor
  · have := rnd_mono (by linarith : -(cl - h) ≤ c0 - h)
    rwa [rnd_neg] at this
  · exact rnd_mono (by linarith)

/-- The split point is never the last position: no part of the code is empty. -/
theorem fanoSplitD_lt {sum : List Double → Double} (hsum : ∀ l, SumOf l (sum l)) (probs : List Double) (hn : 2 ≤ probs.length) (hn2 : probs.length ≤ 2 ^ 25) (hp : ∀ p ∈ probs, 0 ≤ p.val)
    (hs : probs.Pairwise fun a b : Double => b ≤ a) : fanoSplitD sum probs + 1 < probs.length := by
  obtain ⟨f1, f2, f3⟩ := cumsumD_facts 0 (by rw [Double.val_zero]) [] SumOf.nil probs hp
  match probs, hn with
  | p :: q :: ps, _ =>
    have hzero : (0 : Double) + p = p := Subtype.ext (by change rnd (0 + p.val) = p.val; rw [zero_add, rnd_of_isDouble (x := p.val) p.2])
    unfold fanoSplitD
    generalize hN : (p :: q :: ps) = l at *
    have hcl : ∃ cl : Double, SumOf l cl ∧ ∀ (j : Nat) (hj : j < ((cumsumD (p + q) ps)).length + 1), j + 2 = l.length → ((p + q) :: cumsumD (p + q) ps)[j] = cl := by
      have hlen : l.length = ps.length + 2 := by rw [← hN]; simp
      have := f3 (l.length - 1) (by rw [f1]; omega) (by omega)
      refine ⟨_, this, ?_⟩
      intro j hj hlast
      have e : cumsumD 0 l = p :: (p + q) :: cumsumD (p + q) ps := by rw [← hN]; simp only [cumsumD, hzero]
      have hidx : l.length - 1 = j + 1 := by omega
      simp only [e, hidx, List.getElem_cons_succ]
    obtain ⟨cl, hcl1, hcl2⟩ := hcl
    have hpos : ∀ x ∈ l, 0 ≤ x.val := hp
    -- exact sums
    have e1 := (hsum l).error
    have e2 := hcl1.error
    have eA : absSum l = realSum l := by
      unfold absSum realSum
      congr 1
      exact List.map_congr_left fun x hx => abs_of_nonneg (hpos x hx)
    have hW0 : 0 ≤ realSum l := by rw [← eA]; exact absSum_nonneg l
    have hpW : realSum l ≤ l.length * p.val := by
      have : ∀ x ∈ l.map fun x : Double => x.val, x ≤ p.val := by
        intro x hx
        obtain ⟨y, hy, rfl⟩ := List.mem_map.mp hx
        rw [← hN] at hy hs
        rcases List.mem_cons.mp hy with rfl | hy
        · exact le_rfl
        · exact (List.pairwise_cons.mp hs).1 y hy
      have := List.sum_le_card_nsmul _ _ this
      rw [List.length_map, nsmul_eq_mul] at this
      exact this
    rw [eA] at e1 e2
    have hg := growth l.length (hn2.trans (by norm_num))
    have hnR : (l.length : ℝ) ≤ 2 ^ 25 := by exact_mod_cast hn2
    have hnR2 : (2 : ℝ) ≤ l.length := by
      have : 2 ≤ l.length := by rw [← hN]; simp
      exact_mod_cast this
    have hB : 2 * rnd ((sum l).val / 2) ≤ p.val + cl.val := by
      rcases eq_or_lt_of_le hW0 with hz | hz
      · -- all zero
        rw [← hz, mul_zero, sub_zero] at e1 e2
        rw [abs_nonpos_iff.mp e1, abs_nonpos_iff.mp e2, zero_div, rnd_zero]
        have := hpos p (by rw [← hN]; simp)
        linarith
      · refine (rnd_half_le (sum l).2).trans ?_
        obtain ⟨k1, hk1⟩ := isDouble_multiple p.2
        obtain ⟨k2, hk2⟩ := isDouble_multiple cl.2
        obtain ⟨k3, hk3⟩ := isDouble_multiple (sum l).2
        have hgap : (sum l).val < p.val + cl.val := by
          have a1 := (abs_le.mp e1).2
          have a2 := (abs_le.mp e2).1
          have m1 := mul_le_mul_of_nonneg_right hg hz.le
          generalize (1 + 1 / 2 ^ 53 : ℝ) ^ l.length = G at *
          generalize realSum l = W at *
          generalize (l.length : ℝ) = N at *
          have h3 : N * (N * W) ≤ 2 ^ 50 * W := by
            have h33 : N * N ≤ 2 ^ 50 := by
              have := mul_le_mul hnR hnR (by linarith) (by positivity)
              linarith
            have := mul_le_mul_of_nonneg_right h33 hz.le
            linarith
          have h4 : 2 * (N / 2 ^ 52 * W) * N < N * p.val := by
            have : 2 * (N / 2 ^ 52 * W) * N = N * (N * W) / 2 ^ 51 := by ring
            rw [this]
            have : 2 ^ 50 * W / 2 ^ 51 < W := by rw [div_lt_iff₀ (by positivity)]; nlinarith
            have : N * (N * W) / 2 ^ 51 ≤ 2 ^ 50 * W / 2 ^ 51 := div_le_div_of_nonneg_right h3 (by positivity)
            linarith
          have h5 : 2 * (N / 2 ^ 52 * W) < p.val := by
            by_contra hc
            have := mul_le_mul_of_nonneg_right (not_lt.mp hc) (by linarith : 0 ≤ N)
            linarith
          linarith
        change p.val = _ at hk1
        change cl.val = _ at hk2
        change (sum l).val = _ at hk3
        change (sum l).val + _ ≤ _
        rw [hk1, hk2, hk3] at hgap
        rw [hk1, hk2, hk3]
        have tp := two_zpow_pos (-1074)
        generalize (2 : ℝ) ^ (-1074 : ℤ) = t at *
        rw [← add_mul] at hgap ⊢
        have h6 := lt_of_mul_lt_mul_right hgap tp.le
        have h7 : k3 + 1 ≤ k1 + k2 := by
          have : k3 < k1 + k2 := by exact_mod_cast h6
          omega
        have h8 : (k3 : ℝ) + 1 ≤ k1 + k2 := by exact_mod_cast h7
        have := mul_le_mul_of_nonneg_right h8 tp.le
        linarith
    have hcomp := first_beats_last (h := rnd ((sum l).val / 2)) (c0 := p.val) (cl := cl.val) (by
      have hmem : cl ∈ cumsumD 0 l := by
        have hlen : l.length = ps.length + 2 := by rw [← hN]; simp
        have e : cumsumD 0 l = p :: (p + q) :: cumsumD (p + q) ps := by rw [← hN]; simp only [cumsumD, hzero]
        have hc : (cumsumD (p + q) ps).length = ps.length := by
          have := f1
          rw [e] at this
          simp at this
          omega
        rw [e, ← hcl2 ps.length (by rw [hc]; omega) (by omega)]
        exact List.mem_cons_of_mem _ (List.getElem_mem _)
      rw [← hN, cumsumD, hzero] at hmem
      rcases List.mem_cons.mp hmem with h | h
      · rw [h]
      · obtain ⟨-, g2, -⟩ := cumsumD_facts p (hpos p (by rw [← hN]; simp)) [p] (SumOf.one p) (q :: ps) (fun x hx => hpos x (by rw [← hN]; exact List.mem_cons_of_mem _ hx))
        exact g2 cl h) hB
    have e : cumsumD 0 l = p :: (p + q) :: cumsumD (p + q) ps := by rw [← hN]; simp only [cumsumD, hzero]
    have hc : (cumsumD (p + q) ps).length = ps.length := by
      have := f1
      rw [e, ← hN] at this
      simpa using this
    have hlen : l.length = ps.length + 2 := by rw [← hN]; simp
    rw [e, List.map_cons]
    dsimp only
    rcases argminReal_spec (((p + q) :: cumsumD (p + q) ps).map fun c : Double => |rnd (c.val - rnd ((sum l).val / 2))|) (|rnd (p.val - rnd ((sum l).val / 2))|) 0 1 (by omega) with h | ⟨j, hj, h, h'⟩
    · rw [h]; omega
    · rw [h]
      simp only [List.length_map, List.length_cons, hc] at hj
      by_contra hcon
      have hj2 : j + 2 = l.length := by omega
      rw [List.getElem_map, hcl2 j (by rw [hc]; omega) hj2] at h'
      linarith

/-- Loop invariant and result of `fano_code_lengths`. -/
theorem fanoLoopD_spec (sum : List Double → Double) (items : List (Nat × Double))
    (hsplit : ∀ lo hi : Nat, hi ≤ items.length → lo + 2 ≤ hi → fanoSplitD sum (((items.drop lo).take (hi - lo)).map Prod.snd) + 1 < hi - lo)
    (hperm : (items.map Prod.fst).Perm (List.range items.length)) (fuel : Nat) :
    ∀ (stack : List (Nat × Nat × Nat)) (lengths : List Nat) (G : List (Nat × Nat)),
      (∀ t ∈ stack, t.1 < t.2.1 ∧ t.2.1 ≤ items.length) →
      (G.map Prod.fst ++ stack.flatMap fun t => List.range' t.1 (t.2.1 - t.1)).Perm (List.range items.length) →
      (G.map fun e => (1 : ℚ) / 2 ^ e.2).sum + (stack.map fun t => (1 : ℚ) / 2 ^ t.2.2).sum = 1 →
      lengths.length = items.length →
      (∀ e ∈ G, lengths[(items.getD e.1 (0, 0)).1]? = some e.2) →
      fanoMeasure stack ≤ fuel →
      ∃ (lengths' : List Nat) (G' : List (Nat × Nat)), fanoLoopD sum items fuel stack lengths = some lengths' ∧
        (G'.map Prod.fst).Perm (List.range items.length) ∧ (G'.map fun e => (1 : ℚ) / 2 ^ e.2).sum = 1 ∧
        lengths'.length = items.length ∧
        (∀ e ∈ G', lengths'[(items.getD e.1 (0, 0)).1]? = some e.2) ∧
        ((∀ e ∈ G, e.2 ≠ 0) → (∀ t ∈ stack, t.2.2 ≠ 0) → ∀ e ∈ G', e.2 ≠ 0) := by
  induction fuel with
  | zero =>
    intro stack lengths G h1 h2 h3 h4 h5 h6
    match stack with
    | [] =>
      refine ⟨lengths, G, by simp [fanoLoopD], by simpa using h2, by simpa using h3, h4, h5, fun h _ => h⟩
    | t :: stack =>
      have := h1 t (by simp)
      simp only [fanoMeasure, List.map_cons, List.sum_cons] at h6
      omega
  | succ fuel ih =>
    intro stack lengths G h1 h2 h3 h4 h5 h6
    match stack with
    | [] =>
      refine ⟨lengths, G, by simp [fanoLoopD], by simpa using h2, by simpa using h3, h4, h5, fun h _ => h⟩
    | (lo, hi, len) :: stack =>
      have ht := h1 (lo, hi, len) (by simp)
      simp only at ht
      simp only [fanoMeasure, List.map_cons, List.sum_cons] at h6
      rw [fanoLoopD]
      split
      · rename_i hone
        have hitem : ∀ i, i < items.length → (items.getD i (0, 0)).1 < items.length := by
          intro i hi
          have : (items.getD i (0, 0)).1 ∈ items.map Prod.fst := by
            rw [List.getD_eq_getElem _ _ hi]; exact List.mem_map_of_mem (List.getElem_mem hi)
          exact List.mem_range.mp (hperm.subset this)
        have hinj : ∀ i j, i < items.length → j < items.length → i ≠ j →
            (items.getD i (0, 0)).1 ≠ (items.getD j (0, 0)).1 := by
          intro i j hi hj hij heq
          have hnd : (items.map Prod.fst).Nodup := hperm.nodup_iff.mpr List.nodup_range
          rw [List.getD_eq_getElem _ _ hi, List.getD_eq_getElem _ _ hj] at heq
          have := (List.Nodup.getElem_inj_iff hnd (i := i) (j := j) (hi := by simpa using hi)
            (hj := by simpa using hj)).mp (by simpa using heq)
          exact hij this
        have hlo : lo < items.length := by omega
        obtain ⟨ls, G', q1, q2, q3, q4, q5, q6⟩ := ih stack (lengths.set (items.getD lo (0, 0)).1 len)
          ((lo, len) :: G) (fun t ht => h1 t (by simp [ht])) (by
            refine List.Perm.trans ?_ h2
            simp only [List.map_cons, List.flatMap_cons, hone, List.range'_one]
            simp only [List.cons_append, List.nil_append]
            exact List.perm_middle.symm) (by
            simp only [List.map_cons, List.sum_cons] at h3 ⊢; linarith) (by simpa using h4) (by
            intro e he
            rcases List.mem_cons.mp he with rfl | he
            · simp only
              rw [List.getElem?_set_self (by rw [h4]; exact hitem lo hlo)]
            · have hnd := h2.nodup_iff.mpr List.nodup_range
              have he1 : e.1 ∈ G.map Prod.fst := List.mem_map_of_mem he
              have hne : lo ≠ e.1 := by
                intro hc
                rw [List.nodup_append] at hnd
                exact hnd.2.2 _ he1 lo (by simp [hone]) hc.symm
              have helt : e.1 < items.length := List.mem_range.mp (h2.subset (by simp [-List.mem_map, he1]))
              rw [List.getElem?_set_ne (hinj lo e.1 hlo helt hne)]
              exact h5 e he) (by unfold fanoMeasure; omega)
        refine ⟨ls, G', q1, q2, q3, q4, q5, ?_⟩
        intro hG hs
        apply q6
        · intro e he
          rcases List.mem_cons.mp he with rfl | he
          · exact hs (lo, hi, len) (by simp)
          · exact hG e he
        · intro t ht; exact hs t (by simp [ht])
      · rename_i hone
        dsimp only
        generalize hprobs : ((items.drop lo).take (hi - lo)).map Prod.snd = probs
        have hlen : probs.length = hi - lo := by
          rw [← hprobs]; simp; omega
        have hsplit := hsplit lo hi ht.2 (by omega)
        rw [hprobs] at hsplit
        generalize hmid : lo + fanoSplitD sum probs + 1 = mid
        have hm1 : lo < mid := by omega
        have hm2 : mid < hi := by omega
        obtain ⟨ls, G', q1, q2, q3, q4, q5, q6⟩ := ih ((lo, mid, len + 1) :: (mid, hi, len + 1) :: stack) lengths G (by
            intro t ht
            rcases List.mem_cons.mp ht with rfl | ht
            · exact ⟨hm1, by simp; omega⟩
            · rcases List.mem_cons.mp ht with rfl | ht
              · exact ⟨hm2, by simp; omega⟩
              · exact h1 t (by simp [ht])) (by
            refine List.Perm.trans (List.Perm.of_eq ?_) h2
            simp only [List.flatMap_cons]
            rw [range'_split lo mid hi hm1.le hm2.le]
            simp) (by
            have hh : (1 : ℚ) / 2 ^ (len + 1) = 1 / 2 ^ len / 2 := by rw [pow_succ]; field_simp
            simp only [List.map_cons, List.sum_cons, hh] at h3 ⊢
            linarith) h4 h5 (by
            simp only [fanoMeasure, List.map_cons, List.sum_cons]; omega)
        refine ⟨ls, G', q1, q2, q3, q4, q5, ?_⟩
        intro hG hs
        apply q6 hG
        intro t ht
        rcases List.mem_cons.mp ht with rfl | ht
        · simp
        · rcases List.mem_cons.mp ht with rfl | ht
          · simp
          · exact hs t (by simp [ht])

theorem fanoLengthsD_spec {sum : List Double → Double} (hsum : ∀ l, SumOf l (sum l)) (pmf : List Double) (hp : ∀ p ∈ pmf, 0 ≤ p.val) (hn : 2 ≤ pmf.length) (hn2 : pmf.length ≤ 2 ^ 25) :
    ∃ lengths, fanoLengthsD sum pmf = some lengths ∧ lengths.length = pmf.length ∧
      (∀ l ∈ lengths, l ≠ 0) ∧ kraftSum lengths 2 = 1 := by
  unfold fanoLengthsD
  dsimp only
  set items := (pmf.mapIdx fun i p => (i, p)).insertionSort fun a b => b.2 ≤ a.2 with hitems
  have hpm := List.perm_insertionSort (fun a b : Nat × Double => b.2 ≤ a.2) (pmf.mapIdx fun i p => (i, p))
  rw [← hitems] at hpm
  have hlen : items.length = pmf.length := by rw [hpm.length_eq]; simp
  have hfst : (pmf.mapIdx fun i p => (i, p)).map Prod.fst = List.range pmf.length := by
    apply List.ext_getElem (by simp)
    intro i h1 h2
    simp
  have hperm : (items.map Prod.fst).Perm (List.range items.length) := by
    rw [hlen, ← hfst]; exact hpm.map _
  have hnn : ∀ e ∈ items, 0 ≤ e.2.val := by
    intro e he
    obtain ⟨i, hi, rfl⟩ := List.getElem_of_mem (hpm.subset he)
    simp only [List.length_mapIdx] at hi
    simp only [List.getElem_mapIdx]
    exact hp _ (List.getElem_mem hi)
  have hsorted : items.Pairwise fun a b : Nat × Double => b.2 ≤ a.2 := by
    have : Std.Total (fun a b : Nat × Double => b.2 ≤ a.2) := ⟨fun a b => le_total b.2 a.2⟩
    have : IsTrans (Nat × Double) (fun a b : Nat × Double => b.2 ≤ a.2) := ⟨fun a b c h1 h2 => le_trans h2 h1⟩
    exact List.pairwise_insertionSort (fun a b : Nat × Double => b.2 ≤ a.2) (pmf.mapIdx fun i p => (i, p))
  have hsplit : ∀ lo hi : Nat, hi ≤ items.length → lo + 2 ≤ hi → fanoSplitD sum (((items.drop lo).take (hi - lo)).map Prod.snd) + 1 < hi - lo := by
    intro lo hi h1 h2
    have hl : (((items.drop lo).take (hi - lo)).map Prod.snd).length = hi - lo := by simp; omega
    have := fanoSplitD_lt hsum (((items.drop lo).take (hi - lo)).map Prod.snd) (by omega) (by omega) (by
      intro p hp
      obtain ⟨e, he, rfl⟩ := List.mem_map.mp hp
      exact hnn e (List.mem_of_mem_drop (List.mem_of_mem_take he))) (by
      rw [List.pairwise_map]
      exact (hsorted.sublist (List.drop_sublist _ _)).sublist (List.take_sublist _ _))
    rwa [hl] at this
  have hsplitfirst := hsplit 0 pmf.length (by rw [hlen]) (by omega)
  have hsplen : (((items.drop 0).take (pmf.length - 0)).map Prod.snd).length = pmf.length := by
    simp [hlen]
  -- unfold the first round so that all lengths are positive
  obtain ⟨f, hf⟩ : ∃ f, 2 * pmf.length = f + 1 := ⟨2 * pmf.length - 1, by omega⟩
  rw [hf, fanoLoopD, if_neg (by omega)]
  dsimp only
  generalize hmid : 0 + fanoSplitD sum (((items.drop 0).take (pmf.length - 0)).map Prod.snd) + 1 = mid
  obtain ⟨ls, G, q1, q2, q3, q4, q5, q6⟩ := fanoLoopD_spec sum items hsplit hperm f
    [(0, mid, 0 + 1), (mid, pmf.length, 0 + 1)] (List.replicate pmf.length 0) [] (by
      intro t ht
      simp only [List.mem_cons, List.not_mem_nil, or_false] at ht
      rcases ht with rfl | rfl <;> simp <;> omega) (by
      simp only [List.map_nil, List.nil_append, List.flatMap_cons, List.flatMap_nil, List.append_nil]
      rw [← range'_split 0 mid pmf.length (by omega) (by omega), hlen, List.range_eq_range', Nat.sub_zero])
    (by norm_num) (by simp [hlen]) (by simp) (by
      simp only [fanoMeasure, List.map_cons, List.map_nil, List.sum_cons, List.sum_nil]; omega)
  have hG0 := q6 (by simp) (by simp)
  -- lengths as a permutation of the assigned lengths
  have hls : (G.map Prod.snd).Perm ls := by
    have h1 : G.map Prod.snd = (G.map Prod.fst).map fun i => ls.getD (items.getD i (0, 0)).1 0 := by
      rw [List.map_map]
      apply List.map_congr_left
      intro e he
      have := q5 e he
      rw [Function.comp_apply, List.getD_eq_getElem?_getD, this]; rfl
    rw [h1]
    refine (q2.map _).trans ?_
    have h2 : (List.range items.length).map (fun i => ls.getD (items.getD i (0, 0)).1 0) =
        (items.map Prod.fst).map fun i => ls.getD i 0 := by
      apply List.ext_getElem (by simp)
      intro i h3 h4
      simp only [List.length_map, List.length_range] at h3
      simp [List.getD_eq_getElem?_getD, h3]
    rw [h2]
    refine (hperm.map _).trans (List.Perm.of_eq ?_)
    apply List.ext_getElem (by simp [q4])
    intro i h3 h4
    simp [List.getD_eq_getElem?_getD, h4]
  have hpos : ∀ l ∈ ls, l ≠ 0 := by
    intro l hl
    obtain ⟨e, he, rfl⟩ := List.mem_map.mp (hls.symm.subset hl)
    exact hG0 e he
  refine ⟨ls, q1, by rw [q4, hlen], hpos, ?_⟩
  rw [kraftSum_pos hpos, ← (hls.map _).sum_eq, List.map_map]
  exact q3


theorem mulD_nonneg {a b : Double} (ha : 0 ≤ a.val) (hb : 0 ≤ b.val) : 0 ≤ (a * b).val := by
  rw [Double.mul_val]
  have := rnd_mono (mul_nonneg ha hb)
  rwa [rnd_zero] at this

theorem extendedPmfD_nonneg (pmf : List Double) (hp : ∀ p ∈ pmf, 0 ≤ p.val) (j : Nat) : ∀ x ∈ extendedPmf pmf (j + 1), 0 ≤ x.val := by
  induction j with
  | zero => exact hp
  | succ j ih =>
    intro x hx
    rw [extendedPmf] at hx
    obtain ⟨y, hy, hx⟩ := List.mem_flatMap.mp hx
    obtain ⟨p, hpm, rfl⟩ := List.mem_map.mp hx
    exact mulD_nonneg (ih y hy) (hp p hpm)

/-- Fano codes in double precision: for every list of non-negative doubles (their sum need not be 1; zeros, ties and underflowing products included) and every block size with at most `2²⁵` blocks,
whatever order `np.sum` adds in, the recursion terminates with one non-empty binary codeword per block, and the code is prefix-free, fully covering and uniquely decodable. -/
theorem C147_fano {sum : List Double → Double} (hsum : ∀ l, SumOf l (sum l)) (pmf : List Double) (hp : ∀ p ∈ pmf, 0 ≤ p.val) (k : Nat)
    (h2 : 2 ≤ pmf.length) (hk : 1 ≤ k) (hsize : pmf.length ^ k ≤ 2 ^ 25) :
    ∃ c, fanoCodeD sum pmf k = some c ∧
      c.encMapping.map Prod.fst = allWords pmf.length k ∧
      (∀ w ∈ c.codewords, w ≠ [] ∧ ∀ a ∈ w, a < 2) ∧
      PrefixFree c.codewords ∧ FullyCovering c.codewords 2 ∧ UniquelyParsable c.codewords := by
  obtain ⟨j, rfl⟩ : ∃ j, k = j + 1 := ⟨k - 1, by omega⟩
  have hlenB := extendedPmf_length pmf j
  have hge : 2 ≤ pmf.length ^ (j + 1) := by
    calc 2 ≤ pmf.length := h2
      _ = pmf.length ^ 1 := (pow_one _).symm
      _ ≤ _ := Nat.pow_le_pow_right (by omega) (by omega)
  obtain ⟨ls, h1, hl, hl0, hkr⟩ := fanoLengthsD_spec hsum (extendedPmf pmf (j + 1)) (extendedPmfD_nonneg pmf hp j) (by rw [hlenB]; exact hge) (by rw [hlenB]; exact hsize)
  obtain ⟨cs, hcs⟩ := (canonicalCode_isSome_iff ls 2 le_rfl).mpr ⟨by
    rintro rfl; rw [hlenB] at hl; simp at hl; omega, hkr.le⟩
  obtain ⟨_, _, _, h3, h4, h5⟩ := canonicalCode_spec hcs
  have hlen : cs.length = pmf.length ^ (j + 1) := by
    rw [← hlenB, ← hl, ← h3, List.length_map]
  have hne : ∀ w ∈ cs, w ≠ [] := by
    rintro w hw rfl
    exact hl0 0 (by rw [← h3]; exact List.mem_map.mpr ⟨_, hw, rfl⟩) rfl
  obtain ⟨hc1, hc2, hc3⟩ := create_zip h2 le_rfl hk hlen h4
  refine ⟨⟨pmf.length, 2, j + 1, (allWords pmf.length (j + 1)).zip cs⟩, ?_, hc3, ?_⟩
  · unfold fanoCodeD
    rw [if_neg (by omega), h1]
    simp only [hcs]
    exact hc1
  · rw [hc2]
    exact ⟨fun w hw => ⟨hne w hw, h4 w hw⟩, h5, fullyCovering_of_kraft le_rfl hne h5 h4 (by rw [h3]; exact hkr),
      UniquelyParsable.of_prefixFree h5 hne⟩

/-! ### Tunstall -/

/-- The number of rounds is computed exactly as long as `2ⁿ` fits in the mantissa. -/
theorem tunstallRoundsD_eq (S n : Nat) (hS : 2 ≤ S) (hSn : S ≤ 2 ^ n) (hn : n ≤ 53) : tunstallRoundsD S n = tunstallRounds S n := by
  unfold tunstallRoundsD tunstallRounds
  obtain ⟨d, rfl⟩ : ∃ d, S = d + 1 := ⟨S - 1, by omega⟩
  obtain ⟨m, hm⟩ : ∃ m, 2 ^ n = d + 1 + m := ⟨2 ^ n - (d + 1), by omega⟩
  have hq : ((2 ^ n - (d + 1 : Nat) : ℚ) / ((d + 1 : Nat) - 1)) = (m : ℚ) / d := by
    have : (2 ^ n : ℚ) = ((d + 1 + m : Nat) : ℚ) := by rw [← hm]; push_cast; ring
    rw [this]; push_cast; ring
  have hr : ((2 ^ n - (d + 1 : Nat) : ℝ) / ((d + 1 : Nat) - 1)) = (m : ℝ) / d := by
    have : (2 ^ n : ℝ) = ((d + 1 + m : Nat) : ℝ) := by rw [← hm]; push_cast; ring
    rw [this]; push_cast; ring
  rw [hq, hr]
  congr 2
  have hd : (0 : ℝ) < d := by exact_mod_cast (by omega : 0 < d)
  have hd1 : (1 : ℝ) ≤ d := by exact_mod_cast (by omega : 1 ≤ d)
  have hmN : m < 2 ^ 53 := by
    have : 2 ^ n ≤ 2 ^ 53 := Nat.pow_le_pow_right (by norm_num) hn
    omega
  have hmlt : (m : ℝ) < 2 ^ 53 := by exact_mod_cast hmN
  have hcq : ⌈(m : ℚ) / d⌉ = ⌈(m : ℝ) / d⌉ := by
    have : ((((m : ℚ) / d : ℚ)) : ℝ) = (m : ℝ) / d := by push_cast; rfl
    rw [← this, Rat.ceil_cast]
  rw [hcq]
  set c := ⌈(m : ℝ) / d⌉ with hc
  have h1 := Int.le_ceil ((m : ℝ) / d)
  have h2 := Int.ceil_lt_add_one ((m : ℝ) / d)
  rw [← hc] at h1 h2
  have hm0 : (0 : ℝ) ≤ (m : ℝ) / d := by positivity
  have hc0 : 0 ≤ c := Int.ceil_nonneg hm0
  have hcle : c ≤ 2 ^ 53 := by
    rw [hc, Int.ceil_le]
    push_cast
    have := div_le_self (by positivity : (0 : ℝ) ≤ m) hd1
    linarith
  rw [Int.ceil_eq_iff]
  constructor
  · -- the rounding does not reach the integer below
    rw [div_eq_mul_inv] at h2
    have h3 : ((c - 1 : ℤ) : ℝ) * d + 1 ≤ m := by
      have : ((c - 1 : ℤ) : ℝ) * d < m := by
        rw [← lt_div_iff₀ hd]; push_cast; rw [div_eq_mul_inv]; linarith
      have h4 : (c - 1) * d < (m : ℤ) := by exact_mod_cast this
      exact_mod_cast h4
    have herr : |rnd ((m : ℝ) / d) - (m : ℝ) / d| ≤ (m : ℝ) / d / 2 ^ 53 := by
      rcases Nat.eq_zero_or_pos m with h0 | h0
      · subst h0; simp [rnd_zero]
      · refine rnd_error_normal ?_
        have hdN : d ≤ 2 ^ 53 := by
          have : 2 ^ n ≤ 2 ^ 53 := Nat.pow_le_pow_right (by norm_num) hn
          omega
        have hdR : (d : ℝ) ≤ 2 ^ 53 := by exact_mod_cast hdN
        have hm1 : (1 : ℝ) ≤ m := by exact_mod_cast h0
        calc (1 : ℝ) / 2 ^ 1001 ≤ 1 / 2 ^ 53 := one_div_le_one_div_of_le (by positivity) (pow_le_pow_right₀ (by norm_num) (by norm_num))
          _ ≤ 1 / d := one_div_le_one_div_of_le hd hdR
          _ ≤ (m : ℝ) / d := div_le_div_of_nonneg_right hm1 hd.le
    have h5 : (m : ℝ) / d / 2 ^ 53 < 1 / d := by
      rw [div_right_comm]
      exact div_lt_div_of_pos_right (by rw [div_lt_one (by positivity)]; exact hmlt) hd
    have h6 : ((c - 1 : ℤ) : ℝ) + 1 / d ≤ (m : ℝ) / d := by
      rw [le_div_iff₀ hd, add_mul, one_div_mul_cancel hd.ne']; exact h3
    have := (abs_le.mp herr).1
    push_cast at h6
    linarith
  · have hcd : IsDouble ((c : ℤ) : ℝ) := by
      rcases eq_or_lt_of_le hcle with h | h
      · rw [h]; exact ⟨1, 53, by norm_num, by norm_num, by norm_num⟩
      · exact isDouble_int c (by rw [abs_of_nonneg hc0]; exact h.le)
    have := rnd_mono h1
    rwa [rnd_of_isDouble hcd] at this

theorem tunstallChildrenD_words (pmf : List Double) (node : TNodeD) :
    (tunstallChildrenD pmf node).map Prod.fst = (List.range pmf.length).map fun s => node.1 ++ [s] := by
  apply List.ext_getElem (by simp [tunstallChildrenD])
  intro i h1 h2
  simp [tunstallChildrenD]

theorem tunstallLoopD_spec (pmf : List Double) (hS : 2 ≤ pmf.length) {choose : List TNodeD → Nat}
    (hc : ∀ heap, heap ≠ [] → choose heap < heap.length) (K : Nat) : ∀ heap : List TNodeD, heap ≠ [] →
      ParseTree pmf.length (heap.map Prod.fst) →
      ParseTree pmf.length ((tunstallLoopD pmf choose K heap).map Prod.fst) ∧
      (tunstallLoopD pmf choose K heap).length = heap.length + K * (pmf.length - 1) := by
  induction K with
  | zero => intro heap _ h; exact ⟨h, by simp [tunstallLoopD]⟩
  | succ K ih =>
    intro heap hne h
    have hlt := hc heap hne
    have hget : heap[choose heap]? = some heap[choose heap] := List.getElem?_eq_getElem hlt
    rw [tunstallLoopD, hget]
    simp only
    generalize hnode : heap[choose heap] = node at *
    have hperm := perm_eraseIdx hget
    have hlen := hperm.length_eq
    have htree : ParseTree pmf.length ((heap.eraseIdx (choose heap) ++ tunstallChildrenD pmf node).map Prod.fst) := by
      rw [List.map_append, tunstallChildrenD_words]
      exact (h.perm (hperm.map _)).expand
    obtain ⟨h1, h2⟩ := ih (heap.eraseIdx (choose heap) ++ tunstallChildrenD pmf node) (by
      intro hc
      have := congrArg List.length hc
      rw [List.length_append, List.length_nil] at this
      simp only [tunstallChildrenD, List.length_mapIdx] at this
      omega) htree
    refine ⟨h1, ?_⟩
    rw [h2, List.length_append]
    simp only [tunstallChildrenD, List.length_mapIdx, List.length_cons] at hlen ⊢
    rw [Nat.add_mul]; omega

theorem tunstallCodeD_spec (pmf : List Double) (n : Nat) (hS : 2 ≤ pmf.length) (hSn : pmf.length ≤ 2 ^ n) (hn : n ≤ 53)
    {choose : List TNodeD → Nat} (hc : ∀ heap, heap ≠ [] → choose heap < heap.length) :
    ∃ c, tunstallCodeD pmf n choose = some c ∧
      c.sourcewords.Perm ((tunstallLeavesD pmf n choose).map Prod.fst) ∧
      ParseTree pmf.length c.sourcewords ∧
      c.sourcewords.length = pmf.length + tunstallRounds pmf.length n * (pmf.length - 1) ∧
      c.decMapping.map Prod.fst = (allWords 2 n).take c.sourcewords.length := by
  have hbase : ParseTree pmf.length ((pmf.mapIdx fun symbol p => (([symbol], p) : TNodeD)).map Prod.fst) := by
    have : (pmf.mapIdx fun symbol p => (([symbol], p) : TNodeD)).map Prod.fst =
        (List.range pmf.length).map fun s => [s] := by
      apply List.ext_getElem (by simp)
      intro i h1 h2; simp
    rw [this]; exact ParseTree.base
  obtain ⟨h1, h2⟩ := tunstallLoopD_spec pmf hS hc (tunstallRoundsD pmf.length n)
    (pmf.mapIdx fun symbol p => ([symbol], p)) (by
      intro h; have := congrArg List.length h; simp at this; subst this; simp at hS) hbase
  rw [List.length_mapIdx] at h2
  obtain ⟨h3, -, -⟩ := tunstallRounds_spec pmf.length n hS hSn
  have hperm := List.perm_insertionSort (· ≤ ·) ((tunstallLeavesD pmf n choose).map Prod.fst)
  generalize hws : ((tunstallLeavesD pmf n choose).map Prod.fst).insertionSort (· ≤ ·) = ws at *
  have hlenw : ws.length = pmf.length + tunstallRounds pmf.length n * (pmf.length - 1) := by
    rw [hperm.length_eq, List.length_map, ← tunstallRoundsD_eq _ _ hS hSn hn]; exact h2
  have htree : ParseTree pmf.length ws := h1.perm hperm.symm
  have hle : ws.length ≤ (allWords 2 n).length := by rw [allWords_length, hlenw]; exact h3
  have hfst : ((allWords 2 n).zip ws).map Prod.fst = (allWords 2 n).take ws.length := by
    rw [List.zip_eq_zip_take_min, List.map_fst_zip (by simp), min_eq_right hle]
  have hsnd : ((allWords 2 n).zip ws).map Prod.snd = ws := List.map_snd_zip hle
  have hnd : (((allWords 2 n).zip ws).map Prod.fst).Nodup := by
    rw [hfst]; exact (allWords_nodup 2 n).sublist (List.take_sublist _ _)
  refine ⟨⟨2, pmf.length, n, (allWords 2 n).zip ws⟩, ?_, ?_, ?_, ?_, ?_⟩
  · unfold tunstallCodeD
    rw [if_neg (by omega), if_neg (by omega), hws, dictOfPairs_nodup _ hnd]
    unfold VFCode.create
    have hn1 : 1 ≤ n := by
      by_contra hc0
      have : n = 0 := by omega
      subst this; simp at hSn; omega
    rw [if_neg (by omega), if_neg (by omega), if_neg (by omega), if_neg, if_neg]
    · rw [not_not]
      intro e he
      have := (List.of_mem_zip he).2
      exact ⟨htree.sym _ this, List.length_pos_iff.mpr (htree.ne _ this)⟩
    · rw [not_not, hfst]
      intro w hw
      rw [List.mem_toFinset] at hw ⊢
      exact List.mem_of_mem_take hw
  · rw [VFCode.sourcewords, hsnd]; exact hperm
  · rw [VFCode.sourcewords, hsnd]; exact htree
  · rw [VFCode.sourcewords, hsnd]; exact hlenw
  · rw [VFCode.sourcewords, hsnd]; exact hfst

theorem ParseTree.prefixFree {S : Nat} {W : List Word} (h : ParseTree S W) : PrefixFree W ∧ W.Nodup := by
  constructor
  · intro i j hi hj hij _ _
    have := List.pairwise_iff_getElem.mp h.pw
    rcases Nat.lt_or_gt_of_ne hij with h | h
    · exact (this i j hi hj h).1
    · exact (this j i hj hi h).2
  · refine h.pw.imp ?_
    rintro a b ⟨h, -⟩ rfl
    exact h (List.prefix_refl _)

/-- Tunstall codes in double precision: for every list of at least two doubles and every target block size `n ≤ 53` with at least as many words as symbols, and whichever leaf is expanded in each
round: the sourcewords are distinct non-empty words over the source alphabet, prefix-free and fully covering, their number is that of exact arithmetic, and the targets are the first `n`-bit words in
lexicographic order. -/
theorem C147_tunstall (pmf : List Double) (n : Nat) (hS : 2 ≤ pmf.length) (hSn : pmf.length ≤ 2 ^ n) (hn : n ≤ 53)
    (choose : List TNodeD → Nat) (hc : ∀ heap, heap ≠ [] → choose heap < heap.length) :
    ∃ c, tunstallCodeD pmf n choose = some c ∧
      PrefixFree c.sourcewords ∧ FullyCovering c.sourcewords pmf.length ∧ c.sourcewords.Nodup ∧
      (∀ w ∈ c.sourcewords, w ≠ [] ∧ ∀ a ∈ w, a < pmf.length) ∧
      (∀ exact : List ℚ, exact.length = pmf.length → ∀ choose', (∀ heap, heap ≠ [] → choose' heap < heap.length) →
        ∃ c', tunstallCode exact n choose' = some c' ∧ c'.sourcewords.length = c.sourcewords.length) ∧
      c.sourcewords.length ≤ 2 ^ n ∧
      c.decMapping.map Prod.fst = (allWords 2 n).take c.sourcewords.length := by
  obtain ⟨c, h1, -, h3, h4, h5⟩ := tunstallCodeD_spec pmf n hS hSn hn hc
  obtain ⟨r1, -, -⟩ := tunstallRounds_spec pmf.length n hS hSn
  refine ⟨c, h1, h3.prefixFree.1, h3.cov, h3.prefixFree.2, fun w hw => ⟨h3.ne w hw, h3.sym w hw⟩, ?_, by omega, h5⟩
  intro exact he choose' hc'
  obtain ⟨c', g1, -, -, g4, -⟩ := tunstallCode_spec exact n (by omega) (by omega) (choose := choose') hc'
  exact ⟨c', g1, by rw [g4, h4, he]⟩


/-! ### near-optimality of the Tunstall tree -/

/-- The double 1. -/
noncomputable def startD : Double := ⟨1, ⟨1, 0, by norm_num, by norm_num, by norm_num⟩⟩

/-- The probability of a word as computed along the tree: rounded products. -/
noncomputable def wordD (pmf : List Double) (w : Word) : Double := w.foldl (fun d a => d * pmf.getD a 0) startD

theorem wordD_snoc (pmf : List Double) (w : Word) (a : Nat) : wordD pmf (w ++ [a]) = wordD pmf w * pmf.getD a 0 := by
  simp [wordD]

/-- The invariant of the loop: the computed probability of every proper prefix of a word is at least that of every leaf. -/
structure GreedyD (pmf : List Double) (heap : List TNodeD) : Prop where
  val : ∀ e ∈ heap, e.2 = wordD pmf e.1
  top : ∀ w ∈ heap.map Prod.fst, ∀ v : Word, v <+: w → v ≠ w → ∀ e ∈ heap, e.2.val ≤ (wordD pmf v).val

theorem getD_facts {pmf : List Double} (h0 : ∀ x ∈ pmf, 0 ≤ x.val ∧ x.val ≤ 1) (a : Nat) : 0 ≤ (pmf.getD a 0).val ∧ (pmf.getD a 0).val ≤ 1 := by
  by_cases ha : a < pmf.length
  · rw [List.getD_eq_getElem _ _ ha]; exact h0 _ (List.getElem_mem ha)
  · rw [List.getD_eq_default _ _ (by omega), Double.val_zero]; simp

theorem wordD_snoc_le {pmf : List Double} (h0 : ∀ x ∈ pmf, 0 ≤ x.val ∧ x.val ≤ 1) (d : Double) (hd : 0 ≤ d.val) (a : Nat) :
    0 ≤ (d * pmf.getD a 0).val ∧ (d * pmf.getD a 0).val ≤ d.val := by
  obtain ⟨h1, h2⟩ := getD_facts h0 a
  refine ⟨mulD_nonneg hd h1, ?_⟩
  rw [Double.mul_val]
  have := rnd_mono (mul_le_of_le_one_right hd h2)
  rwa [rnd_of_isDouble (x := d.val) d.2] at this

theorem startD_val : startD.val = 1 := rfl

theorem wordD_nonneg {pmf : List Double} (h0 : ∀ x ∈ pmf, 0 ≤ x.val ∧ x.val ≤ 1) (w : Word) : 0 ≤ (wordD pmf w).val := by
  induction w using List.reverseRecOn with
  | nil => rw [wordD, List.foldl_nil, startD_val]; norm_num
  | append_singleton w a ih => rw [wordD_snoc]; exact (wordD_snoc_le h0 _ ih a).1

theorem greedyD_base {pmf : List Double} (h0 : ∀ x ∈ pmf, 0 ≤ x.val ∧ x.val ≤ 1) : GreedyD pmf (pmf.mapIdx fun symbol p => ([symbol], p)) := by
  have hmem : ∀ e : TNodeD, e ∈ (pmf.mapIdx fun symbol p => (([symbol], p) : TNodeD)) → ∃ a, e = ([a], pmf.getD a 0) := by
    intro e he
    rw [List.mem_mapIdx] at he
    obtain ⟨i, hi, rfl⟩ := he
    exact ⟨i, by rw [List.getD_eq_getElem _ _ hi]⟩
  constructor
  · intro e he
    obtain ⟨a, rfl⟩ := hmem e he
    refine Subtype.ext ?_
    change (pmf.getD a 0).val = rnd (startD.val * (pmf.getD a 0).val)
    rw [startD_val, one_mul, rnd_of_isDouble (x := (pmf.getD a 0).val) (pmf.getD a 0).2]
  · intro w hw v hv hne e he
    obtain ⟨e', he', rfl⟩ := List.mem_map.mp hw
    obtain ⟨a, rfl⟩ := hmem e' he'
    obtain ⟨b, rfl⟩ := hmem e he
    have hv' : v = [] := by
      have := hv.length_le
      rcases v with _ | ⟨x, v⟩
      · rfl
      · exact absurd (hv.eq_of_length (by simp at this ⊢; simpa using this)) hne
    subst hv'
    rw [wordD, List.foldl_nil, startD_val]
    exact (getD_facts h0 b).2

theorem greedyD_step {pmf : List Double} (h0 : ∀ x ∈ pmf, 0 ≤ x.val ∧ x.val ≤ 1) {heap : List TNodeD} (h : GreedyD pmf heap)
    {i : Nat} {node : TNodeD} (hi : heap[i]? = some node) (hmax : ∀ v ∈ heap, v.2.val ≤ node.2.val) :
    GreedyD pmf (heap.eraseIdx i ++ tunstallChildrenD pmf node) := by
  have hnode : node ∈ heap := List.mem_of_getElem? hi
  have hmem : ∀ e, e ∈ heap.eraseIdx i ++ tunstallChildrenD pmf node →
      e ∈ heap ∨ ∃ a, e = (node.1 ++ [a], node.2 * pmf.getD a 0) := by
    intro e he
    rcases List.mem_append.mp he with he | he
    · exact .inl (List.mem_of_mem_eraseIdx he)
    · rw [tunstallChildrenD, List.mem_mapIdx] at he
      obtain ⟨j, hj, rfl⟩ := he
      exact .inr ⟨j, by rw [List.getD_eq_getElem _ _ hj]⟩
  have hle : ∀ e, e ∈ heap.eraseIdx i ++ tunstallChildrenD pmf node → e.2.val ≤ node.2.val := by
    intro e he
    rcases hmem e he with he | ⟨a, rfl⟩
    · exact hmax e he
    · have hn := wordD_nonneg h0 node.1
      rw [← h.val node hnode] at hn
      exact (wordD_snoc_le h0 _ hn a).2
  constructor
  · intro e he
    rcases hmem e he with he | ⟨a, rfl⟩
    · exact h.val e he
    · rw [wordD_snoc, ← h.val node hnode]
  · intro w hw v hv hne e he
    have hv' : v = node.1 ∨ ∃ w' ∈ heap.map Prod.fst, v <+: w' ∧ v ≠ w' := by
      obtain ⟨e', he', rfl⟩ := List.mem_map.mp hw
      rcases hmem e' he' with he' | ⟨a, rfl⟩
      · exact .inr ⟨_, List.mem_map_of_mem he', hv, hne⟩
      · have hpre : v <+: node.1 := by
          rcases List.prefix_concat_iff.mp (by simpa using hv) with hc | hc
          · exact absurd (by simpa using hc) hne
          · exact hc
        by_cases hvn : v = node.1
        · exact .inl hvn
        · exact .inr ⟨_, List.mem_map_of_mem hnode, hpre, hvn⟩
    rcases hv' with rfl | ⟨w', hw', hp', hn'⟩
    · rw [← h.val node hnode]; exact hle e he
    · exact (hle e he).trans (h.top w' hw' v hp' hn' node hnode)

/-- The popped leaf is one whose computed probability is greatest. -/
def MaxChoiceD (choose : List TNodeD → Nat) : Prop :=
  ∀ heap : List TNodeD, heap ≠ [] → ∃ node, heap[choose heap]? = some node ∧ ∀ v ∈ heap, v.2.val ≤ node.2.val

theorem MaxChoiceD.valid {choose : List TNodeD → Nat} (h : MaxChoiceD choose) : ∀ heap, heap ≠ [] → choose heap < heap.length := by
  intro heap hne
  obtain ⟨node, hn, -⟩ := h heap hne
  exact (List.getElem?_eq_some_iff.mp hn).1

theorem tunstallLoopD_greedy {pmf : List Double} (h0 : ∀ x ∈ pmf, 0 ≤ x.val ∧ x.val ≤ 1) {choose : List TNodeD → Nat}
    (hc : MaxChoiceD choose) (K : Nat) : ∀ heap, GreedyD pmf heap → GreedyD pmf (tunstallLoopD pmf choose K heap) := by
  induction K with
  | zero => intro heap h; exact h
  | succ K ih =>
    intro heap h
    rw [tunstallLoopD]
    by_cases hne : heap = []
    · subst hne; simpa using h
    · obtain ⟨node, hn, hmax⟩ := hc heap hne
      rw [hn]
      exact ih _ (greedyD_step h0 h hn hmax)

/-- Accuracy of the computed probability of a word that is not too improbable. -/
theorem wordD_accurate {pmf : List Double} {q : Nat → ℝ} {β : ℝ} {D : Nat} (hβ : 1 / 2 ^ 52 ≤ β) (hD : D * β ≤ 1 / 8)
    (hq : ∀ a < pmf.length, 0 ≤ q a ∧ q a ≤ 1) (hp : ∀ a < pmf.length, |(pmf.getD a 0).val - q a| ≤ (β - 1 / 2 ^ 52) * q a) (w : Word) :
    (∀ a ∈ w, a < pmf.length) → w.length ≤ D → 1 / 2 ^ 900 ≤ prob q w →
      (1 - β) ^ w.length * prob q w ≤ (wordD pmf w).val ∧ (wordD pmf w).val ≤ (1 + β) ^ w.length * prob q w := by
  induction w using List.reverseRecOn with
  | nil => intro _ _ _; simp [wordD, startD_val]
  | append_singleton w a ih =>
    intro hs hl hP
    have ha : a < pmf.length := hs a (by simp)
    have hs' : ∀ b ∈ w, b < pmf.length := fun b hb => hs b (by simp [hb])
    have hPw0 : 0 ≤ prob q w := prob_nonneg (fun b hb => (hq b hb).1) w hs'
    have hPe : prob q (w ++ [a]) = prob q w * q a := by rw [prob_append]; simp
    rw [hPe] at hP ⊢
    have hPw : 1 / 2 ^ 900 ≤ prob q w := hP.trans (mul_le_of_le_one_right hPw0 (hq a ha).2)
    rw [List.length_append, List.length_singleton] at hl ⊢
    obtain ⟨i1, i2⟩ := ih hs' (by omega) hPw
    have hDβ : (w.length : ℝ) * β ≤ 1 / 8 := by
      have h1 : (w.length : ℝ) ≤ D := by exact_mod_cast (by omega : w.length ≤ D)
      have hβ0 : 0 ≤ β := le_trans (by norm_num) hβ
      exact (mul_le_mul_of_nonneg_right h1 hβ0).trans hD
    have hβ1 : β ≤ 1 / 8 := by
      have h1 : (1 : ℝ) ≤ D := by exact_mod_cast (by omega : 1 ≤ D)
      have hβ0 : 0 ≤ β := le_trans (by norm_num) hβ
      nlinarith
    obtain ⟨a1, a2⟩ := abs_le.mp (hp a ha)
    have hqa := (hq a ha).1
    have hbern := one_add_mul_le_pow (a := -β) (by linarith) w.length
    have hlow : 7 / 8 ≤ (1 - β) ^ w.length := by
      rw [← sub_eq_add_neg] at hbern
      linarith
    rw [wordD_snoc, Double.mul_val]
    generalize (wordD pmf w).val = E at *
    generalize (pmf.getD a 0).val = p at *
    obtain ⟨u, hu⟩ : ∃ u : ℝ, u = 1 / 2 ^ 52 := ⟨_, rfl⟩
    rw [← hu] at hβ a1 a2
    have hu0 : 0 ≤ u := by rw [hu]; positivity
    have hpl : (1 - (β - u)) * q a ≤ p := by linarith
    have hpu : p ≤ (1 + (β - u)) * q a := by linarith
    have hp0 : 0 ≤ p := le_trans (mul_nonneg (by linarith) hqa) hpl
    have hL0 : 0 ≤ (1 - β) ^ w.length * prob q w := mul_nonneg (by linarith) hPw0
    have hE0 : 0 ≤ E := hL0.trans i1
    have l1 : (1 - β) ^ w.length * prob q w * ((1 - (β - u)) * q a) ≤ E * p := mul_le_mul i1 hpl (mul_nonneg (by linarith) hqa) hE0
    have l2 : E * p ≤ (1 + β) ^ w.length * prob q w * ((1 + (β - u)) * q a) := mul_le_mul i2 hpu hp0 (hE0.trans i2)
    have hnorm : 1 / 2 ^ 1001 ≤ E * p := by
      refine le_trans ?_ l1
      have e : (1 - β) ^ w.length * prob q w * ((1 - (β - u)) * q a) = (1 - β) ^ w.length * (1 - (β - u)) * (prob q w * q a) := by ring
      rw [e]
      have h12 : (1 : ℝ) / 2 ≤ (1 - β) ^ w.length * (1 - (β - u)) := by
        have := mul_le_mul hlow (by linarith : (7 : ℝ) / 8 ≤ 1 - (β - u)) (by norm_num) (by linarith)
        linarith
      calc (1 : ℝ) / 2 ^ 1001 ≤ 1 / 2 ^ 901 := one_div_le_one_div_of_le (by positivity) (pow_le_pow_right₀ (by norm_num) (by norm_num))
        _ = 1 / 2 * (1 / 2 ^ 900) := by rw [show (901 : ℕ) = 900 + 1 by norm_num, pow_succ]; field_simp
        _ ≤ _ := mul_le_mul h12 hP (by positivity) (by linarith)
    have herr := abs_le.mp (rnd_error_normal hnorm)
    have hu2 : E * p / 2 ^ 53 = u / 2 * (E * p) := by rw [hu]; ring
    rw [hu2] at herr
    have hEp0 : 0 ≤ E * p := mul_nonneg hE0 hp0
    have hPP : 0 ≤ prob q w * q a := mul_nonneg hPw0 hqa
    clear hnorm hP hPw
    have hu1 : u ≤ 1 := by rw [hu]; norm_num
    constructor
    · rw [pow_succ]
      have k1 : (1 - u / 2) * ((1 - β) ^ w.length * prob q w * ((1 - (β - u)) * q a)) ≤ (1 - u / 2) * (E * p) := mul_le_mul_of_nonneg_left l1 (by linarith)
      have k2 : (1 - β) ^ w.length * (1 - β) * (prob q w * q a) ≤ (1 - u / 2) * ((1 - β) ^ w.length * prob q w * ((1 - (β - u)) * q a)) := by
        have e : (1 - u / 2) * ((1 - β) ^ w.length * prob q w * ((1 - (β - u)) * q a)) = (1 - β) ^ w.length * ((1 - u / 2) * (1 - (β - u))) * (prob q w * q a) := by ring
        rw [e]
        refine mul_le_mul_of_nonneg_right (mul_le_mul_of_nonneg_left ?_ (by linarith)) hPP
        nlinarith
      linarith [herr.1]
    · rw [pow_succ]
      have k1 : (1 + u / 2) * (E * p) ≤ (1 + u / 2) * ((1 + β) ^ w.length * prob q w * ((1 + (β - u)) * q a)) := mul_le_mul_of_nonneg_left l2 (by linarith)
      have k2 : (1 + u / 2) * ((1 + β) ^ w.length * prob q w * ((1 + (β - u)) * q a)) ≤ (1 + β) ^ w.length * (1 + β) * (prob q w * q a) := by
        have e : (1 + u / 2) * ((1 + β) ^ w.length * prob q w * ((1 + (β - u)) * q a)) = (1 + β) ^ w.length * ((1 + u / 2) * (1 + (β - u))) * (prob q w * q a) := by ring
        rw [e]
        refine mul_le_mul_of_nonneg_right (mul_le_mul_of_nonneg_left ?_ (pow_nonneg (by linarith) _)) hPP
        nlinarith
      linarith [herr.2]

/-- The computed probability of a very improbable word is small. -/
theorem wordD_small {pmf : List Double} (h0 : ∀ x ∈ pmf, 0 ≤ x.val ∧ x.val ≤ 1) {q : Nat → ℝ} {β : ℝ} {D : Nat} (hβ : 1 / 2 ^ 52 ≤ β) (hD : D * β ≤ 1 / 8)
    (hq : ∀ a < pmf.length, 0 ≤ q a ∧ q a ≤ 1) (hp : ∀ a < pmf.length, |(pmf.getD a 0).val - q a| ≤ (β - 1 / 2 ^ 52) * q a) (w : Word) :
    (∀ a ∈ w, a < pmf.length) → w.length ≤ D → prob q w < 1 / 2 ^ 900 → (wordD pmf w).val ≤ 1 / 2 ^ 898 := by
  induction w using List.reverseRecOn with
  | nil =>
    intro _ _ h
    rw [prob_nil] at h
    exact absurd h (not_lt.mpr (by rw [div_le_one (by positivity)]; exact one_le_pow₀ (by norm_num)))
  | append_singleton w a ih =>
    intro hs hl hP
    have ha : a < pmf.length := hs a (by simp)
    have hs' : ∀ b ∈ w, b < pmf.length := fun b hb => hs b (by simp [hb])
    rw [List.length_append, List.length_singleton] at hl
    rw [wordD_snoc]
    rcases lt_or_ge (prob q w) (1 / 2 ^ 900) with h | h
    · exact (wordD_snoc_le h0 _ (wordD_nonneg h0 w) a).2.trans (ih hs' (by omega) h)
    · obtain ⟨-, i2⟩ := wordD_accurate hβ hD hq hp w hs' (by omega) h
      have hPe : prob q (w ++ [a]) = prob q w * q a := by rw [prob_append]; simp
      rw [hPe] at hP
      have hDβ : (w.length : ℝ) * β ≤ 1 / 8 := by
        have h1 : (w.length : ℝ) ≤ D := by exact_mod_cast (by omega : w.length ≤ D)
        have hβ0 : 0 ≤ β := le_trans (by norm_num) hβ
        exact (mul_le_mul_of_nonneg_right h1 hβ0).trans hD
      have hβ1 : β ≤ 1 / 8 := by
        have h1 : (1 : ℝ) ≤ D := by exact_mod_cast (by omega : 1 ≤ D)
        have hβ0 : 0 ≤ β := le_trans (by norm_num) hβ
        nlinarith
      have hβ0 : 0 ≤ β := le_trans (by norm_num) hβ
      have hup : (1 + β) ^ w.length ≤ 8 / 7 := by
        have h1 := one_add_mul_le_pow (a := -β) (by linarith) w.length
        have h2 : (1 + β) ^ w.length * (1 + -β) ^ w.length ≤ 1 := by
          rw [← mul_pow]; exact pow_le_one₀ (by nlinarith) (by nlinarith)
        have h3 : 0 ≤ (1 + β) ^ w.length := pow_nonneg (by linarith) _
        generalize (1 + β) ^ w.length = X at *
        generalize (1 + -β) ^ w.length = Y at *
        have : X * (7 / 8) ≤ X * Y := mul_le_mul_of_nonneg_left (by linarith) h3
        linarith
      have hPw0 : 0 ≤ prob q w := prob_nonneg (fun b hb => (hq b hb).1) w hs'
      have hqa := (hq a ha).1
      have hpu : (pmf.getD a 0).val ≤ 2 * q a := by
        have := (abs_le.mp (hp a ha)).2
        have h3 : (β - 1 / 2 ^ 52) * q a ≤ 1 * q a := mul_le_mul_of_nonneg_right (by linarith) hqa
        linarith
      have hle : (wordD pmf w).val * (pmf.getD a 0).val ≤ 1 / 2 ^ 898 := by
        calc (wordD pmf w).val * (pmf.getD a 0).val ≤ (2 * prob q w) * (2 * q a) := by
              refine mul_le_mul (i2.trans (mul_le_mul_of_nonneg_right (by linarith) hPw0)) hpu (getD_facts h0 a).1 (by linarith)
          _ = 4 * (prob q w * q a) := by ring
          _ ≤ 4 * (1 / 2 ^ 900) := by
            have := hP.le
            generalize (1 : ℝ) / 2 ^ 900 = t at *
            linarith
          _ = 1 / 2 ^ 898 := by rw [show (900 : ℕ) = 898 + 2 by norm_num, pow_add]; field_simp; norm_num
      have hd : IsDouble ((1 : ℝ) / 2 ^ 898) := ⟨1, -898, by norm_num, by norm_num, by rw [zpow_neg, one_div, Int.cast_one, one_mul]; norm_cast⟩
      have := rnd_mono hle
      rw [rnd_of_isDouble hd] at this
      rw [Double.mul_val]
      exact this

/-- `optimal_tree` with a factor. -/
theorem near_optimal_tree {S : Nat} (p : Nat → ℝ) (hS : 2 ≤ S) {ρ : ℝ} (hρ : 1 ≤ ρ)
    (hp0 : ∀ a < S, 0 ≤ p a) (hp : ∑ a ∈ Finset.range S, p a = 1) (T : Finset Word) (h : Complete S T)
    (hgreedy : ∀ v ∈ internal T, ∀ w ∈ T, prob p w ≤ ρ * prob p v) (T' : Finset Word) (h' : Complete S T') (hc : T'.card ≤ T.card) :
    ∑ w ∈ T', prob p w * w.length ≤ ρ * ∑ w ∈ T, prob p w * w.length := by
  have hS0 : 0 < S := by omega
  rw [expected_internal p hS0 hp T h, expected_internal p hS0 hp T' h']
  have hcard : (internal T').card ≤ (internal T).card := by
    rw [card_internal hS0 T h, card_internal hS0 T' h'] at hc
    have hS1 : 0 < S - 1 := by omega
    exact Nat.le_of_mul_le_mul_right (Nat.le_of_add_le_add_left hc) hS1
  have hle1 : ∀ a < S, p a ≤ 1 := by
    intro a ha
    rw [← hp]
    exact Finset.single_le_sum (f := p) (fun b hb => hp0 b (Finset.mem_range.mp hb)) (Finset.mem_range.mpr ha)
  have hsymI : ∀ v ∈ internal T', ∀ a ∈ v, a < S := by
    intro v hv a ha
    obtain ⟨w, hw, hpre, -⟩ := mem_internal.mp hv
    exact h'.sym w hw a (hpre.subset ha)
  have hsymT : ∀ v ∈ internal T, ∀ a ∈ v, a < S := by
    intro v hv a ha
    obtain ⟨w, hw, hpre, -⟩ := mem_internal.mp hv
    exact h.sym w hw a (hpre.subset ha)
  have hpn : ∀ w : Word, (∀ a ∈ w, a < S) → 0 ≤ prob p w ∧ prob p w ≤ 1 := by
    intro w
    induction w with
    | nil => intro _; simp
    | cons a w ih =>
      intro hw
      obtain ⟨i1, i2⟩ := ih fun b hb => hw b (by simp [hb])
      rw [prob_cons]
      have ha := hp0 a (hw a (by simp))
      exact ⟨mul_nonneg ha i1, mul_le_one₀ (hle1 a (hw a (by simp))) i1 i2⟩
  have hout : ∀ u ∈ internal T', u ∉ internal T → ∀ v ∈ internal T, prob p u ≤ ρ * prob p v := by
    intro u hu hun v hv
    obtain ⟨w, hw, t, rfl⟩ := extends_of_not_internal h hS0 (hsymI u hu) hun
    rw [prob_append]
    refine le_trans ?_ (hgreedy v hv w hw)
    exact mul_le_of_le_one_right (hpn w (h.sym w hw)).1 (hpn t fun a ha => hsymI _ hu a (by simp [ha])).2
  have hdiff : ∑ u ∈ internal T' \ internal T, prob p u ≤ ρ * ∑ v ∈ internal T \ internal T', prob p v := by
    rcases (internal T \ internal T').eq_empty_or_nonempty with hE | ⟨v0, hv0⟩
    · have : internal T' \ internal T = ∅ := by
        rw [← Finset.card_eq_zero]
        have h1 := Finset.card_sdiff_add_card_inter (internal T') (internal T)
        have h2 := Finset.card_sdiff_add_card_inter (internal T) (internal T')
        rw [hE, Finset.inter_comm] at h2
        simp at h2
        omega
      rw [this, hE]; simp
    · obtain ⟨v1, hv1, hmin⟩ := Finset.exists_min_image (internal T \ internal T') (prob p) ⟨v0, hv0⟩
      have hc' : (internal T' \ internal T).card ≤ (internal T \ internal T').card := by
        have h1 := Finset.card_sdiff_add_card_inter (internal T') (internal T)
        have h2 := Finset.card_sdiff_add_card_inter (internal T) (internal T')
        rw [Finset.inter_comm] at h2
        omega
      have hv1' := (Finset.mem_sdiff.mp hv1)
      have hv1n : 0 ≤ ρ * prob p v1 := mul_nonneg (by linarith) (hpn v1 (hsymT v1 hv1'.1)).1
      calc ∑ u ∈ internal T' \ internal T, prob p u
          ≤ (internal T' \ internal T).card • (ρ * prob p v1) := Finset.sum_le_card_nsmul _ _ _ fun u hu => by
            obtain ⟨h1, h2⟩ := Finset.mem_sdiff.mp hu
            exact hout u h1 h2 v1 hv1'.1
        _ ≤ (internal T \ internal T').card • (ρ * prob p v1) := nsmul_le_nsmul_left hv1n hc'
        _ ≤ ∑ v ∈ internal T \ internal T', ρ * prob p v := Finset.card_nsmul_le_sum _ _ _ fun v hv => mul_le_mul_of_nonneg_left (hmin v hv) (by linarith)
        _ = _ := by rw [Finset.mul_sum]
  rw [← Finset.sum_inter_add_sum_sdiff (internal T') (internal T), ← Finset.sum_inter_add_sum_sdiff (internal T) (internal T'), Finset.inter_comm, mul_add]
  refine add_le_add ?_ hdiff
  have hX : 0 ≤ ∑ v ∈ internal T ∩ internal T', prob p v := Finset.sum_nonneg fun v hv => (hpn v (hsymT v (Finset.mem_inter.mp hv).1)).1
  nlinarith

/-- The expected number of source symbols per word for a memoryless source with symbol probabilities `q`. -/
noncomputable def meanLength (q : Nat → ℝ) (W : List Word) : ℝ := (W.map fun w : Word => (w.map q).prod * (w.length : ℝ)).sum

/-- Near-optimality: the source has symbol probabilities `q` (real numbers that sum to 1), the doubles given to the constructor agree with them up to the relative error `ε`, and each round expands a leaf whose
computed probability is greatest.  Then the mean length of the sourcewords is within the factor `1 + 4·2ⁿ(ε + 2⁻⁵²)` of the greatest mean length of any prefix-free fully covering set with at most as
many words. -/
theorem C147_tunstall_near_optimal (pmf : List Double) (n : Nat) (hS : 2 ≤ pmf.length) (hSn : pmf.length ≤ 2 ^ n)
    (hp1 : ∀ x ∈ pmf, 0 ≤ x.val ∧ x.val ≤ 1) (q : Nat → ℝ) (hq0 : ∀ a < pmf.length, 0 ≤ q a) (hqs : ∑ a ∈ Finset.range pmf.length, q a = 1)
    {ε : ℝ} (hε : 0 ≤ ε) (hp : ∀ a (h : a < pmf.length), |(pmf[a]).val - q a| ≤ ε * q a) (hsmall : 2 ^ n * (ε + 1 / 2 ^ 52) ≤ 1 / 8)
    (choose : List TNodeD → Nat) (hc : MaxChoiceD choose) :
    ∃ c, tunstallCodeD pmf n choose = some c ∧
      ∀ W : List Word, PrefixFree W → (∀ w ∈ W, w ≠ [] ∧ ∀ a ∈ w, a < pmf.length) → FullyCovering W pmf.length → W.length ≤ c.sourcewords.length →
        meanLength q W ≤ (1 + 4 * (2 ^ n * (ε + 1 / 2 ^ 52))) * meanLength q c.sourcewords := by
  have hn : n ≤ 53 := by
    by_contra hcon
    have h1 : (2 : ℝ) ^ 54 ≤ 2 ^ n := pow_le_pow_right₀ (by norm_num) (by omega)
    have h2 : (2 : ℝ) ^ n * (1 / 2 ^ 52) ≤ 2 ^ n * (ε + 1 / 2 ^ 52) := mul_le_mul_of_nonneg_left (by linarith) (by positivity)
    have h3 : (2 : ℝ) ^ 54 * (1 / 2 ^ 52) ≤ 2 ^ n * (1 / 2 ^ 52) := mul_le_mul_of_nonneg_right h1 (by positivity)
    generalize (2 : ℝ) ^ n * (ε + 1 / 2 ^ 52) = Y at *
    generalize (2 : ℝ) ^ n * (1 / 2 ^ 52) = Z at *
    norm_num at h3
    linarith
  obtain ⟨c, h1, hperm, htree, h4, -⟩ := tunstallCodeD_spec pmf n hS hSn hn hc.valid
  obtain ⟨r1, -, -⟩ := tunstallRounds_spec pmf.length n hS hSn
  refine ⟨c, h1, ?_⟩
  intro W hpf' hw' hcov' hlen
  obtain ⟨hpf, hnd⟩ := htree.prefixFree
  have hnd' := hpf'.nodup fun w h => (hw' w h).1
  have hT := complete_of_words hpf htree.ne htree.sym htree.cov
  have hT' := complete_of_words hpf' (fun w h => (hw' w h).1) (fun w h => (hw' w h).2) hcov'
  have hgreedy := tunstallLoopD_greedy hp1 hc (tunstallRoundsD pmf.length n) _ (greedyD_base hp1)
  have hS0 : 0 < pmf.length := by omega
  obtain ⟨β, hβ⟩ : ∃ β, β = ε + 1 / 2 ^ 52 := ⟨_, rfl⟩
  rw [← hβ] at hsmall ⊢
  have hβ1 : 1 / 2 ^ 52 ≤ β := by rw [hβ]; linarith
  have hβ0 : 0 ≤ β := le_trans (by norm_num) hβ1
  have hD : ((2 ^ n : ℕ) : ℝ) * β ≤ 1 / 8 := by push_cast; exact hsmall
  have hq1 : ∀ a < pmf.length, 0 ≤ q a ∧ q a ≤ 1 := fun a ha => ⟨hq0 a ha, by
    rw [← hqs]
    exact Finset.single_le_sum (f := q) (fun b hb => hq0 b (Finset.mem_range.mp hb)) (Finset.mem_range.mpr ha)⟩
  have hp' : ∀ a < pmf.length, |(pmf.getD a 0).val - q a| ≤ (β - 1 / 2 ^ 52) * q a := by
    intro a ha
    rw [List.getD_eq_getElem _ _ ha, hβ, add_sub_cancel_right]
    exact hp a ha
  -- words of the tree are short
  have hdepth : ∀ w ∈ c.sourcewords.toFinset, w.length ≤ 2 ^ n := by
    intro w hw
    have e1 := card_internal hS0 _ hT
    rw [List.toFinset_card_of_nodup hnd] at e1
    have e2 : w.length ≤ (internal c.sourcewords.toFinset).card := by
      have : ((Finset.range w.length).image fun i => w.take i) ⊆ internal c.sourcewords.toFinset := fun v hv => Finset.mem_biUnion.mpr ⟨w, hw, hv⟩
      refine le_trans ?_ (Finset.card_le_card this)
      rw [Finset.card_image_of_injOn, Finset.card_range]
      intro i hi j hj hij
      have := congrArg List.length hij
      simp only [List.length_take, Finset.coe_range, Set.mem_Iio] at this hi hj
      omega
    have e3 : (internal c.sourcewords.toFinset).card ≤ (internal c.sourcewords.toFinset).card * (pmf.length - 1) := Nat.le_mul_of_pos_right _ (by omega)
    omega
  have hlow : 7 / 8 ≤ (1 - β) ^ (2 ^ n) ∧ (1 - 2 ^ n * β) ≤ (1 - β) ^ (2 ^ n) := by
    have hb1 : β ≤ 1 / 8 := by
      have : (1 : ℝ) ≤ 2 ^ n := one_le_pow₀ (by norm_num)
      nlinarith
    have := one_add_mul_le_pow (a := -β) (by linarith) (2 ^ n)
    rw [← sub_eq_add_neg] at this
    push_cast at this
    constructor <;> linarith
  have hb1 : β ≤ 1 / 8 := by
    have : (1 : ℝ) ≤ 2 ^ n := one_le_pow₀ (by norm_num)
    nlinarith
  have hmono : ∀ k ≤ 2 ^ n, (1 - β) ^ (2 ^ n) ≤ (1 - β) ^ k := fun k hk => pow_le_pow_of_le_one (by linarith) (by linarith) hk
  have hmono' : ∀ k ≤ 2 ^ n, (1 + β) ^ k ≤ (1 + β) ^ (2 ^ n) := fun k hk => pow_le_pow_right₀ (by linarith) hk
  have hprod : (1 + β) ^ (2 ^ n) * (1 - β) ^ (2 ^ n) ≤ 1 := by
    rw [← mul_pow]; exact pow_le_one₀ (by nlinarith) (by nlinarith)
  -- there is a probable word
  obtain ⟨w0, hw0, hw0p⟩ : ∃ w ∈ c.sourcewords.toFinset, 1 / 2 ^ n ≤ prob q w := by
    by_contra hcon
    push Not at hcon
    have hsum := sum_prob q hS0 hqs _ hT
    have hne : c.sourcewords.toFinset.Nonempty := by
      rw [Finset.nonempty_iff_ne_empty]
      intro he
      rw [he] at hsum; simp at hsum
    have hlt := Finset.sum_lt_sum_of_nonempty hne hcon
    rw [hsum, Finset.sum_const, nsmul_eq_mul, List.toFinset_card_of_nodup hnd] at hlt
    have : (c.sourcewords.length : ℝ) ≤ 2 ^ n := by exact_mod_cast (by omega : c.sourcewords.length ≤ 2 ^ n)
    rw [mul_one_div, lt_div_iff₀ (by positivity)] at hlt
    linarith
  have hw0big : 1 / 2 ^ 900 ≤ prob q w0 := le_trans (one_div_le_one_div_of_le (by positivity) (pow_le_pow_right₀ (by norm_num) (by omega))) hw0p
  have htop : ∀ v ∈ internal c.sourcewords.toFinset, ∀ w ∈ c.sourcewords.toFinset, (wordD pmf w).val ≤ (wordD pmf v).val := by
    intro v hv w hwm
    obtain ⟨x, hx, hvx, hne⟩ := mem_internal.mp hv
    have hx' : x ∈ (tunstallLeavesD pmf n choose).map Prod.fst := hperm.subset (List.mem_toFinset.mp hx)
    have hw' : w ∈ (tunstallLeavesD pmf n choose).map Prod.fst := hperm.subset (List.mem_toFinset.mp hwm)
    obtain ⟨e, he, rfl⟩ := List.mem_map.mp hw'
    have h2 := hgreedy.top x hx' v hvx hne e he
    rw [hgreedy.val e he] at h2
    exact h2
  have hsymW : ∀ w ∈ c.sourcewords.toFinset, ∀ a ∈ w, a < pmf.length := fun w hw => htree.sym w (List.mem_toFinset.mp hw)
  have hρ1 : 1 ≤ 1 + 4 * (2 ^ n * β) := by
    have : 0 ≤ 2 ^ n * β := by positivity
    linarith
  have key := near_optimal_tree q hS (ρ := 1 + 4 * (2 ^ n * β)) hρ1 hq0 hqs _ hT (by
    intro v hv w hw
    obtain ⟨x, hx, hvx, hne⟩ := mem_internal.mp hv
    have hvs : ∀ a ∈ v, a < pmf.length := fun a ha => hsymW x hx a (hvx.subset ha)
    have hvl : v.length ≤ 2 ^ n := hvx.length_le.trans (hdepth x hx)
    have hv0 : 0 ≤ prob q v := prob_nonneg hq0 v hvs
    have hX : 0 ≤ 2 ^ n * β := by positivity
    rcases le_or_gt (prob q w) (prob q v) with hle | hgt
    · nlinarith
    · have hbig : 1 / 2 ^ 900 ≤ prob q v := by
        by_contra hcon
        have s1 := wordD_small hp1 hβ1 hD hq1 hp' v hvs hvl (not_le.mp hcon)
        have s2 := (wordD_accurate hβ1 hD hq1 hp' w0 (hsymW w0 hw0) (hdepth w0 hw0) hw0big).1
        have s3 := htop v hv w0 hw0
        have s4 : 7 / 8 * (1 / 2 ^ n) ≤ (1 - β) ^ w0.length * prob q w0 :=
          mul_le_mul (hlow.1.trans (hmono _ (hdepth w0 hw0))) hw0p (by positivity) (by linarith [hlow.1.trans (hmono _ (hdepth w0 hw0))])
        have s5 : (1 : ℝ) / 2 ^ 898 ≤ 1 / 2 ^ 60 := one_div_le_one_div_of_le (by positivity) (pow_le_pow_right₀ (by norm_num) (by norm_num))
        have s6 : (1 : ℝ) / 2 ^ 53 ≤ 1 / 2 ^ n := one_div_le_one_div_of_le (by positivity) (pow_le_pow_right₀ (by norm_num) hn)
        have s7 : 7 / 8 * (1 / 2 ^ n) ≤ (1 : ℝ) / 2 ^ 60 := s4.trans (s2.trans (s3.trans (s1.trans s5)))
        clear s1 s2 s3 s4 s5 hcon hw0big
        generalize (1 : ℝ) / 2 ^ n = t at *
        norm_num at s6 s7
        linarith
      have a1 := (wordD_accurate hβ1 hD hq1 hp' w (hsymW w hw) (hdepth w hw) (hbig.trans hgt.le)).1
      have a2 := (wordD_accurate hβ1 hD hq1 hp' v hvs hvl hbig).2
      have a3 := htop v hv w hw
      have hw0 : 0 ≤ prob q w := prob_nonneg hq0 w (hsymW w hw)
      have b1 : (1 - β) ^ (2 ^ n) * prob q w ≤ (1 + β) ^ (2 ^ n) * prob q v :=
        (mul_le_mul_of_nonneg_right (hmono _ (hdepth w hw)) hw0).trans (a1.trans (a3.trans (a2.trans (mul_le_mul_of_nonneg_right (hmono' _ hvl) hv0))))
      clear hbig hw0big
      obtain ⟨l1, l2⟩ := hlow
      have hU0 : 0 ≤ (1 + β) ^ (2 ^ n) := pow_nonneg (by linarith) _
      generalize (1 - β) ^ (2 ^ n) = L at *
      generalize (1 + β) ^ (2 ^ n) = U at *
      generalize (2 : ℝ) ^ n * β = X at *
      generalize prob q w = a at *
      generalize prob q v = b at *
      have c1 : L * L * a ≤ b := by
        have := mul_le_mul_of_nonneg_left b1 (by linarith : 0 ≤ L)
        have h3 : U * L * b ≤ 1 * b := mul_le_mul_of_nonneg_right hprod hv0
        nlinarith
      have c2 : (1 - X) * (1 - X) ≤ L * L := mul_le_mul l2 l2 (by linarith) (by linarith)
      have c3 : (1 - X) * (1 - X) * a ≤ b := (mul_le_mul_of_nonneg_right c2 hw0).trans c1
      have c4 : 1 ≤ (1 + 4 * X) * ((1 - X) * (1 - X)) := by
        have := mul_nonneg hX (by linarith : 0 ≤ 2 - 7 * X)
        have := mul_nonneg (mul_nonneg hX hX) hX
        nlinarith
      have c5 := mul_le_mul_of_nonneg_left c3 (by linarith : 0 ≤ 1 + 4 * X)
      have c6 := mul_le_mul_of_nonneg_right c4 hw0
      linarith) _ hT' (by
      rw [List.toFinset_card_of_nodup hnd', List.toFinset_card_of_nodup hnd]; exact hlen)
  unfold meanLength
  rw [sum_map_toFinset _ hnd', sum_map_toFinset _ hnd]
  exact key


/-- Oracles that return a position of greatest computed probability exist. -/
theorem maxChoiceD_exists : ∃ choose, MaxChoiceD choose := by
  have key : ∀ heap : List TNodeD, heap ≠ [] → ∃ (i : Nat) (node : TNodeD), heap[i]? = some node ∧ ∀ v ∈ heap, v.2.val ≤ node.2.val := by
    intro heap
    induction heap with
    | nil => intro h; exact absurd rfl h
    | cons a l ih =>
      intro _
      by_cases hl : l = []
      · subst hl; exact ⟨0, a, rfl, by simp⟩
      · obtain ⟨i, node, h1, h2⟩ := ih hl
        rcases le_total a.2.val node.2.val with h | h
        · exact ⟨i + 1, node, by simpa using h1, fun v hv => (List.mem_cons.mp hv).elim (fun e => e ▸ h) (h2 v)⟩
        · exact ⟨0, a, rfl, fun v hv => (List.mem_cons.mp hv).elim (fun e => e ▸ le_rfl) fun hv => (h2 v hv).trans h⟩
  classical
  refine ⟨fun heap => if h : heap ≠ [] then (key heap h).choose else 0, ?_⟩
  intro heap hne
  beta_reduce
  rw [dif_pos hne]
  exact (key heap hne).choose_spec

/-- Non-vacuity: the doubles 0.75 and 0.25; the Fano code for pairs of symbols and the Tunstall code with `n = 10`. -/
example : (∃ c, fanoCodeD plainSum [threeQuartersD, quarterD] 2 = some c ∧ PrefixFree c.codewords ∧ FullyCovering c.codewords 2 ∧ c.encMapping.length = 4) ∧
    ∃ choose c, tunstallCodeD [threeQuartersD, quarterD] 10 choose = some c ∧
      ∀ W : List Word, PrefixFree W → (∀ w ∈ W, w ≠ [] ∧ ∀ a ∈ w, a < 2) → FullyCovering W 2 → W.length ≤ c.sourcewords.length →
        meanLength (fun a => if a = 0 then 3 / 4 else 1 / 4) W ≤ (1 + 1 / 2 ^ 40) * meanLength (fun a => if a = 0 then 3 / 4 else 1 / 4) c.sourcewords := by
  have v1 : threeQuartersD.val = 3 / 4 := rfl
  have v2 : quarterD.val = 1 / 4 := rfl
  constructor
  · obtain ⟨c, h1, h2, -, h4, h5, -⟩ := C147_fano plainSum_sumOf [threeQuartersD, quarterD] (by
      intro p hp
      simp only [List.mem_cons, List.not_mem_nil, or_false] at hp
      rcases hp with rfl | rfl
      · rw [v1]; norm_num
      · rw [v2]; norm_num) 2 (by simp) (by norm_num) (by norm_num)
    refine ⟨c, h1, h4, h5, ?_⟩
    have := congrArg List.length h2
    rwa [List.length_map, allWords_length] at this
  · obtain ⟨choose, hc⟩ := maxChoiceD_exists
    obtain ⟨c, h1, h2⟩ := C147_tunstall_near_optimal [threeQuartersD, quarterD] 10 (by simp) (by norm_num) (by
      intro p hp
      simp only [List.mem_cons, List.not_mem_nil, or_false] at hp
      rcases hp with rfl | rfl
      · rw [v1]; norm_num
      · rw [v2]; norm_num) (fun a => if a = 0 then 3 / 4 else 1 / 4) (by intro a _; split <;> norm_num) (by
      simp [Finset.sum_range_succ]; norm_num) (ε := 0) le_rfl (by
      intro a ha
      simp only [List.length_cons, List.length_nil] at ha
      interval_cases a
      · simp [v1]
      · simp [v2]) (by norm_num) choose hc
    refine ⟨choose, c, h1, fun W w1 w2 w3 w4 => ?_⟩
    have := h2 W w1 w2 w3 w4
    norm_num at this ⊢
    exact this

end Komm
