import Verif.Lemmas.BlockCode
import Mathlib.Order.Nat
namespace Komm

variable {k m n : Nat}

theorem zmod2_norm_flip (v : BVec n) (j : Fin n) :
    (v j ≠ 0 → hammingNorm (v + Pi.single j 1) + 1 = hammingNorm v) ∧
    hammingNorm (v + Pi.single j 1) ≤ hammingNorm v + 1 := by
  have key : ∀ w : BVec n, hammingNorm w = (∑ i ∈ Finset.univ.erase j, if w i ≠ 0 then 1 else 0) +
      if w j ≠ 0 then 1 else 0 := by
    intro w
    unfold hammingNorm
    rw [Finset.card_filter, Finset.sum_erase_add _ _ (Finset.mem_univ j)]
  have hrest : (∑ i ∈ Finset.univ.erase j, if (v + Pi.single j 1 : BVec n) i ≠ 0 then 1 else 0) =
      ∑ i ∈ Finset.univ.erase j, if v i ≠ 0 then 1 else 0 := by
    apply Finset.sum_congr rfl
    intro i hi
    have : i ≠ j := (Finset.mem_erase.mp hi).1
    simp [this]
  rw [key (v + Pi.single j 1), key v, hrest]
  have hj : (v + Pi.single j 1 : BVec n) j = v j + 1 := by simp
  rw [hj]
  constructor
  · intro h
    rw [zmod2_ne_zero h]
    simp
    decide
  · split <;> split <;> omega

namespace LinCode

variable (c : LinCode k m n)

/-- integer syndrome -/
def syn (v : BVec n) : Nat := vecToNat (c.check v)

/-- weight of the coset with integer syndrome `s` -/
noncomputable def cw (s : Nat) : Nat := sInf {w | ∃ v, c.syn v = s ∧ hammingNorm v = w}

variable {c} (h : c.Lawful)
include h

theorem Lawful.syn_surj (s : Nat) (hs : s < 2 ^ m) : ∃ v, c.syn v = s := by
  obtain ⟨v, hv⟩ := h.check_surjective (natToVec m s)
  exact ⟨v, by rw [syn, hv, vecToNat_natToVec s hs]⟩

theorem Lawful.cw_attained (s : Nat) (hs : s < 2 ^ m) : ∃ v, c.syn v = s ∧ hammingNorm v = c.cw s := by
  obtain ⟨v, hv⟩ := h.syn_surj s hs
  exact Nat.sInf_mem (s := {w | ∃ v, c.syn v = s ∧ hammingNorm v = w}) ⟨_, v, hv, rfl⟩

omit h in
theorem cw_le (v : BVec n) : c.cw (c.syn v) ≤ hammingNorm v := Nat.sInf_le ⟨v, rfl, rfl⟩

theorem Lawful.syn_add (u v : BVec n) : c.syn (u + v) = c.syn u ^^^ c.syn v := by
  rw [syn, h.check_add, vecToNat_add]; rfl

theorem Lawful.syn_zero : c.syn 0 = 0 := by
  have : c.check 0 = 0 := by rw [← h.encode_zero]; exact h.check_encode 0
  rw [syn, this, vecToNat_zero]

omit h in
theorem syn_lt (v : BVec n) : c.syn v < 2 ^ m := vecToNat_lt _

theorem Lawful.syn_single (j : Fin n) : c.syn (Pi.single j 1) = vecToNat fun i => c.checkMatrix i j := by
  rw [syn]
  congr 1
  funext i
  rw [h.check_eq, Finset.sum_eq_single j]
  · simp
  · intro b _ hb; simp [Pi.single_apply, hb]
  · intro e; exact absurd (Finset.mem_univ j) e

theorem Lawful.hCols_mem (jh : Fin n × Nat) (hm : jh ∈ c.hCols) : jh.2 = c.syn (Pi.single jh.1 1) := by
  simp only [hCols, List.mem_map, List.mem_finRange, true_and] at hm
  obtain ⟨j, rfl⟩ := hm
  rw [h.syn_single]

theorem Lawful.hCols_all (j : Fin n) : (j, c.syn (Pi.single j 1)) ∈ c.hCols := by
  rw [h.syn_single]
  exact List.mem_map.mpr ⟨j, List.mem_finRange j, rfl⟩

theorem Lawful.cw_zero : c.cw 0 = 0 := by
  have := cw_le (c := c) 0
  rw [h.syn_zero] at this
  simpa using this

theorem Lawful.cw_eq_zero (s : Nat) (hs : s < 2 ^ m) (h0 : c.cw s = 0) : s = 0 := by
  obtain ⟨v, h1, h2⟩ := h.cw_attained s hs
  rw [h0, hammingNorm_eq_zero] at h2
  rw [← h1, h2, h.syn_zero]

theorem Lawful.cw_step (L s : Nat) (hs : s < 2 ^ m) (h0 : c.cw s = L + 1) :
    ∃ j : Fin n, s ^^^ c.syn (Pi.single j 1) < 2 ^ m ∧ c.cw (s ^^^ c.syn (Pi.single j 1)) = L := by
  obtain ⟨v, h1, h2⟩ := h.cw_attained s hs
  have hne : v ≠ 0 := by
    rintro rfl
    rw [hammingNorm_zero] at h2
    omega
  obtain ⟨j, hj⟩ := Function.ne_iff.mp hne
  refine ⟨j, ?_, ?_⟩
  · rw [← h1, ← h.syn_add]; exact syn_lt _
  · have hflip := (zmod2_norm_flip v j).1 hj
    have hle : c.cw (s ^^^ c.syn (Pi.single j 1)) ≤ L := by
      rw [← h1, ← h.syn_add]
      have := cw_le (c := c) (v + Pi.single j 1)
      omega
    have hlt : s ^^^ c.syn (Pi.single j 1) < 2 ^ m := by rw [← h1, ← h.syn_add]; exact syn_lt _
    obtain ⟨w, hw1, hw2⟩ := h.cw_attained _ hlt
    have h3 : c.syn (w + Pi.single j 1) = s := by
      rw [h.syn_add, hw1, Nat.xor_assoc, Nat.xor_self, Nat.xor_zero]
    have h4 := cw_le (c := c) (w + Pi.single j 1)
    rw [h3, h0] at h4
    have h5 := (zmod2_norm_flip w j).2
    omega

theorem Lawful.cw_le_n (s : Nat) (hs : s < 2 ^ m) : c.cw s ≤ n := by
  obtain ⟨v, _, h2⟩ := h.cw_attained s hs
  rw [← h2]
  simpa using hammingNorm_le_card_fintype (x := v)

omit h in
/-- Inner-loop invariant while processing the syndromes of weight `L`. -/
structure J (c : LinCode k m n) (L : Nat) (b : Bfs n) : Prop where
  low : ∀ s < 2 ^ m, c.cw s ≤ L → b.visited s = true
  high : ∀ s, b.visited s = true → s < 2 ^ m ∧ c.cw s ≤ L + 1
  lead : ∀ s, b.visited s = true → c.syn (b.leaders s) = s ∧ hammingNorm (b.leaders s) = c.cw s
  next_iff : ∀ s, s ∈ b.next ↔ b.visited s = true ∧ c.cw s = L + 1
  next_nodup : b.next.Nodup
  count_eq : b.count = ((Finset.range (2 ^ m)).filter fun s => b.visited s = true).card
  done_iff : b.done = true ↔ b.count = 2 ^ m

theorem Lawful.step_J (L s : Nat) (hs : s < 2 ^ m) (hL : c.cw s = L) (b : Bfs n) (hb : J c L b)
    (jh : Fin n × Nat) (hjh : jh ∈ c.hCols) :
    J c L (bfsStep m s b jh) ∧ (∀ t, b.visited t = true → (bfsStep m s b jh).visited t = true) ∧
    (b.done = true → (bfsStep m s b jh).done = true) ∧
    ((bfsStep m s b jh).done = false → (bfsStep m s b jh).visited (s ^^^ jh.2) = true) := by
  unfold bfsStep
  by_cases hd : b.done
  · rw [if_pos hd]
    exact ⟨hb, fun _ h => h, fun h => h, fun h => by rw [hd] at h; simp at h⟩
  rw [if_neg hd]
  by_cases hv : b.visited (s ^^^ jh.2)
  · simp only [if_pos hv]
    exact ⟨hb, fun _ h => h, fun h => h, fun _ => hv⟩
  simp only [if_neg hv]
  obtain ⟨j, hcol⟩ := jh
  have hcol' := h.hCols_mem _ hjh
  simp only at hcol' hv ⊢
  set s0 := s ^^^ hcol with hs0
  have hvs : b.visited s = true := hb.low s hs (le_of_eq hL)
  obtain ⟨hl1, hl2⟩ := hb.lead s hvs
  have hnew : (fun i => b.leaders s i + (if i = j then 1 else 0)) = b.leaders s + Pi.single j 1 := by
    funext i; simp [Pi.single_apply]
  have hsyn : c.syn (b.leaders s + Pi.single j 1) = s0 := by rw [h.syn_add, hl1, ← hcol']
  have hs0lt : s0 < 2 ^ m := by rw [← hsyn]; exact syn_lt _
  have hcw0 : L < c.cw s0 := by
    by_contra hc
    exact hv (hb.low s0 hs0lt (by omega))
  have hnorm : hammingNorm (b.leaders s + Pi.single j 1) ≤ L + 1 := by
    have := (zmod2_norm_flip (b.leaders s) j).2
    omega
  have hcw1 : c.cw s0 = L + 1 ∧ hammingNorm (b.leaders s + Pi.single j 1) = L + 1 := by
    have := cw_le (c := c) (b.leaders s + Pi.single j 1)
    rw [hsyn] at this
    omega
  have hcard : ((Finset.range (2 ^ m)).filter fun t => (if t = s0 then true else b.visited t) = true).card =
      b.count + 1 := by
    rw [hb.count_eq]
    have : ((Finset.range (2 ^ m)).filter fun t => (if t = s0 then true else b.visited t) = true) =
        insert s0 ((Finset.range (2 ^ m)).filter fun t => b.visited t = true) := by
      ext t
      simp only [Finset.mem_filter, Finset.mem_range, Finset.mem_insert]
      by_cases ht : t = s0
      · simp [ht, hs0lt]
      · simp [ht]
    rw [this, Finset.card_insert_of_notMem (by simp [hv])]
  refine ⟨⟨?_, ?_, ?_, ?_, ?_, ?_, ?_⟩, ?_, ?_, ?_⟩
  · intro t ht hcw
    simp only [hb.low t ht hcw, ite_self]
  · intro t ht
    by_cases e : t = s0
    · rw [e]; exact ⟨hs0lt, le_of_eq hcw1.1⟩
    · simp only [e, if_false] at ht; exact hb.high t ht
  · intro t ht
    by_cases e : t = s0
    · simp only [e, if_true]
      rw [hnew]
      exact ⟨hsyn, by rw [hcw1.1, hcw1.2]⟩
    · simp only [e, if_false] at ht ⊢; exact hb.lead t ht
  · intro t
    simp only [List.mem_append, List.mem_singleton, hb.next_iff]
    by_cases e : t = s0
    · simp [e, hcw1.1]
    · simp [e]
  · rw [List.nodup_append]
    refine ⟨hb.next_nodup, by simp, ?_⟩
    intro x hx y hy
    rw [List.mem_singleton] at hy
    subst hy
    rintro rfl
    exact hv ((hb.next_iff _).mp hx).1
  · exact hcard.symm
  · simp
  · intro t ht
    simp [ht]
  · intro e; exact absurd e hd
  · intro _; simp

theorem Lawful.inner_J (L s : Nat) (hs : s < 2 ^ m) (hL : c.cw s = L) (l : List (Fin n × Nat))
    (hl : ∀ jh ∈ l, jh ∈ c.hCols) : ∀ b : Bfs n, J c L b →
    J c L (l.foldl (bfsStep m s) b) ∧
    (∀ t, b.visited t = true → (l.foldl (bfsStep m s) b).visited t = true) ∧
    (b.done = true → (l.foldl (bfsStep m s) b).done = true) ∧
    ((l.foldl (bfsStep m s) b).done = false →
      ∀ jh ∈ l, (l.foldl (bfsStep m s) b).visited (s ^^^ jh.2) = true) := by
  induction l with
  | nil => intro b hb; exact ⟨hb, fun _ h => h, fun h => h, fun _ jh h => absurd h (by simp)⟩
  | cons x l ih =>
    intro b hb
    obtain ⟨a1, a2, a3, a4⟩ := h.step_J L s hs hL b hb x (hl x (by simp))
    obtain ⟨b1, b2, b3, b4⟩ := ih (fun jh hjh => hl jh (by simp [hjh])) _ a1
    rw [List.foldl_cons]
    refine ⟨b1, fun t ht => b2 t (a2 t ht), fun hd => b3 (a3 hd), fun hd jh hjh => ?_⟩
    rcases List.mem_cons.mp hjh with rfl | hjh
    · apply b2
      apply a4
      by_contra hc
      have := b3 (by simpa using hc)
      rw [hd] at this
      simp at this
    · exact b4 hd jh hjh

theorem Lawful.round_J (L : Nat) (l : List Nat) (hl : ∀ s ∈ l, s < 2 ^ m ∧ c.cw s = L) : ∀ b : Bfs n, J c L b →
    J c L (l.foldl (fun b s => c.hCols.foldl (bfsStep m s) b) b) ∧
    (∀ t, b.visited t = true → (l.foldl (fun b s => c.hCols.foldl (bfsStep m s) b) b).visited t = true) ∧
    (b.done = true → (l.foldl (fun b s => c.hCols.foldl (bfsStep m s) b) b).done = true) ∧
    ((l.foldl (fun b s => c.hCols.foldl (bfsStep m s) b) b).done = false →
      ∀ s ∈ l, ∀ jh ∈ c.hCols,
        (l.foldl (fun b s => c.hCols.foldl (bfsStep m s) b) b).visited (s ^^^ jh.2) = true) := by
  induction l with
  | nil => intro b hb; exact ⟨hb, fun _ h => h, fun h => h, fun _ jh h => absurd h (by simp)⟩
  | cons x l ih =>
    intro b hb
    obtain ⟨a1, a2, a3, a4⟩ := h.inner_J L x (hl x (by simp)).1 (hl x (by simp)).2 c.hCols (fun _ h => h) b hb
    obtain ⟨b1, b2, b3, b4⟩ := ih (fun s hs => hl s (by simp [hs])) _ a1
    rw [List.foldl_cons]
    refine ⟨b1, fun t ht => b2 t (a2 t ht), fun hd => b3 (a3 hd), fun hd s hs => ?_⟩
    rcases List.mem_cons.mp hs with rfl | hs
    · intro jh hjh
      apply b2
      refine a4 ?_ jh hjh
      by_contra hc
      have := b3 (by simpa using hc)
      rw [hd] at this
      simp at this
    · exact b4 hd s hs

omit h in
/-- Invariant before a round. -/
structure Inv (c : LinCode k m n) (L : Nat) (syndromes : List Nat) (b : Bfs n) : Prop where
  vis : ∀ s, b.visited s = true ↔ s < 2 ^ m ∧ c.cw s ≤ L
  lead : ∀ s, b.visited s = true → c.syn (b.leaders s) = s ∧ hammingNorm (b.leaders s) = c.cw s
  syn_iff : ∀ s, s ∈ syndromes ↔ s < 2 ^ m ∧ c.cw s = L
  syn_nodup : syndromes.Nodup
  count_eq : b.count = ((Finset.range (2 ^ m)).filter fun s => b.visited s = true).card
  count_lt : b.count < 2 ^ m
  not_done : b.done = false

theorem Lawful.round_spec (L : Nat) (syndromes : List Nat) (b : Bfs n) (hb : Inv c L syndromes b) :
    J c L (c.bfsRound syndromes b) ∧
    ((c.bfsRound syndromes b).done = false → Inv c (L + 1) (c.bfsRound syndromes b).next (c.bfsRound syndromes b)) ∧
    ((c.bfsRound syndromes b).done = true → ∀ s < 2 ^ m, (c.bfsRound syndromes b).visited s = true) := by
  have hJ : J c L { b with next := [] } := by
    refine ⟨fun s hs hc => (hb.vis s).mpr ⟨hs, hc⟩, fun s hs => ?_, hb.lead, fun s => ?_, by simp, hb.count_eq, ?_⟩
    · have := (hb.vis s).mp hs
      exact ⟨this.1, by omega⟩
    · simp only [List.not_mem_nil, false_iff, not_and]
      intro hv
      have := ((hb.vis s).mp hv).2
      omega
    · simp only
      rw [hb.not_done]
      have := hb.count_lt
      simp only [Bool.false_eq_true, false_iff]
      omega
  obtain ⟨a1, a2, a3, a4⟩ := h.round_J L syndromes (fun s hs => (hb.syn_iff s).mp hs) _ hJ
  change J c L (c.bfsRound syndromes b) at a1
  have a4' : (c.bfsRound syndromes b).done = false → ∀ s ∈ syndromes, ∀ jh ∈ c.hCols,
      (c.bfsRound syndromes b).visited (s ^^^ jh.2) = true := a4
  have hcle : (c.bfsRound syndromes b).count ≤ 2 ^ m := by
    rw [a1.count_eq]
    exact le_trans (Finset.card_filter_le _ _) (by simp)
  refine ⟨a1, fun hd => ?_, fun hd s hs => ?_⟩
  · refine ⟨fun s => ⟨a1.high s, fun hs => ?_⟩, a1.lead, fun s => ?_, a1.next_nodup, a1.count_eq, ?_, hd⟩
    · rcases Nat.lt_or_ge (c.cw s) (L + 1) with hlt | hge
      · exact a1.low s hs.1 (by omega)
      · obtain ⟨j, hj1, hj2⟩ := h.cw_step L s hs.1 (by omega)
        have := a4' hd _ ((hb.syn_iff _).mpr ⟨hj1, hj2⟩) _ (h.hCols_all j)
        rwa [Nat.xor_assoc, Nat.xor_self, Nat.xor_zero] at this
    · rw [a1.next_iff]
      constructor
      · rintro ⟨h1, h2⟩; exact ⟨(a1.high s h1).1, h2⟩
      · rintro ⟨h1, h2⟩
        refine ⟨?_, h2⟩
        obtain ⟨j, hj1, hj2⟩ := h.cw_step L s h1 h2
        have := a4' hd _ ((hb.syn_iff _).mpr ⟨hj1, hj2⟩) _ (h.hCols_all j)
        rwa [Nat.xor_assoc, Nat.xor_self, Nat.xor_zero] at this
    · have : (c.bfsRound syndromes b).count ≠ 2 ^ m := fun e => by
        have := a1.done_iff.mpr e
        rw [hd] at this
        simp at this
      omega
  · have hc := a1.done_iff.mp hd
    rw [a1.count_eq] at hc
    have : (Finset.range (2 ^ m)).filter (fun s => (c.bfsRound syndromes b).visited s = true) = Finset.range (2 ^ m) :=
      Finset.eq_of_subset_of_card_le (Finset.filter_subset _ _) (by rw [hc]; simp)
    have hmem : s ∈ (Finset.range (2 ^ m)).filter (fun s => (c.bfsRound syndromes b).visited s = true) := by
      rw [this]; exact Finset.mem_range.mpr hs
    exact (Finset.mem_filter.mp hmem).2

theorem Lawful.inv_lt (L : Nat) (syndromes : List Nat) (b : Bfs n) (hb : Inv c L syndromes b) : L < n := by
  have h1 := hb.count_lt
  rw [hb.count_eq] at h1
  have : ∃ s < 2 ^ m, b.visited s = false := by
    by_contra hc
    push Not at hc
    have : (Finset.range (2 ^ m)).filter (fun s => b.visited s = true) = Finset.range (2 ^ m) :=
      Finset.filter_true_of_mem fun s hs => by
        have := hc s (Finset.mem_range.mp hs)
        simpa using this
    rw [this, Finset.card_range] at h1
    omega
  obtain ⟨s, hs, hv⟩ := this
  have h2 := h.cw_le_n s hs
  have h3 : ¬ (s < 2 ^ m ∧ c.cw s ≤ L) := fun e => by
    have := (hb.vis s).mpr e
    rw [hv] at this
    simp at this
  push Not at h3
  have := h3 hs
  omega

theorem Lawful.init_inv (hm : 1 ≤ m) : Inv c 0 [0] (bfsInit n) := by
  have hp : 1 < 2 ^ m := Nat.one_lt_two_pow (by omega)
  have hz : ∀ s, s < 2 ^ m ∧ c.cw s = 0 ↔ s = 0 := by
    intro s
    constructor
    · rintro ⟨h1, h2⟩; exact h.cw_eq_zero s h1 h2
    · rintro rfl; exact ⟨by omega, h.cw_zero⟩
  refine ⟨fun s => ?_, fun s hs => ?_, fun s => ?_, by simp, ?_, hp, rfl⟩
  · have := hz s
    simp only [bfsInit, beq_iff_eq, Nat.le_zero]
    exact this.symm
  · have : s = 0 := by simpa [bfsInit] using hs
    subst this
    simp [bfsInit, h.syn_zero, h.cw_zero]
  · rw [List.mem_singleton]; exact (hz s).symm
  · simp only [bfsInit, beq_iff_eq]
    rw [Finset.filter_eq' (Finset.range (2 ^ m)) 0]
    simp

theorem Lawful.loop_spec (L fuel : Nat) (syndromes : List Nat) (b : Bfs n) (hb : Inv c L syndromes b)
    (hf : n ≤ L + fuel) : ∃ b', c.bfsLoop fuel syndromes b = some b' ∧
      ∀ s < 2 ^ m, c.syn (b'.leaders s) = s ∧ hammingNorm (b'.leaders s) = c.cw s := by
  induction fuel generalizing L syndromes b with
  | zero => have := h.inv_lt L syndromes b hb; omega
  | succ fuel ih =>
    obtain ⟨a1, a2, a3⟩ := h.round_spec L syndromes b hb
    rw [bfsLoop]
    by_cases hd : (c.bfsRound syndromes b).done
    · simp only [hd, if_true]
      exact ⟨_, rfl, fun s hs => a1.lead s (a3 hd s hs)⟩
    · have hd' : (c.bfsRound syndromes b).done = false := by simpa using hd
      simp only [hd']
      exact ih (L + 1) _ _ (a2 hd') (by omega)

theorem Lawful.cosetLeaders_spec (hm : 1 ≤ m) (fuel : Nat) (hf : n ≤ fuel) :
    ∃ T, c.cosetLeaders fuel = some T ∧ ∀ s < 2 ^ m, c.syn (T s) = s ∧ hammingNorm (T s) = c.cw s := by
  obtain ⟨b, h1, h2⟩ := h.loop_spec 0 fuel [0] (bfsInit n) (h.init_inv hm) (by omega)
  exact ⟨b.leaders, by rw [cosetLeaders, h1]; rfl, h2⟩

/-! ### the weight distribution loop -/

omit h in
/-- forgetting the leaders -/
def forget (b : Bfs n) : WBfs := ⟨b.visited, b.count, b.next, b.done⟩

omit h in
theorem forget_step (s : Nat) (b : Bfs n) (jh : Fin n × Nat) :
    forget (bfsStep m s b jh) = wStep m s (forget b) jh.2 := by
  unfold bfsStep wStep forget
  by_cases hd : b.done
  · simp [hd]
  · by_cases hv : b.visited (s ^^^ jh.2)
    · simp [hd, hv]
    · simp [hd, hv]

omit h in
theorem forget_inner (s : Nat) (l : List (Fin n × Nat)) (b : Bfs n) :
    forget (l.foldl (bfsStep m s) b) = (l.map Prod.snd).foldl (wStep m s) (forget b) := by
  induction l generalizing b with
  | nil => rfl
  | cons x l ih => rw [List.foldl_cons, ih, forget_step]; rfl

omit h in
theorem forget_round (c : LinCode k m n) (l : List Nat) (b : Bfs n) :
    forget (c.bfsRound l b) = c.wRound l (forget b) := by
  unfold bfsRound wRound
  have : ∀ b : Bfs n, forget (l.foldl (fun b s => c.hCols.foldl (bfsStep m s) b) b) =
      l.foldl (fun b s => (c.hCols.map Prod.snd).foldl (wStep m s) b) (forget b) := by
    induction l with
    | nil => intro b; rfl
    | cons x l ih => intro b; rw [List.foldl_cons, ih, forget_inner]; rfl
  rw [this]
  rfl

omit h in
/-- number of cosets of weight `w` -/
noncomputable def cosetsOfWeight (c : LinCode k m n) (w : Nat) : Nat :=
  ((Finset.range (2 ^ m)).filter fun s => c.cw s = w).card

omit h in
theorem syn_length {c : LinCode k m n} {L : Nat} {l : List Nat} (h1 : ∀ s, s ∈ l ↔ s < 2 ^ m ∧ c.cw s = L)
    (h2 : l.Nodup) : l.length = c.cosetsOfWeight L := by
  rw [← List.toFinset_card_of_nodup h2, cosetsOfWeight]
  congr 1
  ext s
  simp [h1]

theorem Lawful.wLoop_spec (L fuel : Nat) (syndromes : List Nat) (b : Bfs n) (hb : Inv c L syndromes b)
    (hf : n ≤ L + fuel) (D : List Nat) (hD : D = (List.range L).map c.cosetsOfWeight) :
    ∃ M, c.wLoop fuel syndromes (forget b) D = some ((List.range (M + 1)).map c.cosetsOfWeight) ∧ M ≤ n ∧
      ∀ s < 2 ^ m, c.cw s ≤ M := by
  induction fuel generalizing L syndromes b D with
  | zero => have := h.inv_lt L syndromes b hb; omega
  | succ fuel ih =>
    obtain ⟨a1, a2, a3⟩ := h.round_spec L syndromes b hb
    have hD' : D ++ [syndromes.length] = (List.range (L + 1)).map c.cosetsOfWeight := by
      rw [List.range_succ, List.map_append, hD, syn_length hb.syn_iff hb.syn_nodup]; rfl
    rw [wLoop, ← forget_round]
    by_cases hd : (c.bfsRound syndromes b).done
    · have hn : (c.bfsRound syndromes b).next.length = c.cosetsOfWeight (L + 1) := by
        apply syn_length _ a1.next_nodup
        intro s
        rw [a1.next_iff]
        constructor
        · rintro ⟨h1, h2⟩; exact ⟨(a1.high s h1).1, h2⟩
        · rintro ⟨h1, h2⟩; exact ⟨a3 hd s h1, h2⟩
      refine ⟨L + 1, ?_, h.inv_lt L syndromes b hb, fun s hs => (a1.high s (a3 hd s hs)).2⟩
      have hd2 : (forget (c.bfsRound syndromes b)).done = true := hd
      simp only [hd2, if_true]
      rw [hD', List.range_succ (n := L + 1), List.map_append, List.map_cons, List.map_nil, ← hn]
      rfl
    · have hd' : (c.bfsRound syndromes b).done = false := by simpa using hd
      have hd2 : (forget (c.bfsRound syndromes b)).done = false := hd'
      simp only [hd2]
      exact ih (L + 1) _ _ (a2 hd') (by omega) _ hD'

theorem Lawful.leaderWeightDistribution_spec (hm : 1 ≤ m) (fuel : Nat) (hf : n ≤ fuel) :
    c.leaderWeightDistribution fuel = some ((List.range (n + 1)).map c.cosetsOfWeight) := by
  obtain ⟨M, h1, h2, h3⟩ := h.wLoop_spec 0 fuel [0] (bfsInit n) (h.init_inv hm) (by omega) [] rfl
  have e : (forget (bfsInit n)) = { visited := fun t => t == 0, count := 1, next := [], done := false } := rfl
  unfold leaderWeightDistribution
  rw [← e, h1]
  simp only [List.length_map, List.length_range]
  rw [if_neg (by omega), Option.some_inj]
  have hn : n + 1 = (M + 1) + (n + 1 - (M + 1)) := by omega
  conv_rhs => rw [hn, List.range_add, List.map_append]
  congr 1
  rw [List.map_map, eq_comm, List.eq_replicate_iff]
  refine ⟨by simp, ?_⟩
  intro x hx
  obtain ⟨i, _, rfl⟩ := List.mem_map.mp hx
  simp only [Function.comp, cosetsOfWeight]
  rw [Finset.card_eq_zero, Finset.filter_eq_empty_iff]
  intro s hs
  have := h3 s (Finset.mem_range.mp hs)
  omega

end LinCode

/-! ### redundancy zero: the loop never returns -/

theorem cosetLeaders_congr {k' : Nat} (c : LinCode k m n) (c' : LinCode k' m n) (hh : c.checkMatrix = c'.checkMatrix)
    (fuel : Nat) : c.cosetLeaders fuel = c'.cosetLeaders fuel := by
  have h1 : c.hCols = c'.hCols := by unfold LinCode.hCols; rw [hh]
  have hr : c.bfsRound = c'.bfsRound := by
    funext l b; unfold LinCode.bfsRound; rw [h1]
  have h2 : ∀ l b, c.bfsLoop fuel l b = c'.bfsLoop fuel l b := by
    induction fuel with
    | zero => intro l b; rfl
    | succ fuel ih =>
      intro l b
      rw [LinCode.bfsLoop, LinCode.bfsLoop]
      simp only [hr, ih]
  unfold LinCode.cosetLeaders
  rw [h2]

theorem cosetLeaders_zero (c : LinCode k 0 n) (fuel : Nat) : c.cosetLeaders fuel = none := by
  have hcol : ∀ jh ∈ c.hCols, jh.2 = 0 := by
    intro jh hjh
    simp only [LinCode.hCols, List.mem_map, List.mem_finRange, true_and] at hjh
    obtain ⟨j, rfl⟩ := hjh
    simp [vecToNat, bitsToInt, packLE]
  have hround : ∀ (l : List Nat) (b : LinCode.Bfs n), (∀ s ∈ l, s = 0) → b.visited 0 = true → b.done = false →
      c.bfsRound l b = { b with next := [] } := by
    intro l b hl hv hd
    unfold LinCode.bfsRound
    have hst : ∀ b : LinCode.Bfs n, b.visited 0 = true → ∀ l : List (Fin n × Nat), (∀ jh ∈ l, jh.2 = 0) →
        l.foldl (LinCode.bfsStep 0 0) b = b := by
      intro b hv l
      induction l with
      | nil => intro _; rfl
      | cons x l ih =>
        intro hx
        rw [List.foldl_cons]
        have : LinCode.bfsStep 0 0 b x = b := by
          unfold LinCode.bfsStep
          simp [hx x (by simp), hv]
        rw [this, ih fun jh h => hx jh (by simp [h])]
    induction l with
    | nil => rfl
    | cons x l ih =>
      rw [List.foldl_cons, hl x (by simp), hst { b with next := [] } hv _ hcol]
      exact ih fun s hs => hl s (by simp [hs])
  have hloop : ∀ fuel (l : List Nat) (b : LinCode.Bfs n), (∀ s ∈ l, s = 0) → b.visited 0 = true →
      b.done = false → c.bfsLoop fuel l b = none := by
    intro fuel
    induction fuel with
    | zero => intros; rfl
    | succ fuel ih =>
      intro l b hl hv hd
      rw [LinCode.bfsLoop, hround l b hl hv hd]
      simp only [hd]
      exact ih [] _ (by simp) hv rfl
  unfold LinCode.cosetLeaders
  rw [hloop fuel [0] _ (by simp) (by simp [LinCode.bfsInit]) (by simp [LinCode.bfsInit])]
  rfl

end Komm
