import Verif.Model.TrellisDecoders
import Verif.Lemmas.Terminated
import Verif.Lemmas.Blockwise
import Verif.Props.C63_Viterbi
import Mathlib.Algebra.BigOperators.Group.List.Basic
namespace Komm
open StateSpace
open scoped BigOperators

theorem symbolBits_vecToNat {m : Nat} (v : BVec m) : symbolBits m ((vecToNat v : Nat) : Int) = List.ofFn v := by
  apply List.ext_getElem
  · simp [symbolBits]
  · intro i h1 h2
    have him : i < m := by simpa using h2
    simp only [symbolBits, List.getElem_map, List.getElem_range, List.getElem_ofFn]
    have e : (((vecToNat v : Nat) : Int) / 2 ^ i) % 2 = (((vecToNat v / 2 ^ i) % 2 : Nat) : Int) := by push_cast; rfl
    rw [e, Int.cast_natCast]
    have ht := vecToNat_testBit v i
    rw [vget, dif_pos him, Nat.testBit_eq_decide_div_mod_eq] at ht
    rcases zmod2_cases (v ⟨i, him⟩) with h | h
    · rw [h] at ht ⊢
      simp only [ne_eq, not_true_eq_false, decide_false, decide_eq_false_iff_not] at ht
      rw [show vecToNat v / 2 ^ i % 2 = 0 by omega]; rfl
    · rw [h] at ht ⊢
      simp only [ne_eq, one_ne_zero, not_false_eq_true, decide_true, decide_eq_true_eq] at ht
      rw [ht]; rfl

theorem zipWith_sum_append {α β K : Type} [AddCommMonoid K] (φ : α → β → K) (a a' : List α) (b b' : List β)
    (h : a.length = b.length) :
    (List.zipWith φ (a ++ a') (b ++ b')).sum = (List.zipWith φ a b).sum + (List.zipWith φ a' b').sum := by
  rw [List.zipWith_append h, List.sum_append]

theorem zipWith_ofFn_sum {α β K : Type} [AddCommMonoid K] {N : Nat} (φ : α → β → K) (v : Fin N → α) (r : Fin N → β) :
    (List.zipWith φ (List.ofFn v) (List.ofFn r)).sum = ∑ i, φ (v i) (r i) := by
  rw [← List.sum_ofFn]
  congr 1
  apply List.ext_getElem
  · simp
  · intro i h1 h2; simp

namespace StateSpace
variable {k n σ : Nat} (c : StateSpace k n σ)

/-- A branch metric that is a sum over the bits of the branch. -/
def Bitwise {K Z : Type} [AddCommMonoid K] (n : Nat) (metric : Nat → List Z → K) (φ : ZMod 2 → Z → K) : Prop :=
  ∀ (v : BVec n) (z : List Z), z.length = n → metric (vecToNat v) z = (List.zipWith φ (List.ofFn v) z).sum

theorem cost_eq {K Z : Type} [AddCommMonoid K] (metric : Nat → List Z → K) (φ : ZMod 2 → Z → K) (hφ : Bitwise n metric φ)
    (us : List (BVec k)) (s : BVec σ) (zs : List (List Z)) (hz : ∀ z ∈ zs, z.length = n) (hl : us.length = zs.length) :
    c.finiteStateMachine.cost metric (code s) (us.map fun u : BVec k => code u) zs =
      (List.zipWith φ (flat (c.outs s us)) zs.flatten).sum := by
  rw [Mealy.cost, fsm_outs]
  induction us generalizing s zs with
  | nil => simp [outs, flat]
  | cons u us ih =>
    cases zs with
    | nil => simp at hl
    | cons z zs =>
      have hzn := hz z (by simp)
      have := ih (c.next s u) zs (fun z' h' => hz z' (by simp [h'])) (by simpa using hl)
      rw [outs, List.map_cons, List.zipWith_cons_cons, List.sum_cons, this, hφ _ _ hzn]
      show _ = (List.zipWith φ (List.ofFn (c.output s u) ++ flat (c.outs (c.next s u) us)) (z ++ zs.flatten)).sum
      rw [zipWith_sum_append _ _ _ _ _ (by simp [hzn])]

theorem exists_code (xs : List (Fin (2 ^ k))) : ∃ us : List (BVec k), xs = us.map fun u : BVec k => code u := by
  refine ⟨xs.map fun x : Fin (2 ^ k) => natToVec k x, ?_⟩
  rw [List.map_map]
  conv_lhs => rw [← List.map_id xs]
  apply List.map_congr_left
  intro x _
  exact (Fin.ext (vecToNat_natToVec (x : Nat) x.is_lt)).symm

theorem symbolBits_flatten (us : List (BVec k)) :
    ((us.map fun u : BVec k => (((code u : Fin (2 ^ k)) : Nat) : Int)).map fun x : Int => symbolBits k x).flatten = flat us := by
  rw [List.map_map, flat]
  congr 1
  apply List.map_congr_left
  intro u _
  exact symbolBits_vecToNat u

theorem noParallel_of (hB : ∀ u : BVec k, vecMat u c.B = 0 → u = 0) : c.finiteStateMachine.NoParallel := by
  intro s x x' h
  obtain ⟨s, rfl⟩ := code_surj s
  obtain ⟨x, rfl⟩ := code_surj x
  obtain ⟨x', rfl⟩ := code_surj x'
  rw [fsm_next, fsm_next] at h
  have h := code_inj h
  rw [next, next, add_left_cancel_iff] at h
  have : vecMat (x + x') c.B = 0 := by rw [vecMat_add, h, bvec_add_self]
  have := hB _ this
  congr 1
  funext i
  have := congrFun this i
  exact (by decide : ∀ a b : ZMod 2, a + b = 0 → a = b) _ _ this

/-- The result of the Viterbi recursion for a terminated code, in terms of input blocks. -/
theorem viterbi_blocks {K Z : Type} [AddCommGroup K] [LinearOrder K] [IsOrderedAddMonoid K]
    (hp : c.finiteStateMachine.NoParallel) (metric : Nat → List Z → K) (φ : ZMod 2 → Z → K) (hφ : Bitwise n metric φ)
    (zs : List (List Z)) (hz : ∀ z ∈ zs, z.length = n) (s : BVec σ)
    (hs : ∃ us : List (BVec k), us.length = zs.length ∧ c.run 0 us = s) :
    haveI : NeZero (2 ^ σ) := ⟨(Nat.two_pow_pos σ).ne'⟩
    (∀ us : List (BVec k), us.length = zs.length → c.run 0 us = s →
      (c.finiteStateMachine.viterbi metric (Terminated.initialMetrics σ) zs).2 (code s) ≤
        (((List.zipWith φ (flat (c.outs 0 us)) zs.flatten).sum : K) : WithTop K)) ∧
    ∃ us : List (BVec k), us.length = zs.length ∧ c.run 0 us = s ∧
      (c.finiteStateMachine.viterbi metric (Terminated.initialMetrics σ) zs).1 (code s) =
        (us.map fun u : BVec k => (((code u : Fin (2 ^ k)) : Nat) : Int)) ∧
      (c.finiteStateMachine.viterbi metric (Terminated.initialMetrics σ) zs).2 (code s) =
        (((List.zipWith φ (flat (c.outs 0 us)) zs.flatten).sum : K) : WithTop K) := by
  haveI : NeZero (2 ^ σ) := ⟨(Nat.two_pow_pos σ).ne'⟩
  obtain ⟨h1, h2⟩ := C63_viterbi c.finiteStateMachine hp metric (Terminated.initialMetrics σ) zs (code s)
  have hle : ∀ us : List (BVec k), us.length = zs.length → c.run 0 us = s →
      (c.finiteStateMachine.viterbi metric (Terminated.initialMetrics σ) zs).2 (code s) ≤
        (((List.zipWith φ (flat (c.outs 0 us)) zs.flatten).sum : K) : WithTop K) := by
    intro us hl hr
    have := h1 (code 0) (us.map fun u : BVec k => code u) (by simpa using hl) (by rw [fsm_run, hr])
    rw [cost_eq c metric φ hφ us 0 zs hz hl] at this
    rw [Terminated.initialMetrics, if_pos (by rw [code_zero])] at this
    rw [show ((0 : K) : WithTop K) = 0 from rfl, zero_add] at this
    exact this
  refine ⟨hle, ?_⟩
  obtain ⟨us₀, hl₀, hr₀⟩ := hs
  have hne : (c.finiteStateMachine.viterbi metric (Terminated.initialMetrics σ) zs).2 (code s) ≠ ⊤ := by
    intro ht
    have := hle us₀ hl₀ hr₀
    rw [ht, top_le_iff] at this
    exact WithTop.coe_ne_top this
  obtain ⟨s0, xs, hl, hr, hx, hm⟩ := h2 hne
  obtain ⟨us, rfl⟩ := exists_code xs
  obtain ⟨s0, rfl⟩ := code_surj s0
  have hl' : us.length = zs.length := by simpa using hl
  have hs0 : s0 = 0 := by
    by_contra hne0
    have : (code s0 : Nat) ≠ 0 := by
      intro h0
      apply hne0
      apply vecToNat_inj
      rw [vecToNat_zero]
      exact h0
    rw [hm, Terminated.initialMetrics, if_neg this, WithTop.top_add] at hne
    exact hne rfl
  subst hs0
  rw [fsm_run] at hr
  refine ⟨us, hl', code_inj hr, by rw [hx, List.map_map]; rfl, ?_⟩
  rw [hm, cost_eq c metric φ hφ us 0 zs hz hl', Terminated.initialMetrics, if_pos (by rw [code_zero])]
  rw [show ((0 : K) : WithTop K) = 0 from rfl, zero_add]

theorem exists_blocks (hk : 0 < k) (h : Nat) (us : List (BVec k)) (hl : us.length = h) :
    ∃ u : BVec (h * k), blocks h u = us ∧ List.ofFn u = flat us := by
  have hlen : (flat us).length = h * k := by rw [flat_length, hl]
  refine ⟨vecOfList (h * k) (flat us), ?_, ofFn_vecOfList _ hlen⟩
  apply flat_injective hk
  rw [flat_blocks, ofFn_vecOfList _ hlen]

theorem run_zero (h : Nat) : c.run 0 (List.replicate h (0 : BVec k)) = 0 := by
  induction h with
  | zero => rfl
  | succ h ih =>
    rw [List.replicate_succ, run]
    have : c.next 0 0 = 0 := by rw [next]; funext s; simp [vecMat]
    rw [this, ih]

theorem chunks_length' {α : Type} (m : Nat) (hm : 0 < m) (T : Nat) (l : List α) (hl : l.length = T * m) :
    (chunks m l).length = T := by
  rw [chunks, List.length_map, List.length_range, hl, Nat.mul_div_cancel _ hm]

theorem blockwise_one {α β : Type} (N : Nat) (hN : 0 < N) (f : List α → Option (List β)) (l : List α) (hl : l.length = N)
    (o : List β) (ho : f l = some o) : blockwise N f l = some o := by
  have := blockwise_flatten N hN f (fun x => (f x).getD []) [l] (by simpa using hl) (by simp [ho])
  simpa [ho] using this

variable {K Z : Type} [AddCommGroup K] [LinearOrder K] [IsOrderedAddMonoid K]

theorem direct_block (hp : c.finiteStateMachine.NoParallel) (metric : Nat → List Z → K) (φ : ZMod 2 → Z → K)
    (hφ : Bitwise n metric φ) (hn : 0 < n) (μ h : Nat) (r : List Z) (hr : r.length = h * n) :
    ∃ us : List (BVec k), us.length = h ∧
      (Terminated.mk c μ h .directTruncation).viterbiBlock metric r = some (flat us) ∧
      ∀ us' : List (BVec k), us'.length = h →
        (List.zipWith φ (flat (c.outs 0 us)) r).sum ≤ (List.zipWith φ (flat (c.outs 0 us')) r).sum := by
  haveI : NeZero (2 ^ σ) := ⟨(Nat.two_pow_pos σ).ne'⟩
  have hm : r.length % n = 0 := by rw [hr]; simp
  have hz := chunks_row_length n hn r hm
  have hl := chunks_length' n hn h r hr
  have hf := flatten_chunks n hn r hm
  set best := Mealy.argminState (c.finiteStateMachine.viterbi metric (Terminated.initialMetrics σ) (chunks n r)).2 with hb
  have hmin := argminState_spec (c.finiteStateMachine.viterbi metric (Terminated.initialMetrics σ) (chunks n r)).2
  rw [← hb] at hmin
  obtain ⟨s, hs⟩ := code_surj best
  have hall : ∀ us' : List (BVec k), us'.length = h →
      (c.finiteStateMachine.viterbi metric (Terminated.initialMetrics σ) (chunks n r)).2 best ≤
        (((List.zipWith φ (flat (c.outs 0 us')) r).sum : K) : WithTop K) := by
    intro us' hu'
    refine le_trans (hmin (code (c.run 0 us'))) ?_
    have := (viterbi_blocks c hp metric φ hφ (chunks n r) hz (c.run 0 us') ⟨us', by rw [hu', hl], rfl⟩).1 us'
      (by rw [hu', hl]) rfl
    rw [hf] at this
    exact this
  have hfin : (c.finiteStateMachine.viterbi metric (Terminated.initialMetrics σ) (chunks n r)).2 best ≠ ⊤ := by
    intro ht
    have := hall (List.replicate h 0) (by simp)
    rw [ht, top_le_iff] at this
    exact WithTop.coe_ne_top this
  have hreach : ∃ us : List (BVec k), us.length = (chunks n r).length ∧ c.run 0 us = s := by
    obtain ⟨s0, xs, h1, h2, h3⟩ := (C63_reachable c.finiteStateMachine metric (Terminated.initialMetrics σ) (chunks n r) best).mp hfin
    obtain ⟨us, rfl⟩ := exists_code xs
    obtain ⟨s0, rfl⟩ := code_surj s0
    have hs0 : s0 = 0 := by
      by_contra hne0
      have : (code s0 : Nat) ≠ 0 := by
        intro h0
        apply hne0
        apply vecToNat_inj
        rw [vecToNat_zero]
        exact h0
      rw [Terminated.initialMetrics, if_neg this] at h3
      exact h3 rfl
    subst hs0
    rw [fsm_run, ← hs] at h2
    exact ⟨us, by simpa using h1, code_inj h2⟩
  obtain ⟨_, us, hu1, hu2, hu3, hu4⟩ := viterbi_blocks c hp metric φ hφ (chunks n r) hz s hreach
  refine ⟨us, by rw [hu1, hl], ?_, ?_⟩
  · rw [Terminated.viterbiBlock, if_neg (by omega)]
    simp only [Terminated.viterbiPostProcess, Option.map_some]
    rw [← hb, ← hs, hu3, symbolBits_flatten]
  · intro us' hu'
    have := hall us' hu'
    rw [← hs, hu4, hf] at this
    exact_mod_cast this

theorem zero_block (hp : c.finiteStateMachine.NoParallel) (metric : Nat → List Z → K) (φ : ZMod 2 → Z → K)
    (hφ : Bitwise n metric φ) (hn : 0 < n) (μ h : Nat) (hμ : 1 ≤ μ) (r : List Z) (hr : r.length = (h + μ) * n) :
    ∃ us tail : List (BVec k), us.length = h ∧ tail.length = μ ∧ c.run 0 (us ++ tail) = 0 ∧
      (Terminated.mk c μ h .zeroTermination).viterbiBlock metric r = some (flat us) ∧
      ∀ ws : List (BVec k), ws.length = h + μ → c.run 0 ws = 0 →
        (List.zipWith φ (flat (c.outs 0 (us ++ tail))) r).sum ≤ (List.zipWith φ (flat (c.outs 0 ws)) r).sum := by
  haveI : NeZero (2 ^ σ) := ⟨(Nat.two_pow_pos σ).ne'⟩
  have hm : r.length % n = 0 := by rw [hr]; simp
  have hz := chunks_row_length n hn r hm
  have hl := chunks_length' n hn (h + μ) r hr
  have hf := flatten_chunks n hn r hm
  obtain ⟨hle, ws, hw1, hw2, hw3, hw4⟩ := viterbi_blocks c hp metric φ hφ (chunks n r) hz 0
    ⟨List.replicate (h + μ) 0, by rw [List.length_replicate, hl], c.run_zero _⟩
  rw [hl] at hw1
  refine ⟨ws.take h, ws.drop h, by simp [hw1], by simp [hw1], by rw [List.take_append_drop]; exact hw2, ?_, ?_⟩
  · rw [Terminated.viterbiBlock, if_neg (by omega)]
    simp only [Terminated.viterbiPostProcess, Option.map_some, Terminated.dropTail]
    rw [if_neg (by omega)]
    rw [show (0 : Fin (2 ^ σ)) = code 0 from (code_zero (m := σ)).symm, hw3]
    rw [List.length_map, hw1, Nat.add_sub_cancel, ← List.map_take, symbolBits_flatten]
  · intro ws' h1 h2
    rw [List.take_append_drop]
    have := hle ws' (by rw [h1, hl]) h2
    rw [hw4, hf] at this
    exact_mod_cast this

end StateSpace
end Komm
