import Verif.Lemmas.TrellisDecoders
import Verif.Props.C62_Terminated
import Verif.Props.C66_FreeDistance
/-! C89: `ViterbiDecoder` for terminated convolutional codes.  `hammingDist` is Mathlib's.  The hypothesis `NoParallel` says that from no
state do two different inputs lead to the same state. -/
namespace Komm
open StateSpace
open scoped BigOperators
variable {k n σ : Nat}

theorem hardMetric_bitwise (n : Nat) : Bitwise n (hardMetric n) (fun (b z : ZMod 2) => if z ≠ b then (1 : Int) else 0) := by
  intro v z hz
  rw [hardMetric, symbolBits_vecToNat]
  clear hz
  generalize List.ofFn v = a
  induction a generalizing z with
  | nil => simp
  | cons x a ih =>
    cases z with
    | nil => simp
    | cons y z =>
      rw [List.zip_cons_cons, List.countP_cons, List.zipWith_cons_cons, List.sum_cons, ← ih z, Nat.cast_add, add_comm]
      congr 1
      by_cases h : x = y
      · subst h; simp
      · simp [h, Ne.symm h]

theorem softMetric_bitwise (n : Nat) : Bitwise n (softMetric n) (fun (b : ZMod 2) (z : ℝ) => ((b.val : Nat) : ℝ) * z) := by
  intro v z _
  rw [softMetric, symbolBits_vecToNat]

theorem hamming_sum {N : Nat} (r v : BVec N) : ∑ i, (if r i ≠ v i then (1 : Int) else 0) = (hammingDist r v : Int) := by
  rw [hammingDist, Finset.card_filter]
  push_cast
  rfl

theorem ofFn_eq_flat_of_encode {c : StateSpace k n σ} {us : List (BVec k)} {s s' : BVec σ} {N : Nat} {v : BVec N} (hk : 0 < k)
    (h : c.encodeWithState (flat us) s = some (List.ofFn v, s')) : flat (c.outs s us) = List.ofFn v ∧ c.run s us = s' := by
  rw [encodeWithState_flat c hk, Option.some.injEq, Prod.mk.injEq] at h
  exact h

section generic
variable {K Z : Type} [AddCommGroup K] [LinearOrder K] [IsOrderedAddMonoid K]

theorem direct_generic (t : Terminated k n σ) (hmode : t.mode = .directTruncation) (hk : 0 < k) (hn : 0 < n)
    (hh : 0 < t.numBlocks) (hp : t.code.finiteStateMachine.NoParallel) (metric : Nat → List Z → K) (φ : ZMod 2 → Z → K)
    (hφ : Bitwise n metric φ) (r : Fin t.length → Z) :
    ∃ (u' : BVec t.dimension) (v' : BVec t.length),
      blockwise t.length (t.viterbiBlock metric) (List.ofFn r) = some (List.ofFn u') ∧ t.encode u' = some (List.ofFn v') ∧
      ∀ (u : BVec t.dimension) (v : BVec t.length), t.encode u = some (List.ofFn v) →
        ∑ i, φ (v' i) (r i) ≤ ∑ i, φ (v i) (r i) := by
  obtain ⟨c, μ, h, mode⟩ := t
  simp only at hmode
  subst hmode
  revert r
  change ∀ r : Fin (h * n) → Z, ∃ (u' : BVec (h * k)) (v' : BVec (h * n)), _
  intro r
  obtain ⟨us, h1, h2, h3⟩ := c.direct_block hp metric φ hφ hn μ h (List.ofFn r) (by simp)
  obtain ⟨u', hu1, hu2⟩ := exists_blocks hk h us h1
  have henc : ∀ u : BVec (h * k), (Terminated.mk c μ h .directTruncation).encode u = some (flat (c.outs 0 (blocks h u))) := by
    intro u
    rw [Terminated.encode]
    simp only [Terminated.preProcessInput, Terminated.initialState, Option.bind_some]
    rw [← flat_blocks h u, encodeWithState_flat c hk, Option.map_some]
  have hlen : ∀ u : BVec (h * k), (flat (c.outs 0 (blocks h u))).length = h * n := by
    intro u; rw [flat_length, outs_length, blocks_length]
  refine ⟨u', vecOfList (h * n) (flat (c.outs 0 us)), ?_, ?_, ?_⟩
  · rw [hu2]
    exact blockwise_one _ (Nat.mul_pos hh hn) _ _ (by simp) _ h2
  · rw [henc u', hu1, ofFn_vecOfList]
    rw [← hu1]; exact hlen u'
  · intro u v hv
    rw [henc u, Option.some.injEq] at hv
    have := h3 (blocks h u) (blocks_length h u)
    rw [hv, zipWith_ofFn_sum] at this
    rw [← zipWith_ofFn_sum, ofFn_vecOfList]
    · exact this
    · rw [← hu1]; exact hlen u'

theorem zero_generic (t : Terminated k n σ) (hmode : t.mode = .zeroTermination) (hk : 0 < k) (hn : 0 < n)
    (hμ : 1 ≤ t.memoryOrder) (hp : t.code.finiteStateMachine.NoParallel) (metric : Nat → List Z → K) (φ : ZMod 2 → Z → K)
    (hφ : Bitwise n metric φ) (r : Fin t.length → Z) :
    ∃ (u' : BVec t.dimension) (tail : List (ZMod 2)) (v' : BVec t.length),
      blockwise t.length (t.viterbiBlock metric) (List.ofFn r) = some (List.ofFn u') ∧ tail.length = t.memoryOrder * k ∧
      t.code.encodeWithState (List.ofFn u' ++ tail) 0 = some (List.ofFn v', 0) ∧
      ∀ (input : List (ZMod 2)) (v : BVec t.length), t.code.encodeWithState input 0 = some (List.ofFn v, 0) →
        ∑ i, φ (v' i) (r i) ≤ ∑ i, φ (v i) (r i) := by
  obtain ⟨c, μ, h, mode⟩ := t
  simp only at hmode hμ
  subst hmode
  revert r
  change ∀ r : Fin ((h + μ) * n) → Z, ∃ (u' : BVec (h * k)) (tail : List (ZMod 2)) (v' : BVec ((h + μ) * n)), _
  intro r
  obtain ⟨us, tl, h1, h1', hz, h2, h3⟩ := c.zero_block hp metric φ hφ hn μ h hμ (List.ofFn r) (by simp)
  obtain ⟨u', hu1, hu2⟩ := exists_blocks hk h us h1
  have hlen : (flat (c.outs 0 (us ++ tl))).length = (h + μ) * n := by
    rw [flat_length, outs_length, List.length_append, h1, h1']
  refine ⟨u', flat tl, vecOfList ((h + μ) * n) (flat (c.outs 0 (us ++ tl))), ?_, ?_, ?_, ?_⟩
  · rw [hu2]
    exact blockwise_one _ (Nat.mul_pos (show 0 < h + μ by omega) hn) _ _ (by simp) _ h2
  · rw [flat_length, h1']
  · rw [hu2, ← flat_append]
    show c.encodeWithState (flat (us ++ tl)) 0 = _
    rw [encodeWithState_flat c hk, hz, ofFn_vecOfList _ hlen]
  · intro input v hv
    change c.encodeWithState input 0 = some (List.ofFn v, 0) at hv
    have hm : input.length % k = 0 := by
      by_contra hc
      rw [(C60_accepts c hk input 0).1 hc] at hv
      exact absurd hv (by simp)
    obtain ⟨ws, rfl⟩ := exists_flat hk input hm
    obtain ⟨g1, g2⟩ := ofFn_eq_flat_of_encode hk hv
    have hwl : ws.length = h + μ := by
      have := congrArg List.length g1
      rw [flat_length, outs_length, List.length_ofFn] at this
      exact Nat.eq_of_mul_eq_mul_right hn this
    have := h3 ws hwl g2
    rw [g1, zipWith_ofFn_sum] at this
    rw [← zipWith_ofFn_sum, ofFn_vecOfList _ hlen]
    exact this

end generic

/-! ### hard input -/

/-- Direct truncation, hard input: for every received word the decoder returns a message whose codeword is at least Hamming distance
from it among the codewords of all messages. -/
theorem C89_direct_hard (t : Terminated k n σ) (hmode : t.mode = .directTruncation) (hk : 0 < k) (hn : 0 < n)
    (hh : 0 < t.numBlocks) (hp : t.code.finiteStateMachine.NoParallel) (r : BVec t.length) :
    ∃ (u' : BVec t.dimension) (v' : BVec t.length),
      t.viterbiHard (List.ofFn r) = some (List.ofFn u') ∧ t.encode u' = some (List.ofFn v') ∧
      ∀ (u : BVec t.dimension) (v : BVec t.length), t.encode u = some (List.ofFn v) → hammingDist r v' ≤ hammingDist r v := by
  obtain ⟨u', v', h1, h2, h3⟩ := direct_generic t hmode hk hn hh hp _ _ (hardMetric_bitwise n) r
  refine ⟨u', v', h1, h2, fun u v hv => ?_⟩
  have := h3 u v hv
  rw [hamming_sum, hamming_sum] at this
  exact_mod_cast this

/-- Zero-termination, hard input: the decoder returns the message part of an input stream that brings the encoder from the zero state
back to the zero state, and whose output is at least Hamming distance from the received word among all such streams. -/
theorem C89_zero_hard (t : Terminated k n σ) (hmode : t.mode = .zeroTermination) (hk : 0 < k) (hn : 0 < n)
    (hμ : 1 ≤ t.memoryOrder) (hp : t.code.finiteStateMachine.NoParallel) (r : BVec t.length) :
    ∃ (u' : BVec t.dimension) (tail : List (ZMod 2)) (v' : BVec t.length),
      t.viterbiHard (List.ofFn r) = some (List.ofFn u') ∧ tail.length = t.memoryOrder * k ∧
      t.code.encodeWithState (List.ofFn u' ++ tail) 0 = some (List.ofFn v', 0) ∧
      ∀ (input : List (ZMod 2)) (v : BVec t.length), t.code.encodeWithState input 0 = some (List.ofFn v, 0) →
        hammingDist r v' ≤ hammingDist r v := by
  obtain ⟨u', tl, v', h1, h2, h3, h4⟩ := zero_generic t hmode hk hn hμ hp _ _ (hardMetric_bitwise n) r
  refine ⟨u', tl, v', h1, h2, h3, fun i v hv => ?_⟩
  have := h4 i v hv
  rw [hamming_sum, hamming_sum] at this
  exact_mod_cast this

/-! ### soft input -/

/-- Direct truncation, soft input: the returned message minimises `Σ vᵢ rᵢ` over the codewords of all messages. -/
theorem C89_direct_soft (t : Terminated k n σ) (hmode : t.mode = .directTruncation) (hk : 0 < k) (hn : 0 < n)
    (hh : 0 < t.numBlocks) (hp : t.code.finiteStateMachine.NoParallel) (r : Fin t.length → ℝ) :
    ∃ (u' : BVec t.dimension) (v' : BVec t.length),
      t.viterbiSoft (List.ofFn r) = some (List.ofFn u') ∧ t.encode u' = some (List.ofFn v') ∧
      ∀ (u : BVec t.dimension) (v : BVec t.length), t.encode u = some (List.ofFn v) →
        ∑ i, ((v' i).val : ℝ) * r i ≤ ∑ i, ((v i).val : ℝ) * r i :=
  direct_generic t hmode hk hn hh hp _ _ (softMetric_bitwise n) r

/-- Zero-termination, soft input. -/
theorem C89_zero_soft (t : Terminated k n σ) (hmode : t.mode = .zeroTermination) (hk : 0 < k) (hn : 0 < n)
    (hμ : 1 ≤ t.memoryOrder) (hp : t.code.finiteStateMachine.NoParallel) (r : Fin t.length → ℝ) :
    ∃ (u' : BVec t.dimension) (tail : List (ZMod 2)) (v' : BVec t.length),
      t.viterbiSoft (List.ofFn r) = some (List.ofFn u') ∧ tail.length = t.memoryOrder * k ∧
      t.code.encodeWithState (List.ofFn u' ++ tail) 0 = some (List.ofFn v', 0) ∧
      ∀ (input : List (ZMod 2)) (v : BVec t.length), t.code.encodeWithState input 0 = some (List.ofFn v, 0) →
        ∑ i, ((v' i).val : ℝ) * r i ≤ ∑ i, ((v i).val : ℝ) * r i :=
  zero_generic t hmode hk hn hμ hp _ _ (softMetric_bitwise n) r

/-- With log-likelihood ratios `rᵢ = log (pᵢ(0) / pᵢ(1))` as input, minimising `Σ vᵢ rᵢ` is maximising the likelihood `∏ pᵢ(vᵢ)`. -/
theorem soft_likelihood {N : Nat} (p : Fin N → ZMod 2 → ℝ) (hpos : ∀ i b, 0 < p i b) (v v' : BVec N)
    (h : ∑ i, ((v' i).val : ℝ) * Real.log (p i 0 / p i 1) ≤ ∑ i, ((v i).val : ℝ) * Real.log (p i 0 / p i 1)) :
    ∏ i, p i (v i) ≤ ∏ i, p i (v' i) := by
  have key : ∀ w : BVec N, ∑ i, Real.log (p i (w i)) = ∑ i, Real.log (p i 0) - ∑ i, ((w i).val : ℝ) * Real.log (p i 0 / p i 1) := by
    intro w
    rw [← Finset.sum_sub_distrib]
    apply Finset.sum_congr rfl
    intro i _
    rw [Real.log_div (hpos i 0).ne' (hpos i 1).ne']
    rcases zmod2_cases (w i) with e | e
    · rw [e]; simp
    · rw [e, show (1 : ZMod 2).val = 1 from rfl]; simp
  have hlog : ∀ w : BVec N, Real.log (∏ i, p i (w i)) = ∑ i, Real.log (p i (w i)) := fun w =>
    Real.log_prod fun i _ => (hpos i _).ne'
  have : Real.log (∏ i, p i (v i)) ≤ Real.log (∏ i, p i (v' i)) := by
    rw [hlog, hlog, key v, key v']; linarith
  exact (Real.log_le_log_iff (Finset.prod_pos fun i _ => hpos i _) (Finset.prod_pos fun i _ => hpos i _)).mp this

/-- Direct truncation, soft input, for a memoryless channel with positive transition probabilities (`p i b`: the likelihood of what was
received at time `i` given that the bit sent was `b`): the decoder is a maximum-likelihood decoder. -/
theorem C89_direct_ml (t : Terminated k n σ) (hmode : t.mode = .directTruncation) (hk : 0 < k) (hn : 0 < n)
    (hh : 0 < t.numBlocks) (hp : t.code.finiteStateMachine.NoParallel) (p : Fin t.length → ZMod 2 → ℝ)
    (hpos : ∀ i b, 0 < p i b) :
    ∃ (u' : BVec t.dimension) (v' : BVec t.length),
      t.viterbiSoft (List.ofFn fun i => Real.log (p i 0 / p i 1)) = some (List.ofFn u') ∧ t.encode u' = some (List.ofFn v') ∧
      ∀ (u : BVec t.dimension) (v : BVec t.length), t.encode u = some (List.ofFn v) → ∏ i, p i (v i) ≤ ∏ i, p i (v' i) := by
  obtain ⟨u', v', h1, h2, h3⟩ := C89_direct_soft t hmode hk hn hh hp fun i => Real.log (p i 0 / p i 1)
  exact ⟨u', v', h1, h2, fun u v hv => soft_likelihood p hpos v v' (h3 u v hv)⟩

end Komm
