import Verif.Lemmas.StreamDecoder
import Verif.Lemmas.NDArray
import Verif.Props.C89_Corrects
import Verif.Props.C99_Catastrophic
/-! C115: `ViterbiStreamDecoder`. -/
namespace Komm
open StateSpace
variable {k n σ : Nat}

section
variable {K Z : Type} [AddCommGroup K] [LinearOrder K] [IsOrderedAddMonoid K]

/-- Which inputs are accepted, and how many bits come out. -/
theorem C115_length (c : StateSpace k n σ) (hn : 0 < n) (metric : Nat → List Z → K) (memory : Mealy.Memory (2 ^ σ) K) (input : List Z) :
    (input.length % n ≠ 0 → c.streamDecode metric memory input = none) ∧
    (input.length % n = 0 → ∃ out memory', c.streamDecode metric memory input = some (out, memory') ∧ out.length = input.length / n * k) := by
  haveI : NeZero (2 ^ σ) := ⟨(Nat.two_pow_pos σ).ne'⟩
  constructor
  · intro h
    rw [streamDecode, if_pos (Or.inr h)]
  · intro h
    refine ⟨_, _, by rw [streamDecode, if_neg (by omega)], ?_⟩
    have key : ∀ l : List Int, ((l.map fun x : Int => symbolBits k x).flatten).length = l.length * k := by
      intro l
      induction l with
      | nil => simp
      | cons x l ih =>
        rw [List.map_cons, List.flatten_cons, List.length_append, ih, List.length_cons]
        simp [symbolBits]
        ring
    rw [key, Mealy.viterbiStreaming_length, chunks, List.length_map, List.length_range]

/-- Decoding a stream piece by piece (cut at block boundaries) with one decoder gives the same bits, and leaves the decoder in the same
state, as decoding it in one call. -/
theorem C115_chunks (c : StateSpace k n σ) (metric : Nat → List Z → K) (memory : Mealy.Memory (2 ^ σ) K) (a b : List Z)
    (ha : a.length % n = 0) (out₁ out₂ : List (ZMod 2)) (memory₁ memory₂ : Mealy.Memory (2 ^ σ) K)
    (h₁ : c.streamDecode metric memory a = some (out₁, memory₁)) (h₂ : c.streamDecode metric memory₁ b = some (out₂, memory₂)) :
    c.streamDecode metric memory (a ++ b) = some (out₁ ++ out₂, memory₂) := by
  haveI : NeZero (2 ^ σ) := ⟨(Nat.two_pow_pos σ).ne'⟩
  have hn : 0 < n := by
    rcases Nat.eq_zero_or_pos n with h | h
    · rw [streamDecode, if_pos (Or.inl h)] at h₁; exact absurd h₁ (by simp)
    · exact h
  have hb : b.length % n = 0 := by
    by_contra hc
    rw [streamDecode, if_pos (Or.inr hc)] at h₂; exact absurd h₂ (by simp)
  rw [streamDecode, if_neg (by omega)] at h₁ h₂
  rw [streamDecode, if_neg (by rw [List.length_append, Nat.add_mod, ha, hb]; simp; omega)]
  simp only [Option.some.injEq, Prod.mk.injEq] at h₁ h₂ ⊢
  rw [chunks_append_gen n hn a b ha, Mealy.viterbiStreaming_append, h₁.2]
  refine ⟨?_, h₂.2⟩
  rw [List.map_append, List.flatten_append, h₁.1, h₂.1]

theorem stream_early (M : Mealy (2 ^ σ) (2 ^ k)) [NeZero (2 ^ σ)] (metric : Nat → Z → K) (zs : List Z) (tau : Nat) (s : Fin (2 ^ σ)) :
    ∀ state : Fin (2 ^ σ), ((M.viterbiStreaming metric zs (Mealy.Memory.fresh tau state)).2.paths s).length = tau + 1 ∧
      ∀ i, i + zs.length ≤ tau → ((M.viterbiStreaming metric zs (Mealy.Memory.fresh tau state)).2.paths s).getD i 0 = 0 := by
  intro state
  induction zs using List.reverseRecOn generalizing s with
  | nil =>
    have e : (M.viterbiStreaming metric ([] : List Z) (Mealy.Memory.fresh tau state)).2.paths s = List.replicate (tau + 1) 0 := rfl
    rw [e]
    refine ⟨by simp, fun i hi => ?_⟩
    rw [List.getD_eq_getElem?_getD, List.getElem?_replicate]
    split <;> rfl
  | append_singleton zs z ih =>
    rw [Mealy.viterbiStreaming_snoc, Mealy.streamStep]
    simp only
    obtain ⟨h1, h2⟩ := ih ((M.trellisStep metric (M.viterbiStreaming metric zs (Mealy.Memory.fresh tau state)).2.metrics z).2 s)
    refine ⟨by simp [h1], fun i hi => ?_⟩
    rw [List.length_append, List.length_singleton] at hi
    rw [List.getD_eq_getElem?_getD, List.getElem?_append_left (by rw [List.length_drop, h1]; omega), List.getElem?_drop,
      ← List.getD_eq_getElem?_getD]
    exact h2 _ (by omega)

theorem stream_prefix (M : Mealy (2 ^ σ) (2 ^ k)) [NeZero (2 ^ σ)] (metric : Nat → Z → K) (zs : List Z) (m : Mealy.Memory (2 ^ σ) K)
    (t : Nat) (ht : t < zs.length) :
    (M.viterbiStreaming metric zs m).1[t]? = (M.viterbiStreaming metric (zs.take t ++ [zs[t]]) m).1[t]? := by
  have e : zs = (zs.take t ++ [zs[t]]) ++ zs.drop (t + 1) := by
    rw [List.take_concat_get', List.take_append_drop]
  conv_lhs => rw [e]
  rw [Mealy.viterbiStreaming_append]
  simp only
  rw [List.getElem?_append_left]
  rw [Mealy.viterbiStreaming_length]
  simp; omega

/-- The first `tau` symbols that come out (whatever goes in, whatever the initial state) are the input symbol of the transition from
the zero state to itself. -/
theorem stream_early_symbol (c : StateSpace k n σ) (hp : c.finiteStateMachine.NoParallel) [NeZero (2 ^ σ)] (metric : Nat → Z → K) (zs : List Z)
    (tau : Nat) (state : Fin (2 ^ σ)) (t : Nat) (ht : t < zs.length) (hlt : t < tau) :
    (c.finiteStateMachine.viterbiStreaming metric zs (Mealy.Memory.fresh tau state)).1[t]? = some 0 := by
  rw [stream_prefix _ _ _ _ t ht, Mealy.viterbiStreaming_snoc]
  have hl : (zs.take t).length = t := by simp; omega
  rw [List.getElem?_append_right (by rw [Mealy.viterbiStreaming_length, hl]), Mealy.viterbiStreaming_length, hl, Nat.sub_self]
  simp only [List.getElem?_cons_zero, Mealy.streamStep, Option.some.injEq]
  have h := fun s => (stream_early c.finiteStateMachine metric (zs.take t) tau s state).2
  rw [h _ 0 (by rw [hl]; omega), h _ 1 (by rw [hl]; omega)]
  have hz : (0 : Fin (2 ^ σ)) = code (0 : BVec σ) := by rw [code_zero]; rfl
  have h0 : c.finiteStateMachine.next (0 : Fin (2 ^ σ)) (code (0 : BVec k)) = 0 := by
    rw [hz, fsm_next, next_zero]
  have := Mealy.inputEdges_eq c.finiteStateMachine hp 0 (code (0 : BVec k))
  rw [h0] at this
  rw [this, code_zero]
  rfl

/-- The delay: the first `tau k` bits that come out are zero, whatever goes in and whatever the initial state. -/
theorem C115_delay (c : StateSpace k n σ) (hp : c.finiteStateMachine.NoParallel) (metric : Nat → List Z → K) (tau : Nat) (state : Fin (2 ^ σ))
    (input : List Z) (out : List (ZMod 2)) (memory : Mealy.Memory (2 ^ σ) K)
    (h : c.streamDecode metric (c.streamMemory tau state) input = some (out, memory)) : ∀ b ∈ out.take (tau * k), b = 0 := by
  haveI : NeZero (2 ^ σ) := ⟨(Nat.two_pow_pos σ).ne'⟩
  have e0 : (c.streamMemory tau state : Mealy.Memory (2 ^ σ) K) = Mealy.Memory.fresh tau state := rfl
  rw [streamDecode, e0] at h
  split at h
  · exact absurd h (by simp)
  rw [Option.some.injEq, Prod.mk.injEq] at h
  rw [← h.1]
  have key : ∀ (i : Nat) (l : List Int), ((l.map fun x : Int => symbolBits k x).flatten).take (i * k) =
      ((l.take i).map fun x : Int => symbolBits k x).flatten := by
    intro i
    induction i with
    | zero => simp
    | succ i ih =>
      intro l
      cases l with
      | nil => simp
      | cons x l =>
        have hl : (symbolBits k x).length = k := by simp [symbolBits]
        rw [List.take_succ_cons, List.map_cons, List.flatten_cons, List.map_cons, List.flatten_cons, List.take_append,
          List.take_of_length_le (l := symbolBits k x) (by rw [hl, Nat.succ_mul]; omega), hl,
          show (i + 1) * k - k = i * k by rw [Nat.succ_mul]; omega, ih]
  rw [key]
  intro b hb
  obtain ⟨row, hrow, hb⟩ := List.mem_flatten.mp hb
  obtain ⟨x, hx, rfl⟩ := List.mem_map.mp hrow
  obtain ⟨t, ht, rfl⟩ := List.mem_iff_getElem.mp hx
  rw [List.length_take, Mealy.viterbiStreaming_length] at ht
  have hs := stream_early_symbol c hp metric (chunks n input) tau state t (by omega) (by omega)
  rw [List.getElem?_eq_getElem (by rw [Mealy.viterbiStreaming_length]; omega), Option.some.injEq] at hs
  rw [List.getElem_take, hs] at hb
  simp [symbolBits] at hb
  exact hb.2

end

/-! ### error correction -/

theorem diff_count (a b : List (ZMod 2)) : diff a b = ((List.zipWith (· + ·) a b).count 1 : Nat) := by
  induction a generalizing b with
  | nil => simp [diff]
  | cons x a ih =>
    cases b with
    | nil => simp [diff]
    | cons y b =>
      rw [diff_cons, ih, List.zipWith_cons_cons, List.count_cons]
      have key : ∀ x y : ZMod 2, (if y ≠ x then (1 : Int) else 0) = if (x + y == 1) = true then 1 else 0 := by decide
      rw [key]
      push_cast
      ring

theorem flat_seg {m : Nat} (V : List (BVec m)) (i W : Nat) : flat (seg V i W) = ((flat V).drop (i * m)).take (W * m) := by
  have hd : ∀ (i : Nat) (V : List (BVec m)), flat (V.drop i) = (flat V).drop (i * m) := by
    intro i
    induction i with
    | zero => simp
    | succ i ih =>
      intro V
      cases V with
      | nil => simp [flat]
      | cons v V =>
        have : flat (v :: V) = List.ofFn v ++ flat V := rfl
        rw [List.drop_succ_cons, ih, this, List.drop_append, List.drop_eq_nil_of_le (as := List.ofFn v) (by rw [List.length_ofFn, Nat.succ_mul]; omega), List.nil_append,
          List.length_ofFn, show (i + 1) * m - m = i * m by rw [Nat.succ_mul]; omega]
  have ht : ∀ (i : Nat) (V : List (BVec m)), flat (V.take i) = (flat V).take (i * m) := by
    intro i
    induction i with
    | zero => simp [flat]
    | succ i ih =>
      intro V
      cases V with
      | nil => simp [flat]
      | cons v V =>
        have : flat (v :: V) = List.ofFn v ++ flat V := rfl
        have e2 : flat (v :: V.take i) = List.ofFn v ++ flat (V.take i) := rfl
        rw [List.take_succ_cons, e2, ih, this, List.take_append, List.take_of_length_le (l := List.ofFn v) (by rw [List.length_ofFn, Nat.succ_mul]; omega),
          List.length_ofFn, show (i + 1) * m - m = i * m by rw [Nat.succ_mul]; omega]
  rw [seg, ht, hd]

theorem chunks_eq_map {m : Nat} (hm : 0 < m) (vs : List (BVec m)) : chunks m (flat vs) = vs.map fun v : BVec m => List.ofFn v := by
  rw [flat, chunks_flatten m hm]
  intro r hr
  obtain ⟨v, _, rfl⟩ := List.mem_map.mp hr
  simp

/-- The symbols that come out for a received sequence with few errors in every window. -/
theorem stream_symbols (c : StateSpace k n σ) (hn : 0 < n) (hp : c.finiteStateMachine.NoParallel) (hz : c.NoZeroCycle)
    (ν : Nat) (hr : c.ReachableIn ν) (d e : Nat)
    (hd : ∀ us, c.run 0 us = 0 → 0 < wt (c.outs 0 us) → d ≤ wt (c.outs 0 us)) (hde : 2 * e < d) (W : Nat)
    (hW : W = 2 ^ σ * (4 * e + 1) + 2) (tau : Nat) (htau : (ν * n + 1) * W + ν ≤ tau) [NeZero (2 ^ σ)]
    (us : List (BVec k)) (rs : List (BVec n)) (hl : us.length = rs.length)
    (he : ∀ i, diff (flat (seg (c.outs 0 us) i W)) (flat (seg rs i W)) ≤ e) :
    (c.finiteStateMachine.viterbiStreaming (hardMetric n) (chunks n (flat rs)) (Mealy.Memory.fresh tau 0)).1 =
      (List.replicate tau (0 : Int) ++ us.map fun u : BVec k => (((code u : Fin (2 ^ k)) : Nat) : Int)).take us.length := by
  have hz0 : (0 : Fin (2 ^ σ)) = code (0 : BVec σ) := by rw [code_zero]; rfl
  have hcl : (chunks n (flat rs)).length = rs.length := by rw [chunks_eq_map hn]; simp
  apply List.ext_getElem?
  intro t
  rcases Nat.lt_or_ge t us.length with htl | htl
  · rw [List.getElem?_take_of_lt htl]
    rcases Nat.lt_or_ge t tau with hlt | hge
    · rw [stream_early_symbol c hp _ _ tau 0 t (by omega) hlt, List.getElem?_append_left (by simpa using hlt)]
      simp [hlt]
    · rw [List.getElem?_append_right (by simpa using hge), List.length_replicate, stream_prefix _ _ _ _ t (by omega)]
      have hzl : ((chunks n (flat rs)).take t).length = t := by simp; omega
      have hWpos : 0 < (ν * n + 1) * W := Nat.mul_pos (by omega) (by omega)
      obtain ⟨sStar, _, h2⟩ := C80_output_partial c.finiteStateMachine hp (hardMetric n) tau (by omega)
        ((chunks n (flat rs)).take t) (by omega) ((chunks n (flat rs))[t]'(by omega))
      obtain ⟨s, rfl⟩ := code_surj sStar
      obtain ⟨xs, hxl, hxr, hxb, hxo⟩ := h2 (by
        obtain ⟨tl, htl1, htl2⟩ := hr (c.run 0 (List.replicate (t - ν) 0)) s
        refine ⟨(List.replicate (t - ν) 0 ++ tl).map fun u : BVec k => code u, by simp [hzl, htl1]; omega, ?_⟩
        rw [hz0, fsm_run, run_append, htl2])
      obtain ⟨xs, rfl⟩ := exists_code xs
      rw [List.getD_eq_getElem?_getD] at hxo
      simp only [hzl] at hxo
      have hlen : (c.finiteStateMachine.viterbiStreaming (hardMetric n) ((chunks n (flat rs)).take t ++ [(chunks n (flat rs))[t]'(by omega)])
          (Mealy.Memory.fresh tau 0)).1.length = t + 1 := by
        rw [Mealy.viterbiStreaming_length]; simp; omega
      rw [List.getElem?_eq_getElem (by rw [hlen]; omega), Option.getD_some] at hxo
      rw [List.getElem?_eq_getElem (by rw [hlen]; omega), hxo]
      have hxl' : xs.length = t := by simpa [hzl] using hxl
      have hrt : chunks n (flat (rs.take t)) = (chunks n (flat rs)).take t := by
        rw [chunks_eq_map hn, chunks_eq_map hn, List.map_take]
      have hrow : ∀ z ∈ chunks n (flat (rs.take t)), z.length = n := by
        rw [chunks_eq_map hn]
        intro z hz
        obtain ⟨v, _, rfl⟩ := List.mem_map.mp hz
        simp
      have hfl : (chunks n (flat (rs.take t))).flatten = flat (rs.take t) := by rw [chunks_eq_map hn]; rfl
      have hcost : ∀ ys : List (BVec k), ys.length = t →
          c.finiteStateMachine.cost (hardMetric n) 0 (ys.map fun u : BVec k => code u) ((chunks n (flat rs)).take t) =
            diff (flat (c.outs 0 ys)) (flat (rs.take t)) := by
        intro ys hy
        rw [hz0, ← hrt, cost_eq c _ _ (hardMetric_bitwise n) ys 0 _ hrow (by rw [hrt, hzl, hy]), hfl]
        rfl
      have hbest : ∀ ys, ys.length = xs.length → c.run 0 ys = c.run 0 xs →
          diff (flat (c.outs 0 xs)) (flat (rs.take t)) ≤ diff (flat (c.outs 0 ys)) (flat (rs.take t)) := by
        intro ys hy hyr
        have := hxb (ys.map fun u : BVec k => code u) (by simp [hy, hxl', hzl]) (by
          rw [← hxr, hz0, fsm_run, fsm_run, hyr])
        rwa [hcost xs hxl', hcost ys (by omega)] at this
      have hag := c.survivor_agrees (c.noParallel_iff.mp hp) hz ν hr d e hd hde (us.take t) xs (rs.take t)
        (by simp; omega) (by simp; omega) hbest W hW (by
          intro i
          have hV : c.outs 0 (us.take t) = (c.outs 0 us).take t := by
            conv_rhs => rw [← List.take_append_drop t us]
            rw [outs_append, List.take_append_of_le_length (by rw [outs_length]; simp; omega)]
            exact (List.take_of_length_le (by rw [outs_length]; simp)).symm
          have hseg : ∀ {α : Type} (l : List α), seg (l.take t) i W = seg l i (min W (t - i)) := by
            intro α l
            rw [seg, seg, List.drop_take, List.take_take]
          rw [hV, hseg, hseg]
          exact (seg_errors (c.outs 0 us) rs (by rw [outs_length, hl]) W e (by omega) he i _).2 (min_le_left _ _)) (t - tau)
        (by simp; omega)
      rw [List.getElem?_take_of_lt (by omega)] at hag
      have h1 : t - tau < us.length := by omega
      rw [List.getElem?_eq_getElem h1, List.getElem?_eq_getElem (by omega)] at hag
      have hag := Option.some.inj hag
      rw [List.getElem?_map, List.getElem?_eq_getElem h1, Option.map_some, hag]
      simp [hzl]
  · rw [List.getElem?_eq_none (by rw [Mealy.viterbiStreaming_length]; omega), List.getElem?_eq_none (by simp; omega)]

/-- Every closed walk of the encoder through a non-zero state emits a one. -/
def NoWeightlessCycle (c : StateSpace k n σ) : Prop :=
  ∀ (s : BVec σ) (input out : List (ZMod 2)), s ≠ 0 → input ≠ [] → c.encodeWithState input s = some (out, s) → 1 ∈ out

/-- Every state can be left for every other state within `ν` blocks. -/
def ControllableWithin (c : StateSpace k n σ) (ν : Nat) : Prop :=
  ∀ s s' : BVec σ, ∃ input out, input.length = ν * k ∧ c.encodeWithState input s = some (out, s')

/-- The received stream `r` has, in every `W` consecutive blocks, at most `e` bits different from the transmitted stream `v`. -/
def FewErrors (n W e : Nat) (v r : List (ZMod 2)) : Prop :=
  ∀ i, (List.zipWith (· + ·) ((v.drop (i * n)).take (W * n)) ((r.drop (i * n)).take (W * n))).count 1 ≤ e

theorem noZeroCycle_of (c : StateSpace k n σ) (hk : 0 < k) (h : NoWeightlessCycle c) : c.NoZeroCycle := by
  intro s us hs hu hr
  have hne : flat us ≠ [] := by
    intro h0
    have := congrArg List.length h0
    rw [flat_length, List.length_nil] at this
    rcases Nat.mul_eq_zero.mp this with h1 | h1
    · exact hu (List.length_eq_zero_iff.mp h1)
    · omega
  have := h s (flat us) (flat (c.outs s us)) hs hne (by rw [encodeWithState_flat c hk, hr])
  rw [wt]
  exact List.count_pos_iff.mpr this

theorem reachableIn_of (c : StateSpace k n σ) (hk : 0 < k) (ν : Nat) (h : ControllableWithin c ν) : c.ReachableIn ν := by
  intro s s'
  obtain ⟨input, out, hl, he⟩ := h s s'
  obtain ⟨us, rfl⟩ := exists_flat hk input (by rw [hl]; simp)
  rw [flat_length] at hl
  rw [encodeWithState_flat c hk, Option.some.injEq, Prod.mk.injEq] at he
  exact ⟨us, Nat.eq_of_mul_eq_mul_right hk hl, he.2⟩

/-- A hard-decision `ViterbiStreamDecoder` (initial state 0) of sufficient traceback length delivers the message, delayed by the
traceback length, without error, for streams of every length, if each `W` consecutive blocks contain at most `e` channel errors and
`2 e` is less than the free distance. -/
theorem C115_corrects (c : StateSpace k n σ) (hk : 0 < k) (hn : 0 < n) (hp : c.finiteStateMachine.NoParallel) (hz : NoWeightlessCycle c)
    (ν : Nat) (hr : ControllableWithin c ν) (fuel d e : Nat) (hd : c.freeDistance fuel = some (some d)) (hde : 2 * e < d)
    (W : Nat) (hW : W = 2 ^ σ * (4 * e + 1) + 2) (tau : Nat) (htau : (ν * n + 1) * W + ν ≤ tau)
    (message v r : List (ZMod 2)) (hv : c.encode message = some v) (hl : r.length = v.length) (he : FewErrors n W e v r) :
    ∃ memory, c.streamHard (c.streamMemory tau ⟨0, Nat.two_pow_pos σ⟩) r =
      some ((List.replicate (tau * k) 0 ++ message).take message.length, memory) := by
  haveI : NeZero (2 ^ σ) := ⟨(Nat.two_pow_pos σ).ne'⟩
  have hm : message.length % k = 0 := by
    by_contra hc
    rw [encode, (C60_accepts c hk message 0).1 hc] at hv
    exact absurd hv (by simp)
  obtain ⟨us, rfl⟩ := exists_flat hk message hm
  rw [encode, encodeWithState_flat c hk, Option.map_some, Option.some.injEq] at hv
  subst hv
  have hrl : r.length = us.length * n := by rw [hl, flat_length, outs_length]
  obtain ⟨rs, rfl⟩ := exists_flat hn r (by rw [hrl]; simp)
  rw [flat_length] at hrl
  have hlen := Nat.eq_of_mul_eq_mul_right hn hrl
  have hmin := C66_result c hk fuel d hd
  have hsym := stream_symbols c hn hp (noZeroCycle_of c hk hz) ν (reachableIn_of c hk ν hr) d e (by
      intro ws hw hpos
      exact hmin.2 ((mem_returningWeights c hk _).mpr ⟨hpos, ws, hw, rfl⟩)) hde W hW tau htau us rs hlen.symm (by
      intro i
      have := he i
      rw [← flat_seg, ← flat_seg] at this
      rw [diff_count]
      exact_mod_cast this)
  refine ⟨(c.finiteStateMachine.viterbiStreaming (hardMetric n) (chunks n (flat rs)) (Mealy.Memory.fresh tau 0)).2, ?_⟩
  have e0 : (c.streamMemory tau ⟨0, Nat.two_pow_pos σ⟩ : Mealy.Memory (2 ^ σ) Int) = Mealy.Memory.fresh tau 0 := rfl
  rw [streamHard, streamDecode, if_neg (by rw [flat_length]; simp; omega), e0]
  simp only [Option.some.injEq, Prod.mk.injEq, and_true]
  rw [hsym]
  have hzero : List.replicate tau (0 : Int) = (List.replicate tau (0 : BVec k)).map fun u : BVec k => (((code u : Fin (2 ^ k)) : Nat) : Int) := by
    rw [List.map_replicate, code_zero]; rfl
  have hflat0 : flat (List.replicate tau (0 : BVec k)) = List.replicate (tau * k) 0 := by
    rw [flat, List.map_replicate]
    have : List.ofFn (0 : BVec k) = List.replicate k 0 := by
      apply List.ext_getElem
      · simp
      · intro i _ _; simp
    rw [this, List.flatten_replicate_replicate]
  rw [hzero, ← List.map_append, ← List.map_take, symbolBits_flatten]
  have h0 := flat_seg (List.replicate tau (0 : BVec k) ++ us) 0 us.length
  rw [seg, List.drop_zero, zero_mul, List.drop_zero, flat_append, hflat0] at h0
  rw [h0, flat_length]

/-! ### the codes of the library -/

theorem controllableWithin_of_reach (c : StateSpace k n σ) (hk : 0 < k) (μ : Nat) (h : ∀ s : Fin σ, (Pi.single s 1 : BVec σ) ∈ c.reach μ) :
    ControllableWithin c μ := by
  intro s s'
  have hv : s' + c.run s (List.replicate μ 0) ∈ Submodule.span (ZMod 2) (Set.range (c.tailMatrix μ)) := by
    apply c.reach_le_tail
    rw [← Finset.univ_sum_single (s' + c.run s (List.replicate μ 0))]
    apply Submodule.sum_mem
    intro i _
    have : (Pi.single i ((s' + c.run s (List.replicate μ 0)) i) : BVec σ) =
        (s' + c.run s (List.replicate μ 0)) i • (Pi.single i 1 : BVec σ) := by
      rw [← Pi.single_smul, smul_eq_mul, mul_one]
    rw [this]
    exact Submodule.smul_mem _ _ (h i)
  obtain ⟨w, hw⟩ := mem_span_rows'.mp hv
  have h0 := c.run_blocks 0 μ w
  have e1 := c.run_add s 0 (List.replicate μ 0) (blocks μ w) (by rw [blocks_length]; simp)
  have e2 : List.zipWith (fun a b : BVec k => a + b) (List.replicate μ 0) (blocks μ w) = blocks μ w := by
    apply List.ext_getElem
    · simp [blocks_length]
    · intro i _ _; simp
  rw [e2, add_zero] at e1
  have hz : c.run 0 (blocks μ w) = s' + c.run s (List.replicate μ 0) := by
    rw [h0, ← hw]
    have : vecMat (0 : BVec σ) (matPow c.A μ) = 0 := by funext s; simp [vecMat]
    rw [this, zero_add]; rfl
  refine ⟨flat (blocks μ w), flat (c.outs s (blocks μ w)), by rw [flat_length, blocks_length], ?_⟩
  rw [encodeWithState_flat c hk, e1, hz, add_comm, add_assoc, bvec_add_self, add_zero]

theorem ConvCode.controllableWithin (c : ConvCode k n) (hk : 0 < k) : ControllableWithin c.stateSpace c.memoryOrder := by
  apply controllableWithin_of_reach _ hk
  intro s
  obtain ⟨i, r, rfl⟩ := c.pos_surj s
  apply c.stateSpace.reach_mono _ (c.single_reach i r r.is_lt)
  have : c.constraintLength i ≤ c.memoryOrder := (foldl_max_nat _ 0).2 _ (List.mem_map.mpr ⟨i, List.mem_finRange i, rfl⟩)
  have := r.is_lt
  omega

theorem LowRate.controllableWithin (c : LowRate n) : ControllableWithin c.stateSpace c.degree :=
  controllableWithin_of_reach _ one_pos _ c.fullTail.2

/-- `ConvolutionalCode` with memory in every input, feedforward or with feedback. -/
theorem C115_convolutional_code (c : ConvCode k n) (hk : 0 < k) (hn : 0 < n) (hν : ∀ i, 1 ≤ c.constraintLength i)
    (hz : NoWeightlessCycle c.stateSpace) (fuel d e : Nat) (hd : c.stateSpace.freeDistance fuel = some (some d)) (hde : 2 * e < d)
    (W : Nat) (hW : W = 2 ^ c.degree * (4 * e + 1) + 2) (tau : Nat) (htau : (c.memoryOrder * n + 1) * W + c.memoryOrder ≤ tau)
    (message v r : List (ZMod 2)) (hv : c.stateSpace.encode message = some v) (hl : r.length = v.length) (he : FewErrors n W e v r) :
    ∃ memory, c.stateSpace.streamHard (c.stateSpace.streamMemory tau ⟨0, Nat.two_pow_pos _⟩) r =
      some ((List.replicate (tau * k) 0 ++ message).take message.length, memory) :=
  C115_corrects c.stateSpace hk hn ((C89_no_parallel c).mpr hν) hz c.memoryOrder (c.controllableWithin hk) fuel d e hd hde W hW tau htau
    message v r hv hl he

/-! ### encoders that are not catastrophic -/

theorem getElem?_flatten_replicate {α : Type} (us : List α) (m t : Nat) (ht : t < m * us.length) :
    (List.replicate m us).flatten[t]? = us[t % us.length]? := by
  induction m generalizing t with
  | zero => simp at ht
  | succ m ih =>
    rw [List.replicate_succ, List.flatten_cons]
    rcases Nat.lt_or_ge t us.length with h | h
    · rw [List.getElem?_append_left h, Nat.mod_eq_of_lt h]
    · rw [List.getElem?_append_right h, ih _ (by rw [Nat.succ_mul] at ht; omega), Nat.mod_eq_sub_mod h]

theorem run_loop (c : StateSpace k n σ) (s : BVec σ) (us : List (BVec k)) (h : c.run s us = s) (m : Nat) :
    c.run s (List.replicate m us).flatten = s ∧ (wt (c.outs s us) = 0 → wt (c.outs s (List.replicate m us).flatten) = 0) := by
  induction m with
  | zero => exact ⟨rfl, fun _ => rfl⟩
  | succ m ih =>
    rw [List.replicate_succ, List.flatten_cons, run_append, h, outs_append, h, wt_append]
    exact ⟨ih.1, fun h0 => by rw [h0, ih.2 h0]⟩

/-- An encoder that is not catastrophic, forgets its state when fed zeros and can reach all its states, has no weightless cycle. -/
theorem noWeightlessCycle_of (c : StateSpace k n σ) (hk : 0 < k) (hcat : ¬ CatastrophicEncoder c) (N : Nat)
    (hnil : ∀ s, c.run s (List.replicate N 0) = 0) (ν : Nat) (hr : ControllableWithin c ν) : NoWeightlessCycle c := by
  intro s input out hs hin henc
  by_contra hno
  apply hcat
  have hm : input.length % k = 0 := by
    by_contra hc
    rw [(C60_accepts c hk input s).1 hc] at henc
    exact absurd henc (by simp)
  obtain ⟨us, rfl⟩ := exists_flat hk input hm
  rw [encodeWithState_flat c hk, Option.some.injEq, Prod.mk.injEq] at henc
  obtain ⟨rfl, hrun⟩ := henc
  have hw : wt (c.outs s us) = 0 := by rw [wt]; exact List.count_eq_zero.mpr hno
  have hL : 0 < us.length := by
    rcases Nat.eq_zero_or_pos us.length with h | h
    · rw [List.length_eq_zero_iff] at h; subst h; exact absurd rfl hin
    · exact h
  obtain ⟨tl, _, htl⟩ := reachableIn_of c hk ν hr 0 s
  obtain ⟨f, hf⟩ : ∃ f : Nat → BVec k, ∀ t, f t = if t < tl.length then tl.getD t 0 else us.getD ((t - tl.length) % us.length) 0 := ⟨_, fun _ => rfl⟩
  have hS : ∀ T, (List.range T).map f = (tl ++ (List.replicate T us).flatten).take T := by
    intro T
    apply List.ext_getElem?
    intro t
    rcases Nat.lt_or_ge t T with h | h
    · rw [List.getElem?_take_of_lt h, List.getElem?_map, List.getElem?_range h, Option.map_some, hf]
      split
      · rename_i h1
        rw [List.getElem?_append_left h1, List.getElem?_eq_getElem h1, List.getD_eq_getElem?_getD, List.getElem?_eq_getElem h1]
        rfl
      · rename_i h1
        have h2 : (t - tl.length) % us.length < us.length := Nat.mod_lt _ hL
        have h3 : T ≤ T * us.length := Nat.le_mul_of_pos_right _ hL
        rw [List.getElem?_append_right (by omega), getElem?_flatten_replicate _ _ _ (by omega), List.getD_eq_getElem?_getD,
          List.getElem?_eq_getElem h2]
        rfl
    · rw [List.getElem?_eq_none (by simpa using h), List.getElem?_eq_none (by simp; omega)]
  refine ⟨f, ?_, wt (c.outs 0 tl), fun T => ⟨flat (c.outs 0 ((List.range T).map f)), ?_, ?_⟩⟩
  · have hex : ∃ j, ∃ h : j < us.length, us[j] ≠ 0 := by
      by_contra hall
      push Not at hall
      have hz : us = List.replicate us.length 0 := by
        rw [List.eq_replicate_iff]
        refine ⟨rfl, fun u hu => ?_⟩
        obtain ⟨i, hi, rfl⟩ := List.mem_iff_getElem.mp hu
        exact hall i hi
      have h1 := (run_loop c s us hrun N).1
      rw [hz, List.flatten_replicate_replicate] at h1
      obtain ⟨q, hq⟩ : ∃ q, N * us.length = N + q := ⟨N * us.length - N, by have := Nat.le_mul_of_pos_right N hL; omega⟩
      rw [hq, ← List.replicate_append_replicate, run_append, hnil, run_zeros] at h1
      exact hs h1.symm
    obtain ⟨j, hj, hj0⟩ := hex
    rw [Set.infinite_iff_exists_gt]
    intro B
    refine ⟨tl.length + (j + us.length * (B + 1)), ?_, ?_⟩
    · obtain ⟨i, hi⟩ := Function.ne_iff.mp hj0
      refine ⟨i, ?_⟩
      rw [hf, if_neg (by omega), Nat.add_sub_cancel_left, Nat.add_mul_mod_self_left, Nat.mod_eq_of_lt hj, List.getD_eq_getElem?_getD,
        List.getElem?_eq_getElem hj, Option.getD_some]
      exact (by decide : ∀ x : ZMod 2, x ≠ 0 → x = 1) _ hi
    · have : B + 1 ≤ us.length * (B + 1) := Nat.le_mul_of_pos_left _ hL
      omega
  · have : firstBlocks f T = flat ((List.range T).map f) := by
      rw [firstBlocks, flat, List.map_map, List.flatMap]; rfl
    rw [this, encode, encodeWithState_flat c hk]; rfl
  · rw [hS]
    have e := List.take_append_drop T (tl ++ (List.replicate T us).flatten)
    have h1 : wt (c.outs 0 (tl ++ (List.replicate T us).flatten)) = wt (c.outs 0 tl) := by
      rw [outs_append, wt_append, htl, (run_loop c s us hrun T).2 hw, add_zero]
    rw [← e, outs_append, wt_append] at h1
    change wt _ ≤ _
    omega

theorem run_snoc_zero (c : StateSpace k n σ) (s : BVec σ) (j : Nat) :
    c.run s (List.replicate (j + 1) 0) = c.next (c.run s (List.replicate j 0)) 0 := by
  rw [List.replicate_succ', run_append]; rfl

theorem LowRate.forgets (c : LowRate n) (s : BVec c.degree) : c.stateSpace.run s (List.replicate c.degree 0) = 0 := by
  have key : ∀ j, ∀ i : Fin c.degree, (i : Nat) < j → c.stateSpace.run s (List.replicate j 0) i = 0 := by
    intro j
    induction j with
    | zero => intro i hi; omega
    | succ j ih =>
      intro i hi
      rw [run_snoc_zero, next, Pi.add_apply, vecMat, vecMat]
      have h2 : ∑ x : Fin 1, (0 : BVec 1) x * c.stateSpace.B x i = 0 := by simp
      rw [h2, add_zero]
      apply Finset.sum_eq_zero
      intro r _
      by_cases h : (i : Nat) = r + 1
      · rw [ih r (by omega), zero_mul]
      · have : c.stateSpace.A r i = 0 := by simp [LowRate.stateSpace, h]
        rw [this, mul_zero]
  funext i
  exact key c.degree i i.is_lt

theorem ConvCode.forgets (c : ConvCode k n) (hq : ∀ i, c.feedback i = 1) (s : BVec c.degree) :
    c.stateSpace.run s (List.replicate c.degree 0) = 0 := by
  have ha : ∀ i r, c.alpha i (r + 1) = 0 := by
    intro i r
    rw [ConvCode.alpha, hq]
    change (((intToBits .lsbFirst 1 (c.constraintLength i + 1)).getD (r + 1) 0 : Nat) : ZMod 2) = 0
    rcases Nat.lt_or_ge (r + 1) (c.constraintLength i + 1) with h | h
    · rw [List.getD_eq_getElem?_getD, List.getElem?_eq_getElem (by simpa [intToBits] using h)]
      simp [intToBits, Nat.shiftRight_eq_div_pow, Nat.div_eq_of_lt (Nat.one_lt_two_pow (Nat.succ_ne_zero r))]
    · rw [List.getD_eq_getElem?_getD, List.getElem?_eq_none (by simpa [intToBits] using h)]
      rfl
  have key : ∀ j, ∀ (i : Fin k) (r : Fin (c.constraintLength i)), (r : Nat) < j →
      c.stateSpace.run s (List.replicate j 0) (c.pos i r) = 0 := by
    intro j
    induction j with
    | zero => intro i r hr; omega
    | succ j ih =>
      intro i r hr
      rw [run_snoc_zero, c.next_pos]
      have h0 : (0 : BVec k) i * c.blockB i r = 0 := by simp
      rw [h0, add_zero]
      apply Finset.sum_eq_zero
      intro r' _
      rw [ConvCode.blockA]
      by_cases h : (r : Nat) = 0
      · rw [if_pos h, ha, mul_zero]
      · rw [if_neg h]
        by_cases h2 : (r' : Nat) = r - 1
        · rw [ih i r' (by omega), zero_mul]
        · rw [if_neg h2, mul_zero]
  funext t
  obtain ⟨i, r, rfl⟩ := c.pos_surj t
  apply key
  have : c.constraintLength i ≤ c.degree := Finset.single_le_sum (f := c.constraintLength) (fun _ _ => Nat.zero_le _) (Finset.mem_univ i)
  have := r.is_lt
  omega

/-- For every `LowRateConvolutionalCode` with memory for which `is_catastrophic()` returns `False`. -/
theorem C115_low_rate (c : LowRate n) (hn : 0 < n) (hμ : 1 ≤ c.degree) (hcat : c.isCatastrophic = some false)
    (fuel d e : Nat) (hd : c.stateSpace.freeDistance fuel = some (some d)) (hde : 2 * e < d)
    (W : Nat) (hW : W = 2 ^ c.degree * (4 * e + 1) + 2) (tau : Nat) (htau : (c.degree * n + 1) * W + c.degree ≤ tau)
    (message v r : List (ZMod 2)) (hv : c.stateSpace.encode message = some v) (hl : r.length = v.length) (he : FewErrors n W e v r) :
    ∃ memory, c.stateSpace.streamHard (c.stateSpace.streamMemory tau ⟨0, Nat.two_pow_pos _⟩) r =
      some ((List.replicate tau 0 ++ message).take message.length, memory) := by
  have hnc : ¬ CatastrophicEncoder c.stateSpace := fun h => absurd (((C99_low_rate c).1 false hcat).mpr h) (by simp)
  have := C115_corrects c.stateSpace one_pos hn (C89_no_parallel_low_rate c hμ)
    (noWeightlessCycle_of c.stateSpace one_pos hnc c.degree c.forgets c.degree c.controllableWithin) c.degree c.controllableWithin
    fuel d e hd hde W hW tau htau message v r hv hl he
  rwa [mul_one] at this

/-- For every feedforward `ConvolutionalCode` with one input, memory, and `is_catastrophic()` returning `False`. -/
theorem C115_feedforward (c : ConvCode 1 n) (hn : 0 < n) (hμ : 1 ≤ c.constraintLength 0) (hq : c.feedback 0 = 1)
    (hcat : c.isCatastrophic = some false)
    (fuel d e : Nat) (hd : c.stateSpace.freeDistance fuel = some (some d)) (hde : 2 * e < d)
    (W : Nat) (hW : W = 2 ^ c.degree * (4 * e + 1) + 2) (tau : Nat) (htau : (c.memoryOrder * n + 1) * W + c.memoryOrder ≤ tau)
    (message v r : List (ZMod 2)) (hv : c.stateSpace.encode message = some v) (hl : r.length = v.length) (he : FewErrors n W e v r) :
    ∃ memory, c.stateSpace.streamHard (c.stateSpace.streamMemory tau ⟨0, Nat.two_pow_pos _⟩) r =
      some ((List.replicate tau 0 ++ message).take message.length, memory) := by
  have hq1 : (toPoly (c.feedback 0)).coeff 0 = 1 := by rw [hq]; simp [toPoly_one]
  have hnc : ¬ CatastrophicEncoder c.stateSpace := fun h => absurd ((C99_rate_one_over_n c hq1 false hcat).mpr h) (by simp)
  have := C115_convolutional_code c one_pos hn (fun i => by rw [Subsingleton.elim i 0]; exact hμ)
    (noWeightlessCycle_of c.stateSpace one_pos hnc c.degree (c.forgets fun i => by rw [Subsingleton.elim i 0]; exact hq) c.memoryOrder
      (c.controllableWithin one_pos)) fuel d e hd hde W hW tau htau message v r hv hl he
  rwa [mul_one] at this

/-- The documented code with generators 7 and 5 (octal): two errors in every 38 blocks are corrected with traceback length 192, for
streams of every length. -/
example (message v r : List (ZMod 2)) (hv : (⟨![0o7, 0o5]⟩ : LowRate 2).stateSpace.encode message = some v) (hl : r.length = v.length)
    (he : FewErrors 2 38 2 v r) :
    ∃ memory, (⟨![0o7, 0o5]⟩ : LowRate 2).stateSpace.streamHard ((⟨![0o7, 0o5]⟩ : LowRate 2).stateSpace.streamMemory 192 ⟨0, Nat.two_pow_pos _⟩) r =
      some ((List.replicate 192 0 ++ message).take message.length, memory) :=
  C115_low_rate ⟨![0o7, 0o5]⟩ (by norm_num) (by decide +kernel) (by decide +kernel) 60 5 2 (by decide +kernel) (by norm_num) 38
    (by decide +kernel) 192 (by decide +kernel) message v r hv hl he

/-- An error in the third bit is corrected (here with traceback length 5; the message is 1, 0, 1, 1 and zeros). -/
example : (⟨![0o7, 0o5]⟩ : LowRate 2).stateSpace.encode [1, 0, 1, 1, 0, 0, 0, 0, 0] =
      some [1, 1, 1, 0, 0, 0, 0, 1, 0, 1, 1, 1, 0, 0, 0, 0, 0, 0] ∧
    ((⟨![0o7, 0o5]⟩ : LowRate 2).stateSpace.streamHard ((⟨![0o7, 0o5]⟩ : LowRate 2).stateSpace.streamMemory 5 ⟨0, Nat.two_pow_pos _⟩)
      [1, 1, 0, 0, 0, 0, 0, 1, 0, 1, 1, 1, 0, 0, 0, 0, 0, 0]).map Prod.fst = some [0, 0, 0, 0, 0, 1, 0, 1, 1] := by decide +kernel

/-- What the traceback length must not be too short for: with length 4 the same single error spoils the output, although the survivor
with the best metric is the transmitted path (the state with the best metric is used one step too early, see C80). -/
example : ((⟨![0o7, 0o5]⟩ : LowRate 2).stateSpace.streamHard ((⟨![0o7, 0o5]⟩ : LowRate 2).stateSpace.streamMemory 4 ⟨0, Nat.two_pow_pos _⟩)
      [1, 1, 0, 0, 0, 0, 0, 1, 0, 1, 1, 1, 0, 0, 0, 0, 0, 0]).map Prod.fst = some [0, 0, 0, 0, 1, 1, 1, 1, 0] := by decide +kernel

/-- The restriction to the initial state 0 is necessary: the decoder told that the encoder starts in state 1 gets the first bit wrong,
without any channel error (the message is all zeros).  The stored paths of a new decoder all start with the state 0. -/
theorem C115_initial_state_wrong :
    ((⟨![0o7, 0o5]⟩ : LowRate 2).stateSpace.encodeWithState [0, 0, 0, 0, 0, 0, 0, 0] (natToVec _ 1)).map Prod.fst =
      some [1, 0, 1, 1, 0, 0, 0, 0, 0, 0, 0, 0, 0, 0, 0, 0] ∧
    ((⟨![0o7, 0o5]⟩ : LowRate 2).stateSpace.streamHard
        ((⟨![0o7, 0o5]⟩ : LowRate 2).stateSpace.streamMemory 4 ⟨1, Nat.one_lt_two_pow (by decide +kernel)⟩)
      [1, 0, 1, 1, 0, 0, 0, 0, 0, 0, 0, 0, 0, 0, 0, 0]).map Prod.fst = some [0, 0, 0, 0, 1, 0, 0, 0] := by decide +kernel

end Komm
