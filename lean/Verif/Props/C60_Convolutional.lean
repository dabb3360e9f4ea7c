import Verif.Lemmas.Convolutional
import Verif.Props.C59_Process
/-! C60: the convolutional encoder.  A `StateSpace k n σ` is any quadruple of matrices; `ConvCode`, `LowRate` and `HighRate`
build particular ones (C61). -/
namespace Komm
open StateSpace
variable {k n σ : Nat}

/-- `encode_with_state` accepts exactly the streams made of whole blocks, and then returns `n` bits per block. -/
theorem C60_accepts (c : StateSpace k n σ) (hk : 0 < k) (input : List (ZMod 2)) (s : BVec σ) :
    (input.length % k ≠ 0 → c.encodeWithState input s = none) ∧
    (input.length % k = 0 → ∃ out s', c.encodeWithState input s = some (out, s') ∧ out.length = input.length / k * n) := by
  constructor
  · intro h; rw [encodeWithState, if_pos (Or.inr h)]
  · intro h
    obtain ⟨us, rfl⟩ := exists_flat hk input h
    refine ⟨_, _, encodeWithState_flat c hk us s, ?_⟩
    rw [flat_length, flat_length, outs_length, Nat.mul_div_cancel _ hk]

/-- Chunk independence: encoding a stream in two calls, passing the returned state on, gives the bits and the final state
of one call on the concatenation. -/
theorem C60_chunks (c : StateSpace k n σ) (a b : List (ZMod 2)) (s s₁ s₂ : BVec σ) (o₁ o₂ : List (ZMod 2))
    (ha : c.encodeWithState a s = some (o₁, s₁)) (hb : c.encodeWithState b s₁ = some (o₂, s₂)) :
    c.encodeWithState (a ++ b) s = some (o₁ ++ o₂, s₂) := by
  have acc : ∀ (l : List (ZMod 2)) (s : BVec σ) r, c.encodeWithState l s = some r → 0 < k ∧ l.length % k = 0 := by
    intro l s r h
    rw [encodeWithState] at h
    split at h
    · exact absurd h (by simp)
    · rename_i hc
      push Not at hc
      exact ⟨Nat.pos_of_ne_zero hc.1, hc.2⟩
  obtain ⟨hk, hla⟩ := acc _ _ _ ha
  obtain ⟨_, hlb⟩ := acc _ _ _ hb
  obtain ⟨us, rfl⟩ := exists_flat hk a hla
  obtain ⟨vs, rfl⟩ := exists_flat hk b hlb
  rw [encodeWithState_flat c hk] at ha hb
  simp only [Option.some.injEq, Prod.mk.injEq] at ha hb
  obtain ⟨rfl, rfl⟩ := ha
  obtain ⟨rfl, rfl⟩ := hb
  rw [← flat_append, encodeWithState_flat c hk, outs_append, run_append, flat_append]

/-- The encoder is linear over GF(2), jointly in the stream and in the initial state. -/
theorem C60_linear (c : StateSpace k n σ) (a b : List (ZMod 2)) (hl : a.length = b.length) (s t s' t' : BVec σ)
    (oa ob : List (ZMod 2)) (ha : c.encodeWithState a s = some (oa, s')) (hb : c.encodeWithState b t = some (ob, t')) :
    c.encodeWithState (List.zipWith (· + ·) a b) (s + t) = some (List.zipWith (· + ·) oa ob, s' + t') := by
  have hk : 0 < k ∧ a.length % k = 0 := by
    rw [encodeWithState] at ha
    split at ha
    · exact absurd ha (by simp)
    · rename_i hc
      push Not at hc
      exact ⟨Nat.pos_of_ne_zero hc.1, hc.2⟩
  obtain ⟨hk, hla⟩ := hk
  obtain ⟨us, rfl⟩ := exists_flat hk a hla
  obtain ⟨vs, rfl⟩ := exists_flat hk b (hl ▸ hla)
  have hl' : us.length = vs.length := by
    rw [flat_length, flat_length] at hl
    exact Nat.eq_of_mul_eq_mul_right hk hl
  rw [encodeWithState_flat c hk] at ha hb
  simp only [Option.some.injEq, Prod.mk.injEq] at ha hb
  obtain ⟨rfl, rfl⟩ := ha
  obtain ⟨rfl, rfl⟩ := hb
  rw [flat_zipWith, encodeWithState_flat c hk, outs_add c _ _ _ _ hl', run_add c _ _ _ _ hl', flat_zipWith]

/-- The same for `encode`, which starts from the zero state. -/
theorem C60_encode_linear (c : StateSpace k n σ) (a b : List (ZMod 2)) (hl : a.length = b.length) (oa ob : List (ZMod 2))
    (ha : c.encode a = some oa) (hb : c.encode b = some ob) :
    c.encode (List.zipWith (· + ·) a b) = some (List.zipWith (· + ·) oa ob) := by
  rw [encode, Option.map_eq_some_iff] at ha hb
  obtain ⟨⟨o, s⟩, h1, rfl⟩ := ha
  obtain ⟨⟨o', s'⟩, h2, rfl⟩ := hb
  have := C60_linear c a b hl 0 0 s s' o o' h1 h2
  rw [encode, add_zero] at *
  rw [this]; rfl

/-- `finite_state_machine()`, driven with the integer codes of the input blocks from the integer code of the initial state,
outputs the integer codes of the output blocks of `encode_with_state`, and stops in the code of its final state. -/
theorem C60_finite_state_machine (c : StateSpace k n σ) (hk : 0 < k) (us : List (BVec k)) (s : BVec σ) :
    ∃ (vs : List (BVec n)) (s' : BVec σ),
      c.encodeWithState (us.map fun u : BVec k => List.ofFn u).flatten s =
        some ((vs.map fun v : BVec n => List.ofFn v).flatten, s') ∧
      c.finiteStateMachine.process (us.map fun u : BVec k => (⟨vecToNat u, vecToNat_lt u⟩ : Fin (2 ^ k)))
        ⟨vecToNat s, vecToNat_lt s⟩ =
        (vs.map fun v : BVec n => vecToNat v, ⟨vecToNat s', vecToNat_lt s'⟩) := by
  refine ⟨c.outs s us, c.run s us, encodeWithState_flat c hk us s, ?_⟩
  rw [Mealy.process_eq]
  exact Prod.ext (fsm_outs c s us) (fsm_run c s us)

/-- The documented encoder `[[0o31, 0o27, 0o0], [0o0, 0o12, 0o15]]`: `degree` 7, `memory_order` 4, and its documented
matrices. -/
def exampleConv : ConvCode 2 3 := ConvCode.ofFeedforward ![![0o31, 0o27, 0], ![0, 0o12, 0o15]]

example : exampleConv.degree = 7 ∧ exampleConv.memoryOrder = 4 ∧
    (List.finRange 7).map (fun r : Fin 7 => List.ofFn fun s : Fin 7 => (exampleConv.stateSpace.A r s : ZMod 2)) =
      [[0, 1, 0, 0, 0, 0, 0], [0, 0, 1, 0, 0, 0, 0], [0, 0, 0, 1, 0, 0, 0], [0, 0, 0, 0, 0, 0, 0],
       [0, 0, 0, 0, 0, 1, 0], [0, 0, 0, 0, 0, 0, 1], [0, 0, 0, 0, 0, 0, 0]] ∧
    (List.finRange 2).map (fun r : Fin 2 => List.ofFn fun s : Fin 7 => (exampleConv.stateSpace.B r s : ZMod 2)) =
      [[1, 0, 0, 0, 0, 0, 0], [0, 0, 0, 0, 1, 0, 0]] ∧
    (List.finRange 7).map (fun r : Fin 7 => List.ofFn fun s : Fin 3 => (exampleConv.stateSpace.C r s : ZMod 2)) =
      [[0, 1, 0], [0, 1, 0], [1, 0, 0], [1, 1, 0], [0, 1, 0], [0, 0, 1], [0, 1, 1]] ∧
    (List.finRange 2).map (fun r : Fin 2 => List.ofFn fun s : Fin 3 => (exampleConv.stateSpace.D r s : ZMod 2)) =
      [[1, 1, 0], [0, 0, 1]] := by decide +kernel

/-- The documented feedback encoder `[[0o27, 0o31]], [0o27]`. -/
def exampleFeedback : ConvCode 1 2 := ⟨![![0o27, 0o31]], ![0o27]⟩

example : exampleFeedback.degree = 4 ∧
    exampleFeedback.generatorMatrix 0 0 = some ⟨1, 1⟩ ∧ exampleFeedback.generatorMatrix 0 1 = some ⟨0b11001, 0b10111⟩ ∧
    (List.finRange 4).map (fun r : Fin 4 => List.ofFn fun s : Fin 4 => (exampleFeedback.stateSpace.A r s : ZMod 2)) =
      [[1, 1, 0, 0], [1, 0, 1, 0], [0, 0, 0, 1], [1, 0, 0, 0]] ∧
    (List.finRange 1).map (fun r : Fin 1 => List.ofFn fun s : Fin 4 => (exampleFeedback.stateSpace.B r s : ZMod 2)) =
      [[1, 0, 0, 0]] ∧
    (List.finRange 4).map (fun r : Fin 4 => List.ofFn fun s : Fin 2 => (exampleFeedback.stateSpace.C r s : ZMod 2)) =
      [[0, 1], [0, 1], [0, 1], [0, 0]] ∧
    (List.finRange 1).map (fun r : Fin 1 => List.ofFn fun s : Fin 2 => (exampleFeedback.stateSpace.D r s : ZMod 2)) =
      [[1, 1]] := by decide +kernel

/-- The documented low-rate encoder `[0o117, 0o155]`. -/
def exampleLowRate : LowRate 2 := ⟨![0o117, 0o155]⟩

example : exampleLowRate.degree = 6 ∧
    (List.finRange 6).map (fun r : Fin 6 => List.ofFn fun s : Fin 2 => (exampleLowRate.stateSpace.C r s : ZMod 2)) =
      [[1, 0], [1, 1], [1, 1], [0, 0], [0, 1], [1, 1]] ∧
    (List.finRange 6).map (fun r : Fin 6 => List.ofFn fun s : Fin 6 => (exampleLowRate.stateSpace.A r s : ZMod 2)) =
      [[0, 1, 0, 0, 0, 0], [0, 0, 1, 0, 0, 0], [0, 0, 0, 1, 0, 0], [0, 0, 0, 0, 1, 0], [0, 0, 0, 0, 0, 1],
       [0, 0, 0, 0, 0, 0]] := by decide +kernel

/-- The documented high-rate encoder `[0o12, 0o15, 0o13, 0o11]`. -/
def exampleHighRate : HighRate 3 := ⟨![0o12, 0o15, 0o13, 0o11]⟩

example : exampleHighRate.degree = 3 ∧ exampleHighRate.memoryOrder = 3 ∧
    (List.finRange 3).map (fun r : Fin 3 => List.ofFn fun s : Fin 3 => (exampleHighRate.stateSpace.A r s : ZMod 2)) =
      [[0, 1, 0], [0, 0, 1], [1, 0, 0]] ∧
    (List.finRange 3).map (fun r : Fin 3 => List.ofFn fun s : Fin 3 => (exampleHighRate.stateSpace.B r s : ZMod 2)) =
      [[1, 0, 1], [0, 1, 0], [0, 0, 1]] ∧
    (List.finRange 3).map (fun r : Fin 3 => List.ofFn fun s : Fin 4 => (exampleHighRate.stateSpace.C r s : ZMod 2)) =
      [[0, 0, 0, 0], [0, 0, 0, 0], [0, 0, 0, 1]] ∧
    (List.finRange 3).map (fun r : Fin 3 => List.ofFn fun s : Fin 4 => (exampleHighRate.stateSpace.D r s : ZMod 2)) =
      [[1, 0, 0, 0], [0, 1, 0, 1], [0, 0, 1, 1]] := by decide +kernel

/-- `ConvolutionalCode([[0o7, 0o5]])`: a run of the encoder in two chunks, and of its machine. -/
def exampleConv75 : ConvCode 1 2 := ConvCode.ofFeedforward ![![0o7, 0o5]]

example : exampleConv75.degree = 2 ∧
    (exampleConv75.stateSpace.encodeWithState [1, 1, 0, 1] 0).map (fun r => (r.1, vecToNat r.2)) =
      some ([1, 1, 0, 1, 0, 1, 0, 0], 1) ∧
    (exampleConv75.stateSpace.encodeWithState [1, 1] 0).map (fun r => (r.1, vecToNat r.2)) = some ([1, 1, 0, 1], 3) ∧
    (exampleConv75.stateSpace.encodeWithState [0, 1] (fun _ => 1)).map (fun r => (r.1, vecToNat r.2)) =
      some ([0, 1, 0, 0], 1) ∧
    (exampleConv75.stateSpace.finiteStateMachine.process [1, 1, 0, 1] ⟨0, Nat.two_pow_pos _⟩).1 = [3, 2, 2, 0] ∧
    ((exampleConv75.stateSpace.finiteStateMachine.process [1, 1, 0, 1] ⟨0, Nat.two_pow_pos _⟩).2 : Nat) = 1 := by
  decide +kernel

end Komm
