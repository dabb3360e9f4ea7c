import Verif.Lemmas.Terminated
import Verif.Props.C60_Convolutional
import Verif.Props.C41_C48_BlockCodes
/-! C62: terminated convolutional codes. -/
namespace Komm
open StateSpace
variable {k n σ : Nat}

/-! ### zero-termination -/

theorem zeroTermination_spec (c : StateSpace k n σ) (hk : 0 < k) (μ h : Nat) (hμ : 1 ≤ μ) (hh : 1 ≤ h)
    (hc : c.ControllableIn μ) (t : Terminated k n σ) (ht : t = ⟨c, μ, h, .zeroTermination⟩) (u : BVec t.dimension) :
    ∃ tail out, t.preProcessInput u = some (List.ofFn u ++ tail) ∧ tail.length = μ * k ∧ t.initialState u = some 0 ∧
      c.encodeWithState (List.ofFn u ++ tail) 0 = some (out, 0) ∧ t.encode u = some out ∧ out.length = (h + μ) * n ∧
      t.length = (h + μ) * n ∧ t.dimension = h * k := by
  subst ht
  revert u
  change ∀ u : BVec (h * k), _
  intro u
  have e : List.ofFn u ++ List.ofFn (vecMat u (c.tailProjector h μ)) =
      flat (blocks h u ++ blocks μ (vecMat u (c.tailProjector h μ))) := by
    rw [flat_append, flat_blocks, flat_blocks]
  have hr := encodeWithState_flat c hk (blocks h u ++ blocks μ (vecMat u (c.tailProjector h μ))) 0
  rw [c.zero_tail hc h u] at hr
  have hp : (Terminated.mk c μ h .zeroTermination).preProcessInput u =
      some (List.ofFn u ++ List.ofFn (vecMat u (c.tailProjector h μ))) := by
    simp only [Terminated.preProcessInput]
    rw [if_neg (by omega)]
  refine ⟨List.ofFn (vecMat u (c.tailProjector h μ)),
    flat (c.outs 0 (blocks h u ++ blocks μ (vecMat u (c.tailProjector h μ)))), hp, by simp, rfl, ?_, ?_, ?_, rfl, rfl⟩
  · rw [e]; exact hr
  · rw [Terminated.encode, hp]
    simp only [Option.bind_some, Terminated.initialState]
    rw [e, hr]; rfl
  · rw [flat_length, outs_length, List.length_append, blocks_length, blocks_length]

/-- Zero-termination of any `ConvolutionalCode` with memory: `memory_order · k` tail bits are appended, and they drive the
encoder from the zero state back to the zero state, for every message. -/
theorem C62_zero_termination (c : ConvCode k n) (hk : 0 < k) (h : Nat) (hh : 1 ≤ h) (hμ : 1 ≤ c.memoryOrder)
    (t : Terminated k n c.degree) (ht : t = ⟨c.stateSpace, c.memoryOrder, h, .zeroTermination⟩) (u : BVec t.dimension) :
    ∃ tail out, t.preProcessInput u = some (List.ofFn u ++ tail) ∧ tail.length = c.memoryOrder * k ∧
      t.initialState u = some 0 ∧ c.stateSpace.encodeWithState (List.ofFn u ++ tail) 0 = some (out, 0) ∧
      t.encode u = some out ∧ out.length = (h + c.memoryOrder) * n ∧ t.length = (h + c.memoryOrder) * n ∧ t.dimension = h * k :=
  zeroTermination_spec c.stateSpace hk c.memoryOrder h hμ hh c.controllable t ht u

/-- The same for `LowRateConvolutionalCode` (whose memory order is its degree). -/
theorem C62_zero_termination_low_rate (c : LowRate n) (h : Nat) (hh : 1 ≤ h) (hμ : 1 ≤ c.degree)
    (t : Terminated 1 n c.degree) (ht : t = ⟨c.stateSpace, c.degree, h, .zeroTermination⟩) (u : BVec t.dimension) :
    ∃ tail out, t.preProcessInput u = some (List.ofFn u ++ tail) ∧ tail.length = c.degree * 1 ∧
      t.initialState u = some 0 ∧ c.stateSpace.encodeWithState (List.ofFn u ++ tail) 0 = some (out, 0) ∧
      t.encode u = some out ∧ out.length = (h + c.degree) * n ∧ t.length = (h + c.degree) * n ∧ t.dimension = h * 1 :=
  zeroTermination_spec c.stateSpace (by norm_num) c.degree h hμ hh (c.stateSpace.controllable_of_le le_rfl) t ht u

theorem HighRate.degree_le_memoryOrder (c : HighRate k) (hk : 0 < k) : c.degree ≤ c.memoryOrder := by
  have hm : ∀ i : Fin k, c.constraintLength i ≤ c.memoryOrder := fun i =>
    (ConvCode.foldl_max_nat _ 0).2 _ (List.mem_map.mpr ⟨i, List.mem_finRange i, rfl⟩)
  have hle : ∀ j : Fin (k + 1), BP.degree (c.hRow j) ≤ (c.memoryOrder : Int) := by
    intro j
    induction j using Fin.lastCases with
    | last =>
      have h1 := hm ⟨0, hk⟩
      have h2 : BP.degree (c.hRow (Fin.last k)) ≤ (c.constraintLength ⟨0, hk⟩ : Int) :=
        le_trans (le_max_right _ _) (Int.self_le_toNat _)
      omega
    | cast j =>
      have h1 := hm j
      have h2 : BP.degree (c.hRow j.castSucc) ≤ (c.constraintLength j : Int) :=
        le_trans (le_max_left _ _) (Int.self_le_toNat _)
      omega
  have : ∀ (l : List Int) (a b : Int), a ≤ b → (∀ x ∈ l, x ≤ b) → l.foldl max a ≤ b := by
    intro l
    induction l with
    | nil => intro a b h _; exact h
    | cons y l ih =>
      intro a b h hx
      exact ih _ _ (max_le h (hx y (by simp))) (fun x hx' => hx x (by simp [hx']))
  have h3 := this ((List.finRange (k + 1)).map fun j : Fin (k + 1) => BP.degree (c.hRow j)) 0 (c.memoryOrder : Int)
    (by omega) (by
      intro x hx
      obtain ⟨j, _, rfl⟩ := List.mem_map.mp hx
      exact hle j)
  rw [HighRate.degree]
  omega

/-- The same for `HighRateConvolutionalCode`. -/
theorem C62_zero_termination_high_rate (c : HighRate k) (hk : 0 < k) (h : Nat) (hh : 1 ≤ h) (hμ : 1 ≤ c.memoryOrder)
    (t : Terminated k (k + 1) c.degree) (ht : t = ⟨c.stateSpace, c.memoryOrder, h, .zeroTermination⟩) (u : BVec t.dimension) :
    ∃ tail out, t.preProcessInput u = some (List.ofFn u ++ tail) ∧ tail.length = c.memoryOrder * k ∧
      t.initialState u = some 0 ∧ c.stateSpace.encodeWithState (List.ofFn u ++ tail) 0 = some (out, 0) ∧
      t.encode u = some out ∧ out.length = (h + c.memoryOrder) * (k + 1) ∧ t.length = (h + c.memoryOrder) * (k + 1) ∧
      t.dimension = h * k :=
  zeroTermination_spec c.stateSpace hk c.memoryOrder h hμ hh (c.stateSpace.controllable_of_le (c.degree_le_memoryOrder hk)) t
    ht u

/-- A finding: a code without memory cannot be zero-terminated, `encode` raises. -/
theorem C62_memoryless_raises (c : StateSpace k n σ) (h : Nat) (u : BVec (Terminated.mk c 0 h .zeroTermination).dimension) :
    (Terminated.mk c 0 h .zeroTermination).encode u = none := by
  simp [Terminated.encode, Terminated.preProcessInput]

/-! ### tail-biting -/

/-- Tail-biting: the encoder is started in a state computed from the message; it ends in the same state exactly when the
message has some periodic trajectory. -/
theorem C62_tail_biting (c : StateSpace k n σ) (hk : 0 < k) (μ h : Nat) (t : Terminated k n σ)
    (ht : t = ⟨c, μ, h, .tailBiting⟩) (u : BVec t.dimension) :
    ∃ s out s', t.preProcessInput u = some (List.ofFn u) ∧ t.initialState u = some s ∧
      c.encodeWithState (List.ofFn u) s = some (out, s') ∧ t.encode u = some out ∧ out.length = h * n ∧
      (s' = s ↔ ∃ s₀ out₀, c.encodeWithState (List.ofFn u) s₀ = some (out₀, s₀)) := by
  subst ht
  revert u
  change ∀ u : BVec (h * k), _
  intro u
  have e : List.ofFn u = flat (blocks h u) := (flat_blocks h u).symm
  have hs : (Terminated.mk c μ h .tailBiting).initialState u =
      some (vecMat (c.run 0 (blocks h u)) (c.zsMultiplier h)) := by
    simp only [Terminated.initialState]
    rw [e, encodeWithState_flat c hk]; rfl
  refine ⟨_, flat (c.outs (vecMat (c.run 0 (blocks h u)) (c.zsMultiplier h)) (blocks h u)),
    c.run (vecMat (c.run 0 (blocks h u)) (c.zsMultiplier h)) (blocks h u), rfl, hs, ?_, ?_, ?_, ?_⟩
  · rw [e, encodeWithState_flat c hk]
  · rw [Terminated.encode, hs]
    simp only [Terminated.preProcessInput, Option.bind_some]
    rw [e, encodeWithState_flat c hk]; rfl
  · rw [flat_length, outs_length, blocks_length]
  · rw [c.tailBiting_iff h u]
    constructor
    · rintro ⟨s₀, h0⟩
      exact ⟨s₀, _, by rw [e, encodeWithState_flat c hk, h0]⟩
    · rintro ⟨s₀, out₀, h0⟩
      rw [e, encodeWithState_flat c hk] at h0
      exact ⟨s₀, (Prod.mk.inj (Option.some.inj h0)).2⟩

/-- When `A^h + I` is invertible, every message is encoded from and to the same state. -/
theorem C62_tail_biting_invertible (c : StateSpace k n σ) (hk : 0 < k) (μ h : Nat)
    (hA : IsUnit ((Matrix.of c.A) ^ h + 1)) (t : Terminated k n σ)
    (ht : t = ⟨c, μ, h, .tailBiting⟩) (u : BVec t.dimension) :
    ∃ s out, t.initialState u = some s ∧ c.encodeWithState (List.ofFn u) s = some (out, s) ∧ t.encode u = some out ∧
      out.length = h * n := by
  obtain ⟨s, out, s', h1, h2, h3, h4, h5, h6⟩ := C62_tail_biting c hk μ h t ht u
  refine ⟨s, out, h2, ?_, h4, h5⟩
  rw [h6.mpr ?_] at h3
  · exact h3
  · subst ht
    clear h1 h2 h3 h4 h5 h6
    revert u
    change ∀ u : BVec (h * k), _
    intro u
    have e : List.ofFn u = flat (blocks h u) := (flat_blocks h u).symm
    obtain ⟨V, hV⟩ := hA
    set s₀ := Matrix.vecMul (c.run 0 (blocks h u)) (↑V⁻¹ : Matrix (Fin σ) (Fin σ) (ZMod 2)) with hs₀
    have hfix : c.run s₀ (blocks h u) = s₀ := by
      apply (c.tailBiting_state h u s₀).mpr
      have e2 : Matrix.of (fun i j => matPow c.A h i j + eye σ i j) = (V : Matrix (Fin σ) (Fin σ) (ZMod 2)) := by
        rw [hV, ← of_matPow, ← of_eye]; rfl
      rw [vecMat_eq, e2, hs₀, Matrix.vecMul_vecMul, Units.inv_mul, Matrix.vecMul_one]
    refine ⟨s₀, flat (c.outs s₀ (blocks h u)), ?_⟩
    rw [e, encodeWithState_flat c hk, hfix]

/-- A finding: when `A^h + I` is singular there may be no periodic trajectory at all, and then `encode` silently outputs a word
whose final state differs from its initial state: `ConvolutionalCode([[1, 3]], [3])`, one block, message `1`. -/
def exampleSingular : ConvCode 1 2 := ⟨![![0b1, 0b11]], ![0b11]⟩

theorem C62_tail_biting_singular_wrong :
    (Terminated.mk exampleSingular.stateSpace 1 1 .tailBiting).initialState (fun _ => 1) = some 0 ∧
    (Terminated.mk exampleSingular.stateSpace 1 1 .tailBiting).encode (fun _ => 1) = some [1, 1] ∧
    exampleSingular.stateSpace.encodeWithState [1] 0 = some ([1, 1], fun _ => 1) := by decide +kernel

/-! ### linearity, all modes -/

theorem blocks_add (T : Nat) (u v : BVec (T * k)) : blocks T (u + v) = List.zipWith (· + ·) (blocks T u) (blocks T v) := by
  apply List.ext_getElem
  · simp [blocks]
  · intro i h1 h2
    simp only [blocks, List.getElem_ofFn, List.getElem_zipWith]
    rfl

theorem vecOfList_zipWith (N : Nat) (l l' : List (ZMod 2)) (h : l.length = N) (h' : l'.length = N) :
    vecOfList N (List.zipWith (· + ·) l l') = vecOfList N l + vecOfList N l' := by
  funext i
  simp only [vecOfList, Pi.add_apply, List.getD_eq_getElem?_getD]
  rw [List.getElem?_eq_getElem (by simp [h, h']), List.getElem?_eq_getElem (by omega), List.getElem?_eq_getElem (by omega)]
  simp

theorem terminated_additive (t : Terminated k n σ) (hk : 0 < k)
    (hz : t.mode = .zeroTermination → 1 ≤ t.numBlocks ∧ 1 ≤ t.memoryOrder) :
    ∃ E : BVec t.dimension → BVec t.length, (∀ u v, E (u + v) = E u + E v) ∧ ∀ u, t.encode u = some (List.ofFn (E u)) := by
  obtain ⟨c, μ, h, mode⟩ := t
  have key : ∀ (N : Nat) (D : Nat) (s : BVec D → BVec σ) (ins : BVec D → List (BVec k)) (L : Nat), L * n = N →
      (∀ u v, s (u + v) = s u + s v) → (∀ u, (ins u).length = L) →
      (∀ u v, ins (u + v) = List.zipWith (· + ·) (ins u) (ins v)) →
      (∀ u v, vecOfList N (flat (c.outs (s (u + v)) (ins (u + v)))) =
        vecOfList N (flat (c.outs (s u) (ins u))) + vecOfList N (flat (c.outs (s v) (ins v)))) ∧
      ∀ u, (flat (c.outs (s u) (ins u))) = List.ofFn (vecOfList N (flat (c.outs (s u) (ins u)))) := by
    intro N D s ins L hL hs hl hi
    have hlen : ∀ u, (flat (c.outs (s u) (ins u))).length = N := by
      intro u; rw [flat_length, outs_length, hl, hL]
    refine ⟨fun u v => ?_, fun u => (ofFn_vecOfList _ (hlen u)).symm⟩
    rw [hs, hi, outs_add c _ _ _ _ (by rw [hl, hl]), ← flat_zipWith, vecOfList_zipWith _ _ _ (hlen u) (hlen v)]
  cases mode with
  | directTruncation =>
    obtain ⟨h1, h2⟩ := key (h * n) (h * k) (fun _ => 0) (blocks h) h rfl (fun _ _ => (add_zero _).symm)
      (blocks_length h) (blocks_add h)
    refine ⟨fun u => vecOfList (h * n) (flat (c.outs 0 (blocks h u))), h1, fun (u : BVec (h * k)) => ?_⟩
    have e : List.ofFn u = flat (blocks h u) := (flat_blocks h u).symm
    rw [Terminated.encode]
    simp only [Terminated.preProcessInput, Terminated.initialState, Option.bind_some]
    rw [e, encodeWithState_flat c hk]
    exact congrArg some (h2 u)
  | zeroTermination =>
    obtain ⟨hh, hμ⟩ := hz rfl
    simp only at hh hμ
    obtain ⟨h1, h2⟩ := key ((h + μ) * n) (h * k) (fun _ => 0)
      (fun u => blocks h u ++ blocks μ (vecMat u (c.tailProjector h μ))) (h + μ) rfl (fun _ _ => (add_zero _).symm)
      (fun u => by rw [List.length_append, blocks_length, blocks_length])
      (fun u v => by rw [blocks_add, vecMat_add, blocks_add, List.zipWith_append (by rw [blocks_length, blocks_length])])
    refine ⟨fun u => vecOfList ((h + μ) * n) (flat (c.outs 0 (blocks h u ++ blocks μ (vecMat u (c.tailProjector h μ))))), h1,
      fun (u : BVec (h * k)) => ?_⟩
    have e : List.ofFn u ++ List.ofFn (vecMat u (c.tailProjector h μ)) =
        flat (blocks h u ++ blocks μ (vecMat u (c.tailProjector h μ))) := by
      rw [flat_append, flat_blocks, flat_blocks]
    rw [Terminated.encode]
    simp only [Terminated.preProcessInput, Terminated.initialState]
    rw [if_neg (by omega)]
    simp only [Option.bind_some]
    rw [e, encodeWithState_flat c hk]
    exact congrArg some (h2 u)
  | tailBiting =>
    obtain ⟨h1, h2⟩ := key (h * n) (h * k) (fun u => vecMat (c.run 0 (blocks h u)) (c.zsMultiplier h)) (blocks h) h rfl
      (fun u v => by
        have := c.run_add 0 0 (blocks h u) (blocks h v) (by rw [blocks_length, blocks_length])
        rw [add_zero] at this
        rw [blocks_add, this, vecMat_add])
      (blocks_length h) (blocks_add h)
    refine ⟨fun u => vecOfList (h * n) (flat (c.outs (vecMat (c.run 0 (blocks h u)) (c.zsMultiplier h)) (blocks h u))), h1,
      fun (u : BVec (h * k)) => ?_⟩
    have e : List.ofFn u = flat (blocks h u) := (flat_blocks h u).symm
    rw [Terminated.encode]
    simp only [Terminated.preProcessInput, Terminated.initialState, Option.bind_some]
    rw [e, encodeWithState_flat c hk, Option.map_some, Option.bind_some, encodeWithState_flat c hk]
    exact congrArg some (h2 u)

/-- In every mode, `encode` of a message is the message times `generator_matrix`; in particular it is linear. -/
theorem C62_generator (t : Terminated k n σ) (hk : 0 < k)
    (hz : t.mode = .zeroTermination → 1 ≤ t.numBlocks ∧ 1 ≤ t.memoryOrder) (u : BVec t.dimension) :
    t.encode u = some (List.ofFn (vecMat u t.generatorMatrix)) := by
  obtain ⟨E, hE, he⟩ := terminated_additive t hk hz
  have hG : ∀ i, t.generatorMatrix i = E (eye t.dimension i) := by
    intro i
    rw [Terminated.generatorMatrix, he, Option.getD_some, vecOfList_ofFn]
  let E' : BVec t.dimension →+ BVec t.length := AddMonoidHom.mk' E hE
  have hu : u = ∑ i, u i • (eye t.dimension i : BVec t.dimension) := by
    funext j
    have := congrFun (vecMat_eye u) j
    rw [vecMat] at this
    rw [Finset.sum_apply]
    exact this.symm
  rw [he]
  congr 2
  have h1 : E u = E' (∑ i, u i • (eye t.dimension i : BVec t.dimension)) := by rw [← hu]; rfl
  rw [h1, map_sum]
  funext j
  rw [Finset.sum_apply, vecMat]
  apply Finset.sum_congr rfl
  intro i _
  rw [hG]
  rcases zmod2_cases (u i) with h | h
  · rw [h, zero_smul, map_zero, zero_mul]; rfl
  · rw [h, one_smul, one_mul]; rfl

/-- Two messages are encoded linearly. -/
theorem C62_linear (t : Terminated k n σ) (hk : 0 < k)
    (hz : t.mode = .zeroTermination → 1 ≤ t.numBlocks ∧ 1 ≤ t.memoryOrder) (u v : BVec t.dimension) (a b : List (ZMod 2))
    (ha : t.encode u = some a) (hb : t.encode v = some b) : t.encode (u + v) = some (List.zipWith (· + ·) a b) := by
  rw [C62_generator t hk hz] at ha hb ⊢
  cases ha; cases hb
  rw [vecMat_add]
  congr 1
  apply List.ext_getElem
  · simp
  · intro i h1 h2; simp

/-- When its generator matrix has full rank, the terminated code is a lawful block code (C41–C48 apply): the object whose
matrices are `generator_matrix`, its `pseudo_inverse` and its `null_matrix` encodes as `encode` does. -/
theorem C62_block_code (t : Terminated k n σ) (hk : 0 < k)
    (hz : t.mode = .zeroTermination → 1 ≤ t.numBlocks ∧ 1 ≤ t.memoryOrder) (hr : rank t.generatorMatrix = t.dimension) :
    ∃ L, blockCodeOfGenerator t.generatorMatrix = some L ∧ L.Lawful ∧ ∀ u, t.encode u = some (List.ofFn (L.encode u)) := by
  obtain ⟨L, h1, h2, h3⟩ := ofGenerator_lawful t.generatorMatrix hr
  refine ⟨L, h1, h3, fun u => ?_⟩
  rw [C62_generator t hk hz]
  rw [blockCodeOfGenerator, Option.map_eq_some_iff] at h1
  obtain ⟨N, _, rfl⟩ := h1
  rfl

/-- The documented examples: `ConvolutionalCode([[0b1, 0b11]])`, three blocks, in the three modes. -/
def exampleTerm (mode : TerminationMode) : Terminated 1 2 1 :=
  ⟨(ConvCode.ofFeedforward ![![0b1, 0b11]] : ConvCode 1 2).stateSpace, 1, 3, mode⟩

example : (ConvCode.ofFeedforward ![![0b1, 0b11]] : ConvCode 1 2).memoryOrder = 1 ∧
    (exampleTerm .directTruncation).length = 6 ∧ (exampleTerm .directTruncation).dimension = 3 ∧
    (List.finRange 3).map (fun i : Fin 3 => (exampleTerm .directTruncation).encode (eye 3 i)) =
      [some [1, 1, 0, 1, 0, 0], some [0, 0, 1, 1, 0, 1], some [0, 0, 0, 0, 1, 1]] ∧
    (exampleTerm .zeroTermination).length = 8 ∧
    (List.finRange 3).map (fun i : Fin 3 => (exampleTerm .zeroTermination).encode (eye 3 i)) =
      [some [1, 1, 0, 1, 0, 0, 0, 0], some [0, 0, 1, 1, 0, 1, 0, 0], some [0, 0, 0, 0, 1, 1, 0, 1]] ∧
    (exampleTerm .tailBiting).length = 6 ∧
    (List.finRange 3).map (fun i : Fin 3 => (exampleTerm .tailBiting).encode (eye 3 i)) =
      [some [1, 1, 0, 1, 0, 0], some [0, 0, 1, 1, 0, 1], some [0, 1, 0, 0, 1, 1]] ∧
    rank (exampleTerm .tailBiting).generatorMatrix = 3 := by decide +kernel

/-- The hypothesis of `C62_tail_biting_invertible` for the documented example. -/
example : IsUnit ((Matrix.of (exampleTerm .tailBiting).code.A) ^ 3 + 1) := by
  have : (Matrix.of (exampleTerm .tailBiting).code.A) ^ 3 + 1 = 1 := by decide +kernel
  rw [this]
  exact isUnit_one

end Komm
