import Verif.Props.C89_ViterbiDecoder
import Verif.Props.C61_Realisation
import Mathlib.InformationTheory.Hamming
/-! C89, continued: when `ViterbiDecoder` is exactly a nearest-codeword decoder for a zero-terminated code, which errors it corrects, and
where it is not a nearest-codeword decoder. -/
namespace Komm
open StateSpace
open scoped BigOperators
variable {k n σ : Nat}

/-! ### codes without parallel transitions -/

theorem StateSpace.noParallel_iff (c : StateSpace k n σ) :
    c.finiteStateMachine.NoParallel ↔ ∀ u : BVec k, vecMat u c.B = 0 → u = 0 := by
  refine ⟨fun h u hu => ?_, c.noParallel_of⟩
  have := h (code 0) (code u) (code 0)
  rw [fsm_next, fsm_next] at this
  have e : c.next 0 u = c.next 0 0 := by
    have e0 : vecMat (0 : BVec k) c.B = 0 := by funext s; simp [vecMat]
    rw [next, next, hu, e0]
  rw [e] at this
  exact code_inj (this rfl)

/-- A `ConvolutionalCode` all of whose constraint lengths are positive has no parallel transitions; if one of them is zero, it has. -/
theorem C89_no_parallel (c : ConvCode k n) :
    c.stateSpace.finiteStateMachine.NoParallel ↔ ∀ i, 1 ≤ c.constraintLength i := by
  rw [StateSpace.noParallel_iff]
  constructor
  · intro h i
    by_contra hc
    have h0 : c.constraintLength i = 0 := by omega
    have := h (Pi.single i 1) (by
      funext s
      obtain ⟨i', r', rfl⟩ := c.pos_surj s
      rw [vecMat, Finset.sum_eq_single i]
      · rw [ConvCode.B_pos]
        have : i ≠ i' := by
          rintro rfl
          have := r'.is_lt
          omega
        rw [if_neg this, mul_zero]; rfl
      · intro b _ hb
        rw [Pi.single_eq_of_ne hb, zero_mul]
      · simp)
    have := congrFun this i
    rw [Pi.single_eq_same] at this
    exact one_ne_zero this
  · intro h u hu
    funext i
    have := congrFun hu (c.pos i ⟨0, h i⟩)
    rw [vecMat, Finset.sum_eq_single i] at this
    · rw [ConvCode.B_pos, if_pos rfl, ConvCode.blockB] at this
      simpa using this
    · intro b _ hb
      rw [ConvCode.B_pos, if_neg hb, mul_zero]
    · simp

/-- A `LowRateConvolutionalCode` with memory has no parallel transitions. -/
theorem C89_no_parallel_low_rate (c : LowRate n) (h : 1 ≤ c.degree) : c.stateSpace.finiteStateMachine.NoParallel := by
  rw [StateSpace.noParallel_iff]
  intro u hu
  have := congrFun hu ⟨0, h⟩
  rw [vecMat, Fin.sum_univ_one] at this
  funext i
  rw [Subsingleton.elim i 0]
  simpa [LowRate.stateSpace] using this

/-! ### the tail is determined by the message -/

theorem StateSpace.tail_injective (c : StateSpace k n σ) (μ : Nat) (hσ : σ = μ * k)
    (h : ∀ s : Fin σ, (Pi.single s 1 : BVec σ) ∈ c.reach μ) (w w' : BVec (μ * k))
    (hw : vecMat w (c.tailMatrix μ) = vecMat w' (c.tailMatrix μ)) : w = w' := by
  have hs : Function.Surjective fun w : BVec (μ * k) => vecMat w (c.tailMatrix μ) := by
    intro v
    have hv : v ∈ Submodule.span (ZMod 2) (Set.range (c.tailMatrix μ)) := by
      apply c.reach_le_tail
      rw [← Finset.univ_sum_single v]
      apply Submodule.sum_mem
      intro s _
      have : (Pi.single s (v s) : BVec σ) = v s • (Pi.single s 1 : BVec σ) := by
        rw [← Pi.single_smul, smul_eq_mul, mul_one]
      rw [this]
      exact Submodule.smul_mem _ _ (h s)
    obtain ⟨w, hw⟩ := mem_span_rows'.mp hv
    exact ⟨w, hw⟩
  have hcard : Fintype.card (BVec (μ * k)) = Fintype.card (BVec σ) := by
    rw [hσ]
  exact ((Fintype.bijective_iff_surjective_and_card _).mpr ⟨hs, hcard⟩).1 hw

theorem StateSpace.tail_unique (c : StateSpace k n σ) (hk : 0 < k) (μ : Nat) (hσ : σ = μ * k)
    (h : ∀ s : Fin σ, (Pi.single s 1 : BVec σ) ∈ c.reach μ) (s : BVec σ) (tl tl' : List (BVec k)) (hl : tl.length = μ)
    (hl' : tl'.length = μ) (hr : c.run s tl = c.run s tl') : tl = tl' := by
  obtain ⟨w, hw, _⟩ := exists_blocks hk μ tl hl
  obtain ⟨w', hw', _⟩ := exists_blocks hk μ tl' hl'
  rw [← hw, ← hw', run_blocks, run_blocks, add_left_cancel_iff] at hr
  rw [← hw, ← hw', c.tail_injective μ hσ h w w' hr]

/-- Every state is reached in `μ` blocks, in exactly one way. -/
def StateSpace.FullTail (c : StateSpace k n σ) (μ : Nat) : Prop := σ = μ * k ∧ ∀ s : Fin σ, (Pi.single s 1 : BVec σ) ∈ c.reach μ

theorem ConvCode.fullTail (c : ConvCode k n) (h : ∀ i, c.constraintLength i = c.memoryOrder) :
    c.stateSpace.FullTail c.memoryOrder := by
  constructor
  · rw [ConvCode.degree, Finset.sum_congr rfl fun i _ => h i]
    simp [mul_comm]
  · intro s
    obtain ⟨i, r, rfl⟩ := c.pos_surj s
    apply c.stateSpace.reach_mono _ (c.single_reach i r r.is_lt)
    have := h i
    have := r.is_lt
    omega

theorem LowRate.fullTail (c : LowRate n) : c.stateSpace.FullTail c.degree := by
  refine ⟨(mul_one _).symm, ?_⟩
  have key : ∀ (m : Nat) (hm : m < c.degree), (Pi.single ⟨m, hm⟩ 1 : BVec c.degree) ∈ c.stateSpace.reach (m + 1) := by
    intro m
    induction m with
    | zero =>
      intro hm
      apply Submodule.subset_span
      refine ⟨0, by omega, 0, ?_⟩
      have : matMul c.stateSpace.B (matPow c.stateSpace.A 0) = c.stateSpace.B := by
        apply of_inj; rw [of_matMul, matPow, of_eye, Matrix.mul_one]
      rw [this]
      funext s
      by_cases hs : s = ⟨0, hm⟩
      · subst hs; simp [LowRate.stateSpace]
      · rw [Pi.single_eq_of_ne hs]
        have : (s : Nat) ≠ 0 := fun h => hs (Fin.ext h)
        simp [LowRate.stateSpace, this]
    | succ m ih =>
      intro hm
      have e : (Pi.single ⟨m + 1, hm⟩ 1 : BVec c.degree) = vecMat (Pi.single ⟨m, by omega⟩ 1) c.stateSpace.A := by
        rw [StateSpace.vecMat_single]
        funext s
        by_cases hs : s = ⟨m + 1, hm⟩
        · subst hs; simp [LowRate.stateSpace]
        · rw [Pi.single_eq_of_ne hs]
          have : (s : Nat) ≠ m + 1 := fun h => hs (Fin.ext h)
          simp [LowRate.stateSpace, this]
      rw [e]
      exact c.stateSpace.reach_step (ih (by omega))
  intro s
  exact c.stateSpace.reach_mono (by have := s.is_lt; omega) (key s s.is_lt)

theorem StateSpace.FullTail.controllable {c : StateSpace k n σ} {μ : Nat} (h : c.FullTail μ) : c.ControllableIn μ :=
  c.controllable_of_single h.2

/-- The codeword of a message, from any closed stream that starts with it. -/
theorem encode_of_closed {c : StateSpace k n σ} (hk : 0 < k) {μ h : Nat} (hμ : 1 ≤ μ) (hh : 1 ≤ h) (hf : c.FullTail μ)
    (t : Terminated k n σ) (ht : t = ⟨c, μ, h, .zeroTermination⟩)
    (u : BVec t.dimension) (tail out : List (ZMod 2)) (hl : tail.length = μ * k)
    (he : c.encodeWithState (List.ofFn u ++ tail) 0 = some (out, 0)) : t.encode u = some out := by
  obtain ⟨tail', out', h1, h2, h3, h4, h5, h6, h7⟩ := zeroTermination_spec c hk μ h hμ hh hf.controllable t ht u
  subst ht
  revert u
  change ∀ u : BVec (h * k), _
  intro u he h1 h3 h4 h5
  obtain ⟨tl, rfl⟩ := exists_flat hk tail (by rw [hl]; simp)
  obtain ⟨tl', rfl⟩ := exists_flat hk tail' (by rw [h2]; simp)
  rw [flat_length] at hl h2
  have hl := Nat.eq_of_mul_eq_mul_right hk hl
  have hl' := Nat.eq_of_mul_eq_mul_right hk h2
  rw [← flat_blocks, ← flat_append, encodeWithState_flat c hk, Option.some.injEq, Prod.mk.injEq] at he h4
  have := c.tail_unique hk μ hf.1 hf.2 (c.run 0 (blocks h u)) tl tl' hl hl' (by
    rw [← run_append, ← run_append, he.2, h4.2])
  subst this
  rw [h5, ← he.1, ← h4.1]

/-! ### nearest codeword, zero-termination -/

section generic
variable {K Z : Type} [AddCommGroup K] [LinearOrder K] [IsOrderedAddMonoid K]

theorem zero_codeword_generic (t : Terminated k n σ) (hmode : t.mode = .zeroTermination) (hk : 0 < k) (hn : 0 < n)
    (hh : 1 ≤ t.numBlocks) (hμ : 1 ≤ t.memoryOrder) (hf : t.code.FullTail t.memoryOrder)
    (hp : t.code.finiteStateMachine.NoParallel) (metric : Nat → List Z → K) (φ : ZMod 2 → Z → K)
    (hφ : Bitwise n metric φ) (r : Fin t.length → Z) :
    ∃ (u' : BVec t.dimension) (v' : BVec t.length),
      blockwise t.length (t.viterbiBlock metric) (List.ofFn r) = some (List.ofFn u') ∧ t.encode u' = some (List.ofFn v') ∧
      ∀ (u : BVec t.dimension) (v : BVec t.length), t.encode u = some (List.ofFn v) →
        ∑ i, φ (v' i) (r i) ≤ ∑ i, φ (v i) (r i) := by
  obtain ⟨u', tail, v', h1, h2, h3, h4⟩ := zero_generic t hmode hk hn hμ hp metric φ hφ r
  have ht : t = ⟨t.code, t.memoryOrder, t.numBlocks, .zeroTermination⟩ := by rw [← hmode]
  refine ⟨u', v', h1, encode_of_closed hk hμ hh hf t ht u' tail _ h2 h3, ?_⟩
  intro u v hv
  obtain ⟨tail', out', _, _, _, g4, g5, _⟩ := zeroTermination_spec t.code hk _ _ hμ hh hf.controllable t ht u
  rw [g5, Option.some.injEq] at hv
  rw [hv] at g4
  exact h4 _ v g4

end generic

/-- Zero-termination of a `ConvolutionalCode` whose constraint lengths are all equal, hard input: for every received word the decoder
returns a message whose codeword is at least Hamming distance from it. -/
theorem C89_zero_nearest (c : ConvCode k n) (hk : 0 < k) (hn : 0 < n) (hν : ∀ i, c.constraintLength i = c.memoryOrder)
    (hμ : 1 ≤ c.memoryOrder) (h : Nat) (hh : 1 ≤ h) (t : Terminated k n c.degree)
    (ht : t = ⟨c.stateSpace, c.memoryOrder, h, .zeroTermination⟩) (r : BVec t.length) :
    ∃ (u' : BVec t.dimension) (v' : BVec t.length),
      t.viterbiHard (List.ofFn r) = some (List.ofFn u') ∧ t.encode u' = some (List.ofFn v') ∧
      ∀ (u : BVec t.dimension) (v : BVec t.length), t.encode u = some (List.ofFn v) → hammingDist r v' ≤ hammingDist r v := by
  subst ht
  obtain ⟨u', v', h1, h2, h3⟩ := zero_codeword_generic ⟨c.stateSpace, c.memoryOrder, h, .zeroTermination⟩ rfl hk hn hh hμ
    (c.fullTail hν) ((C89_no_parallel c).mpr fun i => by rw [hν i]; exact hμ) _ _ (hardMetric_bitwise n) r
  refine ⟨u', v', h1, h2, fun u v hv => ?_⟩
  have := h3 u v hv
  rw [hamming_sum, hamming_sum] at this
  exact_mod_cast this

/-- The same for every `LowRateConvolutionalCode` with memory. -/
theorem C89_zero_nearest_low_rate (c : LowRate n) (hn : 0 < n) (hμ : 1 ≤ c.degree) (h : Nat) (hh : 1 ≤ h)
    (t : Terminated 1 n c.degree) (ht : t = ⟨c.stateSpace, c.degree, h, .zeroTermination⟩) (r : BVec t.length) :
    ∃ (u' : BVec t.dimension) (v' : BVec t.length),
      t.viterbiHard (List.ofFn r) = some (List.ofFn u') ∧ t.encode u' = some (List.ofFn v') ∧
      ∀ (u : BVec t.dimension) (v : BVec t.length), t.encode u = some (List.ofFn v) → hammingDist r v' ≤ hammingDist r v := by
  subst ht
  obtain ⟨u', v', h1, h2, h3⟩ := zero_codeword_generic ⟨c.stateSpace, c.degree, h, .zeroTermination⟩ rfl (by norm_num) hn hh hμ
    c.fullTail (C89_no_parallel_low_rate c hμ) _ _ (hardMetric_bitwise n) r
  refine ⟨u', v', h1, h2, fun u v hv => ?_⟩
  have := h3 u v hv
  rw [hamming_sum, hamming_sum] at this
  exact_mod_cast this

/-- Soft input, log-likelihood ratios of a memoryless channel: a maximum-likelihood decoder. -/
theorem C89_zero_ml (c : ConvCode k n) (hk : 0 < k) (hn : 0 < n) (hν : ∀ i, c.constraintLength i = c.memoryOrder)
    (hμ : 1 ≤ c.memoryOrder) (h : Nat) (hh : 1 ≤ h) (t : Terminated k n c.degree)
    (ht : t = ⟨c.stateSpace, c.memoryOrder, h, .zeroTermination⟩) (p : Fin t.length → ZMod 2 → ℝ)
    (hpos : ∀ i b, 0 < p i b) :
    ∃ (u' : BVec t.dimension) (v' : BVec t.length),
      t.viterbiSoft (List.ofFn fun i => Real.log (p i 0 / p i 1)) = some (List.ofFn u') ∧ t.encode u' = some (List.ofFn v') ∧
      ∀ (u : BVec t.dimension) (v : BVec t.length), t.encode u = some (List.ofFn v) → ∏ i, p i (v i) ≤ ∏ i, p i (v' i) := by
  subst ht
  obtain ⟨u', v', h1, h2, h3⟩ := zero_codeword_generic ⟨c.stateSpace, c.memoryOrder, h, .zeroTermination⟩ rfl hk hn hh hμ
    (c.fullTail hν) ((C89_no_parallel c).mpr fun i => by rw [hν i]; exact hμ) _ _ (softMetric_bitwise n)
    (fun i => Real.log (p i 0 / p i 1))
  exact ⟨u', v', h1, h2, fun u v hv => soft_likelihood p hpos v v' (h3 u v hv)⟩

/-! ### error correction -/

theorem count_zipWith {N : Nat} (a b : BVec N) : (List.zipWith (· + ·) (List.ofFn a) (List.ofFn b)).count 1 = hammingDist a b := by
  rw [List.count_eq_countP, hammingDist, Finset.card_filter]
  have : List.zipWith (· + ·) (List.ofFn a) (List.ofFn b) = List.ofFn fun i => a i + b i := by
    apply List.ext_getElem
    · simp
    · intro i h1 h2; simp
  rw [this, List.countP_eq_length_filter]
  have key : ∀ l : List (Fin N), ((l.map fun i : Fin N => a i + b i).filter fun x => x == 1).length =
      (l.map fun i : Fin N => if a i ≠ b i then 1 else 0).sum := by
    intro l
    induction l with
    | nil => rfl
    | cons i l ih =>
      rw [List.map_cons, List.map_cons, List.sum_cons, ← ih, List.filter_cons]
      by_cases h : a i = b i
      · have : a i + b i = 0 := by rw [h, CharTwo.add_self_eq_zero]
        rw [this, if_neg (by decide), if_neg (by simp [h]), zero_add]
      · have : a i + b i = 1 := (by decide : ∀ x y : ZMod 2, ¬x = y → x + y = 1) _ _ h
        rw [if_pos h, this]
        simp; omega
  have := key (List.finRange N)
  rw [← List.ofFn_eq_map, ← List.ofFn_eq_map, List.sum_ofFn] at this
  exact this

theorem zero_corrects (c : StateSpace k n σ) (hk : 0 < k) (hn : 0 < n) (μ h : Nat) (hμ : 1 ≤ μ) (hh : 1 ≤ h)
    (hc : c.ControllableIn μ) (hp : c.finiteStateMachine.NoParallel)
    (hinj : ∀ input out, c.encodeWithState input 0 = some (out, 0) → 1 ∈ input → 1 ∈ out)
    (fuel d : Nat) (hd : c.freeDistance fuel = some (some d)) (t : Terminated k n σ) (ht : t = ⟨c, μ, h, .zeroTermination⟩)
    (u : BVec t.dimension) (v r : BVec t.length) (hv : t.encode u = some (List.ofFn v)) (he : 2 * hammingDist r v < d) :
    t.viterbiHard (List.ofFn r) = some (List.ofFn u) := by
  have hmode : t.mode = .zeroTermination := by rw [ht]
  have hcode : t.code = c := by rw [ht]
  have hm : t.memoryOrder = μ := by rw [ht]
  obtain ⟨u', tail', v', h1, h2, h3, h4⟩ := C89_zero_hard t hmode hk hn (by rw [hm]; exact hμ) (by rw [hcode]; exact hp) r
  obtain ⟨tail, out, _, g2, _, g4, g5, _⟩ := zeroTermination_spec c hk μ h hμ hh hc t ht u
  rw [g5, Option.some.injEq] at hv
  subst hv
  rw [hcode] at h3 h4
  rw [hm] at h2
  have hlen : (List.ofFn u' ++ tail').length = (List.ofFn u ++ tail).length := by simp [h2, g2]
  have hvv : v' = v := by
    by_contra hne
    have hdist := C66_distance c fuel d hd _ _ _ _ hlen h3 g4 (fun e => hne (List.ofFn_injective e))
    rw [count_zipWith] at hdist
    have h5 := h4 _ v g4
    have h6 := hammingDist_triangle v' r v
    rw [hammingDist_comm v' r] at h6
    omega
  subst hvv
  have hs := C60_linear c _ _ hlen 0 0 0 0 _ _ h3 g4
  rw [add_zero] at hs
  have hzero : 1 ∉ List.zipWith (· + ·) (List.ofFn u' ++ tail') (List.ofFn u ++ tail) := by
    intro h1m
    have := hinj _ _ hs h1m
    rw [← List.count_pos_iff, count_zipWith, hammingDist_self] at this
    omega
  rw [h1, Option.some.injEq]
  have heq : List.ofFn u' ++ tail' = List.ofFn u ++ tail := by
    apply List.ext_getElem hlen
    intro i i1 i2
    by_contra hne
    apply hzero
    have : (List.zipWith (· + ·) (List.ofFn u' ++ tail') (List.ofFn u ++ tail))[i]'(by simp at i1 i2 ⊢; omega) = 1 := by
      rw [List.getElem_zipWith]
      exact (by decide : ∀ x y : ZMod 2, ¬x = y → x + y = 1) _ _ hne
    rw [← this]
    exact List.getElem_mem _
  exact (List.append_inj heq (by simp)).1

theorem StateSpace.outs_zero (c : StateSpace k n σ) (h : Nat) : c.outs 0 (List.replicate h (0 : BVec k)) = List.replicate h 0 := by
  induction h with
  | zero => rfl
  | succ h ih =>
    rw [List.replicate_succ, outs]
    have e1 : c.next 0 0 = 0 := by rw [next]; funext s; simp [vecMat]
    have e2 : c.output 0 0 = 0 := by rw [output]; funext s; simp [vecMat]
    rw [e1, e2, ih, List.replicate_succ]

theorem mem_flat {m : Nat} (vs : List (BVec m)) (x : ZMod 2) : x ∈ flat vs ↔ ∃ v ∈ vs, ∃ i, v i = x := by
  simp [flat, List.mem_flatten, List.mem_ofFn]

/-- An encoder whose transfer matrix has independent rows has no non-zero closed stream of all-zero output. -/
theorem injective_of_series (c : StateSpace k n σ) (hk : 0 < k) (G : Fin k → Fin n → PowerSeries (ZMod 2))
    (hE : ∀ (U : Fin k → PowerSeries (ZMod 2)) (T : Nat), c.encode (streamOf U T) = some (streamOf (fun j => ∑ i, U i * G i j) T))
    (hG : ∀ U : Fin k → PowerSeries (ZMod 2), (∀ j, ∑ i, U i * G i j = 0) → ∀ i, U i = 0)
    (input out : List (ZMod 2)) (h : c.encodeWithState input 0 = some (out, 0)) (h1 : 1 ∈ input) : 1 ∈ out := by
  by_contra hout
  have hm : input.length % k = 0 := by
    by_contra hc
    rw [(C60_accepts c hk input 0).1 hc] at h
    exact absurd h (by simp)
  obtain ⟨us, rfl⟩ := exists_flat hk input hm
  rw [encodeWithState_flat c hk, Option.some.injEq, Prod.mk.injEq] at h
  obtain ⟨rfl, hr⟩ := h
  let U : Fin k → PowerSeries (ZMod 2) := fun i => PowerSeries.mk fun t => (us.getD t 0) i
  have hstream : ∀ T', streamOf U (us.length + T') = flat (us ++ List.replicate T' 0) := by
    intro T'
    rw [streamOf_eq]
    congr 1
    apply List.ext_getElem
    · simp
    · intro t t1 t2
      rw [List.getElem_ofFn]
      funext i
      simp only [U, PowerSeries.coeff_mk]
      by_cases ht : t < us.length
      · rw [List.getElem_append_left ht, List.getD_eq_getElem?_getD, List.getElem?_eq_getElem ht]; rfl
      · rw [List.getElem_append_right (by omega), List.getElem_replicate, List.getD_eq_getElem?_getD,
          List.getElem?_eq_none (by omega)]; rfl
  have hV : ∀ j, ∑ i, U i * G i j = 0 := by
    intro j
    ext t
    rw [map_zero]
    by_contra hne
    have hone : PowerSeries.coeff t (∑ i, U i * G i j) = 1 := (by decide : ∀ x : ZMod 2, x ≠ 0 → x = 1) _ hne
    have e := hE U (us.length + (t + 1))
    rw [hstream, encode, encodeWithState_flat c hk, Option.map_some, outs_append, hr, outs_zero, Option.some.injEq] at e
    have hmem : (1 : ZMod 2) ∈ streamOf (fun j => ∑ i, U i * G i j) (us.length + (t + 1)) := by
      rw [streamOf_eq, mem_flat]
      refine ⟨_, List.mem_ofFn.mpr ⟨⟨t, by omega⟩, rfl⟩, j, hone⟩
    rw [← e] at hmem
    change 1 ∈ flat (c.outs 0 us ++ List.replicate (t + 1) 0) at hmem
    rw [flat_append, List.mem_append] at hmem
    rcases hmem with hmem | hmem
    · exact hout hmem
    · rw [mem_flat] at hmem
      obtain ⟨v, hv, i, hi⟩ := hmem
      rw [List.eq_of_mem_replicate hv] at hi
      exact zero_ne_one hi
  have hU := hG U hV
  rw [mem_flat] at h1
  obtain ⟨u, hu, i, hi⟩ := h1
  obtain ⟨t, ht, rfl⟩ := List.mem_iff_getElem.mp hu
  have := congrArg (PowerSeries.coeff t) (hU i)
  simp only [U, PowerSeries.coeff_mk, map_zero] at this
  rw [List.getD_eq_getElem?_getD, List.getElem?_eq_getElem ht] at this
  change us[t] i = 0 at this
  rw [hi] at this
  exact absurd this (by decide)

/-- Zero-termination of a `ConvolutionalCode`: whatever the message, the decoder recovers it from any received word with fewer than half
`free_distance()` errors.  (The hypothesis `hinj`: no input stream with a one in it that returns to the zero state has an all-zero
output.) -/
theorem C89_corrects (c : ConvCode k n) (hk : 0 < k) (hn : 0 < n) (hν : ∀ i, 1 ≤ c.constraintLength i) (h : Nat) (hh : 1 ≤ h)
    (hμ : 1 ≤ c.memoryOrder)
    (hinj : ∀ input out, c.stateSpace.encodeWithState input 0 = some (out, 0) → 1 ∈ input → 1 ∈ out)
    (fuel d : Nat) (hd : c.stateSpace.freeDistance fuel = some (some d)) (t : Terminated k n c.degree)
    (ht : t = ⟨c.stateSpace, c.memoryOrder, h, .zeroTermination⟩)
    (u : BVec t.dimension) (v r : BVec t.length) (hv : t.encode u = some (List.ofFn v)) (he : 2 * hammingDist r v < d) :
    t.viterbiHard (List.ofFn r) = some (List.ofFn u) :=
  zero_corrects c.stateSpace hk hn c.memoryOrder h hμ hh c.controllable ((C89_no_parallel c).mpr hν) hinj fuel d hd t ht u v r hv he

/-- A rate `1/n` encoder with a non-zero generator polynomial has no non-zero closed stream of all-zero output. -/
theorem ConvCode.injective_rate_one (c : ConvCode 1 n) (hq : (toPoly (c.feedback 0)).coeff 0 = 1) (hg : ∃ j, c.feedforward 0 j ≠ 0)
    (input out : List (ZMod 2)) (h : c.stateSpace.encodeWithState input 0 = some (out, 0)) (h1 : 1 ∈ input) : 1 ∈ out := by
  have hq' : ∀ i, (toPoly (c.feedback i)).coeff 0 = 1 := fun i => by rw [Subsingleton.elim i 0]; exact hq
  obtain ⟨G, _, hG, hE⟩ := C61_convolutional_code c (by norm_num) hq'
  refine injective_of_series c.stateSpace (by norm_num) G hE ?_ input out h h1
  intro U hU i
  rw [Subsingleton.elim i 0]
  obtain ⟨j, hj⟩ := hg
  have h0 := hU j
  rw [Fin.sum_univ_one] at h0
  have h1 := congrArg (fun x => (toPoly (c.feedback 0) : PowerSeries (ZMod 2)) * x) h0
  simp only [mul_zero] at h1
  rw [mul_left_comm, hG 0 j] at h1
  rcases mul_eq_zero.mp h1 with h2 | h2
  · exact h2
  · exfalso
    apply hj
    rw [Polynomial.coe_eq_zero_iff] at h2
    exact toPoly_eq_zero.mp h2

/-- The same for `k = 1` without side conditions on paths: the feedback polynomial has constant term 1, some generator polynomial is not
zero and the memory is positive. -/
theorem C89_corrects_rate_one (c : ConvCode 1 n) (hn : 0 < n) (hq : (toPoly (c.feedback 0)).coeff 0 = 1)
    (hg : ∃ j, c.feedforward 0 j ≠ 0) (hν : 1 ≤ c.constraintLength 0) (h : Nat) (hh : 1 ≤ h)
    (fuel d : Nat) (hd : c.stateSpace.freeDistance fuel = some (some d)) (t : Terminated 1 n c.degree)
    (ht : t = ⟨c.stateSpace, c.memoryOrder, h, .zeroTermination⟩)
    (u : BVec t.dimension) (v r : BVec t.length) (hv : t.encode u = some (List.ofFn v)) (he : 2 * hammingDist r v < d) :
    t.viterbiHard (List.ofFn r) = some (List.ofFn u) := by
  refine C89_corrects c (by norm_num) hn (fun i => by rw [Subsingleton.elim i 0]; exact hν) h hh ?_
    (c.injective_rate_one hq hg) fuel d hd t ht u v r hv he
  have : c.constraintLength 0 ≤ c.memoryOrder :=
    (ConvCode.foldl_max_nat _ 0).2 _ (List.mem_map.mpr ⟨0, List.mem_finRange 0, rfl⟩)
  omega

/-- A `LowRateConvolutionalCode` with memory has no non-zero closed stream of all-zero output. -/
theorem LowRate.injective (c : LowRate n) (hν : 1 ≤ c.degree) (input out : List (ZMod 2))
    (h : c.stateSpace.encodeWithState input 0 = some (out, 0)) (h1 : 1 ∈ input) : 1 ∈ out := by
  have hg : ∃ j, c.gRow j ≠ 0 := by
    by_contra hc
    push Not at hc
    have : c.degree = 0 := by
      rw [LowRate.degree]
      have : ∀ l : List (Fin n), (l.map fun j : Fin n => BP.degree (c.gRow j)).foldl max 0 = 0 := by
        intro l
        induction l with
        | nil => rfl
        | cons j l ih =>
          rw [List.map_cons, List.foldl_cons, hc j]
          exact ih
      rw [this]; rfl
    omega
  refine injective_of_series c.stateSpace (by norm_num) (fun _ j => (toPoly (c.gRow j) : PowerSeries (ZMod 2))) ?_ ?_ input out h h1
  · intro U T
    have := (C61_low_rate c).2 (U 0) T
    have e : (fun _ : Fin 1 => U 0) = U := by funext i; rw [Subsingleton.elim i 0]
    rw [e] at this
    rw [this]
    simp
  · intro U hU i
    rw [Subsingleton.elim i 0]
    obtain ⟨j, hj⟩ := hg
    have h0 := hU j
    rw [Fin.sum_univ_one] at h0
    rcases mul_eq_zero.mp h0 with h2 | h2
    · exact h2
    · exfalso
      apply hj
      rw [Polynomial.coe_eq_zero_iff] at h2
      exact toPoly_eq_zero.mp h2

/-- The same for `LowRateConvolutionalCode`. -/
theorem C89_corrects_low_rate (c : LowRate n) (hn : 0 < n) (hν : 1 ≤ c.degree) (h : Nat) (hh : 1 ≤ h)
    (fuel d : Nat) (hd : c.stateSpace.freeDistance fuel = some (some d)) (t : Terminated 1 n c.degree)
    (ht : t = ⟨c.stateSpace, c.degree, h, .zeroTermination⟩)
    (u : BVec t.dimension) (v r : BVec t.length) (hv : t.encode u = some (List.ofFn v)) (he : 2 * hammingDist r v < d) :
    t.viterbiHard (List.ofFn r) = some (List.ofFn u) :=
  zero_corrects c.stateSpace (by norm_num) hn c.degree h hν hh (c.stateSpace.controllable_of_le le_rfl)
    (C89_no_parallel_low_rate c hν) (c.injective hν) fuel d hd t ht u v r hv he

/-- Direct truncation: a message is recovered from every received word that is closer to its codeword than half the distance to any
other codeword. -/
theorem C89_direct_corrects (t : Terminated k n σ) (hmode : t.mode = .directTruncation) (hk : 0 < k) (hn : 0 < n)
    (hh : 0 < t.numBlocks) (hp : t.code.finiteStateMachine.NoParallel) (d : Nat)
    (hd : ∀ (u u' : BVec t.dimension) (v v' : BVec t.length), u ≠ u' → t.encode u = some (List.ofFn v) →
      t.encode u' = some (List.ofFn v') → d ≤ hammingDist v v')
    (u : BVec t.dimension) (v r : BVec t.length) (hv : t.encode u = some (List.ofFn v)) (he : 2 * hammingDist r v < d) :
    t.viterbiHard (List.ofFn r) = some (List.ofFn u) := by
  obtain ⟨u', v', h1, h2, h3⟩ := C89_direct_hard t hmode hk hn hh hp r
  rw [h1, Option.some.injEq]
  by_contra hne
  have hne' : u' ≠ u := fun e => hne (by rw [e])
  have h4 := hd u' u v' v hne' h2 hv
  have h5 := h3 u v hv
  have h6 := hammingDist_triangle v' r v
  rw [hammingDist_comm v' r] at h6
  omega

/-- A stream of several received words is decoded word by word. -/
theorem C89_blockwise (t : Terminated k n σ) (ht : 0 < t.length) (rs : List (BVec t.length)) (us : List (BVec t.dimension))
    (hl : rs.length = us.length)
    (h : ∀ i (h1 : i < rs.length) (h2 : i < us.length), t.viterbiHard (List.ofFn rs[i]) = some (List.ofFn us[i])) :
    t.viterbiHard (rs.map fun r : BVec t.length => List.ofFn r).flatten =
      some (us.map fun u : BVec t.dimension => List.ofFn u).flatten := by
  have hb : ∀ r : BVec t.length, t.viterbiHard (List.ofFn r) = t.viterbiBlock (hardMetric n) (List.ofFn r) := by
    intro r
    cases hx : t.viterbiBlock (hardMetric n) (List.ofFn r) with
    | some o => exact blockwise_one _ ht _ _ (by simp) _ hx
    | none =>
      rw [Terminated.viterbiHard, blockwise, if_neg (by omega), if_neg (by simp)]
      have : chunks t.length (List.ofFn r) = [List.ofFn r] := by
        have := chunks_flatten t.length ht [List.ofFn r] (by simp)
        simpa using this
      rw [this, List.mapM_cons, hx]; rfl
  have := blockwise_flatten t.length ht (t.viterbiBlock (hardMetric n)) (fun l => (t.viterbiBlock (hardMetric n) l).getD [])
    (rs.map fun r : BVec t.length => List.ofFn r) (by simp) (by
      intro l hl'
      obtain ⟨r, hr, rfl⟩ := List.mem_map.mp hl'
      obtain ⟨i, hi, rfl⟩ := List.mem_iff_getElem.mp hr
      rw [← hb, h i hi (by omega)]; rfl)
  rw [Terminated.viterbiHard, this, List.map_map]
  congr 2
  apply List.ext_getElem
  · simp [hl]
  · intro i h1 h2
    simp only [List.length_map] at h1 h2
    simp only [List.getElem_map, Function.comp]
    rw [← hb, h i h1 h2]; rfl

/-- Tail-biting codes are refused. -/
theorem C89_tail_biting_refused (t : Terminated k n σ) (hmode : t.mode = .tailBiting) (r : List (ZMod 2)) :
    t.viterbiBlock (hardMetric n) r = none := by
  rw [Terminated.viterbiBlock]
  split
  · rfl
  · simp [Terminated.viterbiPostProcess, hmode]

/-- A finding: when the constraint lengths differ, a zero-terminated code does not contain all the closed paths of its trellis, and the
decoder searches all of them.  `ConvolutionalCode([[3, 1, 2], [4, 7, 6]])`, one block: for the received word `000110101` the decoder
returns the message `00`, whose codeword is at distance 4, although the codeword of `11` is at distance 2. -/
def exampleUnequal : ConvCode 2 3 := ConvCode.ofFeedforward ![![0b11, 0b1, 0b10], ![0b100, 0b111, 0b110]]

def exampleUnequalTerm : Terminated 2 3 3 := ⟨exampleUnequal.stateSpace, 2, 1, .zeroTermination⟩

theorem C89_unequal_not_nearest :
    exampleUnequal.memoryOrder = 2 ∧ (List.ofFn exampleUnequal.constraintLength) = [1, 2] ∧
    exampleUnequalTerm.viterbiHard [0, 0, 0, 1, 1, 0, 1, 0, 1] = some [0, 0] ∧
    exampleUnequalTerm.encode (fun _ => 0) = some [0, 0, 0, 0, 0, 0, 0, 0, 0] ∧
    exampleUnequalTerm.encode (fun _ => 1) = some [1, 0, 0, 1, 1, 0, 1, 1, 1] ∧
    hammingDist ![(0 : ZMod 2), 0, 0, 1, 1, 0, 1, 0, 1] ![0, 0, 0, 0, 0, 0, 0, 0, 0] = 4 ∧
    hammingDist ![(0 : ZMod 2), 0, 0, 1, 1, 0, 1, 0, 1] ![1, 0, 0, 1, 1, 0, 1, 1, 1] = 2 := by decide +kernel

/-- A concrete case: `ConvolutionalCode([[0o7, 0o5]])` (free distance 5), three blocks, zero-termination: the message `110` and a received
word with two errors, in which the decoder corrects. -/
def exampleTerm75 : Terminated 1 2 2 := ⟨exampleConv75.stateSpace, 2, 3, .zeroTermination⟩

example : exampleConv75.memoryOrder = 2 ∧ exampleConv75.stateSpace.freeDistance 30 = some (some 5) ∧
    (∃ j, exampleConv75.feedforward 0 j ≠ 0) ∧ 1 ≤ exampleConv75.constraintLength 0 ∧
    exampleTerm75.encode ![1, 1, 0] = some [1, 1, 0, 1, 0, 1, 1, 1, 0, 0] ∧
    exampleTerm75.viterbiHard [1, 0, 0, 1, 0, 1, 1, 0, 0, 0] = some [1, 1, 0] ∧
    (Terminated.mk exampleConv75.stateSpace 2 3 .directTruncation : Terminated 1 2 2).viterbiHard [1, 1, 0, 1, 1, 1] =
      some [1, 1, 0] := by decide +kernel

example : (toPoly (exampleConv75.feedback 0)).coeff 0 = 1 := by
  show (toPoly 1).coeff 0 = 1
  rw [toPoly_one]; simp

/-- The two hard-input tests of the library (Lin.Costello.04, p. 522; Abrantes.10, p. 307). -/
example : (Terminated.mk (ConvCode.ofFeedforward ![![0b011, 0b101, 0b111]] : ConvCode 1 3).stateSpace 2 5 .zeroTermination :
    Terminated 1 3 2).viterbiHard [1, 1, 0, 1, 1, 0, 1, 1, 0, 1, 1, 1, 0, 1, 0, 1, 0, 1, 1, 0, 1] = some [1, 1, 0, 0, 1] ∧
    (Terminated.mk exampleConv75.stateSpace 2 10 .directTruncation : Terminated 1 2 2).viterbiHard
      [1, 1, 0, 0, 0, 0, 0, 0, 1, 0, 0, 1, 0, 0, 0, 1, 0, 1, 1, 1] = some [1, 0, 1, 1, 1, 0, 1, 1, 0, 0] := by decide +kernel

end Komm
