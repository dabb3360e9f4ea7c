import Verif.Lemmas.BCJR
import Verif.Props.C89_Corrects
/-! C90: `BCJRDecoder` for terminated convolutional codes, in exact arithmetic. -/
namespace Komm
open StateSpace
open scoped BigOperators
variable {k n σ : Nat}

/-- Position `b · k + i` of a message, mapped to position `b · k + (k - 1 - i)`: the bits of every block of `k` in reverse order. -/
def reverseInBlocks (h k : Nat) (x : Fin (h * k)) : Fin (h * k) :=
  finProdFinEquiv ((finProdFinEquiv.symm x).1, (finProdFinEquiv.symm x).2.rev)

/-- The log-likelihood ratio of bit `x` of the message, when message `u` has the weight `W u`. -/
noncomputable def llr {N : Nat} (W : BVec N → ℝ) (x : Fin N) : ℝ := Real.log ((∑ u with u x = 0, W u) / (∑ u with u x = 1, W u))

theorem flatten_rows {α β : Type} {h k : Nat} (rows : List β) (hl : rows.length = h)
    (F : β → List α) (val : Fin h → Fin k → α)
    (hr : ∀ t : Fin h, ∃ p, rows[(t : Nat)]? = some p ∧ F p = List.ofFn fun i : Fin k => val t i) :
    (rows.map fun row : β => F row).flatten =
      List.ofFn fun x : Fin (h * k) => val (finProdFinEquiv.symm x).1 (finProdFinEquiv.symm x).2 := by
  rw [List.ofFn_mul]
  congr 1
  apply List.ext_getElem
  · simp [hl]
  · intro t h1 h2
    simp only [List.length_map] at h1
    obtain ⟨p, hp1, hp2⟩ := hr ⟨t, by omega⟩
    rw [List.getElem?_eq_getElem h1, Option.some.injEq] at hp1
    rw [List.getElem_map, hp1, List.getElem_ofFn]
    simp only [hp2]
    congr 1
    funext i
    have e : ∀ y : Fin (h * k), y = finProdFinEquiv ((⟨t, by omega⟩ : Fin h), i) →
        val ⟨t, by omega⟩ i = val (finProdFinEquiv.symm y).1 (finProdFinEquiv.symm y).2 := by
      rintro y rfl
      rw [Equiv.symm_apply_apply]
    apply e
    apply Fin.ext
    simp [finProdFinEquiv, mul_comm, add_comm]

theorem blocks_eq_ofFn {T : Nat} (u : BVec (T * k)) :
    blocks T u = List.ofFn fun t : Fin T => fun i : Fin k => u (finProdFinEquiv (t, i)) := rfl

theorem exp_sum_eq {N : Nat} (v : BVec N) (l : Fin N → ℝ) :
    (List.zipWith (fun (b : ZMod 2) (z : ℝ) => 0.5 * ((-1) ^ b.val * z)) (List.ofFn v) (List.ofFn l)).sum =
      (∑ j, (-1) ^ (v j).val * l j) / 2 := by
  rw [zipWith_ofFn_sum, ← Finset.mul_sum]
  norm_num
  ring

/-- Direct truncation. -/
theorem bcjr_direct (t : Terminated k n σ) (hmode : t.mode = .directTruncation) (hk : 0 < k) (hn : 0 < n)
    (hh : 0 < t.numBlocks) (hp : t.code.finiteStateMachine.NoParallel) (l : Fin t.length → ℝ)
    (v : BVec t.dimension → BVec t.length) (hv : ∀ u, t.encode u = some (List.ofFn (v u))) :
    t.bcjrSoft (List.ofFn l) = some (List.ofFn fun x : Fin t.dimension =>
      some ((llr (fun u => Real.exp ((∑ j, (-1) ^ (v u j).val * l j) / 2)) (reverseInBlocks t.numBlocks k x) : ℝ) : EReal)) := by
  obtain ⟨c, μ, h, mode⟩ := t
  simp only at hmode
  subst hmode
  revert l v
  change ∀ (l : Fin (h * n) → ℝ) (v : BVec (h * k) → BVec (h * n)), _
  intro l v hv
  change ∀ u : BVec (h * k), _ at hv
  have henc : ∀ u : BVec (h * k), flat (c.outs 0 (blocks h u)) = List.ofFn (v u) := by
    intro u
    have := hv u
    rw [Terminated.encode] at this
    simp only [Terminated.preProcessInput, Terminated.initialState, Option.bind_some] at this
    rw [← flat_blocks h u, encodeWithState_flat c hk, Option.map_some, Option.some.injEq] at this
    exact this
  let E : BVec (h * k) ≃ (Fin h → BVec k) :=
    (Equiv.arrowCongr finProdFinEquiv.symm (Equiv.refl (ZMod 2))).trans (Equiv.curry _ _ _)
  have hE : ∀ (u : BVec (h * k)) (t : Fin h) (i : Fin k), E u t i = u (finProdFinEquiv (t, i)) := fun u t i => rfl
  have hEb : ∀ u : BVec (h * k), List.ofFn (E u) = blocks h u := fun u => rfl
  set final : Fin (2 ^ σ) → ℝ := fun _ => 1 / ((2 ^ σ : Nat) : ℝ) with hfin
  have hfpos : (0 : ℝ) < 1 / ((2 ^ σ : Nat) : ℝ) := by positivity
  have hw : ∀ u : BVec (h * k), c.pathWeight (List.ofFn l) final (E u) =
      Real.exp ((∑ j, (-1) ^ (v u j).val * l j) / 2) * (1 / ((2 ^ σ : Nat) : ℝ)) := by
    intro u
    rw [pathWeight, hEb, henc, exp_sum_eq]
  have hsum : ∀ (t : Fin h) (i : Fin k) (b : ZMod 2), ∑ ws with ws t i = b, c.pathWeight (List.ofFn l) final ws =
      (∑ u : BVec (h * k) with u (finProdFinEquiv (t, i)) = b, Real.exp ((∑ j, (-1) ^ (v u j).val * l j) / 2)) *
        (1 / ((2 ^ σ : Nat) : ℝ)) := by
    intro t i b
    rw [Finset.sum_filter, ← Equiv.sum_comp E, Finset.sum_filter, Finset.sum_mul]
    apply Finset.sum_congr rfl
    intro u _
    rw [hE, hw]
    split
    · rfl
    · rw [zero_mul]
  have hrow := c.row_bits hk hn hp final (fun _ => hfpos.le) h (List.ofFn l) (by simp)
  have hblock : (Terminated.mk c μ h .directTruncation).bcjrBlock (List.ofFn l) = some (List.ofFn fun x : Fin (h * k) =>
      some ((llr (fun u => Real.exp ((∑ j, (-1) ^ (v u j).val * l j) / 2)) (reverseInBlocks h k x) : ℝ) : EReal)) := by
    rw [Terminated.bcjrBlock, if_neg (by simp; omega)]
    simp only [Terminated.bcjrDistributions, Terminated.bcjrPostProcess, Option.bind_some, Option.map_some, Option.some.injEq]
    rw [flatten_rows (h := h) _ (by simp [Mealy.forwardBackward, chunks_length' n hn h]) _ (fun (t : Fin h) (i : Fin k) =>
        some ((llr (fun u => Real.exp ((∑ j, (-1) ^ (v u j).val * l j) / 2)) (finProdFinEquiv (t, i.rev)) : ℝ) : EReal))]
    · rfl
    · intro t
      obtain ⟨p, hp1, hp2⟩ := hrow t (fun i b => ⟨fun _ _ => b, rfl, mul_pos (Real.exp_pos _) hfpos⟩)
      refine ⟨some p, hp1, ?_⟩
      rw [Terminated.rowBits, hp2]
      congr 1
      funext i
      rw [hsum, hsum, mul_div_mul_right _ _ hfpos.ne']
      rfl
  rw [Terminated.bcjrSoft]
  exact blockwise_one _ (Nat.mul_pos hh hn) _ _ (by simp) _ hblock

/-- Zero-termination, when the tail is determined by the message. -/
theorem bcjr_zero (t : Terminated k n σ) (hmode : t.mode = .zeroTermination) (hk : 0 < k) (hn : 0 < n)
    (hh : 1 ≤ t.numBlocks) (hμ : 1 ≤ t.memoryOrder) (hf : t.code.FullTail t.memoryOrder)
    (hp : t.code.finiteStateMachine.NoParallel) (l : Fin t.length → ℝ)
    (v : BVec t.dimension → BVec t.length) (hv : ∀ u, t.encode u = some (List.ofFn (v u))) :
    t.bcjrSoft (List.ofFn l) = some (List.ofFn fun x : Fin t.dimension =>
      some ((llr (fun u => Real.exp ((∑ j, (-1) ^ (v u j).val * l j) / 2)) (reverseInBlocks t.numBlocks k x) : ℝ) : EReal)) := by
  obtain ⟨c, μ, h, mode⟩ := t
  simp only at hmode hh hμ hf
  subst hmode
  revert l v
  change ∀ (l : Fin ((h + μ) * n) → ℝ) (v : BVec (h * k) → BVec ((h + μ) * n)), _
  intro l v hv
  change ∀ u : BVec (h * k), _ at hv
  let E : BVec (h * k) → (Fin (h + μ) → BVec k) := fun u =>
    Fin.append (fun (t : Fin h) (i : Fin k) => u (finProdFinEquiv (t, i)))
      (fun (t : Fin μ) (i : Fin k) => vecMat u (c.tailProjector h μ) (finProdFinEquiv (t, i)))
  have hE : ∀ (u : BVec (h * k)) (t : Fin h) (i : Fin k), E u (Fin.castAdd μ t) i = u (finProdFinEquiv (t, i)) := by
    intro u t i
    simp only [E, Fin.append_left]
  have hEb : ∀ u : BVec (h * k), List.ofFn (E u) = blocks h u ++ blocks μ (vecMat u (c.tailProjector h μ)) := by
    intro u
    simp only [E]
    rw [List.ofFn_fin_append]; rfl
  have hrun : ∀ u : BVec (h * k), c.run 0 (List.ofFn (E u)) = 0 := by
    intro u
    rw [hEb, c.zero_tail hf.controllable]
  have henc : ∀ u : BVec (h * k), flat (c.outs 0 (List.ofFn (E u))) = List.ofFn (v u) := by
    intro u
    have := hv u
    rw [Terminated.encode] at this
    simp only [Terminated.preProcessInput, Terminated.initialState] at this
    rw [if_neg (by omega)] at this
    simp only [Option.bind_some] at this
    rw [← flat_blocks h u, ← flat_blocks μ, ← flat_append, ← hEb, encodeWithState_flat c hk, Option.map_some,
      Option.some.injEq] at this
    exact this
  have hinj : Function.Injective E := by
    intro u u' huu
    funext x
    have := congrFun (congrFun huu (Fin.castAdd μ (finProdFinEquiv.symm x).1)) (finProdFinEquiv.symm x).2
    rw [hE, hE, Prod.mk.eta, Equiv.apply_symm_apply] at this
    exact this
  have hsurj : ∀ ws : Fin (h + μ) → BVec k, c.run 0 (List.ofFn ws) = 0 → ∃ u, E u = ws := by
    intro ws hws
    obtain ⟨u, hu1, hu2⟩ := exists_blocks hk h ((List.ofFn ws).take h) (by simp)
    refine ⟨u, ?_⟩
    apply List.ofFn_injective
    have e1 : List.ofFn ws = (List.ofFn ws).take h ++ (List.ofFn ws).drop h := (List.take_append_drop _ _).symm
    rw [hEb, hu1]
    conv_rhs => rw [e1]
    congr 1
    apply c.tail_unique hk μ hf.1 hf.2 (c.run 0 ((List.ofFn ws).take h)) _ _ (blocks_length _ _) (by simp)
    rw [← run_append, ← run_append, ← e1, hws, ← hu1, c.zero_tail hf.controllable]
  set final : Fin (2 ^ σ) → ℝ := fun s => if (s : Nat) = 0 then 1 else 0 with hfin
  have hw : ∀ u : BVec (h * k), c.pathWeight (List.ofFn l) final (E u) =
      Real.exp ((∑ j, (-1) ^ (v u j).val * l j) / 2) := by
    intro u
    rw [pathWeight, henc, exp_sum_eq, hrun, hfin]
    simp only
    rw [if_pos (by rw [code_zero]), mul_one]
  have hw0 : ∀ ws : Fin (h + μ) → BVec k, ws ∉ Set.range E → c.pathWeight (List.ofFn l) final ws = 0 := by
    intro ws hws
    rw [pathWeight, hfin]
    simp only
    rw [if_neg, mul_zero]
    intro h0
    apply hws
    apply hsurj
    apply vecToNat_inj
    rw [vecToNat_zero]
    exact h0
  have hsum : ∀ (t : Fin h) (i : Fin k) (b : ZMod 2),
      ∑ ws with ws (Fin.castAdd μ t) i = b, c.pathWeight (List.ofFn l) final ws =
      (∑ u : BVec (h * k) with u (finProdFinEquiv (t, i)) = b, Real.exp ((∑ j, (-1) ^ (v u j).val * l j) / 2)) := by
    intro t i b
    rw [Finset.sum_filter, Finset.sum_filter]
    symm
    apply Fintype.sum_of_injective E hinj
    · intro ws hws
      rw [hw0 ws hws, ite_self]
    · intro u
      rw [hE, hw]
  have hrow := c.row_bits hk hn hp final (fun s => by simp only [hfin]; split <;> norm_num) (h + μ) (List.ofFn l) (by simp)
  have hblock : (Terminated.mk c μ h .zeroTermination).bcjrBlock (List.ofFn l) = some (List.ofFn fun x : Fin (h * k) =>
      some ((llr (fun u => Real.exp ((∑ j, (-1) ^ (v u j).val * l j) / 2)) (reverseInBlocks h k x) : ℝ) : EReal)) := by
    rw [Terminated.bcjrBlock, if_neg (by simp; omega)]
    simp only [Terminated.bcjrDistributions, Terminated.bcjrPostProcess, Option.bind_some, Option.map_some, Option.some.injEq,
      Terminated.dropTail]
    rw [if_neg (by omega)]
    have hlen : (c.finiteStateMachine.forwardBackward (bcjrMetric n) (chunks n (List.ofFn l)) none (some final)
        (some final)).length = h + μ := by simp [Mealy.forwardBackward, chunks_length' n hn (h + μ)]
    rw [flatten_rows (h := h) _ (by rw [List.length_take, hlen]; omega) _ (fun (t : Fin h) (i : Fin k) =>
        some ((llr (fun u => Real.exp ((∑ j, (-1) ^ (v u j).val * l j) / 2)) (finProdFinEquiv (t, i.rev)) : ℝ) : EReal))]
    · rfl
    · intro t
      obtain ⟨p, hp1, hp2⟩ := hrow (Fin.castAdd μ t) (fun i b => ⟨E (fun _ => b), hE (fun _ => b) t i, (hw (fun _ => b)).symm ▸ Real.exp_pos _⟩)
      refine ⟨some p, ?_, ?_⟩
      · rw [List.getElem?_take_of_lt (by rw [hlen]; omega)]
        exact hp1
      · rw [Terminated.rowBits, hp2]
        congr 1
        funext i
        rw [hsum, hsum]
        rfl
  rw [Terminated.bcjrSoft]
  exact blockwise_one _ (Nat.mul_pos (show 0 < h + μ by omega) hn) _ _ (by simp) _ hblock

/-! ### posterior log-ratios -/

/-- The posterior log-ratio of bit `x` of a message that is uniformly distributed, encoded by `v` and sent over a memoryless channel:
`p j b` is the likelihood of bit `b` in position `j`. -/
noncomputable def posteriorLogRatio {K N : Nat} (v : BVec K → BVec N) (p : Fin N → ZMod 2 → ℝ) (x : Fin K) : ℝ :=
  Real.log ((∑ u with u x = 0, ∏ j, p j (v u j)) / (∑ u with u x = 1, ∏ j, p j (v u j)))

theorem weight_eq {N : Nat} (p : Fin N → ZMod 2 → ℝ) (hpos : ∀ j b, 0 < p j b) :
    ∃ κ : ℝ, 0 < κ ∧ ∀ w : BVec N,
      Real.exp ((∑ j, (-1) ^ (w j).val * Real.log (p j 0 / p j 1)) / 2) = κ * ∏ j, p j (w j) := by
  refine ⟨Real.exp (-(∑ j, (Real.log (p j 0) + Real.log (p j 1))) / 2), Real.exp_pos _, fun w => ?_⟩
  have e : ∏ j, p j (w j) = Real.exp (∑ j, Real.log (p j (w j))) := by
    rw [Real.exp_sum]
    exact Finset.prod_congr rfl fun j _ => (Real.exp_log (hpos j _)).symm
  rw [e, ← Real.exp_add]
  congr 1
  rw [← Finset.sum_neg_distrib, Finset.sum_div, Finset.sum_div, ← Finset.sum_add_distrib]
  apply Finset.sum_congr rfl
  intro j _
  rw [Real.log_div (hpos j 0).ne' (hpos j 1).ne']
  rcases zmod2_cases (w j) with h | h
  · rw [h, ZMod.val_zero]; ring
  · rw [h, show (1 : ZMod 2).val = 1 from rfl]; ring

theorem llr_posterior {K N : Nat} (v : BVec K → BVec N) (p : Fin N → ZMod 2 → ℝ) (hpos : ∀ j b, 0 < p j b) (x : Fin K) :
    llr (fun u => Real.exp ((∑ j, (-1) ^ (v u j).val * Real.log (p j 0 / p j 1)) / 2)) x = posteriorLogRatio v p x := by
  obtain ⟨κ, hκ, h⟩ := weight_eq p hpos
  rw [llr, posteriorLogRatio, Finset.sum_congr rfl fun u _ => h (v u), Finset.sum_congr rfl fun u _ => h (v u),
    ← Finset.mul_sum, ← Finset.mul_sum, mul_div_mul_left _ _ hκ.ne']

theorem reverseInBlocks_one (h : Nat) (x : Fin (h * 1)) : reverseInBlocks h 1 x = x := by
  have : ((finProdFinEquiv.symm x).1, (finProdFinEquiv.symm x).2.rev) = finProdFinEquiv.symm x :=
    Prod.ext rfl (Subsingleton.elim _ _)
  rw [reverseInBlocks, this, Equiv.apply_symm_apply]

/-- Direct truncation, any code without parallel transitions, log-likelihood ratios of a memoryless channel as input: the output is one
finite number per message bit, and the number in position `i` of a block of `k` is the posterior log-ratio of the bit in position
`k - 1 - i` of that block.  (Partial: it should be position `i`; see `C90_bits_swapped`.) -/
theorem C90_direct_partial (t : Terminated k n σ) (hmode : t.mode = .directTruncation) (hk : 0 < k) (hn : 0 < n)
    (hh : 0 < t.numBlocks) (hp : t.code.finiteStateMachine.NoParallel) (v : BVec t.dimension → BVec t.length)
    (hv : ∀ u, t.encode u = some (List.ofFn (v u))) (p : Fin t.length → ZMod 2 → ℝ) (hpos : ∀ j b, 0 < p j b) :
    t.bcjrSoft (List.ofFn fun j => Real.log (p j 0 / p j 1)) = some (List.ofFn fun x : Fin t.dimension =>
      some ((posteriorLogRatio v p (reverseInBlocks t.numBlocks k x) : ℝ) : EReal)) := by
  rw [bcjr_direct t hmode hk hn hh hp _ v hv]
  simp only [llr_posterior v p hpos]

/-- Zero-termination of a `ConvolutionalCode` with equal constraint lengths.  (Partial: as before.) -/
theorem C90_zero_partial (c : ConvCode k n) (hk : 0 < k) (hn : 0 < n) (hν : ∀ i, c.constraintLength i = c.memoryOrder)
    (hμ : 1 ≤ c.memoryOrder) (h : Nat) (hh : 1 ≤ h) (t : Terminated k n c.degree)
    (ht : t = ⟨c.stateSpace, c.memoryOrder, h, .zeroTermination⟩) (v : BVec t.dimension → BVec t.length)
    (hv : ∀ u, t.encode u = some (List.ofFn (v u))) (p : Fin t.length → ZMod 2 → ℝ) (hpos : ∀ j b, 0 < p j b) :
    t.bcjrSoft (List.ofFn fun j => Real.log (p j 0 / p j 1)) = some (List.ofFn fun x : Fin t.dimension =>
      some ((posteriorLogRatio v p (reverseInBlocks t.numBlocks k x) : ℝ) : EReal)) := by
  subst ht
  rw [bcjr_zero ⟨c.stateSpace, c.memoryOrder, h, .zeroTermination⟩ rfl hk hn hh hμ (c.fullTail hν)
    ((C89_no_parallel c).mpr fun i => by rw [hν i]; exact hμ) _ v hv]
  simp only [llr_posterior v p hpos]

/-! ### one input bit per block: the full property -/

/-- Direct truncation, `k = 1`: the output is the list of the posterior log-ratios of the message bits. -/
theorem C90_direct_rate_one (t : Terminated 1 n σ) (hmode : t.mode = .directTruncation) (hn : 0 < n)
    (hh : 0 < t.numBlocks) (hp : t.code.finiteStateMachine.NoParallel) (v : BVec t.dimension → BVec t.length)
    (hv : ∀ u, t.encode u = some (List.ofFn (v u))) (p : Fin t.length → ZMod 2 → ℝ) (hpos : ∀ j b, 0 < p j b) :
    t.bcjrSoft (List.ofFn fun j => Real.log (p j 0 / p j 1)) = some (List.ofFn fun x : Fin t.dimension =>
      some ((posteriorLogRatio v p x : ℝ) : EReal)) := by
  rw [C90_direct_partial t hmode one_pos hn hh hp v hv p hpos]
  congr 2
  funext x
  have : reverseInBlocks t.numBlocks 1 x = x := reverseInBlocks_one _ x
  rw [this]

/-- Zero-termination, `ConvolutionalCode` with `k = 1`. -/
theorem C90_zero_rate_one (c : ConvCode 1 n) (hn : 0 < n) (hμ : 1 ≤ c.memoryOrder) (h : Nat) (hh : 1 ≤ h)
    (t : Terminated 1 n c.degree) (ht : t = ⟨c.stateSpace, c.memoryOrder, h, .zeroTermination⟩)
    (v : BVec t.dimension → BVec t.length)
    (hv : ∀ u, t.encode u = some (List.ofFn (v u))) (p : Fin t.length → ZMod 2 → ℝ) (hpos : ∀ j b, 0 < p j b) :
    t.bcjrSoft (List.ofFn fun j => Real.log (p j 0 / p j 1)) = some (List.ofFn fun x : Fin t.dimension =>
      some ((posteriorLogRatio v p x : ℝ) : EReal)) := by
  rw [C90_zero_partial c one_pos hn (fun i => by rw [Subsingleton.elim i 0]; simp [ConvCode.memoryOrder, List.finRange_succ])
    hμ h hh t ht v hv p hpos]
  congr 2
  funext x
  have : reverseInBlocks t.numBlocks 1 x = x := reverseInBlocks_one _ x
  rw [this]

/-- Zero-termination, `LowRateConvolutionalCode`. -/
theorem C90_zero_low_rate (c : LowRate n) (hn : 0 < n) (hμ : 1 ≤ c.degree) (h : Nat) (hh : 1 ≤ h)
    (t : Terminated 1 n c.degree) (ht : t = ⟨c.stateSpace, c.degree, h, .zeroTermination⟩)
    (v : BVec t.dimension → BVec t.length)
    (hv : ∀ u, t.encode u = some (List.ofFn (v u))) (p : Fin t.length → ZMod 2 → ℝ) (hpos : ∀ j b, 0 < p j b) :
    t.bcjrSoft (List.ofFn fun j => Real.log (p j 0 / p j 1)) = some (List.ofFn fun x : Fin t.dimension =>
      some ((posteriorLogRatio v p x : ℝ) : EReal)) := by
  subst ht
  rw [bcjr_zero ⟨c.stateSpace, c.degree, h, .zeroTermination⟩ rfl one_pos hn hh hμ c.fullTail (C89_no_parallel_low_rate c hμ) _ v hv]
  simp only [llr_posterior v p hpos]
  congr 2
  funext x
  have : reverseInBlocks h 1 x = x := reverseInBlocks_one _ x
  rw [this]

/-- Hard output, whenever the soft output is a list of posterior log-ratios: every bit is a most probable value of that bit (ties go
to 0). -/
theorem C90_hard (t : Terminated k n σ) (v : BVec t.dimension → BVec t.length) (p : Fin t.length → ZMod 2 → ℝ)
    (hpos : ∀ j b, 0 < p j b) (li : List ℝ)
    (hs : t.bcjrSoft li = some (List.ofFn fun x : Fin t.dimension => some ((posteriorLogRatio v p x : ℝ) : EReal))) :
    ∃ b : BVec t.dimension, t.bcjrHard li = some (List.ofFn b) ∧ ∀ x,
      (b x = 1 ↔ ∑ u with u x = 0, ∏ j, p j (v u j) < ∑ u with u x = 1, ∏ j, p j (v u j)) ∧
      ∑ u with u x ≠ b x, ∏ j, p j (v u j) ≤ ∑ u with u x = b x, ∏ j, p j (v u j) := by
  classical
  have hsum : ∀ (x : Fin t.dimension) (b : ZMod 2), 0 < ∑ u with u x = b, ∏ j, p j (v u j) := by
    intro x b
    apply Finset.sum_pos (fun u _ => Finset.prod_pos fun j _ => hpos j _)
    exact ⟨fun _ => b, by simp⟩
  have hneg : ∀ x, posteriorLogRatio v p x < 0 ↔ ∑ u with u x = 0, ∏ j, p j (v u j) < ∑ u with u x = 1, ∏ j, p j (v u j) := by
    intro x
    rw [posteriorLogRatio, Real.log_neg_iff (div_pos (hsum x 0) (hsum x 1)), div_lt_one (hsum x 1)]
  refine ⟨fun x => if posteriorLogRatio v p x < 0 then 1 else 0, ?_, fun x => ?_⟩
  · rw [Terminated.bcjrHard, hs, Option.map_some, Terminated.hardDecision, List.map_ofFn]
    congr 2
    funext x
    simp only [Function.comp]
    by_cases hx : posteriorLogRatio v p x < 0
    · rw [if_pos hx, if_pos (by exact_mod_cast hx)]
    · rw [if_neg hx, if_neg (by exact_mod_cast hx)]
  · by_cases hx : posteriorLogRatio v p x < 0
    · simp only [hx, if_true, true_iff]
      refine ⟨(hneg x).mp hx, ?_⟩
      have : (Finset.univ.filter fun u : BVec t.dimension => u x ≠ 1) = Finset.univ.filter fun u => u x = 0 := by
        apply Finset.filter_congr
        intro u _
        exact (by decide : ∀ a : ZMod 2, a ≠ 1 ↔ a = 0) _
      rw [this]
      exact ((hneg x).mp hx).le
    · simp only [hx, if_false]
      rw [hneg x] at hx
      refine ⟨⟨fun h => absurd h zero_ne_one, fun h => absurd h hx⟩, ?_⟩
      have : (Finset.univ.filter fun u : BVec t.dimension => u x ≠ 0) = Finset.univ.filter fun u => u x = 1 := by
        apply Finset.filter_congr
        intro u _
        exact (by decide : ∀ a : ZMod 2, a ≠ 0 ↔ a = 1) _
      rw [this]
      exact not_lt.mp hx

/-- Tail-biting codes are refused. -/
theorem C90_tail_biting_refused (t : Terminated k n σ) (hmode : t.mode = .tailBiting) (li : List ℝ) : t.bcjrBlock li = none := by
  rw [Terminated.bcjrBlock]
  split
  · rfl
  · simp [Terminated.bcjrDistributions, hmode]

/-! ### the order of the bits -/

/-- `ConvolutionalCode([[0b11, 0b10], [0b10, 0b11]])`. -/
def exampleSwap : ConvCode 2 2 := ConvCode.ofFeedforward ![![0b11, 0b10], ![0b10, 0b11]]

/-- One block, direct truncation. -/
def exampleSwapTerm : Terminated 2 2 2 := ⟨exampleSwap.stateSpace, 1, 1, .directTruncation⟩

theorem exampleSwap_encode (u : BVec 2) : exampleSwapTerm.encode u = some (List.ofFn u) := by
  have : ∀ a b : ZMod 2, exampleSwapTerm.encode (![a, b] : BVec 2) = some [a, b] := by decide +kernel
  have e : u = ![u 0, u 1] := by funext i; fin_cases i <;> rfl
  have h := this (u 0) (u 1)
  rw [← e] at h
  rw [h]; rfl

/-- A finding: for `k ≥ 2` the decoder returns the bits of every block in reverse order.  Here the codeword of a message is the message
itself, so that the posterior log-ratio of each message bit is the received one; the decoder exchanges the two, for every channel
output.  In particular, for the received word of the message `01` without noise, it returns `10`. -/
theorem C90_bits_swapped (a b : ℝ) :
    exampleSwapTerm.bcjrSoft [a, b] = some [some ((b : ℝ) : EReal), some ((a : ℝ) : EReal)] ∧
    (exampleSwapTerm.encode (![0, 1] : BVec 2) = some [0, 1] ∧ exampleSwapTerm.bcjrHard [1, -1] = some [1, 0]) := by
  have hs : ∀ a b : ℝ, exampleSwapTerm.bcjrSoft [a, b] = some [some ((b : ℝ) : EReal), some ((a : ℝ) : EReal)] := by
    intro a b
    have hp : exampleSwap.stateSpace.finiteStateMachine.NoParallel := (C89_no_parallel exampleSwap).mpr (by decide +kernel)
    have := bcjr_direct exampleSwapTerm rfl (by norm_num) (by norm_num) (by decide) hp (![a, b] : Fin 2 → ℝ) (fun u => u)
      exampleSwap_encode
    change exampleSwapTerm.bcjrSoft [a, b] = _ at this
    rw [this]
    have key : ∀ x : Fin 2, llr (fun u : BVec 2 => Real.exp ((∑ j : Fin 2, (-1) ^ (u j).val * (![a, b] : Fin 2 → ℝ) j) / 2)) x =
        (![a, b] : Fin 2 → ℝ) x := by
      intro x
      have hsum : ∀ f : BVec 2 → ℝ, ∑ u : BVec 2, f u = f ![0, 0] + f ![0, 1] + f ![1, 0] + f ![1, 1] := by
        intro f
        have : (Finset.univ : Finset (BVec 2)) = {![0, 0], ![0, 1], ![1, 0], ![1, 1]} := by decide
        rw [this, Finset.sum_insert (by decide), Finset.sum_insert (by decide), Finset.sum_insert (by decide), Finset.sum_singleton]
        ring
      rw [llr, Finset.sum_filter, Finset.sum_filter, hsum, hsum]
      have v1 : (1 : ZMod 2).val = 1 := rfl
      have e1 : ∀ x y : ℝ, Real.exp ((x + y) / 2) = Real.exp (x / 2) * Real.exp (y / 2) := by
        intro x y; rw [← Real.exp_add]; congr 1; ring
      have e2 : ∀ x : ℝ, Real.exp (x / 2) / Real.exp (-x / 2) = Real.exp x := by
        intro x; rw [← Real.exp_sub]; congr 1; ring
      have hq : ∀ x y : ℝ, (Real.exp (x / 2) * Real.exp (y / 2) + Real.exp (x / 2) * Real.exp (-y / 2)) /
          (Real.exp (-x / 2) * Real.exp (y / 2) + Real.exp (-x / 2) * Real.exp (-y / 2)) = Real.exp x := by
        intro x y
        rw [← mul_add, ← mul_add, mul_div_mul_right _ _ (add_pos (Real.exp_pos _) (Real.exp_pos _)).ne', e2]
      fin_cases x
      · simp [Fin.sum_univ_two, v1, e1]
        rw [hq, Real.log_exp]
      · simp [Fin.sum_univ_two, v1, e1]
        have := hq b a
        rw [show Real.exp (a / 2) * Real.exp (b / 2) + Real.exp (-a / 2) * Real.exp (b / 2) =
          Real.exp (b / 2) * Real.exp (a / 2) + Real.exp (b / 2) * Real.exp (-a / 2) by ring,
          show Real.exp (a / 2) * Real.exp (-b / 2) + Real.exp (-a / 2) * Real.exp (-b / 2) =
          Real.exp (-b / 2) * Real.exp (a / 2) + Real.exp (-b / 2) * Real.exp (-a / 2) by ring, this, Real.log_exp]
    congr 1
    apply List.ext_getElem
    · rfl
    · intro i h1 h2
      rw [List.getElem_ofFn]
      have h1' : i < 2 := h2
      interval_cases i
      · have e : reverseInBlocks 1 2 (0 : Fin 2) = (1 : Fin 2) := by decide
        exact congrArg (fun r : ℝ => some (r : EReal)) ((congrArg _ e).trans (key 1))
      · have e : reverseInBlocks 1 2 (1 : Fin 2) = (0 : Fin 2) := by decide
        exact congrArg (fun r : ℝ => some (r : EReal)) ((congrArg _ e).trans (key 0))
  refine ⟨hs a b, by decide +kernel, ?_⟩
  rw [Terminated.bcjrHard, hs]
  simp [Terminated.hardDecision]

/-- A concrete case of the rate-one theorems: `ConvolutionalCode([[0o7, 0o5]])`, three blocks, with an encoder as in `hv`. -/
example : 1 ≤ exampleConv75.memoryOrder ∧
    (∀ u : BVec 3, ∃ v : BVec 10, exampleTerm75.encode u = some (List.ofFn v)) := by
  refine ⟨by decide +kernel, ?_⟩
  have : ∀ u : BVec 3, (exampleTerm75.encode u).map List.length = some 10 := by decide +kernel
  intro u
  have h := this u
  cases he : exampleTerm75.encode u with
  | none => rw [he] at h; cases h
  | some l =>
    rw [he, Option.map_some, Option.some.injEq] at h
    exact ⟨fun i => l[i], by
      congr 1
      apply List.ext_getElem
      · simp [h]
      · intro i h1 h2; rw [List.getElem_ofFn]; rfl⟩

end Komm
