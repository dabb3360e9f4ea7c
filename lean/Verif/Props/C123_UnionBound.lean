import Verif.Props.C111_BlockError
import Verif.Props.C89_Corrects
/-! C123: union bounds on the block error rate over the binary symmetric channel, from the weight distribution (or from the free distance). -/
namespace Komm
open MeasureTheory Set StateSpace GaussianChannel

variable {k m n σ : Nat}

/-- The Bhattacharyya sum of a binary symmetric channel over all error patterns. -/
theorem bhattacharyya_sum (p : ℝ) (h0 : 0 ≤ p) (h1 : p ≤ 1) (w : BVec n) :
    ∑ e : BVec n, √((p ^ hammingNorm e * (1 - p) ^ (n - hammingNorm e)) * (p ^ hammingNorm (e + w) * (1 - p) ^ (n - hammingNorm (e + w)))) =
      (2 * √(p * (1 - p))) ^ hammingNorm w := by
  have h1' : 0 ≤ 1 - p := by linarith
  obtain ⟨q, hq⟩ : ∃ q : ZMod 2 → ℝ, q = fun x => if x = 0 then 1 - p else p := ⟨_, rfl⟩
  have hq0 : ∀ x, 0 ≤ q x := fun x => by rw [hq]; dsimp only; split <;> assumption
  have hprod : ∀ e : BVec n, p ^ hammingNorm e * (1 - p) ^ (n - hammingNorm e) = ∏ j, q (e j) := by
    intro e
    rw [hq]; dsimp only
    rw [Finset.prod_ite, Finset.prod_const, Finset.prod_const, mul_comm]
    have c1 : (Finset.univ.filter fun j : Fin n => ¬ e j = 0).card = hammingNorm e := rfl
    have c2 : (Finset.univ.filter fun j : Fin n => e j = 0).card = n - hammingNorm e := by
      have := Finset.card_filter_add_card_filter_not (s := (Finset.univ : Finset (Fin n))) (fun j => e j = 0)
      rw [Finset.card_univ, Fintype.card_fin, c1] at this
      omega
    rw [c1, c2]
  have hterm : ∀ e : BVec n, √((p ^ hammingNorm e * (1 - p) ^ (n - hammingNorm e)) * (p ^ hammingNorm (e + w) * (1 - p) ^ (n - hammingNorm (e + w)))) =
      ∏ j, √(q (e j) * q (e j + w j)) := by
    intro e
    rw [hprod, hprod, ← Finset.prod_mul_distrib, Real.sqrt_prod _ fun j _ => mul_nonneg (hq0 _) (hq0 _)]
    rfl
  simp only [hterm]
  have hswap := (Finset.prod_univ_sum (fun _ : Fin n => (Finset.univ : Finset (ZMod 2))) fun j x => √(q x * q (x + w j))).symm
  rw [Fintype.piFinset_univ] at hswap
  rw [hswap]
  have hcol : ∀ j, ∑ x : ZMod 2, √(q x * q (x + w j)) = if w j ≠ 0 then 2 * √(p * (1 - p)) else 1 := by
    intro j
    rw [show (Finset.univ : Finset (ZMod 2)) = {0, 1} from rfl, Finset.sum_pair (by decide)]
    rcases zmod2_cases (w j) with h | h
    · rw [h, add_zero, add_zero, Real.sqrt_mul_self (hq0 _), Real.sqrt_mul_self (hq0 _), hq]
      simp
    · rw [h, show (1 : ZMod 2) + 1 = 0 from rfl, zero_add, hq]
      simp [mul_comm]
      ring
  simp only [hcol]
  rw [Finset.prod_ite, Finset.prod_const, Finset.prod_const_one, mul_one]
  rfl

/-- The union–Bhattacharyya bound for any family of words and any rule that picks a nearest one. -/
theorem C123_pairwise {ι : Type} [Fintype ι] [DecidableEq ι] (f : ι → BVec n) (dec : BVec n → ι)
    (hdec : ∀ r i, hammingDist r (f (dec r)) ≤ hammingDist r (f i)) (p : ℝ) (h0 : 0 ≤ p) (h1 : p ≤ 1 / 2) (i : ι) :
    (uniformDraws n).real {u | dec (bscReceived p (f i) u) ≠ i} ≤
      ∑ l ∈ Finset.univ.erase i, (2 * √(p * (1 - p))) ^ hammingDist (f i) (f l) := by
  classical
  have h1' : p ≤ 1 := h1.trans (by norm_num)
  have hs : {u | dec (bscReceived p (f i) u) ≠ i} ⊆ ⋃ l ∈ Finset.univ.erase i,
      {u : Fin n → ℝ | flips p u ∈ Finset.univ.filter fun e : BVec n => hammingNorm (e + (f i + f l)) ≤ hammingNorm e} := by
    intro u hu
    simp only [mem_setOf_eq, bscReceived_eq] at hu
    simp only [mem_iUnion, mem_setOf_eq, Finset.mem_filter, Finset.mem_univ, true_and]
    refine ⟨dec (f i + flips p u), Finset.mem_erase.mpr ⟨hu, Finset.mem_univ _⟩, ?_⟩
    have h2 := hdec (f i + flips p u) i
    rw [hammingDist_eq_norm_add, hammingDist_eq_norm_add, add_comm (f i) (flips p u), bvec_add_add, add_assoc, add_comm (flips p u) (f i)] at h2
    exact h2
  refine (measureReal_mono hs (measure_ne_top _ _)).trans ((measureReal_biUnion_finset_le _ _).trans (Finset.sum_le_sum fun l _ => ?_))
  rw [flips_mem p h0 h1', hammingDist_eq_norm_add, ← bhattacharyya_sum p h0 h1' (f i + f l)]
  refine (Finset.sum_le_sum fun e he => ?_).trans (Finset.sum_le_sum_of_subset_of_nonneg (Finset.filter_subset _ _) fun e _ _ => Real.sqrt_nonneg _)
  have he' := (Finset.mem_filter.mp he).2
  have hpos : ∀ e : BVec n, 0 ≤ p ^ hammingNorm e * (1 - p) ^ (n - hammingNorm e) := fun e =>
    mul_nonneg (pow_nonneg h0 _) (pow_nonneg (by linarith) _)
  refine Real.le_sqrt_of_sq_le ?_
  rw [sq]
  exact mul_le_mul_of_nonneg_left (weight_mono p h0 h1 he' (hammingNorm_le _)) (hpos _)

/-- Block codes: every minimum-distance decoder (`C111_decoders`: the syndrome-table and exhaustive-search decoders) errs with
probability at most `∑ A_w (2 √(p (1 - p)))^w`, the sum over the non-zero weights of `codeword_weight_distribution()`. -/
theorem C123_block_code (c : LinCode k m n) (h : c.Lawful) (dec : BVec n → BVec k) (hdec : MinDistance c dec) (p : ℝ) (h0 : 0 ≤ p) (h1 : p ≤ 1 / 2)
    (msg : BVec k) :
    (uniformDraws n).real {u | dec (bscReceived p (c.encode msg) u) ≠ msg} ≤
      ∑ w ∈ Finset.Icc 1 n, (c.weightDistribution.getD w 0 : ℝ) * (2 * √(p * (1 - p))) ^ w := by
  classical
  refine (C123_pairwise c.encode dec hdec p h0 h1 msg).trans_eq ?_
  rw [← weight_sum c h, ← sum_by_weight _ fun w => (2 * √(p * (1 - p))) ^ w]
  refine Finset.sum_nbij (fun l => c.encode msg + c.encode l) ?_ ?_ ?_ ?_
  · intro l hl
    have hne := Finset.ne_of_mem_erase hl
    simp only [Finset.mem_filter, Finset.mem_univ, true_and]
    rw [← h.encode_add]
    refine ⟨fun hz => hne ?_, h.check_encode _⟩
    rw [← h.encode_zero] at hz
    have := h.encode_injective hz
    rw [← bvec_add_add l msg, add_comm l msg, this, zero_add]
  · intro a _ b _ hab
    exact h.encode_injective (add_left_cancel hab)
  · intro e he
    simp only [Finset.coe_filter, mem_setOf_eq, Finset.mem_univ, true_and] at he
    obtain ⟨w, hw⟩ := (h.check_zero e).mp he.2
    refine ⟨msg + w, ?_, ?_⟩
    · simp only [Finset.coe_erase, Finset.coe_univ, mem_diff, mem_univ, mem_singleton_iff, true_and]
      intro hc
      have : w = 0 := by simpa using hc
      rw [this, h.encode_zero] at hw
      exact he.1 hw.symm
    · dsimp only
      rw [h.encode_add, ← add_assoc, bvec_add_self, zero_add, hw]
  · intro l _
    rw [hammingDist_eq_norm_add]

/-! ### Viterbi decoding of terminated convolutional codes -/

/-- The hypothesis on a hard decoder of a terminated code that `C89_direct_hard`, `C89_zero_nearest` and `C89_zero_nearest_low_rate` establish. -/
theorem minDistance_of_nearest (t : Terminated k n σ) (L : LinCode t.dimension m t.length) (hL : L.Lawful)
    (henc : ∀ u, t.encode u = some (List.ofFn (L.encode u)))
    (hnear : ∀ r : BVec t.length, ∃ (u' : BVec t.dimension) (v' : BVec t.length),
      t.viterbiHard (List.ofFn r) = some (List.ofFn u') ∧ t.encode u' = some (List.ofFn v') ∧
      ∀ (u : BVec t.dimension) (v : BVec t.length), t.encode u = some (List.ofFn v) → hammingDist r v' ≤ hammingDist r v) :
    ∃ dec, MinDistance L dec ∧ ∀ r, t.viterbiHard (List.ofFn r) = some (List.ofFn (dec r)) := by
  choose dec v' h1 h2 h3 using hnear
  refine ⟨dec, fun r u' => ?_, h1⟩
  have e : v' r = L.encode (dec r) := by
    have := (h2 r).symm.trans (henc (dec r))
    exact List.ofFn_injective (Option.some_inj.mp this)
  rw [← e]
  exact h3 r u' _ (henc u')

theorem correlation_of_nearest (t : Terminated k n σ) (L : LinCode t.dimension m t.length) (hL : L.Lawful)
    (henc : ∀ u, t.encode u = some (List.ofFn (L.encode u)))
    (hnear : ∀ r : Fin t.length → ℝ, ∃ (u' : BVec t.dimension) (v' : BVec t.length),
      t.viterbiSoft (List.ofFn r) = some (List.ofFn u') ∧ t.encode u' = some (List.ofFn v') ∧
      ∀ (u : BVec t.dimension) (v : BVec t.length), t.encode u = some (List.ofFn v) → ∑ i, ((v' i).val : ℝ) * r i ≤ ∑ i, ((v i).val : ℝ) * r i) :
    ∃ dec : (Fin t.length → ℝ) → BVec t.dimension, (∀ r u', ∑ j, r j * (-1) ^ (L.encode u' j).val ≤ ∑ j, r j * (-1) ^ (L.encode (dec r) j).val) ∧
      ∀ r, t.viterbiSoft (List.ofFn r) = some (List.ofFn (dec r)) := by
  choose dec v' h1 h2 h3 using hnear
  refine ⟨dec, fun r u' => ?_, h1⟩
  have e : v' r = L.encode (dec r) := by
    have := (h2 r).symm.trans (henc (dec r))
    exact List.ofFn_injective (Option.some_inj.mp this)
  rw [← e]
  have key : ∀ v : BVec t.length, ∑ j, r j * (-1) ^ (v j).val = ∑ j, r j - 2 * ∑ j, ((v j).val : ℝ) * r j := by
    intro v
    rw [Finset.mul_sum, ← Finset.sum_sub_distrib]
    refine Finset.sum_congr rfl fun j _ => ?_
    rcases zmod2_cases (v j) with h | h
    · rw [h]; simp
    · rw [h, show (1 : ZMod 2).val = 1 from rfl]; simp; ring
  rw [key, key]
  have := h3 r u' _ (henc u')
  linarith

/-- The two bounds, for a terminated code whose block code is `L`. -/
def ViterbiBounds (t : Terminated k n σ) (L : LinCode t.dimension m t.length) : Prop :=
  (∀ p : ℝ, 0 ≤ p → p ≤ 1 / 2 → ∀ msg : BVec t.dimension,
    (uniformDraws t.length).real {u | t.viterbiHard (List.ofFn (bscReceived p (L.encode msg) u)) ≠ some (List.ofFn msg)} ≤
      ∑ w ∈ Finset.Icc 1 t.length, (L.weightDistribution.getD w 0 : ℝ) * (2 * √(p * (1 - p))) ^ w) ∧
  ∀ A : ℝ, 0 < A → ∀ N : ℝ, 0 < N → ∀ msg : BVec t.dimension,
    (stdNormals (Fin t.length)).real {z | t.viterbiSoft (List.ofFn (transmitReal N (bipolar A (L.encode msg)) z)) ≠ some (List.ofFn msg)} ≤
      ∑ w ∈ Finset.Icc 1 t.length, (L.weightDistribution.getD w 0 : ℝ) * gaussianQ (A * √w / √N) ∧
    ∀ d, L.minimumDistance = some d → gaussianQ (A * √d / √N) ≤
      (stdNormals (Fin t.length)).real {z | t.viterbiSoft (List.ofFn (transmitReal N (bipolar A (L.encode msg)) z)) ≠ some (List.ofFn msg)}

theorem viterbi_bounds (t : Terminated k n σ) (L : LinCode t.dimension m t.length) (hL : L.Lawful)
    (henc : ∀ u, t.encode u = some (List.ofFn (L.encode u)))
    (hhard : ∀ r : BVec t.length, ∃ (u' : BVec t.dimension) (v' : BVec t.length),
      t.viterbiHard (List.ofFn r) = some (List.ofFn u') ∧ t.encode u' = some (List.ofFn v') ∧
      ∀ (u : BVec t.dimension) (v : BVec t.length), t.encode u = some (List.ofFn v) → hammingDist r v' ≤ hammingDist r v)
    (hsoft : ∀ r : Fin t.length → ℝ, ∃ (u' : BVec t.dimension) (v' : BVec t.length),
      t.viterbiSoft (List.ofFn r) = some (List.ofFn u') ∧ t.encode u' = some (List.ofFn v') ∧
      ∀ (u : BVec t.dimension) (v : BVec t.length), t.encode u = some (List.ofFn v) → ∑ i, ((v' i).val : ℝ) * r i ≤ ∑ i, ((v i).val : ℝ) * r i) :
    ViterbiBounds t L := by
  obtain ⟨dec, h1, h2⟩ := minDistance_of_nearest t L hL henc hhard
  obtain ⟨sdec, s1, s2⟩ := correlation_of_nearest t L hL henc hsoft
  constructor
  · intro p hp0 hp1 msg
    have := C123_block_code L hL dec h1 p hp0 hp1 msg
    simpa only [h2, ne_eq, Option.some_inj, List.ofFn_inj] using this
  · intro A hA N hN msg
    have := soft_bounds L hL sdec s1 A hA N hN msg
    simpa only [s2, ne_eq, Option.some_inj, List.ofFn_inj] using this

/-- Direct truncation: `L` is the block code built from `generator_matrix`. -/
theorem C123_viterbi_direct (t : Terminated k n σ) (hmode : t.mode = .directTruncation) (hk : 0 < k) (hn : 0 < n)
    (hh : 0 < t.numBlocks) (hp : t.code.finiteStateMachine.NoParallel) (hr : rank t.generatorMatrix = t.dimension) :
    ∃ L, blockCodeOfGenerator t.generatorMatrix = some L ∧ ViterbiBounds t L := by
  obtain ⟨L, h1, h2, h3⟩ := C62_block_code t hk (by rw [hmode]; simp) hr
  exact ⟨L, h1, viterbi_bounds t L h2 h3 (C89_direct_hard t hmode hk hn hh hp) (C89_direct_soft t hmode hk hn hh hp)⟩

/-- Zero termination of a `ConvolutionalCode` whose constraint lengths are all equal. -/
theorem C123_viterbi_zero (c : ConvCode k n) (hk : 0 < k) (hn : 0 < n) (hν : ∀ i, c.constraintLength i = c.memoryOrder)
    (hμ : 1 ≤ c.memoryOrder) (h : Nat) (hh : 1 ≤ h) (t : Terminated k n c.degree)
    (ht : t = ⟨c.stateSpace, c.memoryOrder, h, .zeroTermination⟩) (hr : rank t.generatorMatrix = t.dimension) :
    ∃ L, blockCodeOfGenerator t.generatorMatrix = some L ∧ ViterbiBounds t L := by
  obtain ⟨L, h1, h2, h3⟩ := C62_block_code t hk (by rw [ht]; exact fun _ => ⟨hh, hμ⟩) hr
  refine ⟨L, h1, viterbi_bounds t L h2 h3 (C89_zero_nearest c hk hn hν hμ h hh t ht) ?_⟩
  subst ht
  exact zero_codeword_generic ⟨c.stateSpace, c.memoryOrder, h, .zeroTermination⟩ rfl hk hn hh hμ
    (c.fullTail hν) ((C89_no_parallel c).mpr fun i => by rw [hν i]; exact hμ) _ _ (softMetric_bitwise n)

/-- Zero termination of a `LowRateConvolutionalCode` with memory. -/
theorem C123_viterbi_zero_low_rate (c : LowRate n) (hn : 0 < n) (hμ : 1 ≤ c.degree) (h : Nat) (hh : 1 ≤ h)
    (t : Terminated 1 n c.degree) (ht : t = ⟨c.stateSpace, c.degree, h, .zeroTermination⟩) (hr : rank t.generatorMatrix = t.dimension) :
    ∃ L, blockCodeOfGenerator t.generatorMatrix = some L ∧ ViterbiBounds t L := by
  obtain ⟨L, h1, h2, h3⟩ := C62_block_code t (by norm_num) (by rw [ht]; exact fun _ => ⟨hh, hμ⟩) hr
  refine ⟨L, h1, viterbi_bounds t L h2 h3 (C89_zero_nearest_low_rate c hn hμ h hh t ht) ?_⟩
  subst ht
  exact zero_codeword_generic ⟨c.stateSpace, c.degree, h, .zeroTermination⟩ rfl (by norm_num) hn hh hμ
    c.fullTail (C89_no_parallel_low_rate c hμ) _ _ (softMetric_bitwise n)

/-! ### free distance -/

/-- Two different messages have codewords at least the free distance apart; and as soon as the blocks are long enough the minimum distance of the
terminated code is exactly the free distance. -/
theorem free_distance_terminated (c : StateSpace k n σ) (hk : 0 < k) (μ : Nat) (hμ : 1 ≤ μ) (hf : c.FullTail μ)
    (hinj : ∀ input out, c.encodeWithState input 0 = some (out, 0) → 1 ∈ input → 1 ∈ out)
    (fuel d : Nat) (hd : c.freeDistance fuel = some (some d)) :
    (∀ h, 1 ≤ h → ∀ t : Terminated k n σ, t = ⟨c, μ, h, .zeroTermination⟩ → ∀ (u u' : BVec t.dimension) (v v' : BVec t.length), u ≠ u' →
      t.encode u = some (List.ofFn v) → t.encode u' = some (List.ofFn v') → d ≤ hammingDist v v') ∧
    ∃ H, ∀ h, H ≤ h → ∀ t : Terminated k n σ, t = ⟨c, μ, h, .zeroTermination⟩ →
      ∃ (u : BVec t.dimension) (v : BVec t.length), u ≠ 0 ∧ t.encode u = some (List.ofFn v) ∧ hammingNorm v = d := by
  constructor
  · intro h hh t ht u u' v v' hne hv hv'
    obtain ⟨tail, out, _, g2, _, g4, g5, _⟩ := zeroTermination_spec c hk μ h hμ hh hf.controllable t ht u
    obtain ⟨tail', out', _, g2', _, g4', g5', _⟩ := zeroTermination_spec c hk μ h hμ hh hf.controllable t ht u'
    rw [g5, Option.some.injEq] at hv
    rw [g5', Option.some.injEq] at hv'
    subst hv hv'
    have hlen : (List.ofFn u ++ tail).length = (List.ofFn u' ++ tail').length := by simp [g2, g2']
    rw [← count_zipWith]
    refine C66_distance c fuel d hd _ _ _ _ hlen g4 g4' fun e => hne ?_
    have hs := C60_linear c _ _ hlen 0 0 0 0 _ _ g4 g4'
    rw [add_zero] at hs
    have hvv := List.ofFn_injective e
    subst hvv
    have hzero : 1 ∉ List.zipWith (· + ·) (List.ofFn u ++ tail) (List.ofFn u' ++ tail') := by
      intro h1m
      have := hinj _ _ hs h1m
      rw [← List.count_pos_iff, count_zipWith, hammingDist_self] at this
      omega
    have heq : List.ofFn u ++ tail = List.ofFn u' ++ tail' := by
      apply List.ext_getElem hlen
      intro i i1 i2
      by_contra hne
      apply hzero
      have : (List.zipWith (· + ·) (List.ofFn u ++ tail) (List.ofFn u' ++ tail'))[i]'(by simp at i1 i2 ⊢; omega) = 1 := by
        rw [List.getElem_zipWith]
        exact (by decide : ∀ x y : ZMod 2, ¬x = y → x + y = 1) _ _ hne
      rw [← this]
      exact List.getElem_mem _
    exact List.ofFn_injective (List.append_inj heq (by simp)).1
  · obtain ⟨hw, -⟩ := C66_result c hk fuel d hd
    rw [mem_returningWeights c hk] at hw
    obtain ⟨hd0, us, hr, hc⟩ := hw
    refine ⟨us.length + 1, fun h hh t ht => ?_⟩
    obtain ⟨u, hu, -⟩ := exists_blocks hk h (us ++ List.replicate (h - us.length) 0) (by simp; omega)
    subst ht
    have hrun : ∀ j, c.run 0 (List.replicate j (0 : BVec k)) = 0 := by
      intro j
      induction j with
      | zero => rfl
      | succ j ih =>
        rw [List.replicate_succ, run]
        have e1 : c.next 0 0 = 0 := by rw [next]; funext s; simp [vecMat]
        rw [e1, ih]
    have hclosed : c.encodeWithState (List.ofFn u ++ flat (List.replicate μ (0 : BVec k))) 0 =
        some (flat (c.outs 0 us ++ List.replicate (h - us.length + μ) 0), 0) := by
      rw [← flat_blocks, hu, ← flat_append, encodeWithState_flat c hk, List.append_assoc, List.replicate_append_replicate]
      rw [run_append, hr, hrun, outs_append, hr, outs_zero]
    have henc := encode_of_closed hk hμ (show 1 ≤ h by omega) hf ⟨c, μ, h, .zeroTermination⟩ rfl u _ _ (by rw [flat_length]; simp) hclosed
    have hg := C62_generator ⟨c, μ, h, .zeroTermination⟩ hk (fun _ => ⟨show 1 ≤ h by omega, hμ⟩) u
    rw [henc, Option.some_inj] at hg
    have hwt : hammingNorm (vecMat u (Terminated.generatorMatrix ⟨c, μ, h, .zeroTermination⟩)) = d := by
      have h1 := count_zipWith (vecMat u (Terminated.generatorMatrix ⟨c, μ, h, .zeroTermination⟩)) 0
      rw [hammingDist_zero_right] at h1
      rw [← h1, ← hc]
      have e2 : List.zipWith (· + ·) (List.ofFn (vecMat u (Terminated.generatorMatrix ⟨c, μ, h, .zeroTermination⟩)))
          (List.ofFn (0 : BVec (Terminated.length ⟨c, μ, h, .zeroTermination⟩))) =
          List.ofFn (vecMat u (Terminated.generatorMatrix ⟨c, μ, h, .zeroTermination⟩)) := by
        apply List.ext_getElem
        · simp
        · intro i h1 h2; simp
      rw [e2, ← hg, flat_append, List.count_append]
      have : (flat (List.replicate (h - us.length + μ) (0 : BVec n))).count 1 = 0 := by
        rw [List.count_eq_zero, mem_flat]
        rintro ⟨v, hv, i, hi⟩
        rw [List.eq_of_mem_replicate hv] at hi
        exact zero_ne_one hi
      rw [this, add_zero]
    refine ⟨u, _, fun h0 => ?_, henc.trans (congrArg some hg), hwt⟩
    rw [h0] at hwt
    have : vecMat (0 : BVec (h * k)) (Terminated.generatorMatrix ⟨c, μ, h, .zeroTermination⟩) = 0 := by funext j; simp [vecMat]
    rw [this, hammingNorm_zero] at hwt
    omega

/-- `ConvolutionalCode` with equal constraint lengths. -/
theorem C123_free_distance (c : ConvCode k n) (hk : 0 < k) (hν : ∀ i, c.constraintLength i = c.memoryOrder) (hμ : 1 ≤ c.memoryOrder)
    (hinj : ∀ input out, c.stateSpace.encodeWithState input 0 = some (out, 0) → 1 ∈ input → 1 ∈ out)
    (fuel d : Nat) (hd : c.stateSpace.freeDistance fuel = some (some d)) :
    (∀ h, 1 ≤ h → ∀ t : Terminated k n c.degree, t = ⟨c.stateSpace, c.memoryOrder, h, .zeroTermination⟩ →
      ∀ (u u' : BVec t.dimension) (v v' : BVec t.length), u ≠ u' →
      t.encode u = some (List.ofFn v) → t.encode u' = some (List.ofFn v') → d ≤ hammingDist v v') ∧
    ∃ H, ∀ h, H ≤ h → ∀ t : Terminated k n c.degree, t = ⟨c.stateSpace, c.memoryOrder, h, .zeroTermination⟩ →
      ∃ (u : BVec t.dimension) (v : BVec t.length), u ≠ 0 ∧ t.encode u = some (List.ofFn v) ∧ hammingNorm v = d :=
  free_distance_terminated c.stateSpace hk c.memoryOrder hμ (c.fullTail hν) hinj fuel d hd

/-- `LowRateConvolutionalCode` with memory. -/
theorem C123_free_distance_low_rate (c : LowRate n) (hμ : 1 ≤ c.degree) (fuel d : Nat) (hd : c.stateSpace.freeDistance fuel = some (some d)) :
    (∀ h, 1 ≤ h → ∀ t : Terminated 1 n c.degree, t = ⟨c.stateSpace, c.degree, h, .zeroTermination⟩ →
      ∀ (u u' : BVec t.dimension) (v v' : BVec t.length), u ≠ u' →
      t.encode u = some (List.ofFn v) → t.encode u' = some (List.ofFn v') → d ≤ hammingDist v v') ∧
    ∃ H, ∀ h, H ≤ h → ∀ t : Terminated 1 n c.degree, t = ⟨c.stateSpace, c.degree, h, .zeroTermination⟩ →
      ∃ (u : BVec t.dimension) (v : BVec t.length), u ≠ 0 ∧ t.encode u = some (List.ofFn v) ∧ hammingNorm v = d :=
  free_distance_terminated c.stateSpace (by norm_num) c.degree hμ c.fullTail (c.injective hμ) fuel d hd

/-- Non-vacuity: the rate 1/2 code with generators 1 and 1 + D, three blocks, both modes; and the repetition code of length 3. -/
example : rank (exampleTerm .directTruncation).generatorMatrix = 3 ∧ rank (exampleTerm .zeroTermination).generatorMatrix = 3 ∧
    (exampleTerm .directTruncation).dimension = 3 ∧ (ConvCode.ofFeedforward ![![0b1, 0b11]] : ConvCode 1 2).constraintLength 0 = 1 ∧
    (blockCodeOfGenerator (exampleTerm .zeroTermination).generatorMatrix).bind (fun c => some (c.weightDistribution, c.minimumDistance)) =
      some ([1, 0, 0, 3, 2, 1, 1, 0, 0], some 3) ∧
    (ConvCode.ofFeedforward ![![0b1, 0b11]] : ConvCode 1 2).stateSpace.freeDistance 20 = some (some 3) := by decide +kernel

end Komm
