import Verif.Lemmas.DoubleViterbi
import Verif.Props.C89_ViterbiDecoder
/-! C134: the Viterbi decoders with their path metrics in double precision (`Double`: the reals representable with 53 significant bits, `val` the
real number, sums rounded to nearest even).  With hard input, or integer soft input, the decoders compute exactly what exact arithmetic would, up to
`2⁵³`; with arbitrary soft input they return a codeword whose correlation is optimal up to a relative `N · 2⁻⁵¹`. -/
namespace Komm
open StateSpace
open scoped BigOperators
variable {k n σ : Nat}

theorem growth (N : Nat) (hN : N ≤ 2 ^ 52) : (1 + 1 / 2 ^ 53 : ℝ) ^ N - 1 ≤ N / 2 ^ 52 := by
  have hN' : (N : ℝ) ≤ 2 ^ 52 := by exact_mod_cast hN
  have h1 : 1 + (N : ℝ) * (-(1 / 2 ^ 53)) ≤ (1 + -(1 / 2 ^ 53)) ^ N := one_add_mul_le_pow (by norm_num) N
  have h2 : (1 + 1 / 2 ^ 53 : ℝ) ^ N * (1 + -(1 / 2 ^ 53)) ^ N ≤ 1 := by
    rw [← mul_pow]; exact pow_le_one₀ (by norm_num) (by norm_num)
  have hp : (0 : ℝ) < (1 + 1 / 2 ^ 53) ^ N := by positivity
  generalize (1 + 1 / 2 ^ 53 : ℝ) ^ N = q at *
  have h3 : q * (1 + (N : ℝ) * (-(1 / 2 ^ 53))) ≤ 1 := (mul_le_mul_of_nonneg_left h1 hp.le).trans h2
  have h4 : (N : ℝ) / 2 ^ 53 ≤ 1 / 2 := by
    rw [div_le_iff₀ (by positivity)]; linarith
  have h0 : (0 : ℝ) ≤ N / 2 ^ 53 := by positivity
  have e : (N : ℝ) / 2 ^ 52 = 2 * (N / 2 ^ 53) := by ring
  have e' : 1 + (N : ℝ) * (-(1 / 2 ^ 53)) = 1 - N / 2 ^ 53 := by ring
  rw [e'] at h3
  rw [e]
  generalize (N : ℝ) / 2 ^ 53 = x at *
  nlinarith

/-- The products of a codeword and the received values. -/
noncomputable def masked (v : List (ZMod 2)) (r : List Double) : List Double :=
  List.zipWith (fun (b : ZMod 2) (x : Double) => if b = 0 then 0 else x) v r

theorem pathCost_sumOf (c : StateSpace k n σ) (dot : List Double → Double) (hdot : ∀ l, SumOf l (dot l)) (us : List (BVec k))
    (zs : List (List Double)) (hz : ∀ z ∈ zs, z.length = n) (hl : us.length = zs.length) :
    SumOf (masked (flat (c.outs 0 us)) zs.flatten) (c.pathCost (softMetricD dot n) us zs) := by
  have key : ∀ (us : List (BVec k)) (s : BVec σ) (zs : List (List Double)) (l : List Double) (a : Double), SumOf l a →
      (∀ z ∈ zs, z.length = n) → us.length = zs.length →
      SumOf (l ++ masked (flat (c.outs s us)) zs.flatten)
        ((List.zipWith (softMetricD dot n) ((c.outs s us).map fun v : BVec n => vecToNat v) zs).foldl (fun acc x => acc + x) a) := by
    intro us
    induction us with
    | nil => intro s zs l a h _ _; simpa [outs, flat, masked] using h
    | cons u us ih =>
      intro s zs l a h hz hl
      cases zs with
      | nil => simp at hl
      | cons z zs =>
        have hzn := hz z (by simp)
        have := ih (c.next s u) zs (l ++ masked (List.ofFn (c.output s u)) z) (a + softMetricD dot n (vecToNat (c.output s u)) z)
          (SumOf.add h (by
            have := hdot (masked (List.ofFn (c.output s u)) z)
            rwa [softMetricD, symbolBits_vecToNat]))
          (fun z' h' => hz z' (by simp [h'])) (by simpa using hl)
        rw [outs, List.map_cons, List.zipWith_cons_cons, List.foldl_cons]
        convert this using 1
        rw [List.append_assoc]
        congr 1
        show List.zipWith _ (List.ofFn (c.output s u) ++ flat (c.outs (c.next s u) us)) (z ++ zs.flatten) = _
        rw [List.zipWith_append (by simp [hzn])]
        rfl
  exact key us 0 zs [] 0 SumOf.nil hz hl

theorem masked_ofFn {N : Nat} (v : BVec N) (r : Fin N → Double) :
    realSum (masked (List.ofFn v) (List.ofFn r)) = ∑ i, ((v i).val : ℝ) * (r i).val ∧
    absSum (masked (List.ofFn v) (List.ofFn r)) ≤ ∑ i, |(r i).val| ∧ (masked (List.ofFn v) (List.ofFn r)).length = N := by
  have e : masked (List.ofFn v) (List.ofFn r) = List.ofFn fun i => if v i = 0 then 0 else r i := by
    apply List.ext_getElem
    · simp [masked]
    · intro i h1 h2; simp [masked]
  refine ⟨?_, ?_, by rw [e]; simp⟩
  · rw [e, realSum, List.map_ofFn, List.sum_ofFn]
    apply Finset.sum_congr rfl
    intro i _
    rcases zmod2_cases (v i) with h | h
    · simp [h, Double.val_zero]
    · simp [h, show (1 : ZMod 2).val = 1 from rfl]
  · rw [e, absSum, List.map_ofFn, List.sum_ofFn]
    apply Finset.sum_le_sum
    intro i _
    simp only [Function.comp]
    split
    · rw [Double.val_zero, abs_zero]; exact abs_nonneg _
    · exact le_rfl

theorem cost_near {N : Nat} (hN : N ≤ 2 ^ 52) (v v' : BVec N) (r : Fin N → Double) {a a' : Double} (h : SumOf (masked (List.ofFn v) (List.ofFn r)) a)
    (h' : SumOf (masked (List.ofFn v') (List.ofFn r)) a') (hle : a' ≤ a) :
    ∑ i, ((v' i).val : ℝ) * (r i).val ≤ ∑ i, ((v i).val : ℝ) * (r i).val + N / 2 ^ 51 * ∑ i, |(r i).val| := by
  have e := h.error
  have e' := h'.error
  obtain ⟨m1, m2, m3⟩ := masked_ofFn v r
  obtain ⟨m1', m2', m3'⟩ := masked_ofFn v' r
  rw [m1, m3] at e
  rw [m1', m3'] at e'
  have hg := growth N hN
  have hA := absSum_nonneg (masked (List.ofFn v) (List.ofFn r))
  have hA' := absSum_nonneg (masked (List.ofFn v') (List.ofFn r))
  have hR : 0 ≤ ∑ i, |(r i).val| := Finset.sum_nonneg fun i _ => abs_nonneg _
  have hN0 : (0 : ℝ) ≤ N / 2 ^ 52 := by positivity
  have b : ∀ A, 0 ≤ A → A ≤ ∑ i, |(r i).val| → ((1 + 1 / 2 ^ 53 : ℝ) ^ N - 1) * A ≤ N / 2 ^ 52 * ∑ i, |(r i).val| := fun A h0 hA =>
    (mul_le_mul_of_nonneg_right hg h0).trans (mul_le_mul_of_nonneg_left hA hN0)
  have e1 := abs_le.mp (e.trans (b _ hA m2))
  have e2 := abs_le.mp (e'.trans (b _ hA' m2'))
  have hle' := Double.le_iff.mp hle
  have hs : (N : ℝ) / 2 ^ 51 = 2 * (N / 2 ^ 52) := by ring
  rw [hs]
  linarith [e1.1, e1.2, e2.1, e2.2]

/-! ### soft input -/

/-- Direct truncation, soft input: the correlation of the returned codeword is within `N · 2⁻⁵¹ · Σ |rᵢ|` of the best, however `np.dot` orders its sums. -/
theorem C134_direct_soft (dot : List Double → Double) (hdot : ∀ l, SumOf l (dot l)) (t : Terminated k n σ) (hmode : t.mode = .directTruncation)
    (hk : 0 < k) (hn : 0 < n) (hh : 0 < t.numBlocks) (hp : t.code.finiteStateMachine.NoParallel) (hN : t.length ≤ 2 ^ 52)
    (r : Fin t.length → Double) :
    ∃ (u' : BVec t.dimension) (v' : BVec t.length),
      t.viterbiSoftD dot (List.ofFn r) = some (List.ofFn u') ∧ t.encode u' = some (List.ofFn v') ∧
      ∀ (u : BVec t.dimension) (v : BVec t.length), t.encode u = some (List.ofFn v) →
        ∑ i, ((v' i).val : ℝ) * (r i).val ≤ ∑ i, ((v i).val : ℝ) * (r i).val + t.length / 2 ^ 51 * ∑ i, |(r i).val| := by
  obtain ⟨c, μ, h, mode⟩ := t
  simp only at hmode
  subst hmode
  revert r hN
  change h * n ≤ 2 ^ 52 → ∀ r : Fin (h * n) → Double, ∃ (u' : BVec (h * k)) (v' : BVec (h * n)), _
  intro hN r
  obtain ⟨us, h1, h2, h3⟩ := c.direct_fold Double.add_mono hp (softMetricD dot n) hn μ h (List.ofFn r) (by simp)
  obtain ⟨u', hu1, hu2⟩ := exists_blocks hk h us h1
  have hmod : (List.ofFn r).length % n = 0 := by simp
  have hz := chunks_row_length n hn (List.ofFn r) hmod
  have hf := flatten_chunks n hn (List.ofFn r) hmod
  have hcl := chunks_length' n hn h (List.ofFn r) (by simp)
  have henc : ∀ u : BVec (h * k), (Terminated.mk c μ h .directTruncation).encode u = some (flat (c.outs 0 (blocks h u))) := by
    intro u
    rw [Terminated.encode]
    simp only [Terminated.preProcessInput, Terminated.initialState, Option.bind_some]
    rw [← flat_blocks h u, encodeWithState_flat c hk, Option.map_some]
  have hlen : ∀ u : BVec (h * k), (flat (c.outs 0 (blocks h u))).length = h * n := by
    intro u; rw [flat_length, outs_length, blocks_length]
  have hlen' : (flat (c.outs 0 us)).length = h * n := by rw [← hu1]; exact hlen u'
  refine ⟨u', vecOfList (h * n) (flat (c.outs 0 us)), ?_, ?_, ?_⟩
  · rw [hu2]
    exact blockwise_one _ (Nat.mul_pos hh hn) _ _ (by simp) _ h2
  · rw [henc u', hu1, ofFn_vecOfList _ hlen']
  · intro u v hv
    rw [henc u, Option.some.injEq] at hv
    have g := pathCost_sumOf c dot hdot (blocks h u) (chunks n (List.ofFn r)) hz (by rw [blocks_length, hcl])
    have g' := pathCost_sumOf c dot hdot us (chunks n (List.ofFn r)) hz (by rw [h1, hcl])
    rw [hf, hv] at g
    rw [hf, ← ofFn_vecOfList _ hlen'] at g'
    exact cost_near hN v _ r g g' (h3 (blocks h u) (blocks_length h u))

/-- Zero-termination, soft input. -/
theorem C134_zero_soft (dot : List Double → Double) (hdot : ∀ l, SumOf l (dot l)) (t : Terminated k n σ) (hmode : t.mode = .zeroTermination)
    (hk : 0 < k) (hn : 0 < n) (hμ : 1 ≤ t.memoryOrder) (hp : t.code.finiteStateMachine.NoParallel) (hN : t.length ≤ 2 ^ 52)
    (r : Fin t.length → Double) :
    ∃ (u' : BVec t.dimension) (tail : List (ZMod 2)) (v' : BVec t.length),
      t.viterbiSoftD dot (List.ofFn r) = some (List.ofFn u') ∧ tail.length = t.memoryOrder * k ∧
      t.code.encodeWithState (List.ofFn u' ++ tail) 0 = some (List.ofFn v', 0) ∧
      ∀ (input : List (ZMod 2)) (v : BVec t.length), t.code.encodeWithState input 0 = some (List.ofFn v, 0) →
        ∑ i, ((v' i).val : ℝ) * (r i).val ≤ ∑ i, ((v i).val : ℝ) * (r i).val + t.length / 2 ^ 51 * ∑ i, |(r i).val| := by
  obtain ⟨c, μ, h, mode⟩ := t
  simp only at hmode hμ
  subst hmode
  revert r hN
  change (h + μ) * n ≤ 2 ^ 52 → ∀ r : Fin ((h + μ) * n) → Double, ∃ (u' : BVec (h * k)) (tail : List (ZMod 2)) (v' : BVec ((h + μ) * n)), _
  intro hN r
  obtain ⟨us, tl, h1, h1', hz0, h2, h3⟩ := c.zero_fold Double.add_mono hp (softMetricD dot n) hn μ h hμ (List.ofFn r) (by simp)
  obtain ⟨u', hu1, hu2⟩ := exists_blocks hk h us h1
  have hmod : (List.ofFn r).length % n = 0 := by simp
  have hz := chunks_row_length n hn (List.ofFn r) hmod
  have hf := flatten_chunks n hn (List.ofFn r) hmod
  have hcl := chunks_length' n hn (h + μ) (List.ofFn r) (by simp)
  have hlen : (flat (c.outs 0 (us ++ tl))).length = (h + μ) * n := by
    rw [flat_length, outs_length, List.length_append, h1, h1']
  refine ⟨u', flat tl, vecOfList ((h + μ) * n) (flat (c.outs 0 (us ++ tl))), ?_, ?_, ?_, ?_⟩
  · rw [hu2]
    exact blockwise_one _ (Nat.mul_pos (show 0 < h + μ by omega) hn) _ _ (by simp) _ h2
  · rw [flat_length, h1']
  · rw [hu2, ← flat_append]
    show c.encodeWithState (flat (us ++ tl)) 0 = _
    rw [encodeWithState_flat c hk, hz0, ofFn_vecOfList _ hlen]
  · intro input v hv
    change c.encodeWithState input 0 = some (List.ofFn v, 0) at hv
    have hm : input.length % k = 0 := by
      by_contra hc
      rw [(C60_accepts c hk input 0).1 hc] at hv
      exact absurd hv (by simp)
    obtain ⟨ws, rfl⟩ := exists_flat hk input hm
    obtain ⟨g1, g2⟩ := ofFn_eq_flat_of_encode hk hv
    have hwl : ws.length = h + μ := by
      have := congrArg List.length g1
      rw [flat_length, outs_length, List.length_ofFn] at this
      exact Nat.eq_of_mul_eq_mul_right hn this
    have g := pathCost_sumOf c dot hdot ws (chunks n (List.ofFn r)) hz (by rw [hwl, hcl])
    have g' := pathCost_sumOf c dot hdot (us ++ tl) (chunks n (List.ofFn r)) hz (by rw [List.length_append, h1, h1', hcl])
    rw [hf, g1] at g
    rw [hf, ← ofFn_vecOfList _ hlen] at g'
    exact cost_near hN v _ r g g' (h3 ws hwl g2)

/-- Direct truncation, soft input: a codeword whose correlation beats every other codeword's by more than the rounding margin is the one decoded. -/
theorem C134_direct_margin (dot : List Double → Double) (hdot : ∀ l, SumOf l (dot l)) (t : Terminated k n σ) (hmode : t.mode = .directTruncation)
    (hk : 0 < k) (hn : 0 < n) (hh : 0 < t.numBlocks) (hp : t.code.finiteStateMachine.NoParallel) (hN : t.length ≤ 2 ^ 52)
    (r : Fin t.length → Double) (u₀ : BVec t.dimension) (v₀ : BVec t.length) (h₀ : t.encode u₀ = some (List.ofFn v₀))
    (hgap : ∀ (u : BVec t.dimension) (v : BVec t.length), t.encode u = some (List.ofFn v) → v ≠ v₀ →
      ∑ i, ((v₀ i).val : ℝ) * (r i).val + t.length / 2 ^ 51 * ∑ i, |(r i).val| < ∑ i, ((v i).val : ℝ) * (r i).val) :
    ∃ u' : BVec t.dimension, t.viterbiSoftD dot (List.ofFn r) = some (List.ofFn u') ∧ t.encode u' = some (List.ofFn v₀) := by
  obtain ⟨u', v', h1, h2, h3⟩ := C134_direct_soft dot hdot t hmode hk hn hh hp hN r
  by_cases hv : v' = v₀
  · exact ⟨u', h1, hv ▸ h2⟩
  · exact absurd (hgap u' v' h2 hv) (not_lt.mpr (h3 u₀ v₀ h₀))

/-- Zero-termination, soft input: likewise. -/
theorem C134_zero_margin (dot : List Double → Double) (hdot : ∀ l, SumOf l (dot l)) (t : Terminated k n σ) (hmode : t.mode = .zeroTermination)
    (hk : 0 < k) (hn : 0 < n) (hμ : 1 ≤ t.memoryOrder) (hp : t.code.finiteStateMachine.NoParallel) (hN : t.length ≤ 2 ^ 52)
    (r : Fin t.length → Double) (input₀ : List (ZMod 2)) (v₀ : BVec t.length) (h₀ : t.code.encodeWithState input₀ 0 = some (List.ofFn v₀, 0))
    (hgap : ∀ (input : List (ZMod 2)) (v : BVec t.length), t.code.encodeWithState input 0 = some (List.ofFn v, 0) → v ≠ v₀ →
      ∑ i, ((v₀ i).val : ℝ) * (r i).val + t.length / 2 ^ 51 * ∑ i, |(r i).val| < ∑ i, ((v i).val : ℝ) * (r i).val) :
    ∃ (u' : BVec t.dimension) (tail : List (ZMod 2)), t.viterbiSoftD dot (List.ofFn r) = some (List.ofFn u') ∧
      tail.length = t.memoryOrder * k ∧ t.code.encodeWithState (List.ofFn u' ++ tail) 0 = some (List.ofFn v₀, 0) := by
  obtain ⟨u', tl, v', h1, h2, h3, h4⟩ := C134_zero_soft dot hdot t hmode hk hn hμ hp hN r
  by_cases hv : v' = v₀
  · exact ⟨u', tl, h1, h2, hv ▸ h3⟩
  · exact absurd (hgap _ v' h3 hv) (not_lt.mpr (h4 input₀ v₀ h₀))

/-! ### exactness -/

theorem mapM_congr {α β γ : Type} (f : α → Option γ) (g : β → Option γ) (e : β → α) (l : List β) (h : ∀ x ∈ l, f (e x) = g x) :
    (l.map e).mapM f = l.mapM g := by
  induction l with
  | nil => rfl
  | cons a l ih =>
    rw [List.map_cons, List.mapM_cons, List.mapM_cons, h a (by simp), ih fun x hx => h x (by simp [hx])]

theorem blockwise_close {α β γ : Type} (N : Nat) (f : List α → Option (List γ)) (g : List β → Option (List γ)) (e : β → α) (l : List β)
    (h : ∀ b, b.length = N → (∀ x ∈ b, x ∈ l) → f (b.map e) = g b) : blockwise N f (l.map e) = blockwise N g l := by
  unfold blockwise
  rw [List.length_map]
  by_cases h0 : N = 0
  · rw [if_pos h0, if_pos h0]
  by_cases h1 : l.length % N = 0
  · rw [if_neg h0, if_neg h0, if_neg (by simpa using h1), if_neg (by simpa using h1), chunks_map]
    congr 1
    exact mapM_congr _ _ _ _ fun b hb => h b (chunks_row_length N (by omega) l h1 b hb) (chunks_row_mem N l b hb)
  · rw [if_neg h0, if_neg h0, if_pos h1, if_pos h1]

theorem hardMetric_bounds (n y : Nat) (z : List (ZMod 2)) : 0 ≤ hardMetric n y z ∧ hardMetric n y z ≤ z.length := by
  rw [hardMetric]
  refine ⟨by positivity, ?_⟩
  have h1 : (List.zip (symbolBits n y) z).countP (fun p => p.1 ≠ p.2) ≤ (List.zip (symbolBits n y) z).length := List.countP_le_length
  have h2 : (List.zip (symbolBits n y) z).length ≤ z.length := by rw [List.length_zip]; omega
  exact_mod_cast h1.trans h2

theorem int_strictMono : StrictMono fun k : Int => (k : ℝ) := Int.cast_strictMono

/-- The length of the observations of a list of rows. -/
theorem sum_lengths {α : Type} (ls : List (List α)) : (ls.map fun z : List α => (z.length : ℝ)).sum = (ls.flatten.length : ℝ) := by
  induction ls with
  | nil => simp
  | cons a ls ih => simp only [List.map_cons, List.sum_cons, ih, List.flatten_cons, List.length_append]; push_cast; rfl

theorem hard_step (n y : Nat) (z : List (ZMod 2)) (hz : (z.length : ℝ) ≤ 2 ^ 53) :
    ∃ j : ℤ, ((hardMetric n y (z.map id) : Int) : ℝ) = j ∧ (hardMetricD n y z).val = j ∧ |(j : ℝ)| ≤ z.length := by
  obtain ⟨h1, h2⟩ := hardMetric_bounds n y z
  have h3 : |((hardMetric n y z : Int) : ℝ)| ≤ z.length := by
    rw [abs_of_nonneg (by exact_mod_cast h1)]; exact_mod_cast h2
  refine ⟨hardMetric n y z, by rw [List.map_id], Double.val_ofInt _ ?_, h3⟩
  rw [abs_of_nonneg h1]
  have h4 : ((z.length : Int) : ℝ) ≤ ((2 ^ 53 : ℤ) : ℝ) := by push_cast; linarith
  exact h2.trans (by exact_mod_cast h4)

theorem chunks_total (n : Nat) {α : Type} (r : List α) : ((chunks n r).flatten).length ≤ r.length := by
  rcases Nat.eq_zero_or_pos n with rfl | hn
  · simp [chunks]
  · have : ∀ z ∈ chunks n r, z.length = n := by
      intro z hz
      simp only [chunks, List.mem_map, List.mem_range] at hz
      obtain ⟨i, hi, rfl⟩ := hz
      have : (i + 1) * n ≤ r.length := (Nat.mul_le_mul_right n hi).trans (Nat.div_mul_le_self _ _)
      rw [List.length_take, List.length_drop]
      rw [Nat.add_mul] at this
      omega
    rw [flatten_length_mod n _ this, chunks, List.length_map, List.length_range]
    exact Nat.mul_div_le _ _

/-- Hard input: with blocks of at most `2⁵³` bits the decoder's output is that of exact integer arithmetic, for every input (so that `C89_direct_hard` and
`C89_zero_hard` hold of it). -/
theorem C134_hard_exact (t : Terminated k n σ) (hN : t.length ≤ 2 ^ 53) (r : List (ZMod 2)) : t.viterbiHardD r = t.viterbiHard r := by
  rw [Terminated.viterbiHard, Terminated.viterbiHardD]
  conv_rhs => rw [← List.map_id r]
  refine (blockwise_close t.length _ _ id r fun b hb _ => ?_).symm
  have hN' : (t.length : ℝ) ≤ 2 ^ 53 := by exact_mod_cast hN
  have htot : ((chunks n b).map fun z : List (ZMod 2) => (z.length : ℝ)).sum ≤ 2 ^ 53 := by
    rw [sum_lengths]
    have : (((chunks n b).flatten.length : Nat) : ℝ) ≤ t.length := by
      rw [← hb]; exact_mod_cast chunks_total n b
    linarith
  refine viterbiBlock_close (f := fun k : Int => (k : ℝ)) int_strictMono (by intros; push_cast; rfl) (by simp) t _ _ id
    (fun z => (z.length : ℝ)) (fun z => by positivity) b ?_ htot
  intro z hz s x
  apply hard_step
  refine le_trans ?_ htot
  exact List.single_le_sum (l := (chunks n b).map fun z : List (ZMod 2) => (z.length : ℝ)) (by simp) _ (List.mem_map.mpr ⟨z, hz, rfl⟩)

theorem absSum_masked (b : List (ZMod 2)) (z : List Double) : absSum (masked b z) ≤ absSum z := by
  induction b generalizing z with
  | nil => simpa [masked, absSum] using absSum_nonneg z
  | cons a b ih =>
    cases z with
    | nil => simp [masked]
    | cons x z =>
      have := ih z
      simp only [masked, absSum, List.zipWith_cons_cons, List.map_cons, List.sum_cons] at this ⊢
      have h1 : |(if a = 0 then (0 : Double) else x).val| ≤ |x.val| := by
        split
        · rw [Double.val_zero, abs_zero]; exact abs_nonneg _
        · exact le_rfl
      linarith

theorem soft_step (dot : List Double → Double) (hdot : ∀ l, SumOf l (dot l)) (n y : Nat) (z : List Double)
    (hint : ∀ x ∈ z, ∃ j : ℤ, x.val = j) (hz : absSum z ≤ 2 ^ 53) :
    ∃ j : ℤ, softMetric n y (z.map Double.val) = j ∧ (softMetricD dot n y z).val = j ∧ |(j : ℝ)| ≤ absSum z := by
  rw [softMetricD, softMetric]
  generalize symbolBits n y = b
  have h := hdot (masked b z)
  have hm : ∀ x ∈ masked b z, ∃ j : ℤ, x.val = j := by
    intro x hx
    obtain ⟨i, hi, rfl⟩ := List.mem_iff_getElem.mp hx
    simp only [masked, List.getElem_zipWith]
    split
    · exact ⟨0, by rw [Double.val_zero]; simp⟩
    · exact hint _ (List.getElem_mem _)
  have hb := absSum_masked b z
  have hr : realSum (masked b z) = (List.zipWith (fun (b : ZMod 2) (x : ℝ) => ((b.val : Nat) : ℝ) * x) b (z.map Double.val)).sum := by
    rw [realSum, masked, List.map_zipWith, List.zipWith_map_right]
    congr 1
    have : (fun (a : ZMod 2) (x : Double) => (if a = 0 then (0 : Double) else x).val) = fun a x => ((a.val : Nat) : ℝ) * x.val := by
      funext a x
      rcases zmod2_cases a with e | e
      · simp [e, Double.val_zero]
      · simp [e, show (1 : ZMod 2).val = 1 from rfl]
    rw [this]
  obtain ⟨j, hj⟩ := realSum_int _ hm
  have ha := abs_realSum_le (masked b z)
  refine ⟨j, by rw [← hr, hj], ?_, ?_⟩
  · rw [← hj]; exact h.exact hm (by linarith)
  · rw [← hj]; linarith

theorem sum_absSum (ls : List (List Double)) : (ls.map absSum).sum = absSum ls.flatten := by
  induction ls with
  | nil => simp [absSum]
  | cons a ls ih => rw [List.map_cons, List.sum_cons, ih, List.flatten_cons, absSum_append]

theorem absSum_bound (l : List Double) (C : ℝ) (h : ∀ x ∈ l, |x.val| ≤ C) : absSum l ≤ l.length * C := by
  induction l with
  | nil => simp [absSum]
  | cons a l ih =>
    have h1 := h a (by simp)
    have h2 := ih fun x hx => h x (by simp [hx])
    simp only [absSum, List.map_cons, List.sum_cons, List.length_cons] at h2 ⊢
    push_cast
    linarith

/-- Soft input made of integers `x` with `|x| · N ≤ 2⁵³` (quantised likelihoods; or hard decisions mapped to ±1): the output is that of exact
arithmetic. -/
theorem C134_soft_exact (dot : List Double → Double) (hdot : ∀ l, SumOf l (dot l)) (t : Terminated k n σ) (r : List Double)
    (hint : ∀ x ∈ r, ∃ j : ℤ, x.val = j ∧ |j| * t.length ≤ 2 ^ 53) :
    t.viterbiSoftD dot r = t.viterbiSoft (r.map Double.val) := by
  rw [Terminated.viterbiSoft, Terminated.viterbiSoftD]
  refine (blockwise_close t.length _ _ Double.val r fun b hb hmem => ?_).symm
  by_cases hN : t.length = 0
  · have : b = [] := List.length_eq_zero_iff.mp (by rw [hb, hN])
    subst this
    refine viterbiBlock_close (f := id) strictMono_id (by simp) rfl t _ _ Double.val absSum absSum_nonneg [] ?_ ?_
    · simp [chunks_nil]
    · simp [chunks_nil]
  have hNp : (0 : ℝ) < t.length := by exact_mod_cast Nat.pos_of_ne_zero hN
  have hab : absSum b ≤ 2 ^ 53 := by
    have := absSum_bound b (2 ^ 53 / t.length) fun x hx => by
      obtain ⟨j, hj, hj2⟩ := hint x (hmem x hx)
      rw [hj, le_div_iff₀ hNp, ← Int.cast_abs]
      have : ((|j| * (t.length : ℤ) : ℤ) : ℝ) ≤ ((2 ^ 53 : ℤ) : ℝ) := by exact_mod_cast hj2
      push_cast at this ⊢
      linarith
    rw [hb, mul_div_cancel₀ _ hNp.ne'] at this
    exact this
  have hch : absSum (chunks n b).flatten ≤ absSum b := by
    rcases Nat.eq_zero_or_pos n with rfl | hn
    · simpa [chunks, absSum] using absSum_nonneg b
    · have hm : b.length % n = 0 := by
        rw [hb]
        obtain ⟨c, μ, h, mode⟩ := t
        cases mode <;> simp [Terminated.length]
      rw [flatten_chunks n hn b hm]
  have hmemc : ∀ z ∈ chunks n b, absSum z ≤ 2 ^ 53 := by
    intro z hz
    refine le_trans ?_ (hch.trans hab)
    rw [← sum_absSum]
    exact List.single_le_sum (l := (chunks n b).map absSum) (by simpa using fun a _ => absSum_nonneg a) _ (List.mem_map.mpr ⟨z, hz, rfl⟩)
  refine viterbiBlock_close (f := id) strictMono_id (by simp) rfl t _ _ Double.val absSum absSum_nonneg b ?_ ?_
  · intro z hz s x
    exact soft_step dot hdot n _ z (fun y hy => by
      obtain ⟨j, hj, _⟩ := hint y (hmem y (chunks_row_mem n b z hz y hy))
      exact ⟨j, hj⟩) (hmemc z hz)
  · rw [sum_absSum]; exact hch.trans hab

/-- No overflow, so that the model (which has no largest double) applies: at every time every path metric of the decoder is infinite (the state cannot be
reached) or at most twice the sum of the magnitudes received.  With `Σ |rᵢ| ≤ 2¹⁰²²` that is below the largest double. -/
theorem C134_finite (dot : List Double → Double) (hdot : ∀ l, SumOf l (dot l)) (c : StateSpace k n σ) (hn : 0 < n)
    (hp : c.finiteStateMachine.NoParallel) (r : List Double) (hr : r.length % n = 0) (hN : r.length ≤ 2 ^ 52) (T : Nat) (s : Fin (2 ^ σ)) :
    haveI : NeZero (2 ^ σ) := ⟨(Nat.two_pow_pos σ).ne'⟩
    (c.finiteStateMachine.viterbi (softMetricD dot n) (Terminated.initialMetrics σ) ((chunks n r).take T)).2 s = ⊤ ∨
    ∃ v : Double, (c.finiteStateMachine.viterbi (softMetricD dot n) (Terminated.initialMetrics σ) ((chunks n r).take T)).2 s = (v : WithTop Double) ∧
      |v.val| ≤ 2 * (r.map fun x : Double => |x.val|).sum := by
  haveI : NeZero (2 ^ σ) := ⟨(Nat.two_pow_pos σ).ne'⟩
  obtain ⟨s, rfl⟩ := code_surj s
  rcases (viterbi_fold c Double.add_mono hp (softMetricD dot n) ((chunks n r).take T) s).2 with h | ⟨us, h1, _, _, h4⟩
  · exact Or.inl h
  refine Or.inr ⟨_, h4, ?_⟩
  have g := pathCost_sumOf c dot hdot us ((chunks n r).take T)
    (fun z hz => chunks_row_length n hn r hr z (List.mem_of_mem_take hz)) h1
  have e := g.error
  have hsplit : r = ((chunks n r).take T).flatten ++ ((chunks n r).drop T).flatten := by
    rw [← List.flatten_append, List.take_append_drop, flatten_chunks n hn r hr]
  have hA : absSum ((chunks n r).take T).flatten ≤ absSum r := by
    conv_rhs => rw [hsplit]
    rw [absSum_append]
    have := absSum_nonneg ((chunks n r).drop T).flatten
    linarith
  have hL : (masked (flat (c.outs 0 us)) ((chunks n r).take T).flatten).length ≤ r.length := by
    rw [masked, List.length_zipWith]
    conv_rhs => rw [hsplit]
    rw [List.length_append]
    omega
  generalize hm : masked (flat (c.outs 0 us)) ((chunks n r).take T).flatten = m at *
  have hM : absSum m ≤ absSum r := by rw [← hm]; exact (absSum_masked _ _).trans hA
  have hg := growth m.length (by omega)
  have hx : (m.length : ℝ) / 2 ^ 52 ≤ 1 := by
    rw [div_le_one (by positivity)]
    exact_mod_cast hL.trans hN
  have h0 := absSum_nonneg m
  have hR := abs_realSum_le m
  have e2 : |(c.pathCost (softMetricD dot n) us ((chunks n r).take T)).val - realSum m| ≤ absSum m := by
    refine e.trans ?_
    nlinarith
  have := abs_sub_abs_le_abs_sub (c.pathCost (softMetricD dot n) us ((chunks n r).take T)).val (realSum m)
  show _ ≤ 2 * absSum r
  linarith

/-! ### streaming -/

/-- The results of successive calls of a decoder with memory: `none` for a call that raises (which leaves the memory as it was). -/
def callOutputs {M α β : Type} (decode : M → List α → Option (List β × M)) : M → List (List α) → List (Option (List β))
  | _, [] => []
  | m, r :: rs =>
    match decode m r with
    | none => none :: callOutputs decode m rs
    | some (o, m') => some o :: callOutputs decode m' rs

/-- `ViterbiStreamDecoder` with hard input: over any number of calls with at most `2⁵³` bits in all, the outputs are those of exact arithmetic. -/
theorem C134_stream_exact (c : StateSpace k n σ) (tau : Nat) (state : Fin (2 ^ σ)) (calls : List (List (ZMod 2)))
    (hN : calls.flatten.length ≤ 2 ^ 53) :
    callOutputs c.streamHardD (c.streamMemory tau state) calls = callOutputs c.streamHard (c.streamMemory tau state) calls := by
  haveI : NeZero (2 ^ σ) := ⟨(Nat.two_pow_pos σ).ne'⟩
  have key : ∀ (calls : List (List (ZMod 2))) (B : ℝ) (m : Mealy.Memory (2 ^ σ) Int) (m' : Mealy.Memory (2 ^ σ) Double), 0 ≤ B →
      Mealy.MemClose (fun k : Int => (k : ℝ)) B m m' → B + calls.flatten.length ≤ 2 ^ 53 →
      callOutputs c.streamHardD m' calls = callOutputs c.streamHard m calls := by
    intro calls
    induction calls with
    | nil => intros; rfl
    | cons r rs ih =>
      intro B m m' hB0 hc hB
      rw [List.flatten_cons, List.length_append] at hB
      push_cast at hB
      have hrs : (0 : ℝ) ≤ rs.flatten.length := by positivity
      have hr0 : (0 : ℝ) ≤ r.length := by positivity
      simp only [callOutputs, StateSpace.streamHardD, StateSpace.streamHard, StateSpace.streamDecode]
      by_cases hcond : n = 0 ∨ r.length % n ≠ 0
      · rw [if_pos hcond, if_pos hcond]
        simp only
        rw [show callOutputs c.streamHardD m' rs = callOutputs c.streamHard m rs from ih B m m' hB0 hc (by linarith)]
      · rw [if_neg hcond, if_neg hcond]
        have hn : 0 < n := by omega
        have hm : r.length % n = 0 := by omega
        have hsum : ((chunks n r).map fun z : List (ZMod 2) => (z.length : ℝ)).sum = r.length := by
          rw [sum_lengths, flatten_chunks n hn r hm]
        have hlz : ∀ z ∈ chunks n r, (z.length : ℝ) ≤ 2 ^ 53 := by
          intro z hz
          have := List.single_le_sum (l := (chunks n r).map fun z : List (ZMod 2) => (z.length : ℝ)) (by simp) _ (List.mem_map.mpr ⟨z, hz, rfl⟩)
          rw [hsum] at this
          linarith
        obtain ⟨g1, g2⟩ := Mealy.streaming_close (f := fun k : Int => (k : ℝ)) int_strictMono (by intros; push_cast; rfl) c.finiteStateMachine
          (hardMetric n) (hardMetricD n) (List.map id) (fun z : List (ZMod 2) => (z.length : ℝ)) (fun z => by positivity) m m' hc (chunks n r)
          (fun z hz s x => hard_step n _ z (hlz z hz)) (by rw [hsum]; linarith)
        have hid : (chunks n r).map (List.map id) = chunks n r := by simp
        rw [hid] at g1 g2
        rw [hsum] at g2
        simp only
        rw [g1]
        congr 1
        exact ih _ _ _ (by linarith) g2 (by linarith)
  have hN' : ((calls.flatten.length : Nat) : ℝ) ≤ 2 ^ 53 := by exact_mod_cast hN
  refine key calls 0 _ _ le_rfl ⟨rfl, fun s => ?_⟩ (by rw [zero_add]; exact hN')
  simp only [StateSpace.streamMemory, Mealy.Memory.fresh]
  by_cases h : s = state
  · rw [if_pos h, if_pos h]
    exact Or.inr ⟨0, 0, 0, rfl, rfl, by simp, by rw [Double.val_zero]; simp, by simp⟩
  · rw [if_neg h, if_neg h]; exact Or.inl ⟨rfl, rfl⟩

/-! ### the hypotheses are met -/

/-- A program for `np.dot`: from the left. -/
theorem exists_dot : ∃ dot : List Double → Double, ∀ l, SumOf l (dot l) := by
  refine ⟨fun l => l.foldl (fun a x => a + x) 0, fun l => ?_⟩
  have key : ∀ (l l' : List Double) (a : Double), SumOf l' a → SumOf (l' ++ l) (l.foldl (fun a x => a + x) a) := by
    intro l
    induction l with
    | nil => intro l' a h; simpa using h
    | cons x l ih =>
      intro l' a h
      have := ih (l' ++ [x]) (a + x) (SumOf.add h (SumOf.one x))
      simpa using this
  simpa using key l [] 0 SumOf.nil

/-- Two errors corrected by the code of memory 2 and free distance 5 (constraint length 3, octal generators 7 and 5), in double precision. -/
example : (Terminated.mk (⟨![0o7, 0o5]⟩ : LowRate 2).stateSpace 2 3 .zeroTermination : Terminated 1 2 _).viterbiHardD [1, 0, 1, 0, 0, 1, 0, 1, 1, 1] =
    (Terminated.mk (⟨![0o7, 0o5]⟩ : LowRate 2).stateSpace 2 3 .zeroTermination : Terminated 1 2 _).viterbiHard [1, 0, 1, 0, 0, 1, 0, 1, 1, 1] :=
  C134_hard_exact _ (by decide +kernel) _

example : ∃ r : List Double, r.length = 10 ∧ (∀ x ∈ r, ∃ j : ℤ, x.val = j ∧ |j| * ((10 : Nat) : ℤ) ≤ 2 ^ 53) ∧ r.map Double.val = List.replicate 9 (-3) ++ [7] := by
  have h3 : (Double.ofInt (-3)).val = ((-3 : ℤ) : ℝ) := Double.val_ofInt _ (by norm_num)
  have h7 : (Double.ofInt 7).val = ((7 : ℤ) : ℝ) := Double.val_ofInt _ (by norm_num)
  refine ⟨List.replicate 9 (Double.ofInt (-3)) ++ [Double.ofInt 7], by simp, ?_, ?_⟩
  · intro x hx
    simp only [List.mem_append, List.mem_replicate, List.mem_singleton] at hx
    rcases hx with ⟨_, rfl⟩ | rfl
    · exact ⟨-3, h3, by norm_num⟩
    · exact ⟨7, h7, by norm_num⟩
  · rw [List.map_append, List.map_replicate, h3, List.map_singleton, h7]; norm_num

end Komm
