import Verif.Props.C127_SoftOptimal
/-! C150: how much noise the soft decoders tolerate.  A codeword `v` is sent as the real vector `A (-1)^v`, the channel adds a noise vector
`z`, and the decoder is given `g (A (-1)^v + z)`, for any positive gain `g` (L-values of a Gaussian channel are of this form).  As long as
the squared length of the noise is below `A² d`, where `d` is the minimum distance, every soft decoder returns what was sent; the bound
cannot be improved. -/
namespace Komm

variable {k m n σ N : Nat}

/-- What a soft decoder receives: gain `g`, amplitude `A`, codeword `v`, noise `z`. -/
noncomputable def received (g A : ℝ) (v : BVec N) (z : Fin N → ℝ) : Fin N → ℝ := fun j => g * (A * (-1) ^ (v j).val + z j)

theorem sign_cases (a b : ZMod 2) : a = b ∨ ((-1 : ℝ) ^ b.val = -(-1) ^ a.val) := by
  have h : ∀ x : ZMod 2, x = 0 ∨ x = 1 := by decide
  rcases h a with rfl | rfl <;> rcases h b with rfl | rfl <;> simp [ZMod.val_one]

theorem sign_sq (a : ZMod 2) : ((-1 : ℝ) ^ a.val) ^ 2 = 1 := by
  fin_cases a <;> simp [ZMod.val]

theorem sum_support (v v' : BVec N) (f : Fin N → ℝ) :
    ∑ j, f j * ((-1 : ℝ) ^ (v j).val - (-1) ^ (v' j).val) =
      2 * ∑ j ∈ Finset.univ.filter (fun j => v j ≠ v' j), f j * (-1) ^ (v j).val := by
  rw [Finset.mul_sum, Finset.sum_filter]
  apply Finset.sum_congr rfl
  intro j _
  rcases sign_cases (v j) (v' j) with h | h
  · rw [if_neg (by simpa using h), h]; ring
  · by_cases e : v j = v' j
    · rw [if_neg (by simpa using e), e]; ring
    · rw [if_pos e, h]; ring

/-- The heart of the matter: a competitor that correlates at least as well is closer than the noise allows. -/
theorem competitor_close (g A : ℝ) (hg : 0 < g) (hA : 0 < A) (v v' : BVec N) (z : Fin N → ℝ)
    (h : ∑ j, received g A v z j * (-1) ^ (v j).val ≤ ∑ j, received g A v z j * (-1) ^ (v' j).val) :
    A ^ 2 * (hammingDist v v' : ℝ) ≤ ∑ j, z j ^ 2 := by
  set D := Finset.univ.filter (fun j => v j ≠ v' j) with hD
  have hcard : (hammingDist v v' : ℝ) = D.card := rfl
  have h0 : ∑ j, received g A v z j * ((-1 : ℝ) ^ (v j).val - (-1) ^ (v' j).val) ≤ 0 := by
    simp only [mul_sub, Finset.sum_sub_distrib]; linarith
  rw [sum_support, ← hD] at h0
  have h1 : ∑ j ∈ D, received g A v z j * (-1) ^ (v j).val = g * (A * D.card + ∑ j ∈ D, z j * (-1) ^ (v j).val) := by
    rw [mul_add, Finset.mul_sum, show g * (A * (D.card : ℝ)) = ∑ _j ∈ D, g * A by rw [Finset.sum_const, nsmul_eq_mul]; ring, ← Finset.sum_add_distrib]
    apply Finset.sum_congr rfl
    intro j _
    have := sign_sq (v j)
    unfold received
    linear_combination (g * A) * this
  rw [h1] at h0
  have h2 : A * D.card + ∑ j ∈ D, z j * (-1) ^ (v j).val ≤ 0 := by
    by_contra hc
    push Not at hc
    have := mul_pos hg hc
    linarith
  have h3 : (∑ j ∈ D, z j * (-1) ^ (v j).val) ^ 2 ≤ (∑ j ∈ D, z j ^ 2) * ∑ j ∈ D, ((-1 : ℝ) ^ (v j).val) ^ 2 :=
    Finset.sum_mul_sq_le_sq_mul_sq _ _ _
  rw [Finset.sum_congr rfl fun j _ => sign_sq (v j)] at h3
  have h4 : ∑ j ∈ D, z j ^ 2 ≤ ∑ j, z j ^ 2 :=
    Finset.sum_le_sum_of_subset_of_nonneg (Finset.subset_univ _) fun j _ _ => sq_nonneg _
  simp only [Finset.sum_const, nsmul_eq_mul, mul_one] at h3
  rw [hcard]
  set c : ℝ := (D.card : ℝ) with hc
  have hc0 : 0 ≤ c := Nat.cast_nonneg _
  rcases hc0.eq_or_lt with e | hpos
  · rw [← e, mul_zero]; exact Finset.sum_nonneg fun j _ => sq_nonneg _
  · have h5 : A * c ≤ -∑ j ∈ D, z j * (-1) ^ (v j).val := by linarith
    have h6 : (A * c) ^ 2 ≤ (∑ j ∈ D, z j * (-1) ^ (v j).val) ^ 2 := by
      have := pow_le_pow_left₀ (by positivity) h5 2
      rwa [neg_sq] at this
    have h7 : (A ^ 2 * c) * c ≤ (∑ j ∈ D, z j ^ 2) * c := by nlinarith
    exact le_trans (le_of_mul_le_mul_right h7 hpos) h4

/-- The same for the metric `Σ vᵢ rᵢ` of the Viterbi decoder. -/
theorem competitor_close_viterbi (g A : ℝ) (hg : 0 < g) (hA : 0 < A) (v v' : BVec N) (z : Fin N → ℝ)
    (h : ∑ j, ((v' j).val : ℝ) * received g A v z j ≤ ∑ j, ((v j).val : ℝ) * received g A v z j) :
    A ^ 2 * (hammingDist v v' : ℝ) ≤ ∑ j, z j ^ 2 := by
  apply competitor_close g A hg hA v v' z
  have key : ∀ a : ZMod 2, (-1 : ℝ) ^ a.val = 1 - 2 * (a.val : ℝ) := by
    intro a; fin_cases a <;> norm_num [ZMod.val]
  have hs : ∀ w : BVec N, ∑ j, received g A v z j * (-1) ^ (w j).val =
      ∑ j, received g A v z j - 2 * ∑ j, ((w j).val : ℝ) * received g A v z j := by
    intro w
    rw [Finset.mul_sum, ← Finset.sum_sub_distrib]
    exact Finset.sum_congr rfl fun j _ => by rw [key]; ring
  rw [hs v, hs v']; linarith

/-- `ExhaustiveSearchDecoder(code, input_type="soft")`, every block code. -/
theorem C150_exhaustive (c : LinCode k m n) (h : c.Lawful) (d : Nat) (hd : c.minimumDistance = some d) (g A : ℝ) (hg : 0 < g) (hA : 0 < A)
    (u : BVec k) (z : Fin n → ℝ) (hz : ∑ j, z j ^ 2 < A ^ 2 * d) : exhaustiveSoft c (received g A (c.encode u) z) = some u := by
  obtain ⟨u', h1, h2⟩ := C47_soft c h (received g A (c.encode u) z)
  rw [h1, Option.some.injEq]
  by_contra hne
  have hle := competitor_close g A hg hA (c.encode u) (c.encode u') z (h2 u).1
  obtain ⟨_, hmin⟩ := (minimumDistance_spec c h d).mp hd
  have h3 : d ≤ hammingDist (c.encode u) (c.encode u') := by
    rw [hammingDist_eq_norm_add, ← h.encode_add]
    apply hmin
    intro e
    apply hne
    funext i
    have := congrFun e i
    simp only [Pi.add_apply, Pi.zero_apply] at this
    exact ((by decide : ∀ a b : ZMod 2, a + b = 0 → b = a) _ _ this)
  have h4 : A ^ 2 * (d : ℝ) ≤ A ^ 2 * (hammingDist (c.encode u) (c.encode u') : ℝ) :=
    mul_le_mul_of_nonneg_left (by exact_mod_cast h3) (by positivity)
  linarith

/-- The bound is sharp: just beyond it there is, for every code, a message and a noise vector for which the decoder errs. -/
theorem C150_exhaustive_sharp (c : LinCode k m n) (h : c.Lawful) (d : Nat) (hd : c.minimumDistance = some d) (g A : ℝ) (hg : 0 < g)
    (hA : 0 < A) (ε : ℝ) (hε : 0 < ε) : ∃ (u : BVec k) (z : Fin n → ℝ), ∑ j, z j ^ 2 < A ^ 2 * d + ε ∧
      exhaustiveSoft c (received g A (c.encode u) z) ≠ some u := by
  obtain ⟨⟨u0, hu0, hd0⟩, _⟩ := (minimumDistance_spec c h d).mp hd
  obtain ⟨B, hB, hBA⟩ : ∃ B, A < B ∧ B ^ 2 * d < A ^ 2 * d + ε := by
    have hd1 : (0 : ℝ) < d + 1 := by positivity
    refine ⟨√(A ^ 2 + ε / (d + 1)), ?_, ?_⟩
    · exact Real.lt_sqrt_of_sq_lt (by have := div_pos hε hd1; linarith)
    · rw [Real.sq_sqrt (by positivity), add_mul]
      have : ε / (d + 1) * d < ε := by
        rw [div_mul_eq_mul_div, div_lt_iff₀ hd1]; nlinarith
      linarith
  have henc : c.encode 0 = 0 := h.encode_zero
  refine ⟨0, fun j => if c.encode u0 j = 0 then 0 else -B, ?_, fun hc => ?_⟩
  · refine lt_of_eq_of_lt ?_ hBA
    have : ∀ j : Fin n, (if c.encode u0 j = 0 then (0 : ℝ) else -B) ^ 2 = B ^ 2 * (if c.encode u0 j ≠ 0 then 1 else 0) := by
      intro j; by_cases e : c.encode u0 j = 0 <;> simp [e]
    rw [Finset.sum_congr rfl fun j _ => this j, ← Finset.mul_sum, Finset.sum_boole, ← hd0]
    rfl
  · obtain ⟨u', h1, h2⟩ := C47_soft c h (received g A (c.encode 0) fun j => if c.encode u0 j = 0 then 0 else -B)
    rw [hc, Option.some.injEq] at h1
    subst h1
    have h3 := (h2 u0).1
    rw [henc] at h3
    have h4 : 0 ≤ ∑ j, received g A (0 : BVec n) (fun j => if c.encode u0 j = 0 then 0 else -B) j *
        ((-1 : ℝ) ^ ((0 : BVec n) j).val - (-1) ^ (c.encode u0 j).val) := by
      simp only [mul_sub, Finset.sum_sub_distrib]; linarith
    rw [sum_support] at h4
    have hne : (Finset.univ.filter fun j => (0 : BVec n) j ≠ c.encode u0 j).Nonempty := by
      by_contra hemp
      rw [Finset.not_nonempty_iff_eq_empty, Finset.filter_eq_empty_iff] at hemp
      apply hu0
      apply h.encode_injective
      rw [h.encode_zero]
      funext j
      exact (not_not.mp (hemp (Finset.mem_univ j))).symm
    have h5 : ∑ j ∈ Finset.univ.filter (fun j => (0 : BVec n) j ≠ c.encode u0 j),
        received g A (0 : BVec n) (fun j => if c.encode u0 j = 0 then 0 else -B) j * (-1) ^ ((0 : BVec n) j).val < 0 := by
      apply Finset.sum_neg _ hne
      intro j hj
      have hj' : ¬ c.encode u0 j = 0 := fun e => (Finset.mem_filter.mp hj).2 (by rw [e]; rfl)
      have : received g A (0 : BVec n) (fun j => if c.encode u0 j = 0 then 0 else -B) j = g * (A - B) := by
        simp only [received, Pi.zero_apply, ZMod.val_zero, pow_zero, mul_one, if_neg hj']; ring
      rw [this]
      simp only [Pi.zero_apply, ZMod.val_zero, pow_zero, mul_one]
      exact mul_neg_of_pos_of_neg hg (by linarith)
    linarith

/-- `WagnerDecoder`: single parity-check codes have minimum distance 2. -/
theorem C150_wagner (g A : ℝ) (hg : 0 < g) (hA : 0 < A) : ∃ c, singleParityCheckCode (n + 1) = some c ∧
    ∀ (u : BVec (n + 1 - 1)) (z : Fin (n + 1) → ℝ), ∑ j, z j ^ 2 < A ^ 2 * 2 → wagnerDecode c (received g A (c.encode u) z) = u := by
  obtain ⟨c, h1, hw⟩ := C56_wagner (K := ℝ) (n := n)
  obtain ⟨c', h1', h2, h3, -⟩ := C49_single_parity_check (n := n + 1) (by omega)
  rw [h1, Option.some.injEq] at h1'
  subst h1'
  refine ⟨c, h1, fun u z hz => ?_⟩
  by_contra hne
  have hle := competitor_close g A hg hA _ _ z (hw (received g A (c.encode u) z) u)
  set u' := wagnerDecode c (received g A (c.encode u) z)
  have he : Even (hammingNorm (c.encode (u + u'))) := (h3 _).mp ⟨_, rfl⟩
  rw [h2.encode_add, ← hammingDist_eq_norm_add] at he
  have h0 : hammingDist (c.encode u) (c.encode u') ≠ 0 := by
    rw [hammingDist_ne_zero]
    intro e
    exact hne (h2.encode_injective e).symm
  have h5 : 2 ≤ hammingDist (c.encode u) (c.encode u') := by
    obtain ⟨q, hq⟩ := he; omega
  have h4 : A ^ 2 * (2 : ℝ) ≤ A ^ 2 * (hammingDist (c.encode u) (c.encode u') : ℝ) :=
    mul_le_mul_of_nonneg_left (by exact_mod_cast h5) (by positivity)
  linarith

theorem soft_zero_corrects (c : StateSpace k n σ) (hk : 0 < k) (hn : 0 < n) (μ h : Nat) (hμ : 1 ≤ μ) (hh : 1 ≤ h)
    (hc : c.ControllableIn μ) (hp : c.finiteStateMachine.NoParallel)
    (hinj : ∀ input out, c.encodeWithState input 0 = some (out, 0) → 1 ∈ input → 1 ∈ out)
    (fuel d : Nat) (hd : c.freeDistance fuel = some (some d)) (t : Terminated k n σ) (ht : t = ⟨c, μ, h, .zeroTermination⟩)
    (g A : ℝ) (hg : 0 < g) (hA : 0 < A) (u : BVec t.dimension) (v : BVec t.length) (hv : t.encode u = some (List.ofFn v))
    (z : Fin t.length → ℝ) (hz : ∑ j, z j ^ 2 < A ^ 2 * d) :
    t.viterbiSoft (List.ofFn (received g A v z)) = some (List.ofFn u) := by
  have hmode : t.mode = .zeroTermination := by rw [ht]
  have hcode : t.code = c := by rw [ht]
  have hm : t.memoryOrder = μ := by rw [ht]
  obtain ⟨u', tail', v', h1, h2, h3, h4⟩ := C89_zero_soft t hmode hk hn (by rw [hm]; exact hμ) (by rw [hcode]; exact hp) (received g A v z)
  obtain ⟨tail, out, _, g2, _, g4, g5, _⟩ := zeroTermination_spec c hk μ h hμ hh hc t ht u
  rw [g5, Option.some.injEq] at hv
  subst hv
  rw [hcode] at h3 h4
  rw [hm] at h2
  have hlen : (List.ofFn u' ++ tail').length = (List.ofFn u ++ tail).length := by simp [h2, g2]
  have hvv : v' = v := by
    by_contra hne
    have hdist := C66_distance c fuel d hd _ _ _ _ hlen h3 g4 (fun e => hne (List.ofFn_injective e))
    rw [count_zipWith, hammingDist_comm] at hdist
    have h5 := competitor_close_viterbi g A hg hA v v' z (h4 _ v g4)
    have h6 : A ^ 2 * (d : ℝ) ≤ A ^ 2 * (hammingDist v v' : ℝ) :=
      mul_le_mul_of_nonneg_left (by exact_mod_cast hdist) (by positivity)
    linarith
  subst hvv
  have hs := C60_linear c _ _ hlen 0 0 0 0 _ _ h3 g4
  rw [add_zero] at hs
  have hzero : 1 ∉ List.zipWith (· + ·) (List.ofFn u' ++ tail') (List.ofFn u ++ tail) := by
    intro h1m
    have := hinj _ _ hs h1m
    rw [← List.count_pos_iff, count_zipWith, hammingDist_self] at this
    omega
  rw [h1, Option.some.injEq]
  have heq : List.ofFn u' ++ tail' = List.ofFn u ++ tail := by
    apply List.ext_getElem hlen
    intro i i1 i2
    by_contra hne
    apply hzero
    have : (List.zipWith (· + ·) (List.ofFn u' ++ tail') (List.ofFn u ++ tail))[i]'(by simp at i1 i2 ⊢; omega) = 1 := by
      rw [List.getElem_zipWith]
      exact (by decide : ∀ x y : ZMod 2, ¬x = y → x + y = 1) _ _ hne
    rw [← this]
    exact List.getElem_mem _
  exact (List.append_inj heq (by simp)).1

/-- Soft `ViterbiDecoder`, zero termination: the radius is given by `free_distance()`.  (Hypothesis `hinj`: no input stream with a one in
it that returns to the zero state has an all-zero output.) -/
theorem C150_viterbi (c : ConvCode k n) (hk : 0 < k) (hn : 0 < n) (hν : ∀ i, 1 ≤ c.constraintLength i) (h : Nat) (hh : 1 ≤ h)
    (hμ : 1 ≤ c.memoryOrder)
    (hinj : ∀ input out, c.stateSpace.encodeWithState input 0 = some (out, 0) → 1 ∈ input → 1 ∈ out)
    (fuel d : Nat) (hd : c.stateSpace.freeDistance fuel = some (some d)) (t : Terminated k n c.degree)
    (ht : t = ⟨c.stateSpace, c.memoryOrder, h, .zeroTermination⟩) (g A : ℝ) (hg : 0 < g) (hA : 0 < A)
    (u : BVec t.dimension) (v : BVec t.length) (hv : t.encode u = some (List.ofFn v)) (z : Fin t.length → ℝ)
    (hz : ∑ j, z j ^ 2 < A ^ 2 * d) : t.viterbiSoft (List.ofFn (received g A v z)) = some (List.ofFn u) :=
  soft_zero_corrects c.stateSpace hk hn c.memoryOrder h hμ hh c.controllable ((C89_no_parallel c).mpr hν) hinj fuel d hd t ht g A hg hA
    u v hv z hz

/-- Rate `1/n` encoders: `hinj` is automatic. -/
theorem C150_viterbi_rate_one (c : ConvCode 1 n) (hn : 0 < n) (hq : (toPoly (c.feedback 0)).coeff 0 = 1)
    (hgen : ∃ j, c.feedforward 0 j ≠ 0) (hν : 1 ≤ c.constraintLength 0) (h : Nat) (hh : 1 ≤ h)
    (fuel d : Nat) (hd : c.stateSpace.freeDistance fuel = some (some d)) (t : Terminated 1 n c.degree)
    (ht : t = ⟨c.stateSpace, c.memoryOrder, h, .zeroTermination⟩) (g A : ℝ) (hg : 0 < g) (hA : 0 < A)
    (u : BVec t.dimension) (v : BVec t.length) (hv : t.encode u = some (List.ofFn v)) (z : Fin t.length → ℝ)
    (hz : ∑ j, z j ^ 2 < A ^ 2 * d) : t.viterbiSoft (List.ofFn (received g A v z)) = some (List.ofFn u) := by
  refine C150_viterbi c (by norm_num) hn (fun i => by rw [Subsingleton.elim i 0]; exact hν) h hh ?_
    (c.injective_rate_one hq hgen) fuel d hd t ht g A hg hA u v hv z hz
  have : c.constraintLength 0 ≤ c.memoryOrder :=
    (ConvCode.foldl_max_nat _ 0).2 _ (List.mem_map.mpr ⟨0, List.mem_finRange 0, rfl⟩)
  omega

/-- `LowRateConvolutionalCode`. -/
theorem C150_viterbi_low_rate (c : LowRate n) (hn : 0 < n) (hν : 1 ≤ c.degree) (h : Nat) (hh : 1 ≤ h)
    (fuel d : Nat) (hd : c.stateSpace.freeDistance fuel = some (some d)) (t : Terminated 1 n c.degree)
    (ht : t = ⟨c.stateSpace, c.degree, h, .zeroTermination⟩) (g A : ℝ) (hg : 0 < g) (hA : 0 < A)
    (u : BVec t.dimension) (v : BVec t.length) (hv : t.encode u = some (List.ofFn v)) (z : Fin t.length → ℝ)
    (hz : ∑ j, z j ^ 2 < A ^ 2 * d) : t.viterbiSoft (List.ofFn (received g A v z)) = some (List.ofFn u) :=
  soft_zero_corrects c.stateSpace (by norm_num) hn c.degree h hν hh (c.stateSpace.controllable_of_le le_rfl)
    (C89_no_parallel_low_rate c hν) (c.injective hν) fuel d hd t ht g A hg hA u v hv z hz

/-- Direct truncation: the radius is given by the distance between the codewords of the truncated code. -/
theorem C150_viterbi_direct (t : Terminated k n σ) (hmode : t.mode = .directTruncation) (hk : 0 < k) (hn : 0 < n)
    (hh : 0 < t.numBlocks) (hp : t.code.finiteStateMachine.NoParallel) (d : Nat)
    (hd : ∀ (u u' : BVec t.dimension) (v v' : BVec t.length), u ≠ u' → t.encode u = some (List.ofFn v) →
      t.encode u' = some (List.ofFn v') → d ≤ hammingDist v v')
    (g A : ℝ) (hg : 0 < g) (hA : 0 < A) (u : BVec t.dimension) (v : BVec t.length) (hv : t.encode u = some (List.ofFn v))
    (z : Fin t.length → ℝ) (hz : ∑ j, z j ^ 2 < A ^ 2 * d) :
    t.viterbiSoft (List.ofFn (received g A v z)) = some (List.ofFn u) := by
  obtain ⟨u', v', h1, h2, h3⟩ := C89_direct_soft t hmode hk hn hh hp (received g A v z)
  rw [h1, Option.some.injEq]
  by_contra hne
  have hne' : u ≠ u' := fun e => hne (by rw [e])
  have h4 := hd u u' v v' hne' hv h2
  have h5 := competitor_close_viterbi g A hg hA v v' z (h3 u v hv)
  have h6 : A ^ 2 * (d : ℝ) ≤ A ^ 2 * (hammingDist v v' : ℝ) :=
    mul_le_mul_of_nonneg_left (by exact_mod_cast h4) (by positivity)
  linarith

/-- In particular, noise that touches at most `f` positions, each by at most `b`, is harmless as long as `f b² < A² d`: one position may be
hit with almost `A √d`, all `n` of them with almost `A √(d / n)`. -/
theorem C150_sparse_noise (c : LinCode k m n) (h : c.Lawful) (d : Nat) (hd : c.minimumDistance = some d) (g A : ℝ) (hg : 0 < g) (hA : 0 < A)
    (u : BVec k) (z : Fin n → ℝ) (f : Nat) (hf : (Finset.univ.filter fun j => z j ≠ 0).card ≤ f) (b : ℝ) (hb : ∀ j, |z j| ≤ b)
    (hfb : f * b ^ 2 < A ^ 2 * d) : exhaustiveSoft c (received g A (c.encode u) z) = some u := by
  apply C150_exhaustive c h d hd g A hg hA u z
  refine lt_of_le_of_lt ?_ hfb
  have h1 : ∑ j, z j ^ 2 = ∑ j ∈ Finset.univ.filter (fun j => z j ≠ 0), z j ^ 2 := by
    rw [Finset.sum_filter]
    exact Finset.sum_congr rfl fun j _ => by by_cases e : z j = 0 <;> simp [e]
  rw [h1]
  calc ∑ j ∈ Finset.univ.filter (fun j => z j ≠ 0), z j ^ 2
      ≤ ∑ _j ∈ Finset.univ.filter (fun j => z j ≠ 0), b ^ 2 :=
        Finset.sum_le_sum fun j _ => by rw [← sq_abs]; exact pow_le_pow_left₀ (abs_nonneg _) (hb j) 2
    _ = ((Finset.univ.filter fun j => z j ≠ 0).card : ℝ) * b ^ 2 := by rw [Finset.sum_const, nsmul_eq_mul]
    _ ≤ f * b ^ 2 := mul_le_mul_of_nonneg_right (by exact_mod_cast hf) (sq_nonneg _)

/-- The documented (6, 3) code has minimum distance 3, so the hypotheses of `C150_exhaustive` are met by any noise of squared length below 3;
here the first position is received with the wrong sign. -/
example : ∃ c, blockCodeOfGenerator exG = some c ∧ exhaustiveSoft c (received 2 1 (c.encode ![1, 0, 1]) ![3 / 2, 0, 0, 1 / 2, 0, 0]) = some ![1, 0, 1] := by
  have hG : LinearIndependent (ZMod 2) exG := by
    rw [linearIndependent_iff_card_eq_finrank_span, Fintype.card_fin, Set.finrank, ← rank_spec]; decide +kernel
  obtain ⟨c, h1, _, h3⟩ := C41_generator exG hG
  have hd : c.minimumDistance = some 3 := by
    have : (blockCodeOfGenerator exG).bind (fun c => c.minimumDistance) = some 3 := by decide +kernel
    rw [h1] at this; exact this
  refine ⟨c, h1, C150_exhaustive c h3 3 hd 2 1 (by norm_num) (by norm_num) _ _ ?_⟩
  simp [Fin.sum_univ_succ]; norm_num

/-- `ConvolutionalCode([[0o7, 0o5]])` has free distance 5; three blocks, zero termination, noise in four of the ten positions. -/
example (u : BVec exampleTerm75.dimension) (v : BVec exampleTerm75.length) (hv : exampleTerm75.encode u = some (List.ofFn v)) :
    exampleTerm75.viterbiSoft (List.ofFn (received 1 1 v fun j => if (j : Nat) < 4 then 11 / 10 else 0)) = some (List.ofFn u) := by
  refine C150_viterbi_rate_one exampleConv75 (by norm_num) ?_ ⟨0, by decide +kernel⟩ (by decide +kernel) 3 (by norm_num) 30 5 (by decide +kernel)
    exampleTerm75 (by rw [show exampleConv75.memoryOrder = 2 by decide +kernel]; rfl) 1 1 (by norm_num) (by norm_num) u v hv _ ?_
  · rw [show exampleConv75.feedback 0 = 1 by rfl, toPoly_one]; simp
  · have : exampleTerm75.length = 10 := rfl
    change ∑ j : Fin 10, (if (j : Nat) < 4 then (11 / 10 : ℝ) else 0) ^ 2 < 1 ^ 2 * (5 : ℕ)
    simp [Fin.sum_univ_succ]; norm_num

end Komm
