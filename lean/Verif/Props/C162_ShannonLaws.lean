import Verif.Props.C160_RateLaws

/-! C162: laws of the rates of Shannon codes. -/
namespace Komm
namespace ShannonLaws
open RateLaws

/-- expected codeword length of the Shannon code for these block probabilities -/
def E (B : List ℚ) : ℚ := (B.map fun p => (shannonLength p : ℚ) * p).sum

theorem zip_E (B : List ℚ) : (List.zipWith (fun (l : Nat) (p : ℚ) => (l : ℚ) * p) (B.map shannonLength) B).sum = E B := by
  induction B with
  | nil => rfl
  | cons p B ih => rw [List.map_cons, List.zipWith_cons_cons, List.sum_cons, ih, E, E, List.map_cons, List.sum_cons]

theorem code (pmf : List ℚ) (hp : ∀ p ∈ pmf, 0 < p) (hsum : pmf.sum = 1) (k : Nat) (h2 : 2 ≤ pmf.length) (hk : 1 ≤ k) :
    ∃ c, shannonCode pmf k = some c ∧ c.rate pmf = some (E (FVCode.blockProbabilities pmf k) / k) ∧
      c.codewords.map List.length = (FVCode.blockProbabilities pmf k).map shannonLength ∧
      PrefixFree c.codewords ∧ (∀ w ∈ c.codewords, w ≠ [] ∧ ∀ a ∈ w, a < 2) ∧ c.sourceBlockSize = k := by
  obtain ⟨c, h1, h3, h4, h5, h6, h7⟩ := shannonCode_spec pmf k hp hsum.le h2 hk
  refine ⟨c, h1, ?_, h3, h4, h5, h7⟩
  unfold FVCode.rate
  simp only
  rw [h7, h3, if_neg (by simp), zip_E]

theorem length_mul {p q : ℚ} (hp : 0 < p) (hq : 0 < q) : shannonLength (p * q) ≤ shannonLength p + shannonLength q := by
  have h : Int.clog 2 (1 / (p * q)) ≤ Int.clog 2 (1 / p) + Int.clog 2 (1 / q) := by
    rw [← Int.le_zpow_iff_clog_le (by norm_num) (by positivity)]
    rw [zpow_add₀ (by norm_num)]
    have h1 := Int.self_le_zpow_clog (b := 2) (by norm_num) (1 / p)
    have h2 := Int.self_le_zpow_clog (b := 2) (by norm_num) (1 / q)
    calc 1 / (p * q) = (1 / p) * (1 / q) := by field_simp
      _ ≤ _ := mul_le_mul h1 h2 (by positivity) (by positivity)
  unfold shannonLength
  omega

theorem E_cons (p : ℚ) (B : List ℚ) : E (p :: B) = shannonLength p * p + E B := by simp [E]

theorem E_append (A B : List ℚ) : E (A ++ B) = E A + E B := by simp [E]

theorem E_scale (p : ℚ) (hp : 0 < p) (B : List ℚ) (hB : ∀ q ∈ B, 0 < q) : E (B.map (p * ·)) ≤ p * (shannonLength p * B.sum + E B) := by
  induction B with
  | nil => simp [E]
  | cons q B ih =>
    have hq : 0 < q := hB q (by simp)
    have := ih fun x hx => hB x (by simp [hx])
    rw [List.map_cons, E_cons, E_cons, List.sum_cons]
    have h1 : (shannonLength (p * q) : ℚ) ≤ shannonLength p + shannonLength q := by exact_mod_cast length_mul hp hq
    have h2 := mul_le_mul_of_nonneg_right h1 (mul_pos hp hq).le
    nlinarith

theorem E_prod (A B : List ℚ) (hA : ∀ p ∈ A, 0 < p) (hB : ∀ q ∈ B, 0 < q) : E (A.flatMap fun p => B.map (p * ·)) ≤ E A * B.sum + A.sum * E B := by
  induction A with
  | nil => simp [E]
  | cons p A ih =>
    have := ih fun x hx => hA x (by simp [hx])
    have h1 := E_scale p (hA p (by simp)) B hB
    rw [List.flatMap_cons, E_append, E_cons, List.sum_cons]
    nlinarith

theorem E_perm {A B : List ℚ} (h : A.Perm B) : E A = E B := (h.map _).sum_eq

theorem length_dyadic (m : ℕ) : shannonLength (1 / 2 ^ (m + 1)) = m + 1 := by
  have h := Int.clog_zpow (R := ℚ) (b := 2) (by norm_num) ((m + 1 : ℕ) : ℤ)
  have e : (1 : ℚ) / (1 / 2 ^ (m + 1)) = ((2 : ℕ) : ℚ) ^ ((m + 1 : ℕ) : ℤ) := by rw [one_div_one_div, zpow_natCast]; norm_num
  unfold shannonLength
  rw [e, h]
  omega

theorem E_dyadic (B : List ℚ) (h : ∀ p ∈ B, ∃ m : ℕ, p = 1 / 2 ^ (m + 1)) : (E B : ℝ) = entropyBits B := by
  induction B with
  | nil => simp [E, entropyBits]
  | cons p B ih =>
    obtain ⟨m, rfl⟩ := h p (by simp)
    have := ih fun x hx => h x (by simp [hx])
    rw [E_cons, entropyBits, List.map_cons, List.sum_cons, ← entropyBits, ← this, length_dyadic]
    push_cast
    rw [one_div_one_div, Real.logb_pow]
    simp
    ring

theorem dyadic_block (pmf : List ℚ) (h : ∀ p ∈ pmf, ∃ m : ℕ, p = 1 / 2 ^ (m + 1)) (k : ℕ) : ∀ p ∈ FVCode.blockProbabilities pmf (k + 1), ∃ m : ℕ, p = 1 / 2 ^ (m + 1) := by
  induction k with
  | zero => simpa [FVCode.blockProbabilities] using h
  | succ k ih =>
    intro x hx
    rw [FVCode.blockProbabilities] at hx
    obtain ⟨p, hp, hx⟩ := List.mem_flatMap.mp hx
    obtain ⟨q, hq, rfl⟩ := List.mem_map.mp hx
    obtain ⟨m, rfl⟩ := h p hp
    obtain ⟨l, rfl⟩ := ih q hq
    exact ⟨m + l + 1, by rw [div_mul_div_comm, one_mul, ← pow_add]; congr 2; omega⟩

theorem bits_eq (pmf : List ℚ) (hp : ∀ p ∈ pmf, 0 < p) : (∑ a ∈ Finset.range pmf.length, Real.negMulLog (symbolProb pmf a)) / Real.log 2 = entropyBits pmf := by
  have key : ∀ l : List ℚ, ∑ a ∈ Finset.range l.length, Real.negMulLog (((l.getD a 0 : ℚ)) : ℝ) = (l.map fun p : ℚ => Real.negMulLog (p : ℝ)).sum := by
    intro l
    induction l with
    | nil => simp
    | cons p l ih => rw [List.length_cons, Finset.sum_range_succ', List.map_cons, List.sum_cons, ← ih]; simp [add_comm]
  have := key pmf
  unfold symbolProb
  rw [this, entropyBits]
  clear this key
  induction pmf with
  | nil => simp
  | cons p l ih =>
    rw [List.map_cons, List.sum_cons, List.map_cons, List.sum_cons, ← ih fun x hx => hp x (by simp [hx]), add_div, Real.logb, one_div, Real.log_inv, Real.negMulLog]
    ring

end ShannonLaws
open ShannonLaws RateLaws

/-- The rate of a Shannon code does not depend on the order of the probabilities. -/
theorem C162_shannon_rate_invariant (pmf pmf' : List ℚ) (hp : ∀ p ∈ pmf, 0 < p) (hsum : pmf.sum = 1) (hperm : pmf.Perm pmf') (k : Nat)
    (h2 : 2 ≤ pmf.length) (hk : 1 ≤ k) :
    ∃ c c' r, shannonCode pmf k = some c ∧ shannonCode pmf' k = some c' ∧ c.rate pmf = some r ∧ c'.rate pmf' = some r := by
  obtain ⟨c, h1, h3, -⟩ := code pmf hp hsum k h2 hk
  obtain ⟨c', g1, g3, -⟩ := code pmf' (fun p h => hp p (hperm.mem_iff.mpr h)) (by rw [← hperm.sum_eq]; exact hsum) k (by rw [← hperm.length_eq]; exact h2) hk
  exact ⟨c, c', _, h1, g1, h3, by rw [g3, E_perm (bp_perm hperm k)]⟩

/-- The expected number of bits for a block of `a + b` symbols is at most the sum of those for blocks of `a` and of `b` symbols. -/
theorem C162_shannon_subadditive (pmf : List ℚ) (hp : ∀ p ∈ pmf, 0 < p) (hsum : pmf.sum = 1) (a b : Nat)
    (h2 : 2 ≤ pmf.length) (ha : 1 ≤ a) (hb : 1 ≤ b) :
    ∃ ca cb cab ra rb rab, shannonCode pmf a = some ca ∧ shannonCode pmf b = some cb ∧ shannonCode pmf (a + b) = some cab ∧
      ca.rate pmf = some ra ∧ cb.rate pmf = some rb ∧ cab.rate pmf = some rab ∧ ((a + b : ℕ) : ℚ) * rab ≤ a * ra + b * rb := by
  obtain ⟨ca, a1, a2, -⟩ := code pmf hp hsum a h2 ha
  obtain ⟨cb, b1, b2, -⟩ := code pmf hp hsum b h2 hb
  obtain ⟨c, c1, c2, -⟩ := code pmf hp hsum (a + b) h2 (by omega)
  refine ⟨ca, cb, c, _, _, _, a1, b1, c1, a2, b2, c2, ?_⟩
  have hne : ∀ n : ℕ, 1 ≤ n → (n : ℚ) ≠ 0 := fun n hn => by positivity
  rw [mul_div_cancel₀ _ (hne (a + b) (by omega)), mul_div_cancel₀ _ (hne a ha), mul_div_cancel₀ _ (hne b hb), bp_add]
  refine (E_prod _ _ (blockProbabilities_pos hp a) (blockProbabilities_pos hp b)).trans ?_
  rw [blockProbabilities_sum, blockProbabilities_sum, hsum]
  simp

/-- Multiplying the block size never increases the rate. -/
theorem C162_shannon_multiple (pmf : List ℚ) (hp : ∀ p ∈ pmf, 0 < p) (hsum : pmf.sum = 1) (j k : Nat)
    (h2 : 2 ≤ pmf.length) (hj : 1 ≤ j) (hk : 1 ≤ k) :
    ∃ c c' r r', shannonCode pmf (j * k) = some c ∧ shannonCode pmf k = some c' ∧ c.rate pmf = some r ∧ c'.rate pmf = some r' ∧ r ≤ r' := by
  induction j with
  | zero => omega
  | succ j ih =>
    rcases Nat.eq_zero_or_pos j with rfl | hj'
    · obtain ⟨c, hc, hr, -⟩ := code pmf hp hsum k h2 hk
      exact ⟨c, c, _, _, by simpa using hc, hc, hr, hr, le_rfl⟩
    · obtain ⟨c, c', r, r', h3, h4, h5, h6, h7⟩ := ih hj'
      obtain ⟨d, d', e, s, s', t, g1, g2, g3, g4, g5, g6, g7⟩ := C162_shannon_subadditive pmf hp hsum (j * k) k h2 (Nat.mul_pos hj' hk) hk
      rw [h3] at g1; cases g1
      rw [h4] at g2; cases g2
      rw [h5] at g4; cases g4
      rw [h6] at g5; cases g5
      refine ⟨e, c', t, r', by rw [Nat.succ_mul]; exact g3, h4, g6, h6, ?_⟩
      have hk0 : (0 : ℚ) < k := by exact_mod_cast hk
      have hj0 : (0 : ℚ) < j := by exact_mod_cast hj'
      push_cast at g7
      have h8 : ((j : ℚ) * k + k) * t ≤ (j * k + k) * r' := g7.trans (by nlinarith [mul_le_mul_of_nonneg_left h7 (mul_pos hj0 hk0).le])
      exact le_of_mul_le_mul_left h8 (by positivity)

/-- No Shannon and no Fano code has a smaller rate than the Huffman code of the same source and block size. -/
theorem C162_huffman_below (pmf : List ℚ) (hp : ∀ p ∈ pmf, 0 < p) (hsum : pmf.sum = 1) (k : Nat) (policy : HuffmanPolicy) (assignment : HuffmanAssignment)
    (h2 : 2 ≤ pmf.length) (hk : 1 ≤ k) :
    ∃ c s f r rs rf, huffmanCode pmf k policy assignment = some c ∧ shannonCode pmf k = some s ∧ fanoCode pmf k = some f ∧
      c.rate pmf = some r ∧ s.rate pmf = some rs ∧ f.rate pmf = some rf ∧ r ≤ rs ∧ r ≤ rf := by
  obtain ⟨c, hc, hr, hopt⟩ := C27_huffman_optimal pmf (fun x h => (hp x h).le) k policy assignment h2 hk
  obtain ⟨c₁, r₁, hc₁, hr₁, hmin⟩ := C160_huffman_minimum pmf (fun x h => (hp x h).le) k policy assignment h2 hk
  obtain ⟨s, h1, h3, -, h5, h6, h7⟩ := code pmf hp hsum k h2 hk
  obtain ⟨f, h, rf, f1, -, f3, -, -⟩ := C128_fano pmf ⟨fun x hx => (hp x hx).le, hsum⟩ k h2 hk
  obtain ⟨f', f1', fkeys, fwords, fpf, -, fup⟩ := C28_fano_complete_prefix pmf (fun x hx => (hp x hx).le) k h2 hk
  rw [f1] at f1'; cases f1'
  refine ⟨c₁, s, f, r₁, _, rf, hc₁, h1, f1, hr₁, h3, f3, ?_, ?_⟩
  · exact hmin s _ h7 (fun w hw => (h6 w hw).2) (h5.nodup fun w hw => (h6 w hw).1) (UniquelyParsable.of_prefixFree h5 fun w hw => (h6 w hw).1) h3
  · refine hmin f _ ?_ (fun w hw => (fwords w hw).2) (fpf.nodup fun w hw => (fwords w hw).1) fup f3
    revert f1
    unfold fanoCode
    intro f1
    repeat' split at f1
    all_goals first | cases f1 | skip
    all_goals
      unfold FVCode.create at f1
      repeat' split at f1
      all_goals first | (cases f1; done) | (cases f1; rfl)

/-- When all probabilities are powers of 1/2, the Shannon and Huffman codes of every block size meet the entropy exactly. -/
theorem C162_dyadic (pmf : List ℚ) (hd : ∀ p ∈ pmf, ∃ m : ℕ, p = 1 / 2 ^ (m + 1)) (hsum : pmf.sum = 1) (k : Nat) (policy : HuffmanPolicy) (assignment : HuffmanAssignment)
    (hk : 1 ≤ k) :
    ∃ c s r, huffmanCode pmf k policy assignment = some c ∧ shannonCode pmf k = some s ∧ c.rate pmf = some r ∧ s.rate pmf = some r ∧
      (r : ℝ) = entropyBits pmf ∧ entropy (pmfVec pmf) (.num 2) = some (r : ℝ) := by
  have hp : ∀ p ∈ pmf, 0 < p := fun p h => by obtain ⟨m, rfl⟩ := hd p h; positivity
  have h2 : 2 ≤ pmf.length := by
    match pmf, hd, hsum with
    | [], _, h => simp at h
    | [p], hd, h =>
      obtain ⟨m, rfl⟩ := hd p (by simp)
      have h3 : (1 : ℚ) / 2 ^ (m + 1) < 1 := by
        rw [div_lt_one (by positivity)]
        exact one_lt_pow₀ (by norm_num) (by omega)
      simp only [List.sum_cons, List.sum_nil, add_zero] at h
      exact absurd h h3.ne
    | _ :: _ :: _, _, _ => simp
  obtain ⟨c, s, f, r, rs, rf, h1, h3, -, h5, h6, -, h7, -⟩ := C162_huffman_below pmf hp hsum k policy assignment h2 hk
  obtain ⟨s', g1, g2, -⟩ := code pmf hp hsum k h2 hk
  rw [h3] at g1; cases g1
  rw [h6] at g2; cases g2
  obtain ⟨c', h, r', e1, e2, e3, e4, -⟩ := C128_huffman pmf ⟨fun x hx => (hp x hx).le, hsum⟩ k policy assignment h2 hk
  rw [h1] at e1; cases e1
  rw [h5] at e3; cases e3
  have hk0 : (0 : ℝ) < k := by exact_mod_cast hk
  obtain ⟨j, rfl⟩ : ∃ j, k = j + 1 := ⟨k - 1, by omega⟩
  have hE : ((E (FVCode.blockProbabilities pmf (j + 1)) / ((j + 1 : ℕ) : ℚ) : ℚ) : ℝ) = entropyBits pmf := by
    rw [Rat.cast_div, E_dyadic _ (dyadic_block pmf hd j), entropyBits_block pmf hp hsum, Rat.cast_natCast, mul_div_cancel_left₀ _ hk0.ne']
  have hent := entropy_pmfVec (b := 2) (fun x hx => (hp x hx).le) hsum (by norm_num)
  have hh : h = entropyBits pmf := by
    rw [hent] at e2
    rw [← Option.some.inj e2]
    exact bits_eq pmf hp
  have h8 : (r : ℝ) ≤ ((E (FVCode.blockProbabilities pmf (j + 1)) / ((j + 1 : ℕ) : ℚ) : ℚ) : ℝ) := by exact_mod_cast h7
  have h9 : (r : ℝ) = entropyBits pmf := le_antisymm (h8.trans hE.le) (hh ▸ e4)
  refine ⟨c, s, r, h1, h3, h5, ?_, h9, by rw [e2, hh, h9]⟩
  rw [h6]
  congr 1
  have : ((E (FVCode.blockProbabilities pmf (j + 1)) / ((j + 1 : ℕ) : ℚ) : ℚ) : ℝ) = (r : ℝ) := by rw [hE, h9]
  exact_mod_cast this

/-- Non-vacuity. -/
example : (shannonCode ([1/2, 1/4, 1/8, 1/8] : List ℚ) 1).map (fun c => c.rate [1/2, 1/4, 1/8, 1/8]) = some (some (7/4)) ∧
    (huffmanCode ([1/2, 1/4, 1/8, 1/8] : List ℚ) 2 .high .tree).map (fun c => c.rate [1/2, 1/4, 1/8, 1/8]) = some (some (7/4)) ∧
    (shannonCode ([8/10, 1/10, 1/10] : List ℚ) 1).map (fun c => c.rate [8/10, 1/10, 1/10]) = some (some (16/10)) ∧
    (shannonCode ([1/10, 8/10, 1/10] : List ℚ) 1).map (fun c => c.rate [1/10, 8/10, 1/10]) = some (some (16/10)) := by decide +kernel

end Komm
