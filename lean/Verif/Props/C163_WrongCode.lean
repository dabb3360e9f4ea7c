import Verif.Props.C162_ShannonLaws

/-! C163: Shannon codes designed for the wrong probabilities. -/
namespace Komm
namespace WrongCode
open RateLaws ShannonLaws

/-- blocks of pairs (true probability, assumed probability) -/
def block (l : List (ℚ × ℚ)) : ℕ → List (ℚ × ℚ)
  | 0 => [(1, 1)]
  | k + 1 => l.flatMap fun x => (block l k).map fun y => (x.1 * y.1, x.2 * y.2)

theorem block_fst (l : List (ℚ × ℚ)) (k : ℕ) : (block l k).map Prod.fst = FVCode.blockProbabilities (l.map Prod.fst) k := by
  induction k with
  | zero => rfl
  | succ k ih =>
    rw [block, FVCode.blockProbabilities, ← ih, List.map_flatMap, List.flatMap_map]
    congr 1; funext x
    simp [List.map_map, Function.comp_def]

theorem block_snd (l : List (ℚ × ℚ)) (k : ℕ) : (block l k).map Prod.snd = FVCode.blockProbabilities (l.map Prod.snd) k := by
  induction k with
  | zero => rfl
  | succ k ih =>
    rw [block, FVCode.blockProbabilities, ← ih, List.map_flatMap, List.flatMap_map]
    congr 1; funext x
    simp [List.map_map, Function.comp_def]

/-- cross entropy in bits -/
noncomputable def cross (l : List (ℚ × ℚ)) : ℝ := (l.map fun x => (x.1 : ℝ) * Real.logb 2 (1 / (x.2 : ℝ))).sum

theorem cross_scale (p q : ℚ) (hq : 0 < q) (l : List (ℚ × ℚ)) (hl : ∀ x ∈ l, 0 < x.2) :
    cross (l.map fun y => (p * y.1, q * y.2)) = p * Real.logb 2 (1 / (q : ℝ)) * (((l.map Prod.fst).sum : ℚ) : ℝ) + p * cross l := by
  induction l with
  | nil => simp [cross]
  | cons x l ih =>
    have ih := ih fun y hy => hl y (by simp [hy])
    have hx : (0 : ℝ) < x.2 := by exact_mod_cast hl x (by simp)
    have hq' : (0 : ℝ) < q := by exact_mod_cast hq
    unfold cross at ih ⊢
    simp only [List.map_cons, List.sum_cons]
    rw [ih]
    push_cast
    rw [show (1 : ℝ) / ((q : ℝ) * x.2) = (1 / q) * (1 / x.2) by field_simp, Real.logb_mul (by positivity) (by positivity)]
    ring

theorem cross_append (A B : List (ℚ × ℚ)) : cross (A ++ B) = cross A + cross B := by simp [cross]

theorem cross_prod (A B : List (ℚ × ℚ)) (hA : ∀ x ∈ A, 0 < x.2) (hB : ∀ x ∈ B, 0 < x.2) :
    cross (A.flatMap fun x => B.map fun y => (x.1 * y.1, x.2 * y.2)) = cross A * (((B.map Prod.fst).sum : ℚ) : ℝ) + (((A.map Prod.fst).sum : ℚ) : ℝ) * cross B := by
  induction A with
  | nil => simp [cross]
  | cons x A ih =>
    rw [List.flatMap_cons, cross_append, ih fun y hy => hA y (by simp [hy]), cross_scale _ _ (hA x (by simp)) B hB]
    simp only [cross, List.map_cons, List.sum_cons]
    push_cast
    ring

theorem block_pos (l : List (ℚ × ℚ)) (hl : ∀ x ∈ l, 0 < x.2) (k : ℕ) : ∀ x ∈ block l k, 0 < x.2 := by
  intro x hx
  have : x.2 ∈ FVCode.blockProbabilities (l.map Prod.snd) k := by rw [← block_snd]; exact List.mem_map_of_mem hx
  exact blockProbabilities_pos (fun p hp => by obtain ⟨y, hy, rfl⟩ := List.mem_map.mp hp; exact hl y hy) k _ this

theorem cross_block (l : List (ℚ × ℚ)) (hl : ∀ x ∈ l, 0 < x.2) (hs : (l.map Prod.fst).sum = 1) (k : ℕ) : cross (block l k) = k * cross l := by
  induction k with
  | zero => simp [block, cross]
  | succ k ih =>
    rw [block, cross_prod _ _ hl (block_pos l hl k), ih, block_fst, blockProbabilities_sum, hs]
    push_cast
    ring

theorem zip_len (l : List (ℚ × ℚ)) : (((List.zipWith (fun (n : Nat) (p : ℚ) => (n : ℚ) * p) ((l.map Prod.snd).map shannonLength) (l.map Prod.fst)).sum : ℚ) : ℝ) =
    (l.map fun x => (x.1 : ℝ) * shannonLength x.2).sum := by
  induction l with
  | nil => simp
  | cons x l ih =>
    simp only [List.map_cons, List.zipWith_cons_cons, List.sum_cons]
    rw [Rat.cast_add, ih]
    push_cast
    ring

theorem lower (l : List (ℚ × ℚ)) (hl : ∀ x ∈ l, 0 ≤ x.1 ∧ 0 < x.2) : cross l ≤ (l.map fun x => (x.1 : ℝ) * shannonLength x.2).sum := by
  refine List.sum_le_sum fun x hx => ?_
  have h0 : (0 : ℝ) ≤ x.1 := by exact_mod_cast (hl x hx).1
  exact mul_le_mul_of_nonneg_left (shannonLength_log (hl x hx).2).1 h0

theorem upper (l : List (ℚ × ℚ)) (hl : ∀ x ∈ l, 0 ≤ x.1 ∧ 0 < x.2 ∧ x.2 < 1) (hs : (l.map Prod.fst).sum = 1) :
    (l.map fun x => (x.1 : ℝ) * shannonLength x.2).sum < cross l + 1 := by
  have e : cross l + 1 = (l.map fun x => (x.1 : ℝ) * (Real.logb 2 (1 / (x.2 : ℝ)) + 1)).sum := by
    have h1 : (1 : ℝ) = (l.map fun x => (x.1 : ℝ)).sum := by
      have : (((l.map Prod.fst).sum : ℚ) : ℝ) = (l.map fun x => (x.1 : ℝ)).sum := by
        clear hl hs
        induction l with
        | nil => simp
        | cons x l ih => simp [← ih]
      rw [← this, hs, Rat.cast_one]
    calc cross l + 1 = cross l + (l.map fun x => (x.1 : ℝ)).sum := by rw [← h1]
      _ = _ := by
        rw [cross, ← List.sum_map_add]
        simp only [mul_add, mul_one]
  rw [e]
  refine List.sum_lt_sum _ _ (fun x hx => ?_) ?_
  · have h0 : (0 : ℝ) ≤ x.1 := by exact_mod_cast (hl x hx).1
    exact mul_le_mul_of_nonneg_left ((shannonLength_log (hl x hx).2.1).2 (hl x hx).2.2).le h0
  · by_contra hc
    push Not at hc
    have : ∀ x ∈ l, x.1 = 0 := by
      intro x hx
      by_contra h
      have h0 : (0 : ℝ) < x.1 := by exact_mod_cast lt_of_le_of_ne (hl x hx).1 (Ne.symm h)
      exact absurd (hc x hx) (not_le.mpr (mul_lt_mul_of_pos_left ((shannonLength_log (hl x hx).2.1).2 (hl x hx).2.2) h0))
    have h0 : (l.map Prod.fst).sum = 0 := List.sum_eq_zero fun y hy => by
      obtain ⟨x, hx, rfl⟩ := List.mem_map.mp hy
      exact this x hx
    rw [hs] at h0
    exact one_ne_zero h0

theorem lt_one_of_sum {B : List ℚ} (hpos : ∀ p ∈ B, 0 < p) (hs : B.sum = 1) (h2 : 2 ≤ B.length) : ∀ p ∈ B, p < 1 := by
  intro p hpB
  obtain ⟨s, t, rfl⟩ := List.append_of_mem hpB
  have hne : s ++ t ≠ [] := by
    intro hc
    have := congrArg List.length hc
    simp only [List.length_append, List.length_cons, List.length_nil] at this h2
    omega
  have := List.sum_pos (s ++ t) (fun x hx => hpos x (by
    rcases List.mem_append.mp hx with h | h
    · simp [h]
    · simp [h])) hne
  simp only [List.sum_append, List.sum_cons] at hs this
  linarith

theorem exact (l : List (ℚ × ℚ)) (hl : ∀ x ∈ l, ∃ m : ℕ, x.2 = 1 / 2 ^ (m + 1)) : (l.map fun x => (x.1 : ℝ) * shannonLength x.2).sum = cross l := by
  rw [cross]
  congr 1
  refine List.map_congr_left fun x hx => ?_
  obtain ⟨m, e⟩ := hl x hx
  rw [e, length_dyadic]
  congr 1
  push_cast
  rw [one_div_one_div, Real.logb_pow]
  simp

end WrongCode
open WrongCode ShannonLaws RateLaws

/-- A Shannon code for the probabilities `q`, used for a source with probabilities `p` (zeros allowed): its rate is the entropy of `p` plus the relative
entropy of `p` and `q`, up to less than `1 / k`. -/
theorem C163_wrong_code {n : ℕ} (p q : Fin n → ℚ) (hp : ∀ i, 0 ≤ p i) (hps : ∑ i, p i = 1) (hq : ∀ i, 0 < q i) (hqs : ∑ i, q i = 1) (k : ℕ) (h2 : 2 ≤ n) (hk : 1 ≤ k) :
    ∃ (c : FVCode) (r : ℚ) (h d : ℝ), shannonCode (List.ofFn q) k = some c ∧ c.rate (List.ofFn p) = some r ∧
      entropy (fun i => (p i : ℝ)) (.num 2) = some h ∧ relativeEntropy (fun i => (p i : ℝ)) (fun i => (q i : ℝ)) (.num 2) = some ((d : ℝ) : EReal) ∧
      h + d ≤ r ∧ (r : ℝ) < h + d + 1 / k := by
  have hqpos : ∀ x ∈ List.ofFn q, 0 < x := fun x hx => by obtain ⟨i, rfl⟩ := List.mem_ofFn.mp hx; exact hq i
  have hqsum : (List.ofFn q).sum = 1 := by rw [List.sum_ofFn, hqs]
  obtain ⟨c, hc, -, hlen, -, -, hsz⟩ := code (List.ofFn q) hqpos hqsum k (by simpa using h2) hk
  set l : List (ℚ × ℚ) := List.ofFn fun i : Fin n => (p i, q i) with hl
  have lf : l.map Prod.fst = List.ofFn p := by rw [hl, List.map_ofFn]; rfl
  have ls : l.map Prod.snd = List.ofFn q := by rw [hl, List.map_ofFn]; rfl
  have lpos : ∀ x ∈ l, 0 ≤ x.1 ∧ 0 < x.2 := fun x hx => by
    obtain ⟨i, rfl⟩ := List.mem_ofFn.mp hx
    exact ⟨hp i, hq i⟩
  have lsum : (l.map Prod.fst).sum = 1 := by rw [lf, List.sum_ofFn, hps]
  have hk0 : (0 : ℝ) < k := by exact_mod_cast hk
  have hn0 : ∀ x ∈ block l k, 0 ≤ x.1 := fun x hx => by
    have : x.1 ∈ FVCode.blockProbabilities (l.map Prod.fst) k := by rw [← block_fst]; exact List.mem_map_of_mem hx
    refine (blockProbabilities_isPmf (pmf := l.map Prod.fst) ⟨fun y hy => ?_, lsum⟩ k).1 _ this
    obtain ⟨z, hz, rfl⟩ := List.mem_map.mp hy
    exact (lpos z hz).1
  have hpos := block_pos l (fun x hx => (lpos x hx).2) k
  have hlt : ∀ x ∈ block l k, x.2 < 1 := fun x hx => by
    have hm : x.2 ∈ FVCode.blockProbabilities (l.map Prod.snd) k := by rw [← block_snd]; exact List.mem_map_of_mem hx
    refine lt_one_of_sum (B := FVCode.blockProbabilities (l.map Prod.snd) k) ?_ ?_ ?_ _ hm
    · rw [ls]; exact blockProbabilities_pos hqpos k
    · rw [blockProbabilities_sum, ls, hqsum, one_pow]
    · rw [bp_length, ls, List.length_ofFn]
      exact h2.trans (Nat.le_self_pow (by omega) n)
  have hlo := lower (block l k) fun x hx => ⟨hn0 x hx, hpos x hx⟩
  have hup := upper (block l k) (fun x hx => ⟨hn0 x hx, hpos x hx, hlt x hx⟩) (by rw [block_fst, blockProbabilities_sum, lsum, one_pow])
  rw [cross_block l (fun x hx => (lpos x hx).2) lsum] at hlo hup
  rw [← zip_len, block_snd, block_fst, ls, lf] at hlo hup
  have hP : Info.Pmf fun i => (p i : ℝ) := ⟨fun i => by exact_mod_cast hp i, by exact_mod_cast hps⟩
  have hQ : Info.Pmf fun i => (q i : ℝ) := ⟨fun i => by exact_mod_cast (hq i).le, by exact_mod_cast hqs⟩
  have hb : validLogBase (.num 2) = true := by simp [validLogBase]
  have hl2 : Real.log 2 ≠ 0 := (Real.log_pos (by norm_num)).ne'
  have hcross : cross l = Info.H (fun i => (p i : ℝ)) / Real.log 2 + Info.D (fun i => (p i : ℝ)) (fun i => (q i : ℝ)) / Real.log 2 := by
    rw [cross, hl, List.map_ofFn, List.sum_ofFn, Info.H, Info.D, ← add_div, ← Finset.sum_add_distrib, Finset.sum_div]
    refine Finset.sum_congr rfl fun i _ => ?_
    have hqi : (0 : ℝ) < q i := by exact_mod_cast hq i
    simp only [Function.comp]
    rcases (hp i).eq_or_lt with h | h
    · rw [← h]; simp
    · have hpi : (0 : ℝ) < p i := by exact_mod_cast h
      rw [Real.logb, Real.negMulLog, one_div, Real.log_inv, Real.log_div hpi.ne' hqi.ne']
      ring
  refine ⟨c, (List.zipWith (fun (n : Nat) (p : ℚ) => (n : ℚ) * p) ((FVCode.blockProbabilities (List.ofFn q) k).map shannonLength) (FVCode.blockProbabilities (List.ofFn p) k)).sum / k, _, _, hc, ?_, Info.entropy_eq _ _ hP hb, Info.relativeEntropy_eq _ _ _ hP hQ (fun i h => ?_) hb, ?_, ?_⟩
  · unfold FVCode.rate
    simp only
    rw [hsz, hlen, if_neg (by simp [bp_length])]
  · have hqi : (0 : ℝ) < q i := by exact_mod_cast hq i
    exact hqi
  · rw [Rat.cast_div, Rat.cast_natCast, le_div_iff₀ hk0]
    simp only [LogBase.val]
    rw [← hcross]; linarith
  · rw [Rat.cast_div, Rat.cast_natCast, div_lt_iff₀ hk0, add_mul, one_div_mul_cancel hk0.ne']
    simp only [LogBase.val]
    rw [← hcross]; linarith

/-- When all the assumed probabilities are powers of 1/2 the rate is exactly that sum, for every block size. -/
theorem C163_dyadic {n : ℕ} (p q : Fin n → ℚ) (hp : ∀ i, 0 ≤ p i) (hps : ∑ i, p i = 1) (hd : ∀ i, ∃ m : ℕ, q i = 1 / 2 ^ (m + 1)) (hqs : ∑ i, q i = 1) (k : ℕ) (h2 : 2 ≤ n) (hk : 1 ≤ k) :
    ∃ (c : FVCode) (r : ℚ) (h d : ℝ), shannonCode (List.ofFn q) k = some c ∧ c.rate (List.ofFn p) = some r ∧
      entropy (fun i => (p i : ℝ)) (.num 2) = some h ∧ relativeEntropy (fun i => (p i : ℝ)) (fun i => (q i : ℝ)) (.num 2) = some ((d : ℝ) : EReal) ∧
      (r : ℝ) = h + d := by
  have hq : ∀ i, 0 < q i := fun i => by obtain ⟨m, e⟩ := hd i; rw [e]; positivity
  have hqpos : ∀ x ∈ List.ofFn q, 0 < x := fun x hx => by obtain ⟨i, rfl⟩ := List.mem_ofFn.mp hx; exact hq i
  have hqsum : (List.ofFn q).sum = 1 := by rw [List.sum_ofFn, hqs]
  obtain ⟨c, hc, -, hlen, -, -, hsz⟩ := code (List.ofFn q) hqpos hqsum k (by simpa using h2) hk
  set l : List (ℚ × ℚ) := List.ofFn fun i : Fin n => (p i, q i) with hl
  have lf : l.map Prod.fst = List.ofFn p := by rw [hl, List.map_ofFn]; rfl
  have ls : l.map Prod.snd = List.ofFn q := by rw [hl, List.map_ofFn]; rfl
  have lpos : ∀ x ∈ l, 0 ≤ x.1 ∧ 0 < x.2 := fun x hx => by
    obtain ⟨i, rfl⟩ := List.mem_ofFn.mp hx
    exact ⟨hp i, hq i⟩
  have lsum : (l.map Prod.fst).sum = 1 := by rw [lf, List.sum_ofFn, hps]
  have hk0 : (0 : ℝ) < k := by exact_mod_cast hk
  have heq := exact (block l k) fun x hx => by
    obtain ⟨j, rfl⟩ : ∃ j, k = j + 1 := ⟨k - 1, by omega⟩
    refine dyadic_block (l.map Prod.snd) (fun y hy => ?_) j x.2 (by rw [← block_snd]; exact List.mem_map_of_mem hx)
    rw [ls] at hy
    obtain ⟨i, rfl⟩ := List.mem_ofFn.mp hy
    exact hd i
  rw [cross_block l (fun x hx => (lpos x hx).2) lsum] at heq
  rw [← zip_len, block_snd, block_fst, ls, lf] at heq
  have hP : Info.Pmf fun i => (p i : ℝ) := ⟨fun i => by exact_mod_cast hp i, by exact_mod_cast hps⟩
  have hQ : Info.Pmf fun i => (q i : ℝ) := ⟨fun i => by exact_mod_cast (hq i).le, by exact_mod_cast hqs⟩
  have hb : validLogBase (.num 2) = true := by simp [validLogBase]
  have hl2 : Real.log 2 ≠ 0 := (Real.log_pos (by norm_num)).ne'
  have hcross : cross l = Info.H (fun i => (p i : ℝ)) / Real.log 2 + Info.D (fun i => (p i : ℝ)) (fun i => (q i : ℝ)) / Real.log 2 := by
    rw [cross, hl, List.map_ofFn, List.sum_ofFn, Info.H, Info.D, ← add_div, ← Finset.sum_add_distrib, Finset.sum_div]
    refine Finset.sum_congr rfl fun i _ => ?_
    have hqi : (0 : ℝ) < q i := by exact_mod_cast hq i
    simp only [Function.comp]
    rcases (hp i).eq_or_lt with h | h
    · rw [← h]; simp
    · have hpi : (0 : ℝ) < p i := by exact_mod_cast h
      rw [Real.logb, Real.negMulLog, one_div, Real.log_inv, Real.log_div hpi.ne' hqi.ne']
      ring
  refine ⟨c, (List.zipWith (fun (n : Nat) (p : ℚ) => (n : ℚ) * p) ((FVCode.blockProbabilities (List.ofFn q) k).map shannonLength) (FVCode.blockProbabilities (List.ofFn p) k)).sum / k, _, _, hc, ?_, Info.entropy_eq _ _ hP hb, Info.relativeEntropy_eq _ _ _ hP hQ (fun i h => ?_) hb, ?_⟩
  · unfold FVCode.rate
    simp only
    rw [hsz, hlen, if_neg (by simp [bp_length])]
  · have hqi : (0 : ℝ) < q i := by exact_mod_cast hq i
    exact hqi
  · rw [Rat.cast_div, Rat.cast_natCast, heq, mul_div_cancel_left₀ _ hk0.ne']
    simp only [LogBase.val]
    rw [hcross]

/-- Non-vacuity: a code for (1/4, 3/4) used for (1, 0). -/
example : ((shannonCode [1/4, 3/4] 1).map fun c => (c.codewords, c.rate [1, 0])) = some ([[1, 0], [0]], some 2) := by decide +kernel

end Komm
