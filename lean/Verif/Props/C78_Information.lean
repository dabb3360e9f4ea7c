import Verif.Lemmas.Information
/-! C78: entropy, relative entropy and mutual information; C87: the closed-form capacities. -/
namespace Komm
open Real Info
variable {n m : Nat}

/-- `entropy` is `-Σ p log_b p` and is rejected exactly for an invalid pmf or base. -/
theorem C78_entropy_formula (p : Fin n → ℝ) (base : LogBase) (hp : validPmf p = true) (hb : validLogBase base = true) :
    entropy p base = some (∑ i, - p i * logb base.val (p i)) := by
  rw [entropy_eq p base ((pmf_iff p).mp hp) hb, H, Finset.sum_div]
  congr 1
  refine Finset.sum_congr rfl fun i _ => ?_
  rw [negMulLog, logb]; ring

theorem C78_entropy_rejects (p : Fin n → ℝ) (base : LogBase) :
    entropy p base = none ↔ ¬ ((∀ i, 0 ≤ p i) ∧ ∑ i, p i = 1 ∧ 0 < base.val ∧ base.val ≠ 1) := by
  have hb : validLogBase base = true ↔ 0 < base.val ∧ base.val ≠ 1 := by
    refine ⟨fun h => ⟨(valid_base_log base h).1, (valid_base_log base h).2.1⟩, fun h => ?_⟩
    cases base with
    | e => rfl
    | num b => simp [validLogBase, LogBase.val] at h ⊢; exact h
  rw [← hb, ← and_assoc, show ((∀ i, 0 ≤ p i) ∧ ∑ i, p i = 1) ↔ validPmf p = true from ⟨fun h => (pmf_iff p).mpr ⟨h.1, h.2⟩, fun h =>
    ⟨((pmf_iff p).mp h).nn, ((pmf_iff p).mp h).sum⟩⟩, entropy]
  split
  · next h => simp_all
  · next h => simp_all

/-- Bounds: `0 ≤ H ≤ log n`, with equality exactly for deterministic, respectively uniform, distributions (bases above 1). -/
theorem C78_entropy_bounds (p : Fin n → ℝ) (base : LogBase) (hp : validPmf p = true) (hb : 1 < base.val) :
    ∃ h, entropy p base = some h ∧ 0 ≤ h ∧ h ≤ logb base.val n ∧ (h = 0 ↔ ∃ i, p i = 1) ∧ (h = logb base.val n ↔ ∀ i, p i = 1 / n) := by
  have hp := (pmf_iff p).mp hp
  have hv : validLogBase base = true := by
    cases base with
    | e => rfl
    | num b => simp only [LogBase.val] at hb; simp [validLogBase, hb.ne']; linarith
  have hl : 0 < log base.val := log_pos hb
  refine ⟨_, entropy_eq p base hp hv, div_nonneg (H_nonneg hp) hl.le, ?_, ?_, ?_⟩
  · rw [logb]; exact (div_le_div_iff_of_pos_right hl).mpr (H_le_log hp)
  · rw [div_eq_zero_iff, or_iff_left hl.ne', H_eq_zero_iff hp]
  · rw [logb, div_left_inj' hl.ne', H_eq_log_iff hp]

/-- For a base below 1, which is accepted, the "entropy" of a fair coin is negative. -/
theorem C78_base_below_one : validLogBase (.num (1 / 2)) = true ∧ entropy (fun _ : Fin 2 => (1 : ℝ) / 2) (.num (1 / 2)) = some (-1) := by
  have hv : validLogBase (.num (1 / 2)) = true := by simp [validLogBase]
  have hp : validPmf (fun _ : Fin 2 => (1 : ℝ) / 2) = true := (pmf_iff _).mpr ⟨fun i => by norm_num, by simp⟩
  refine ⟨hv, ?_⟩
  rw [C78_entropy_formula _ _ hp hv]
  have h2 : logb (1 / 2 : ℝ) (1 / 2) = 1 := logb_self_eq_one_iff.mpr (by norm_num)
  simp only [LogBase.val, Fin.sum_univ_two, h2]; norm_num

theorem base_valid (base : LogBase) (hb : 1 < base.val) : validLogBase base = true := by
  cases base with
  | e => rfl
  | num b => simp only [LogBase.val] at hb; simp [validLogBase, hb.ne']; linarith

/-- `relative_entropy` is non-negative, zero exactly for equal distributions and infinite exactly when the support of the first is not
inside the support of the second. -/
theorem C78_relative_entropy (p q : Fin n → ℝ) (base : LogBase) (hp : validPmf p = true) (hq : validPmf q = true) (hb : 1 < base.val) :
    ∃ d, relativeEntropy p q base = some d ∧ 0 ≤ d ∧ (d = 0 ↔ p = q) ∧ (d = ⊤ ↔ ∃ i, 0 < p i ∧ q i = 0) ∧
      ((∀ i, 0 < p i → q i ≠ 0) → d = ((∑ i, p i * logb base.val (p i / q i) : ℝ) : EReal)) := by
  have hv := base_valid base hb
  have hl : 0 < log base.val := log_pos hb
  by_cases hinf : ∃ i, p i > 0 ∧ q i = 0
  · refine ⟨⊤, ?_, le_top, ?_, by simpa using hinf, ?_⟩
    · rw [relativeEntropy, if_pos (by simp [hp, hq, hv]), if_pos hinf, if_neg (not_lt.mpr hb.le)]
    · constructor
      · intro h; simp at h
      · rintro rfl
        obtain ⟨i, h1, h2⟩ := hinf
        exact absurd h2 h1.ne'
    · intro h
      obtain ⟨i, h1, h2⟩ := hinf
      exact absurd h2 (h i h1)
  · have hp := (pmf_iff p).mp hp
    have hq := (pmf_iff q).mp hq
    have hac : AC p q := fun i hi => lt_of_le_of_ne (hq.nn i) fun h => hinf ⟨i, hi, h.symm⟩
    refine ⟨_, relativeEntropy_eq p q base hp hq hac hv, ?_, ?_, ?_, ?_⟩
    · exact_mod_cast div_nonneg (D_nonneg hp hq hac) hl.le
    · rw [EReal.coe_eq_zero, div_eq_zero_iff, or_iff_left hl.ne', D_eq_zero_iff hp hq hac]
    · constructor
      · intro h; exact absurd h (EReal.coe_ne_top _)
      · intro h; exact absurd h hinf
    · intro _
      congr 1
      rw [D, Finset.sum_div]
      exact Finset.sum_congr rfl fun i _ => by rw [logb]; ring

/-- Mutual information: non-negative, at most the entropy of the input and of the output, zero exactly when the output does not depend on the
input. -/
theorem C78_mutual_information (r : Fin n → ℝ) (P : Fin n → Fin m → ℝ) (base : LogBase) (hr : validPmf r = true)
    (hP : validChannelMatrix P = true) (hb : 1 < base.val) :
    ∃ i hx hy, mutualInformation r P base = some i ∧ entropy r base = some hx ∧ entropy (fun j => ∑ k, r k * P k j) base = some hy ∧
      0 ≤ i ∧ i ≤ hx ∧ i ≤ hy ∧ (i = 0 ↔ ∀ k, 0 < r k → ∀ j, P k j = ∑ k', r k' * P k' j) := by
  have hv := base_valid base hb
  have hl : 0 < log base.val := log_pos hb
  have hr := (pmf_iff r).mp hr
  have hP := (channel_iff P).mp hP
  refine ⟨_, _, _, mutualInformation_eq r P base hr hP hv, entropy_eq r base hr hv, entropy_eq _ base (out_pmf hr hP) hv,
    div_nonneg (I_nonneg hr hP) hl.le, (div_le_div_iff_of_pos_right hl).mpr (I_le_H hr hP), (div_le_div_iff_of_pos_right hl).mpr (I_le_H_out hr hP), ?_⟩
  rw [div_eq_zero_iff, or_iff_left hl.ne', I_eq_zero_iff hr hP]
  simp only [funext_iff]; rfl

/-- Mutual information is the relative entropy between the joint distribution of input and output and the product of its marginals. -/
theorem C78_mutual_information_formula (r : Fin n → ℝ) (P : Fin n → Fin m → ℝ) (base : LogBase) (hr : validPmf r = true)
    (hP : validChannelMatrix P = true) (hb : validLogBase base = true) :
    mutualInformation r P base =
      some (∑ i, ∑ j, r i * P i j * logb base.val (P i j / ∑ k, r k * P k j)) := by
  have hr := (pmf_iff r).mp hr
  have hP := (channel_iff P).mp hP
  rw [mutualInformation_eq r P base hr hP hb, I_eq hr hP, Finset.sum_div]
  congr 1
  refine Finset.sum_congr rfl fun i _ => ?_
  rw [D, Finset.mul_sum, Finset.sum_div]
  exact Finset.sum_congr rfl fun j _ => by rw [logb]; show _ = r i * P i j * (log (P i j / outputPmf r P j) / _); ring

theorem bsc_rows (p : ℝ) (h0 : 0 ≤ p) (h1 : p ≤ 1) : ∀ i, Pmf (bscMatrix p i) := by
  intro i
  refine ⟨fun j => ?_, ?_⟩
  · fin_cases i <;> fin_cases j <;> simp [bscMatrix, h0, h1]
  · fin_cases i <;> simp [bscMatrix, Fin.sum_univ_two]

theorem bec_rows (p : ℝ) (h0 : 0 ≤ p) (h1 : p ≤ 1) : ∀ i, Pmf (becMatrix p i) := by
  intro i
  refine ⟨fun j => ?_, ?_⟩
  · fin_cases i <;> fin_cases j <;> simp [becMatrix, h0, h1]
  · fin_cases i <;> simp [becMatrix, Fin.sum_univ_three]

theorem z_rows (p : ℝ) (h0 : 0 ≤ p) (h1 : p ≤ 1) : ∀ i, Pmf (zMatrix p i) := by
  intro i
  refine ⟨fun j => ?_, ?_⟩
  · fin_cases i <;> fin_cases j <;> simp [zMatrix, h0, h1]
  · fin_cases i <;> simp [zMatrix, Fin.sum_univ_two]

theorem bsc_I (p : ℝ) (r : Fin 2 → ℝ) (hr : Pmf r) : I r (bscMatrix p) = binEntropy (p + r 1 - 2 * p * r 1) - binEntropy p := by
  have e0 := pmf_two r hr
  have h0 : H (bscMatrix p 0) = binEntropy p := by rw [binEntropy_pair]; rfl
  have h1 : H (bscMatrix p 1) = binEntropy p := by rw [← binEntropy_one_sub, binEntropy_pair]; simp [bscMatrix]
  have ho : outputPmf r (bscMatrix p) = ![1 - (p + r 1 - 2 * p * r 1), p + r 1 - 2 * p * r 1] := by
    funext j
    fin_cases j <;> simp [outputPmf, Fin.sum_univ_two, bscMatrix, e0] <;> ring
  rw [I, ho, ← binEntropy_pair, Fin.sum_univ_two, h0, h1, e0]; ring

theorem bec_I (ε : ℝ) (h0 : 0 ≤ ε) (h1 : ε ≤ 1) (r : Fin 2 → ℝ) (hr : Pmf r) : I r (becMatrix ε) = (1 - ε) * binEntropy (r 1) := by
  have e0 := pmf_two r hr
  have hn : ∀ a b : ℝ, negMulLog (a * b) = b * negMulLog a + a * negMulLog b := fun a b => by rw [negMulLog_mul]
  have hh0 : H (becMatrix ε 0) = binEntropy ε := by
    rw [binEntropy_eq_negMulLog_add_negMulLog_one_sub, H, Fin.sum_univ_three]; simp [becMatrix, add_comm]
  have hh1 : H (becMatrix ε 1) = binEntropy ε := by
    rw [binEntropy_eq_negMulLog_add_negMulLog_one_sub, H, Fin.sum_univ_three]; simp [becMatrix, add_comm]
  have ho : outputPmf r (becMatrix ε) = ![(1 - r 1) * (1 - ε), r 1 * (1 - ε), ε] := by
    funext j
    fin_cases j <;> simp [outputPmf, Fin.sum_univ_two, becMatrix, e0]
    ring
  rw [I, ho, Fin.sum_univ_two, hh0, hh1, e0, H, Fin.sum_univ_three]
  simp only [Matrix.cons_val_zero, Matrix.cons_val_one, Matrix.cons_val]
  rw [hn, hn, binEntropy_eq_negMulLog_add_negMulLog_one_sub, binEntropy_eq_negMulLog_add_negMulLog_one_sub]
  ring

theorem z_I (p : ℝ) (r : Fin 2 → ℝ) (hr : Pmf r) : I r (zMatrix p) = binEntropy (r 1 * (1 - p)) - r 1 * binEntropy p := by
  have e0 := pmf_two r hr
  have h0 : H (zMatrix p 0) = 0 := by rw [H, Fin.sum_univ_two]; simp [zMatrix]
  have h1 : H (zMatrix p 1) = binEntropy p := by rw [← binEntropy_one_sub, binEntropy_pair]; simp [zMatrix]
  have ho : outputPmf r (zMatrix p) = ![1 - r 1 * (1 - p), r 1 * (1 - p)] := by
    funext j
    fin_cases j <;> simp [outputPmf, Fin.sum_univ_two, zMatrix, e0]
    ring
  rw [I, ho, ← binEntropy_pair, Fin.sum_univ_two, h0, h1, e0]; ring

/-- The overridden `mutual_information` methods of the three binary channels agree with the general function applied to their transition
matrices. -/
theorem C78_closed_forms (p : ℝ) (hp : validProbability p = true) (r : Fin 2 → ℝ) (hr : validPmf r = true) (base : LogBase)
    (hb : validLogBase base = true) :
    bscMutualInformation p r base = mutualInformation r (bscMatrix p) base ∧
    becMutualInformation p r base = mutualInformation r (becMatrix p) base ∧
    zMutualInformation p r base = mutualInformation r (zMatrix p) base ∧ (mutualInformation r (bscMatrix p) base).isSome := by
  simp only [validProbability, Bool.and_eq_true, decide_eq_true_iff] at hp
  obtain ⟨h0, h1⟩ := hp
  have hr' := (pmf_iff r).mp hr
  have e0 := pmf_two r hr'
  have r0 := hr'.nn 1
  have r1 := hr'.le_one 1
  have hlog : log 2 ≠ 0 := (log_pos one_lt_two).ne'
  have hdiv : ∀ x : ℝ, x / log 2 / logb 2 base.val = x / log base.val := fun x => by rw [logb]; field_simp
  refine ⟨?_, ?_, ?_, ?_⟩
  · rw [mutualInformation_eq r _ base hr' (bsc_rows p h0 h1) hb, bsc_I p r hr', bscMutualInformation, if_pos (by simp [hr, hb]),
      binaryEntropy_eq _ (by nlinarith) (by nlinarith), binaryEntropy_eq p h0 h1]
    simp only [Option.bind_eq_bind, Option.bind_some, ← sub_div, hdiv]
  · rw [mutualInformation_eq r _ base hr' (bec_rows p h0 h1) hb, bec_I p h0 h1 r hr', becMutualInformation, if_pos (by simp [hr, hb]),
      binaryEntropy_eq _ r0 r1]
    simp only [Option.map_some, ← mul_div_assoc, hdiv]
  · rw [mutualInformation_eq r _ base hr' (z_rows p h0 h1) hb, z_I p r hr', zMutualInformation, if_pos (by simp [hr, hb]),
      binaryEntropy_eq _ (by nlinarith) (by nlinarith), binaryEntropy_eq p h0 h1]
    simp only [Option.bind_eq_bind, Option.bind_some, ← mul_div_assoc, ← sub_div, hdiv]
  · rw [mutualInformation_eq r _ base hr' (bsc_rows p h0 h1) hb]; rfl

/-- The values that the mutual information of a channel takes over all input distributions. -/
def MutualInformationValues (P : Fin n → Fin m → ℝ) (base : LogBase) : Set ℝ :=
  {x | ∃ r, validPmf r = true ∧ mutualInformation r P base = some x}

theorem greatest_of_nats (P : Fin n → Fin m → ℝ) (hP : ∀ i, Pmf (P i)) (base : LogBase) (hb : 1 < base.val) (C : ℝ)
    (h1 : ∀ r, Pmf r → I r P ≤ C) (r : Fin n → ℝ) (hr : Pmf r) (h2 : I r P = C) :
    IsGreatest (MutualInformationValues P base) (C / log base.val) := by
  have hl : 0 < log base.val := log_pos hb
  have hv := base_valid base hb
  constructor
  · exact ⟨r, (pmf_iff r).mpr hr, by rw [mutualInformation_eq r P base hr hP hv, h2]⟩
  · rintro x ⟨s, hs, hx⟩
    have hs := (pmf_iff s).mp hs
    rw [mutualInformation_eq s P base hs hP hv, Option.some.injEq] at hx
    rw [← hx]
    exact (div_le_div_iff_of_pos_right hl).mpr (h1 s hs)

theorem uniform_two : Pmf (![1/2, 1/2] : Fin 2 → ℝ) := by
  refine ⟨fun i => by fin_cases i <;> norm_num, by rw [Fin.sum_univ_two]; norm_num⟩

/-- `BinarySymmetricChannel.capacity()` is the maximum of the mutual information over the input distributions. -/
theorem C87_bsc (p : ℝ) (hp : validProbability p = true) (base : LogBase) (hb : 1 < base.val) :
    ∃ c, bscCapacity p base = some c ∧ IsGreatest (MutualInformationValues (bscMatrix p) base) c := by
  simp only [validProbability, Bool.and_eq_true, decide_eq_true_iff] at hp
  obtain ⟨h0, h1⟩ := hp
  have hlog : log 2 ≠ 0 := (log_pos one_lt_two).ne'
  refine ⟨(log 2 - binEntropy p) / log base.val, ?_, ?_⟩
  · rw [bscCapacity, if_pos (base_valid base hb), binaryEntropy_eq p h0 h1, Option.map_some]
    congr 1
    rw [logb]; field_simp
  · refine greatest_of_nats _ (bsc_rows p h0 h1) base hb _ (fun r hr => ?_) ![1/2, 1/2] uniform_two ?_
    · rw [bsc_I p r hr]
      have := @binEntropy_le_log_two (p + r 1 - 2 * p * r 1)
      linarith
    · rw [bsc_I p _ uniform_two]
      simp only [Matrix.cons_val_one, Matrix.cons_val_fin_one]
      rw [show p + 1 / 2 - 2 * p * (1 / 2) = (2 : ℝ)⁻¹ by ring, binEntropy_two_inv]

/-- `BinaryErasureChannel.capacity()` is the maximum of the mutual information over the input distributions. -/
theorem C87_bec (ε : ℝ) (hp : validProbability ε = true) (base : LogBase) (hb : 1 < base.val) :
    ∃ c, becCapacity ε base = some c ∧ IsGreatest (MutualInformationValues (becMatrix ε) base) c := by
  simp only [validProbability, Bool.and_eq_true, decide_eq_true_iff] at hp
  obtain ⟨h0, h1⟩ := hp
  have hlog : log 2 ≠ 0 := (log_pos one_lt_two).ne'
  refine ⟨((1 - ε) * log 2) / log base.val, ?_, ?_⟩
  · rw [becCapacity, if_pos (base_valid base hb)]
    congr 1
    rw [logb]; field_simp
  · refine greatest_of_nats _ (bec_rows ε h0 h1) base hb _ (fun r hr => ?_) ![1/2, 1/2] uniform_two ?_
    · rw [bec_I ε h0 h1 r hr]
      exact mul_le_mul_of_nonneg_left binEntropy_le_log_two (by linarith)
    · rw [bec_I ε h0 h1 _ uniform_two]
      simp only [Matrix.cons_val_one, Matrix.cons_val_fin_one]
      rw [show (1 : ℝ) / 2 = (2 : ℝ)⁻¹ by ring, binEntropy_two_inv]

/-- `ZChannel.capacity()` is the maximum of the mutual information over the input distributions. -/
theorem C87_z (p : ℝ) (hp : validProbability p = true) (base : LogBase) (hb : 1 < base.val) :
    ∃ c, zCapacity p base = some c ∧ IsGreatest (MutualInformationValues (zMatrix p) base) c := by
  simp only [validProbability, Bool.and_eq_true, decide_eq_true_iff] at hp
  obtain ⟨h0, h1⟩ := hp
  have hlog : log 2 ≠ 0 := (log_pos one_lt_two).ne'
  rw [zCapacity, if_pos (base_valid base hb)]
  by_cases hp1 : p = 1
  · subst hp1
    refine ⟨0, by rw [if_pos rfl], ?_⟩
    rw [← zero_div (log base.val)]
    refine greatest_of_nats _ (z_rows 1 h0 h1) base hb _ (fun r hr => ?_) ![1/2, 1/2] uniform_two ?_ <;>
    · first | rw [z_I 1 r hr] | rw [z_I 1 _ uniform_two]
      simp
  · have hq : 0 < 1 - p := by
      rcases h1.eq_or_lt with h | h
      · exact absurd h hp1
      · linarith
    set w : ℝ := p ^ (p / (1 - p)) with hw
    have hw0 : 0 < w := by
      rcases h0.eq_or_lt with h | h
      · rw [hw, ← h]; simp
      · exact rpow_pos_of_pos h _
    have hw1 : w ≤ 1 := rpow_le_one h0 h1 (div_nonneg h0 hq.le)
    have hlw : p * log w * (1 - p) = p * (p * log p) := by
      rcases h0.eq_or_lt with h | h
      · rw [← h]; ring
      · rw [hw, log_rpow h]; field_simp
    have hlw' : (1 - p) * log w = p * log p := by
      rcases h0.eq_or_lt with h | h
      · rw [hw, ← h]; simp
      · rw [hw, log_rpow h]; field_simp
    set S : ℝ := 1 + (1 - p) * w with hS
    have hS0 : 0 < S := by positivity
    refine ⟨log S / log base.val, ?_, ?_⟩
    · rw [if_neg hp1]
      congr 1
      rw [logb, logb]; field_simp
    · -- the optimal output distribution
      have hq2 : Pmf (![1 / S, (1 - p) * w / S] : Fin 2 → ℝ) := by
        refine ⟨fun i => by fin_cases i <;> simp <;> positivity, ?_⟩
        rw [Fin.sum_univ_two]; simp only [Matrix.cons_val_zero, Matrix.cons_val_one, Matrix.cons_val_fin_one]
        rw [← add_div, ← hS, div_self hS0.ne']
      have hpos : ∀ j, 0 < (![1 / S, (1 - p) * w / S] : Fin 2 → ℝ) j := fun j => by fin_cases j <;> simp <;> positivity
      have hD : ∀ i, D (zMatrix p i) ![1 / S, (1 - p) * w / S] = log S := by
        intro i
        rw [D_split (z_rows p h0 h1 i) fun j _ => hpos j]
        fin_cases i
        · rw [H, Fin.sum_univ_two, Fin.sum_univ_two]
          simp [zMatrix]
        · have h1' : H (zMatrix p 1) = negMulLog p + negMulLog (1 - p) := by rw [H, Fin.sum_univ_two]; simp [zMatrix]
          simp only [Fin.mk_one]
          rw [h1', Fin.sum_univ_two]
          simp only [zMatrix, Matrix.cons_val_zero, Matrix.cons_val_one, Matrix.cons_val_fin_one]
          rw [log_div one_ne_zero hS0.ne', log_div (by positivity) hS0.ne', log_one, log_mul hq.ne' hw0.ne', negMulLog, negMulLog]
          linarith
      have hpi : Pmf (![1 - w / S, w / S] : Fin 2 → ℝ) := by
        refine ⟨fun i => ?_, by rw [Fin.sum_univ_two]; simp⟩
        fin_cases i
        · simp only [Fin.zero_eta, Matrix.cons_val_zero]
          rw [sub_nonneg, div_le_one hS0, hS]
          nlinarith
        · simp; positivity
      have hout : outputPmf ![1 - w / S, w / S] (zMatrix p) = ![1 / S, (1 - p) * w / S] := by
        funext j
        fin_cases j
        · simp [outputPmf, Fin.sum_univ_two, zMatrix]
          field_simp
          rw [hS]; ring
        · simp [outputPmf, Fin.sum_univ_two, zMatrix]
          ring
      refine greatest_of_nats _ (z_rows p h0 h1) base hb _ (fun r hr => ?_) _ hpi ?_
      · exact I_le_of_kkt hr (z_rows p h0 h1) hq2 (fun i j _ => hpos j) _ fun i => (hD i).le
      · rw [I_eq hpi (z_rows p h0 h1), hout]
        simp only [hD, ← Finset.sum_mul, hpi.sum, one_mul]

/-- Non-vacuity: the documented base 2 and the base `e` are above 1; a pmf and a channel. -/
example : (1 : ℝ) < (LogBase.num 2).val ∧ 1 < LogBase.e.val ∧ validPmf (![1/4, 1/4, 1/2] : Fin 3 → ℝ) = true ∧ validProbability (1/10 : ℝ) = true ∧
    validChannelMatrix (bscMatrix (1/10 : ℝ)) = true := by
  refine ⟨by norm_num [LogBase.val], by simpa [LogBase.val] using exp_one_gt_d9.trans' (by norm_num), (pmf_iff _).mpr ⟨fun i => by fin_cases i <;> norm_num, ?_⟩, by simp [validProbability]; norm_num,
    (channel_iff _).mpr (bsc_rows _ (by norm_num) (by norm_num))⟩
  rw [Fin.sum_univ_three]; simp; norm_num

/-- `entropy([1/4, 1/4, 1/2])` is 1.5 bits. -/
example : entropy (![1/4, 1/4, 1/2] : Fin 3 → ℝ) (.num 2) = some (3 / 2) := by
  have hp : validPmf (![1/4, 1/4, 1/2] : Fin 3 → ℝ) = true := (pmf_iff _).mpr ⟨fun i => by fin_cases i <;> norm_num, by
    rw [Fin.sum_univ_three]; simp; norm_num⟩
  rw [C78_entropy_formula _ _ hp (base_valid _ (by norm_num [LogBase.val]))]
  have h4 : logb 2 (1 / 4 : ℝ) = -2 := by
    rw [show (1 / 4 : ℝ) = 2 ^ (-2 : ℝ) by rw [rpow_neg (by norm_num)]; norm_num, logb_rpow (by norm_num) (by norm_num)]
  have h2 : logb 2 (1 / 2 : ℝ) = -1 := by
    rw [show (1 / 2 : ℝ) = 2 ^ (-1 : ℝ) by rw [rpow_neg (by norm_num)]; norm_num, logb_rpow (by norm_num) (by norm_num)]
  rw [Fin.sum_univ_three]
  simp only [LogBase.val, Matrix.cons_val_zero, Matrix.cons_val_one, Matrix.cons_val, h4, h2]
  norm_num

end Komm
