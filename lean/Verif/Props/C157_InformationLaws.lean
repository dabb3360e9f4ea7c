import Verif.Props.C78_Information
import Verif.Props.C85_ArimotoBlahut
/-! C157: laws that connect the information measures: chain rule, data processing, convexity, relabelling. -/
namespace Komm
open Real Info

variable {n m l : Nat}

/-- The channel that feeds the output of `P` into `Q`: `P @ Q`. -/
def cascadeMatrix (P : Fin n → Fin m → ℝ) (Q : Fin m → Fin l → ℝ) : Fin n → Fin l → ℝ := fun i k => ∑ j, P i j * Q j k

/-- The joint distribution of input and output, flattened row by row: `(input_pmf[:, None] * transition_matrix).ravel()`. -/
def jointPmf (r : Fin n → ℝ) (P : Fin n → Fin m → ℝ) : Fin (n * m) → ℝ := fun k => r k.divNat * P k.divNat k.modNat

theorem cascade_rows {P : Fin n → Fin m → ℝ} {Q : Fin m → Fin l → ℝ} (hP : ∀ i, Pmf (P i)) (hQ : ∀ j, Pmf (Q j)) : ∀ i, Pmf (cascadeMatrix P Q i) :=
  fun i => out_pmf (hP i) hQ

theorem cascade_out (r : Fin n → ℝ) (P : Fin n → Fin m → ℝ) (Q : Fin m → Fin l → ℝ) :
    outputPmf r (cascadeMatrix P Q) = outputPmf (outputPmf r P) Q := by
  funext k
  simp only [outputPmf, cascadeMatrix, Finset.mul_sum, Finset.sum_mul]
  rw [Finset.sum_comm]
  exact Finset.sum_congr rfl fun j _ => Finset.sum_congr rfl fun i _ => by ring

theorem cascade_I {r : Fin n → ℝ} {P : Fin n → Fin m → ℝ} {Q : Fin m → Fin l → ℝ} (hr : Pmf r) (hP : ∀ i, Pmf (P i)) (hQ : ∀ j, Pmf (Q j)) :
    I r (cascadeMatrix P Q) ≤ I r P ∧ I r (cascadeMatrix P Q) ≤ I (outputPmf r P) Q := by
  constructor
  · rw [I_eq hr (cascade_rows hP hQ), I_eq hr hP, cascade_out]
    refine Finset.sum_le_sum fun i _ => ?_
    rcases (hr.nn i).eq_or_lt with h0 | h0
    · simp [← h0]
    · exact mul_le_mul_of_nonneg_left (data_processing (out_pmf hr hP) (hP i) hQ fun j hj => out_pos hr hP h0 hj) h0.le
  · rw [I, I, cascade_out]
    have h : ∀ i, ∑ j, P i j * H (Q j) ≤ H (cascadeMatrix P Q i) := by
      intro i
      have := I_nonneg (hP i) hQ
      rw [I] at this
      have e : outputPmf (P i) Q = cascadeMatrix P Q i := rfl
      rw [e] at this
      linarith
    have h2 : ∑ j, outputPmf r P j * H (Q j) = ∑ i, r i * ∑ j, P i j * H (Q j) := by
      simp only [outputPmf, Finset.sum_mul, Finset.mul_sum]
      rw [Finset.sum_comm]
      exact Finset.sum_congr rfl fun j _ => Finset.sum_congr rfl fun i _ => by ring
    rw [h2]
    have := Finset.sum_le_sum fun i (_ : i ∈ Finset.univ) => mul_le_mul_of_nonneg_left (h i) (hr.nn i)
    linarith

/-- Data processing: a second channel, or any processing of the output, never adds information; nor does any processing of the input. -/
theorem C157_data_processing (r : Fin n → ℝ) (P : Fin n → Fin m → ℝ) (Q : Fin m → Fin l → ℝ) (base : LogBase) (hr : validPmf r = true)
    (hP : validChannelMatrix P = true) (hQ : validChannelMatrix Q = true) (hb : 1 < base.val) :
    validChannelMatrix (cascadeMatrix P Q) = true ∧ ∃ a b c, mutualInformation r (cascadeMatrix P Q) base = some a ∧ mutualInformation r P base = some b ∧
      mutualInformation (fun j => ∑ i, r i * P i j) Q base = some c ∧ a ≤ b ∧ a ≤ c := by
  have hv := base_valid base hb
  have hl : 0 < log base.val := log_pos hb
  have hr := (pmf_iff r).mp hr
  have hP := (channel_iff P).mp hP
  have hQ := (channel_iff Q).mp hQ
  obtain ⟨h1, h2⟩ := cascade_I hr hP hQ
  exact ⟨(channel_iff _).mpr (cascade_rows hP hQ), _, _, _, mutualInformation_eq r _ base hr (cascade_rows hP hQ) hv, mutualInformation_eq r P base hr hP hv,
    mutualInformation_eq _ Q base (out_pmf hr hP) hQ hv, (div_le_div_iff_of_pos_right hl).mpr h1, (div_le_div_iff_of_pos_right hl).mpr h2⟩

/-- The capacity of a cascade is at most that of either part. -/
theorem C157_cascade_capacity (P : Fin n → Fin m → ℝ) (Q : Fin m → Fin l → ℝ) (base : LogBase) (hP : validChannelMatrix P = true)
    (hQ : validChannelMatrix Q = true) (hb : 1 < base.val) (a b c : ℝ) (ha : IsLUB (MutualInformationValues (cascadeMatrix P Q) base) a)
    (hb' : IsLUB (MutualInformationValues P base) b) (hc : IsLUB (MutualInformationValues Q base) c) : a ≤ b ∧ a ≤ c := by
  constructor <;> refine ha.2 fun x hx => ?_ <;> obtain ⟨r, hr, hx⟩ := hx <;>
    obtain ⟨-, a', b', c', h1, h2, h3, h4, h5⟩ := C157_data_processing r P Q base hr hP hQ hb <;>
    rw [h1, Option.some.injEq] at hx <;> subst hx
  · exact h4.trans (hb'.1 ⟨r, hr, h2⟩)
  · exact h5.trans (hc.1 ⟨_, (pmf_iff _).mpr (out_pmf ((pmf_iff r).mp hr) ((channel_iff P).mp hP)), h3⟩)

/-- Relative entropy never grows when both distributions go through the same channel. -/
theorem C157_relative_entropy (p q : Fin n → ℝ) (P : Fin n → Fin m → ℝ) (base : LogBase) (hp : validPmf p = true) (hq : validPmf q = true)
    (hP : validChannelMatrix P = true) (hb : 1 < base.val) :
    ∃ a b, relativeEntropy (fun j => ∑ i, p i * P i j) (fun j => ∑ i, q i * P i j) base = some a ∧ relativeEntropy p q base = some b ∧ a ≤ b := by
  have hv := base_valid base hb
  have hl : 0 < log base.val := log_pos hb
  by_cases hac : AC p q
  · have hp' := (pmf_iff p).mp hp
    have hq' := (pmf_iff q).mp hq
    have hP := (channel_iff P).mp hP
    have hac' : AC (outputPmf p P) (outputPmf q P) := fun j hj => by
      obtain ⟨i, h1, h2⟩ := (out_pos_iff hp' hP).mp hj
      exact out_pos hq' hP (hac i h1) h2
    refine ⟨_, _, relativeEntropy_eq _ _ base (out_pmf hp' hP) (out_pmf hq' hP) hac' hv, relativeEntropy_eq p q base hp' hq' hac hv, ?_⟩
    exact EReal.coe_le_coe_iff.mpr ((div_le_div_iff_of_pos_right hl).mpr (data_processing hq' hp' hP hac))
  · have : ∃ i, p i > 0 ∧ q i = 0 := by
      by_contra hc
      push Not at hc
      exact hac fun i hi => lt_of_le_of_ne (((pmf_iff q).mp hq).nn i) (hc i hi).symm
    have hp' := (pmf_iff _).mpr (out_pmf ((pmf_iff p).mp hp) ((channel_iff P).mp hP))
    have hq' := (pmf_iff _).mpr (out_pmf ((pmf_iff q).mp hq) ((channel_iff P).mp hP))
    obtain ⟨a, ha⟩ : ∃ a, relativeEntropy (outputPmf p P) (outputPmf q P) base = some a := by
      rw [relativeEntropy, if_pos (by simp [hp', hq', hv])]
      split <;> exact ⟨_, rfl⟩
    refine ⟨a, ⊤, ha, ?_, le_top⟩
    rw [relativeEntropy, if_pos (by simp [hp, hq, hv]), if_pos this, if_neg (by linarith)]

theorem sum_joint (F : Fin n → Fin m → ℝ) : ∑ k : Fin (n * m), F k.divNat k.modNat = ∑ i, ∑ j, F i j := by
  rw [← Fintype.sum_prod_type', ← finProdFinEquiv.symm.sum_comp]
  rfl

theorem joint_pmf {r : Fin n → ℝ} {P : Fin n → Fin m → ℝ} (hr : Pmf r) (hP : ∀ i, Pmf (P i)) : Pmf (jointPmf r P) := by
  refine ⟨fun k => mul_nonneg (hr.nn _) ((hP _).nn _), ?_⟩
  simp only [jointPmf]
  rw [sum_joint fun i j => r i * P i j]
  simp only [← Finset.mul_sum, (hP _).sum, mul_one, hr.sum]

theorem H_joint {r : Fin n → ℝ} {P : Fin n → Fin m → ℝ} (hP : ∀ i, Pmf (P i)) : H (jointPmf r P) = H r + ∑ i, r i * H (P i) := by
  simp only [H, jointPmf]
  rw [sum_joint fun i j => negMulLog (r i * P i j), ← Finset.sum_add_distrib]
  refine Finset.sum_congr rfl fun i _ => ?_
  simp only [negMulLog_mul, Finset.sum_add_distrib, ← Finset.sum_mul, ← Finset.mul_sum, (hP i).sum, one_mul]

/-- Chain rule: the entropy of the pair is that of the input plus the mean entropy of the rows, and mutual information is what the sum of the
entropies of input and output exceeds it by; the entropy of a pair is at most the sum of the entropies. -/
theorem C157_chain_rule (r : Fin n → ℝ) (P : Fin n → Fin m → ℝ) (base : LogBase) (hr : validPmf r = true)
    (hP : validChannelMatrix P = true) (hb : 1 < base.val) :
    validPmf (jointPmf r P) = true ∧ ∃ (hxy hx hy i : ℝ) (hz : Fin n → ℝ), entropy (jointPmf r P) base = some hxy ∧ entropy r base = some hx ∧
      entropy (fun j => ∑ k, r k * P k j) base = some hy ∧ mutualInformation r P base = some i ∧ (∀ k, entropy (P k) base = some (hz k)) ∧
      hxy = hx + ∑ k, r k * hz k ∧ i = hx + hy - hxy ∧ hxy ≤ hx + hy ∧ hx ≤ hxy ∧ hy ≤ hxy := by
  have hv := base_valid base hb
  have hl : 0 < log base.val := log_pos hb
  have hr := (pmf_iff r).mp hr
  have hP := (channel_iff P).mp hP
  have hI := I_nonneg hr hP
  have hIx := I_le_H hr hP
  have hIy := I_le_H_out hr hP
  have e : I r P = H r + H (outputPmf r P) - H (jointPmf r P) := by rw [H_joint hP, I]; ring
  refine ⟨(pmf_iff _).mpr (joint_pmf hr hP), _, _, _, _, fun k => H (P k) / log base.val, entropy_eq _ base (joint_pmf hr hP) hv, entropy_eq r base hr hv,
    entropy_eq _ base (out_pmf hr hP) hv, mutualInformation_eq r P base hr hP hv, fun k => entropy_eq _ base (hP k) hv, ?_, ?_, ?_, ?_, ?_⟩
  · rw [H_joint hP, add_div, Finset.sum_div]
    congr 1
    exact Finset.sum_congr rfl fun k _ => by ring
  · have e' : I r P / log base.val = (H r + H (outputPmf r P) - H (jointPmf r P)) / log base.val := by rw [e]
    rw [e']
    show _ = H r / log base.val + H (outputPmf r P) / log base.val - H (jointPmf r P) / log base.val
    ring
  · rw [← add_div]
    refine (div_le_div_iff_of_pos_right hl).mpr ?_
    show _ ≤ H r + H (outputPmf r P)
    linarith
  · exact (div_le_div_iff_of_pos_right hl).mpr (by linarith)
  · refine (div_le_div_iff_of_pos_right hl).mpr ?_
    show H (outputPmf r P) ≤ _
    linarith

/-- Independent parts: the entropy of the pair is the sum of the entropies. -/
theorem C157_independent (p : Fin n → ℝ) (q : Fin m → ℝ) (base : LogBase) (hp : validPmf p = true) (hq : validPmf q = true) (hb : 1 < base.val) :
    ∃ a b, entropy p base = some a ∧ entropy q base = some b ∧ entropy (fun k : Fin (n * m) => p k.divNat * q k.modNat) base = some (a + b) := by
  have hp' := (pmf_iff p).mp hp
  have hq' := (pmf_iff q).mp hq
  have hv := base_valid base hb
  refine ⟨_, _, entropy_eq p base hp' hv, entropy_eq q base hq' hv, ?_⟩
  have h := entropy_eq _ base (joint_pmf hp' (P := fun _ => q) fun _ => hq') hv
  rw [H_joint fun _ => hq', ← Finset.sum_mul, hp'.sum, one_mul, add_div] at h
  exact h

/-- Mixtures: entropy is concave, mutual information is concave in the input distribution. -/
theorem C157_concave {K : Nat} (w : Fin K → ℝ) (R : Fin K → Fin n → ℝ) (P : Fin n → Fin m → ℝ) (base : LogBase) (hw : validPmf w = true)
    (hR : ∀ k, validPmf (R k) = true) (hP : validChannelMatrix P = true) (hb : 1 < base.val) :
    ∃ (a c : ℝ) (b d : Fin K → ℝ), entropy (fun i => ∑ k, w k * R k i) base = some a ∧ (∀ k, entropy (R k) base = some (b k)) ∧ ∑ k, w k * b k ≤ a ∧
      mutualInformation (fun i => ∑ k, w k * R k i) P base = some c ∧ (∀ k, mutualInformation (R k) P base = some (d k)) ∧ ∑ k, w k * d k ≤ c := by
  have hv := base_valid base hb
  have hl : 0 < log base.val := log_pos hb
  have hw := (pmf_iff w).mp hw
  have hR : ∀ k, Pmf (R k) := fun k => (pmf_iff _).mp (hR k)
  have hP := (channel_iff P).mp hP
  have hm := out_pmf hw hR
  refine ⟨_, _, fun k => H (R k) / log base.val, fun k => I (R k) P / log base.val, entropy_eq _ base hm hv, fun k => entropy_eq _ base (hR k) hv, ?_,
    mutualInformation_eq _ P base hm hP hv, fun k => mutualInformation_eq _ P base (hR k) hP hv, ?_⟩
  · have h := I_nonneg hw hR
    rw [I] at h
    have : ∑ k, w k * (H (R k) / log base.val) = (∑ k, w k * H (R k)) / log base.val := by
      rw [Finset.sum_div]; exact Finset.sum_congr rfl fun k _ => by ring
    rw [this]
    refine (div_le_div_iff_of_pos_right hl).mpr ?_
    show _ ≤ H (outputPmf w R)
    linarith
  · have h := I_nonneg hw (cascade_rows hR hP)
    rw [I, cascade_out] at h
    have e : ∑ i, outputPmf w R i * H (P i) = ∑ k, w k * ∑ i, R k i * H (P i) := by
      simp only [outputPmf, Finset.sum_mul, Finset.mul_sum]
      rw [Finset.sum_comm]
      exact Finset.sum_congr rfl fun j _ => Finset.sum_congr rfl fun i _ => by ring
    have h2 : ∑ k, w k * I (R k) P ≤ I (outputPmf w R) P := by
      simp only [I, mul_sub, Finset.sum_sub_distrib]
      rw [e]
      have e2 : ∀ k, outputPmf (R k) P = cascadeMatrix R P k := fun _ => rfl
      simp only [e2]
      linarith
    have : ∑ k, w k * (I (R k) P / log base.val) = (∑ k, w k * I (R k) P) / log base.val := by
      rw [Finset.sum_div]; exact Finset.sum_congr rfl fun k _ => by ring
    rw [this]
    exact (div_le_div_iff_of_pos_right hl).mpr h2

/-- The log-sum inequality. -/
theorem log_sum {K : Nat} (a b : Fin K → ℝ) (ha : ∀ k, 0 ≤ a k) (hb : ∀ k, 0 ≤ b k) (h : ∀ k, 0 < a k → 0 < b k) :
    (∑ k, a k) * log ((∑ k, a k) / ∑ k, b k) ≤ ∑ k, a k * log (a k / b k) := by
  have hA : 0 ≤ ∑ k, a k := Finset.sum_nonneg fun k _ => ha k
  rcases hA.eq_or_lt with h0 | h0
  · have hz : ∀ k, a k = 0 := fun k => (Finset.sum_eq_zero_iff_of_nonneg fun k _ => ha k).mp h0.symm k (Finset.mem_univ k)
    simp [hz]
  · have hB : 0 < ∑ k, b k := by
      obtain ⟨k, -, hk⟩ := (Finset.sum_pos_iff_of_nonneg fun k _ => ha k).mp h0
      exact Finset.sum_pos' (fun k _ => hb k) ⟨k, Finset.mem_univ k, h k hk⟩
    set A := ∑ k, a k with hAd
    set B := ∑ k, b k with hBd
    have := gibbs_gen Finset.univ a (fun k => b k * (A / B)) (fun k _ => ha k) (fun k _ => mul_nonneg (hb k) (by positivity))
      (fun k _ hk => mul_pos (h k hk) (by positivity))
    rw [← Finset.sum_mul, ← hBd, mul_div_cancel₀ _ hB.ne', ← hAd, sub_self] at this
    have e : ∑ k, a k * log (a k / (b k * (A / B))) = ∑ k, a k * log (a k / b k) - A * log (A / B) := by
      rw [hAd, Finset.sum_mul, ← hAd, ← Finset.sum_sub_distrib]
      refine Finset.sum_congr rfl fun k _ => ?_
      rcases (ha k).eq_or_lt with h1 | h1
      · simp [← h1]
      · have := h k h1
        rw [← div_div, log_div (by positivity) (by positivity)]
        ring
    linarith

/-- Mutual information is convex in the channel: time-sharing between channels, without telling the receiver, never helps. -/
theorem C157_convex {K : Nat} (w : Fin K → ℝ) (r : Fin n → ℝ) (P : Fin K → Fin n → Fin m → ℝ) (base : LogBase) (hw : validPmf w = true)
    (hr : validPmf r = true) (hP : ∀ k, validChannelMatrix (P k) = true) (hb : 1 < base.val) :
    validChannelMatrix (fun i j => ∑ k, w k * P k i j) = true ∧ ∃ (a : ℝ) (b : Fin K → ℝ), mutualInformation r (fun i j => ∑ k, w k * P k i j) base = some a ∧
      (∀ k, mutualInformation r (P k) base = some (b k)) ∧ a ≤ ∑ k, w k * b k := by
  have hv := base_valid base hb
  have hl : 0 < log base.val := log_pos hb
  have hw := (pmf_iff w).mp hw
  have hr := (pmf_iff r).mp hr
  have hP : ∀ k i, Pmf (P k i) := fun k => (channel_iff _).mp (hP k)
  have hm : ∀ i, Pmf fun j => ∑ k, w k * P k i j := fun i => out_pmf hw fun k => hP k i
  refine ⟨(channel_iff _).mpr hm, _, fun k => I r (P k) / log base.val, mutualInformation_eq r _ base hr hm hv, fun k => mutualInformation_eq r _ base hr (hP k) hv, ?_⟩
  have : ∑ k, w k * (I r (P k) / log base.val) = (∑ k, w k * I r (P k)) / log base.val := by
    rw [Finset.sum_div]; exact Finset.sum_congr rfl fun k _ => by ring
  rw [this]
  refine (div_le_div_iff_of_pos_right hl).mpr ?_
  have eo : outputPmf r (fun i j => ∑ k, w k * P k i j) = fun j => ∑ k, w k * outputPmf r (P k) j := by
    funext j
    simp only [outputPmf, Finset.mul_sum]
    rw [Finset.sum_comm]
    exact Finset.sum_congr rfl fun k _ => Finset.sum_congr rfl fun i _ => by ring
  rw [I_eq hr hm, eo]
  have hterm : ∀ i, r i * D (fun j => ∑ k, w k * P k i j) (fun j => ∑ k, w k * outputPmf r (P k) j) ≤ r i * ∑ k, w k * D (P k i) (outputPmf r (P k)) := by
    intro i
    rcases (hr.nn i).eq_or_lt with h0 | h0
    · simp [← h0]
    · refine mul_le_mul_of_nonneg_left ?_ h0.le
      simp only [D, Finset.mul_sum]
      rw [Finset.sum_comm]
      refine Finset.sum_le_sum fun j _ => ?_
      refine (log_sum (fun k => w k * P k i j) (fun k => w k * outputPmf r (P k) j) (fun k => mul_nonneg (hw.nn k) ((hP k i).nn j))
        (fun k => mul_nonneg (hw.nn k) ((out_pmf hr (hP k)).nn j)) fun k hk => ?_).trans (le_of_eq ?_)
      · have h1 : 0 < w k := by
          rcases (hw.nn k).eq_or_lt with e | e
          · rw [← e, zero_mul] at hk; exact absurd hk (lt_irrefl _)
          · exact e
        have h2 : 0 < P k i j := by
          rcases ((hP k i).nn j).eq_or_lt with e | e
          · rw [← e, mul_zero] at hk; exact absurd hk (lt_irrefl _)
          · exact e
        exact mul_pos h1 (out_pos hr (hP k) h0 h2)
      · refine Finset.sum_congr rfl fun k _ => ?_
        rcases (hw.nn k).eq_or_lt with e | e
        · simp [← e]
        · rw [mul_div_mul_left _ _ e.ne']; ring
  refine (Finset.sum_le_sum fun i _ => hterm i).trans (le_of_eq ?_)
  simp only [I_eq hr (hP _), Finset.mul_sum]
  rw [Finset.sum_comm]
  exact Finset.sum_congr rfl fun k _ => Finset.sum_congr rfl fun i _ => by ring

/-- Relabelling the symbols changes nothing. -/
theorem C157_relabel (σ : Equiv.Perm (Fin n)) (τ : Equiv.Perm (Fin m)) (p : Fin n → ℝ) (P : Fin n → Fin m → ℝ) (base : LogBase)
    (hp : validPmf p = true) (hP : validChannelMatrix P = true) (hb : validLogBase base = true) :
    entropy (fun i => p (σ i)) base = entropy p base ∧
    mutualInformation (fun i => p (σ i)) (fun i j => P (σ i) (τ j)) base = mutualInformation p P base := by
  have hp := (pmf_iff p).mp hp
  have hP := (channel_iff P).mp hP
  have hp' : Pmf fun i => p (σ i) := ⟨fun i => hp.nn _, by rw [Equiv.sum_comp σ p]; exact hp.sum⟩
  have hP' : ∀ i, Pmf fun j => P (σ i) (τ j) := fun i => ⟨fun j => (hP _).nn _, by rw [Equiv.sum_comp τ (P (σ i))]; exact (hP _).sum⟩
  rw [entropy_eq _ base hp' hb, entropy_eq _ base hp hb, mutualInformation_eq _ _ base hp' hP' hb, mutualInformation_eq _ _ base hp hP hb]
  have h1 : ∀ {a : Nat} (ρ : Equiv.Perm (Fin a)) (f : Fin a → ℝ), H (fun i => f (ρ i)) = H f := fun ρ f => Equiv.sum_comp ρ fun i => negMulLog (f i)
  refine ⟨by rw [h1 σ p], ?_⟩
  have eo : outputPmf (fun i => p (σ i)) (fun i j => P (σ i) (τ j)) = fun j => outputPmf p P (τ j) := by
    funext j
    exact Equiv.sum_comp σ fun i => p i * P i (τ j)
  rw [I, I, eo, h1 τ (outputPmf p P)]
  simp only [h1 τ]
  rw [Equiv.sum_comp σ fun i => p i * H (P i)]

/-- Two binary symmetric channels in a row are one, with crossover probability `p + q - 2 p q`. -/
theorem C157_bsc_cascade (p q : ℝ) : cascadeMatrix (bscMatrix p) (bscMatrix q) = bscMatrix (p + q - 2 * p * q) := by
  funext i k
  fin_cases i <;> fin_cases k <;> simp [cascadeMatrix, bscMatrix, Fin.sum_univ_two] <;> ring

/-- Its capacity is at most that of either. -/
theorem C157_bsc_capacity (p q : ℝ) (hp : validProbability p = true) (hq : validProbability q = true) (base : LogBase) (hb : 1 < base.val) :
    ∃ a b c, bscCapacity (p + q - 2 * p * q) base = some a ∧ bscCapacity p base = some b ∧ bscCapacity q base = some c ∧ a ≤ b ∧ a ≤ c := by
  have h1 := hp
  have h2 := hq
  simp only [validProbability, Bool.and_eq_true, decide_eq_true_iff] at h1 h2
  have hpq : validProbability (p + q - 2 * p * q) = true := by
    simp only [validProbability, Bool.and_eq_true, decide_eq_true_iff]
    constructor <;> nlinarith [h1.1, h1.2, h2.1, h2.2, mul_nonneg h1.1 h2.1, mul_nonneg (sub_nonneg.mpr h1.2) (sub_nonneg.mpr h2.2),
      mul_nonneg h1.1 (sub_nonneg.mpr h2.2), mul_nonneg (sub_nonneg.mpr h1.2) h2.1]
  obtain ⟨a, a1, a2⟩ := C87_bsc _ hpq base hb
  obtain ⟨b, b1, b2⟩ := C87_bsc p hp base hb
  obtain ⟨c, c1, c2⟩ := C87_bsc q hq base hb
  refine ⟨a, b, c, a1, b1, c1, ?_⟩
  refine C157_cascade_capacity (bscMatrix p) (bscMatrix q) base ((channel_iff _).mpr (bsc_rows p h1.1 h1.2)) ((channel_iff _).mpr (bsc_rows q h2.1 h2.2)) hb a b c
    ?_ b2.isLUB c2.isLUB
  rw [C157_bsc_cascade]
  exact a2.isLUB

/-- The hypotheses are met: uniform input, two binary symmetric channels with crossover 1/4, their cascade with crossover 3/8. -/
example : validPmf (![1 / 2, 1 / 2] : Fin 2 → ℝ) = true ∧ validChannelMatrix (bscMatrix ((1 : ℝ) / 4)) = true ∧ 1 < LogBase.val (.num 2) ∧
    cascadeMatrix (bscMatrix ((1 : ℝ) / 4)) (bscMatrix ((1 : ℝ) / 4)) = bscMatrix ((3 : ℝ) / 8) := by
  refine ⟨(pmf_iff _).mpr uniform_two, (channel_iff _).mpr (bsc_rows (1 / 4) (by norm_num) (by norm_num)), by norm_num [LogBase.val], ?_⟩
  rw [C157_bsc_cascade]
  norm_num

end Komm
