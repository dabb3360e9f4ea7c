import Verif.Model.Information
import Mathlib.Analysis.SpecialFunctions.Log.NegMulLog
import Mathlib.Analysis.SpecialFunctions.BinaryEntropy
import Mathlib.Tactic.FieldSimp
/-! Inequalities of information theory, in natural units. -/
namespace Komm.Info
open Real
variable {n m : Nat}

/-- Entropy in nats. -/
noncomputable def H (p : Fin n → ℝ) : ℝ := ∑ i, negMulLog (p i)
/-- Relative entropy in nats. -/
noncomputable def D (p q : Fin n → ℝ) : ℝ := ∑ i, p i * log (p i / q i)
/-- Probability vectors. -/
structure Pmf (p : Fin n → ℝ) : Prop where
  nn : ∀ i, 0 ≤ p i
  sum : ∑ i, p i = 1
/-- The support of `p` is inside the support of `q`. -/
def AC (p q : Fin n → ℝ) : Prop := ∀ i, 0 < p i → 0 < q i

theorem Pmf.le_one {p : Fin n → ℝ} (hp : Pmf p) (i : Fin n) : p i ≤ 1 := by
  rw [← hp.sum]; exact Finset.single_le_sum (fun j _ => hp.nn j) (Finset.mem_univ i)

theorem Pmf.pos {p : Fin n → ℝ} (hp : Pmf p) : 0 < n := by
  rcases Nat.eq_zero_or_pos n with rfl | h
  · have := hp.sum; simp at this
  · exact h

theorem kl_term (a b : ℝ) (ha : 0 ≤ a) (hb : 0 ≤ b) (h : 0 < a → 0 < b) : a - b ≤ a * log (a / b) ∧ (a * log (a / b) = a - b → a = b) := by
  rcases ha.eq_or_lt with rfl | ha
  · exact ⟨by simp [hb], by simp [eq_comm]⟩
  · have hb := h ha
    have e : log (a / b) = - log (b / a) := by rw [← Real.log_inv, inv_div]
    have hx : 0 < b / a := by positivity
    constructor
    · have := log_le_sub_one_of_pos hx
      rw [e]
      have h2 : a * (b / a) = b := by field_simp
      nlinarith
    · intro h3
      by_contra hne
      have hx1 : b / a ≠ 1 := fun h4 => hne (by field_simp at h4; exact h4.symm)
      have := log_lt_sub_one_of_pos hx hx1
      rw [e] at h3
      have h2 : a * (b / a) = b := by field_simp
      nlinarith

/-- Gibbs' inequality for unnormalised non-negative families. -/
theorem gibbs_gen {ι : Type} (s : Finset ι) (a b : ι → ℝ) (ha : ∀ i ∈ s, 0 ≤ a i) (hb : ∀ i ∈ s, 0 ≤ b i) (h : ∀ i ∈ s, 0 < a i → 0 < b i) :
    ∑ i ∈ s, a i - ∑ i ∈ s, b i ≤ ∑ i ∈ s, a i * log (a i / b i) := by
  rw [← Finset.sum_sub_distrib]
  exact Finset.sum_le_sum fun i hi => (kl_term _ _ (ha i hi) (hb i hi) (h i hi)).1

theorem D_nonneg {p q : Fin n → ℝ} (hp : Pmf p) (hq : Pmf q) (h : AC p q) : 0 ≤ D p q := by
  have := gibbs_gen Finset.univ p q (fun i _ => hp.nn i) (fun i _ => hq.nn i) fun i _ => h i
  rw [hp.sum, hq.sum] at this
  simpa [D] using this

theorem D_eq_zero_iff {p q : Fin n → ℝ} (hp : Pmf p) (hq : Pmf q) (h : AC p q) : D p q = 0 ↔ p = q := by
  constructor
  · intro h0
    have hle : ∀ i ∈ Finset.univ, p i - q i ≤ p i * log (p i / q i) := fun i _ => (kl_term _ _ (hp.nn i) (hq.nn i) (h i)).1
    have hs : ∑ i, (p i - q i) = ∑ i, p i * log (p i / q i) := by
      rw [Finset.sum_sub_distrib, hp.sum, hq.sum, sub_self]; exact h0.symm
    have := (Finset.sum_eq_sum_iff_of_le hle).mp hs
    funext i
    exact (kl_term _ _ (hp.nn i) (hq.nn i) (h i)).2 (this i (Finset.mem_univ i)).symm
  · rintro rfl
    refine Finset.sum_eq_zero fun i _ => ?_
    by_cases h0 : p i = 0
    · simp [h0]
    · simp [div_self h0]

theorem H_nonneg {p : Fin n → ℝ} (hp : Pmf p) : 0 ≤ H p := Finset.sum_nonneg fun i _ => negMulLog_nonneg (hp.nn i) (hp.le_one i)

theorem H_eq_zero_iff {p : Fin n → ℝ} (hp : Pmf p) : H p = 0 ↔ ∃ i, p i = 1 := by
  rw [H, Finset.sum_eq_zero_iff_of_nonneg fun i _ => negMulLog_nonneg (hp.nn i) (hp.le_one i)]
  have hz : ∀ i, negMulLog (p i) = 0 ↔ p i = 0 ∨ p i = 1 := by
    intro i
    rw [negMulLog, neg_mul, neg_eq_zero, mul_eq_zero, log_eq_zero]
    have := hp.nn i
    constructor
    · rintro (h | h | h | h)
      · exact Or.inl h
      · exact Or.inl h
      · exact Or.inr h
      · linarith
    · rintro (h | h) <;> simp [h]
  constructor
  · intro h
    by_contra hc
    push Not at hc
    have : ∀ i, p i = 0 := fun i => ((hz i).mp (h i (Finset.mem_univ i))).resolve_right (hc i)
    have hs := hp.sum
    simp [this] at hs
  · rintro ⟨i, hi⟩ j _
    rw [hz]
    by_cases hij : j = i
    · exact Or.inr (hij ▸ hi)
    · left
      have := hp.sum
      rw [← Finset.add_sum_erase _ _ (Finset.mem_univ i), hi] at this
      have h0 : ∑ k ∈ Finset.univ.erase i, p k = 0 := by linarith
      exact (Finset.sum_eq_zero_iff_of_nonneg fun k _ => hp.nn k).mp h0 j (by simp [hij])

theorem uniform_pmf (hn : 0 < n) : Pmf (fun _ : Fin n => (1 : ℝ) / n) := by
  refine ⟨fun i => by positivity, ?_⟩
  simp; field_simp

theorem D_uniform {p : Fin n → ℝ} (hp : Pmf p) : D p (fun _ => 1 / n) = log n - H p := by
  have hn : (0 : ℝ) < n := by exact_mod_cast hp.pos
  have : ∀ i, p i * log (p i / (1 / n)) = p i * log n - negMulLog (p i) := by
    intro i
    rcases (hp.nn i).eq_or_lt with h | h
    · simp [← h]
    · rw [div_div_eq_mul_div, div_one, log_mul h.ne' hn.ne', negMulLog]; ring
  simp only [D, this, Finset.sum_sub_distrib, ← Finset.sum_mul, hp.sum, one_mul, H]

theorem AC_uniform (p : Fin n → ℝ) : AC p (fun _ => 1 / n) := fun i _ => by
  have : (0 : ℝ) < n := by exact_mod_cast i.pos
  positivity

theorem H_le_log {p : Fin n → ℝ} (hp : Pmf p) : H p ≤ log n := by
  have := D_nonneg hp (uniform_pmf hp.pos) (AC_uniform p)
  rw [D_uniform hp] at this; linarith

theorem H_eq_log_iff {p : Fin n → ℝ} (hp : Pmf p) : H p = log n ↔ ∀ i, p i = 1 / n := by
  have := D_eq_zero_iff hp (uniform_pmf hp.pos) (AC_uniform p)
  rw [D_uniform hp, funext_iff] at this
  rw [← this, sub_eq_zero, eq_comm]

/-- Mutual information in nats. -/
noncomputable def I (r : Fin n → ℝ) (P : Fin n → Fin m → ℝ) : ℝ := H (outputPmf r P) - ∑ i, r i * H (P i)

theorem out_pmf {r : Fin n → ℝ} {P : Fin n → Fin m → ℝ} (hr : Pmf r) (hP : ∀ i, Pmf (P i)) : Pmf (outputPmf r P) := by
  refine ⟨fun j => Finset.sum_nonneg fun i _ => mul_nonneg (hr.nn i) ((hP i).nn j), ?_⟩
  simp only [outputPmf]
  rw [Finset.sum_comm]
  simp only [← Finset.mul_sum, (hP _).sum, mul_one, hr.sum]

theorem out_pos {r : Fin n → ℝ} {P : Fin n → Fin m → ℝ} (hr : Pmf r) (hP : ∀ i, Pmf (P i)) {i : Fin n} {j : Fin m} (hi : 0 < r i)
    (hj : 0 < P i j) : 0 < outputPmf r P j :=
  Finset.sum_pos' (fun k _ => mul_nonneg (hr.nn k) ((hP k).nn j)) ⟨i, Finset.mem_univ i, mul_pos hi hj⟩

theorem out_pos_iff {r : Fin n → ℝ} {P : Fin n → Fin m → ℝ} (hr : Pmf r) (hP : ∀ i, Pmf (P i)) {j : Fin m} :
    0 < outputPmf r P j ↔ ∃ i, 0 < r i ∧ 0 < P i j := by
  constructor
  · intro h
    by_contra hc
    push Not at hc
    have : outputPmf r P j ≤ 0 := Finset.sum_nonpos fun i _ => by
      rcases (hr.nn i).eq_or_lt with h0 | h0
      · simp [← h0]
      · exact mul_nonpos_of_nonneg_of_nonpos h0.le (hc i h0)
    linarith
  · rintro ⟨i, hi, hj⟩; exact out_pos hr hP hi hj

theorem D_split {p q : Fin n → ℝ} (hp : Pmf p) (h : AC p q) : D p q = - H p - ∑ i, p i * log (q i) := by
  have : ∀ i, p i * log (p i / q i) = - negMulLog (p i) - p i * log (q i) := by
    intro i
    rcases (hp.nn i).eq_or_lt with h0 | h0
    · simp [← h0]
    · rw [log_div h0.ne' (h i h0).ne', negMulLog]; ring
  simp only [D, this, Finset.sum_sub_distrib, Finset.sum_neg_distrib, H]

/-- The golden formula. -/
theorem golden {r : Fin n → ℝ} {P : Fin n → Fin m → ℝ} (hr : Pmf r) (hP : ∀ i, Pmf (P i)) {q : Fin m → ℝ} (hq : AC (outputPmf r P) q) :
    I r P = ∑ i, r i * D (P i) q - D (outputPmf r P) q := by
  have h1 : ∀ i, r i * D (P i) q = - (r i * H (P i)) - ∑ j, r i * P i j * log (q j) := by
    intro i
    rcases (hr.nn i).eq_or_lt with h0 | h0
    · simp [← h0]
    · rw [D_split (hP i) fun j hj => hq j (out_pos hr hP h0 hj), mul_sub, Finset.mul_sum, mul_neg]
      simp only [mul_assoc]
  have h2 : ∑ i, ∑ j, r i * P i j * log (q j) = ∑ j, outputPmf r P j * log (q j) := by
    rw [Finset.sum_comm]
    simp only [← Finset.sum_mul]; rfl
  rw [D_split (out_pmf hr hP) hq]
  simp only [h1, Finset.sum_sub_distrib, h2, Finset.sum_neg_distrib, I]
  ring

theorem AC_refl (p : Fin n → ℝ) : AC p p := fun _ h => h

theorem I_eq {r : Fin n → ℝ} {P : Fin n → Fin m → ℝ} (hr : Pmf r) (hP : ∀ i, Pmf (P i)) : I r P = ∑ i, r i * D (P i) (outputPmf r P) := by
  rw [golden hr hP (AC_refl _), (D_eq_zero_iff (out_pmf hr hP) (out_pmf hr hP) (AC_refl _)).mpr rfl, sub_zero]

theorem rD_nonneg {r : Fin n → ℝ} {P : Fin n → Fin m → ℝ} (hr : Pmf r) (hP : ∀ i, Pmf (P i)) (i : Fin n) : 0 ≤ r i * D (P i) (outputPmf r P) := by
  rcases (hr.nn i).eq_or_lt with h0 | h0
  · simp [← h0]
  · exact mul_nonneg h0.le (D_nonneg (hP i) (out_pmf hr hP) fun j hj => out_pos hr hP h0 hj)

theorem I_nonneg {r : Fin n → ℝ} {P : Fin n → Fin m → ℝ} (hr : Pmf r) (hP : ∀ i, Pmf (P i)) : 0 ≤ I r P := by
  rw [I_eq hr hP]; exact Finset.sum_nonneg fun i _ => rD_nonneg hr hP i

/-- Independence: the mutual information vanishes iff all rows that are used agree. -/
theorem I_eq_zero_iff {r : Fin n → ℝ} {P : Fin n → Fin m → ℝ} (hr : Pmf r) (hP : ∀ i, Pmf (P i)) :
    I r P = 0 ↔ ∀ i, 0 < r i → P i = outputPmf r P := by
  rw [I_eq hr hP, Finset.sum_eq_zero_iff_of_nonneg fun i _ => rD_nonneg hr hP i]
  constructor
  · intro h i hi
    have := (mul_eq_zero.mp (h i (Finset.mem_univ i))).resolve_left hi.ne'
    exact (D_eq_zero_iff (hP i) (out_pmf hr hP) fun j hj => out_pos hr hP hi hj).mp this
  · intro h i _
    rcases (hr.nn i).eq_or_lt with h0 | h0
    · simp [← h0]
    · rw [(D_eq_zero_iff (hP i) (out_pmf hr hP) fun j hj => out_pos hr hP h0 hj).mpr (h i h0), mul_zero]

theorem I_le_H {r : Fin n → ℝ} {P : Fin n → Fin m → ℝ} (hr : Pmf r) (hP : ∀ i, Pmf (P i)) : I r P ≤ H r := by
  rw [I_eq hr hP, H]
  refine Finset.sum_le_sum fun i _ => ?_
  rcases (hr.nn i).eq_or_lt with h0 | h0
  · simp [← h0]
  · rw [negMulLog, neg_mul, ← mul_neg]
    refine mul_le_mul_of_nonneg_left ?_ h0.le
    rw [D, ← one_mul (-log (r i)), ← (hP i).sum, Finset.sum_mul]
    refine Finset.sum_le_sum fun j _ => ?_
    rcases ((hP i).nn j).eq_or_lt with h1 | h1
    · simp [← h1]
    · refine mul_le_mul_of_nonneg_left ?_ h1.le
      rw [← log_inv]
      have ho := out_pos hr hP h0 h1
      refine log_le_log (by positivity) ?_
      rw [div_le_iff₀ ho]
      have : r i * P i j ≤ outputPmf r P j := Finset.single_le_sum (f := fun k => r k * P k j) (fun k _ => mul_nonneg (hr.nn k) ((hP k).nn j)) (Finset.mem_univ i)
      have h3 : (r i)⁻¹ * (r i * P i j) = P i j := by field_simp
      rw [← h3]
      exact mul_le_mul_of_nonneg_left this (by positivity)

theorem I_le_H_out {r : Fin n → ℝ} {P : Fin n → Fin m → ℝ} (hr : Pmf r) (hP : ∀ i, Pmf (P i)) : I r P ≤ H (outputPmf r P) := by
  have : 0 ≤ ∑ i, r i * H (P i) := Finset.sum_nonneg fun i _ => mul_nonneg (hr.nn i) (H_nonneg (hP i))
  rw [I]; linarith

/-- The Kuhn–Tucker bound. -/
theorem I_le_of_kkt {r : Fin n → ℝ} {P : Fin n → Fin m → ℝ} (hr : Pmf r) (hP : ∀ i, Pmf (P i)) {q : Fin m → ℝ} (hq : Pmf q)
    (hac : ∀ i, AC (P i) q) (C : ℝ) (hC : ∀ i, D (P i) q ≤ C) : I r P ≤ C := by
  have hac' : AC (outputPmf r P) q := fun j hj => by
    obtain ⟨i, -, h⟩ := (out_pos_iff hr hP).mp hj
    exact hac i j h
  rw [golden hr hP hac']
  have h1 := D_nonneg (out_pmf hr hP) hq hac'
  have h2 : ∑ i, r i * D (P i) q ≤ ∑ i, r i * C := Finset.sum_le_sum fun i _ => mul_le_mul_of_nonneg_left (hC i) (hr.nn i)
  rw [← Finset.sum_mul, hr.sum, one_mul] at h2
  linarith

/-- The data-processing inequality for relative entropy. -/
theorem data_processing {r s : Fin n → ℝ} {P : Fin n → Fin m → ℝ} (hr : Pmf r) (hs : Pmf s) (hP : ∀ i, Pmf (P i)) (h : AC s r) :
    D (outputPmf s P) (outputPmf r P) ≤ D s r := by
  have hac : AC (outputPmf s P) (outputPmf r P) := fun j hj => by
    obtain ⟨i, h1, h2⟩ := (out_pos_iff hs hP).mp hj
    exact out_pos hr hP (h i h1) h2
  -- Gibbs' inequality for `a i j = s i P i j` and `b i j = r i P i j out' j / out j`
  have key := gibbs_gen (Finset.univ : Finset (Fin n × Fin m)) (fun x => s x.1 * P x.1 x.2)
    (fun x => r x.1 * P x.1 x.2 * (outputPmf s P x.2 / outputPmf r P x.2)) (fun x _ => mul_nonneg (hs.nn _) ((hP _).nn _))
    (fun x _ => mul_nonneg (mul_nonneg (hr.nn _) ((hP _).nn _)) (div_nonneg ((out_pmf hs hP).nn _) ((out_pmf hr hP).nn _)))
    (fun x _ hx => by
      have h1 : 0 < s x.1 := by
        rcases (hs.nn x.1).eq_or_lt with h0 | h0
        · simp [← h0] at hx
        · exact h0
      have h2 : 0 < P x.1 x.2 := by
        rcases ((hP x.1).nn x.2).eq_or_lt with h0 | h0
        · simp [← h0] at hx
        · exact h0
      exact mul_pos (mul_pos (h _ h1) h2) (div_pos (out_pos hs hP h1 h2) (out_pos hr hP (h _ h1) h2)))
  simp only [Fintype.sum_prod_type] at key
  have hsum1 : ∑ i, ∑ j, s i * P i j = 1 := by simp only [← Finset.mul_sum, (hP _).sum, mul_one, hs.sum]
  have hsum2 : ∑ i, ∑ j, r i * P i j * (outputPmf s P j / outputPmf r P j) = 1 := by
    rw [Finset.sum_comm, ← (out_pmf hs hP).sum]
    refine Finset.sum_congr rfl fun j _ => ?_
    rw [← Finset.sum_mul, show ∑ i, r i * P i j = outputPmf r P j from rfl]
    by_cases h0 : outputPmf r P j = 0
    · rw [h0, zero_mul]
      rcases ((out_pmf hs hP).nn j).eq_or_lt with h1 | h1
      · exact h1
      · exact absurd h0 (hac j h1).ne'
    · field_simp
  rw [hsum1, hsum2, sub_self] at key
  have hterm : ∀ i j, s i * P i j * log (s i * P i j / (r i * P i j * (outputPmf s P j / outputPmf r P j))) =
      s i * P i j * log (s i / r i) - s i * P i j * log (outputPmf s P j / outputPmf r P j) := by
    intro i j
    rcases (hs.nn i).eq_or_lt with h0 | h0
    · simp [← h0]
    rcases ((hP i).nn j).eq_or_lt with h1 | h1
    · simp [← h1]
    have hri := h i h0
    have ho := out_pos hr hP hri h1
    have ho' := out_pos hs hP h0 h1
    rw [← mul_sub, ← log_div (by positivity) (by positivity)]
    congr 2
    field_simp
  simp only [hterm, Finset.sum_sub_distrib] at key
  have e1 : ∑ i, ∑ j, s i * P i j * log (s i / r i) = D s r := by
    simp only [← Finset.sum_mul, ← Finset.mul_sum, (hP _).sum, mul_one]; rfl
  have e2 : ∑ i, ∑ j, s i * P i j * log (outputPmf s P j / outputPmf r P j) = D (outputPmf s P) (outputPmf r P) := by
    rw [Finset.sum_comm]
    simp only [← Finset.sum_mul]; rfl
  rw [e1, e2] at key
  linarith

end Komm.Info

namespace Komm.Info
open Real
variable {n m : Nat}

theorem valid_base_log (base : LogBase) (h : validLogBase base = true) : 0 < base.val ∧ base.val ≠ 1 ∧ log base.val ≠ 0 := by
  have : 0 < base.val ∧ base.val ≠ 1 := by
    cases base with
    | e => exact ⟨exp_pos 1, by rw [LogBase.val]; exact (one_lt_exp_iff.mpr one_pos).ne'⟩
    | num b =>
      simp only [validLogBase, Bool.not_eq_true', Bool.or_eq_false_iff, decide_eq_false_iff_not, not_le] at h
      exact h
  exact ⟨this.1, this.2, log_ne_zero_of_pos_of_ne_one this.1 this.2⟩

theorem infoLog_eq (base : LogBase) (x : ℝ) : infoLog base x = log x / log base.val := by
  cases base with
  | e => simp [infoLog, LogBase.val]
  | num b =>
    rw [infoLog, LogBase.val]
    split
    · next h => rw [h]; rfl
    · rfl

theorem pmf_iff (p : Fin n → ℝ) : validPmf p = true ↔ Pmf p := by
  simp only [validPmf, Bool.and_eq_true, decide_eq_true_iff]
  exact ⟨fun h => ⟨h.1, h.2⟩, fun h => ⟨h.nn, h.sum⟩⟩

theorem channel_iff (P : Fin n → Fin m → ℝ) : validChannelMatrix P = true ↔ ∀ i, Pmf (P i) := by
  simp only [validChannelMatrix, Bool.and_eq_true, decide_eq_true_iff]
  exact ⟨fun h i => ⟨h.1 i, h.2 i⟩, fun h => ⟨fun i => (h i).nn, fun i => (h i).sum⟩⟩

theorem entropy_eq (p : Fin n → ℝ) (base : LogBase) (hp : Pmf p) (hb : validLogBase base = true) :
    entropy p base = some (H p / log base.val) := by
  rw [entropy, if_pos (by simp [(pmf_iff p).mpr hp, hb])]
  congr 1
  rw [H, Finset.sum_div, ← Finset.sum_filter_add_sum_filter_not Finset.univ (fun i : Fin n => p i > 0) fun i => negMulLog (p i) / log base.val]
  rw [Finset.sum_eq_zero (s := Finset.univ.filter fun i : Fin n => ¬ p i > 0), add_zero]
  · refine Finset.sum_congr rfl fun i _ => ?_
    rw [infoLog_eq, one_div, log_inv, negMulLog]; ring
  · intro i hi
    simp only [Finset.mem_filter, Finset.mem_univ, true_and, not_lt] at hi
    have : p i = 0 := le_antisymm hi (hp.nn i)
    simp [this]

theorem mutualInformation_eq (r : Fin n → ℝ) (P : Fin n → Fin m → ℝ) (base : LogBase) (hr : Pmf r) (hP : ∀ i, Pmf (P i))
    (hb : validLogBase base = true) : mutualInformation r P base = some (I r P / log base.val) := by
  rw [mutualInformation, if_pos (by simp [(pmf_iff r).mpr hr, hb, (channel_iff P).mpr hP])]
  have h : ∀ i, entropy (P i) base = some (H (P i) / log base.val) := fun i => entropy_eq _ _ (hP i) hb
  simp only [entropy_eq _ _ (out_pmf hr hP) hb, h, Option.isSome_some, implies_true, if_true, Option.getD_some, Option.bind_eq_bind, Option.bind_some]
  congr 1
  rw [I, sub_div, Finset.sum_div]
  simp only [mul_div_assoc]

theorem relativeEntropy_eq (p q : Fin n → ℝ) (base : LogBase) (hp : Pmf p) (hq : Pmf q) (hac : AC p q) (hb : validLogBase base = true) :
    relativeEntropy p q base = some ((D p q / log base.val : ℝ) : EReal) := by
  rw [relativeEntropy, if_pos (by simp [(pmf_iff p).mpr hp, (pmf_iff q).mpr hq, hb]), if_neg]
  · congr 2
    rw [D, Finset.sum_div, ← Finset.sum_filter_add_sum_filter_not Finset.univ (fun i : Fin n => p i > 0) fun i => p i * log (p i / q i) / log base.val]
    rw [Finset.sum_eq_zero (s := Finset.univ.filter fun i : Fin n => ¬ p i > 0), add_zero]
    · refine Finset.sum_congr rfl fun i _ => ?_
      rw [infoLog_eq]; ring
    · intro i hi
      simp only [Finset.mem_filter, Finset.mem_univ, true_and, not_lt] at hi
      have : p i = 0 := le_antisymm hi (hp.nn i)
      simp [this]
  · rintro ⟨i, h1, h2⟩
    exact absurd h2 (hac i h1).ne'

theorem binaryEntropy_eq (p : ℝ) (h0 : 0 ≤ p) (h1 : p ≤ 1) : binaryEntropy p = some (binEntropy p / log 2) := by
  rw [binaryEntropy, if_neg (by simp [validProbability, h0, h1])]
  split
  · next h =>
    rcases h with rfl | rfl
    · simp
    · simp
  · congr 1
    rw [binEntropy, logb, logb, log_inv, log_inv]; ring

theorem binEntropy_pair (p : ℝ) : binEntropy p = H ![1 - p, p] := by
  rw [H, Fin.sum_univ_two, binEntropy_eq_negMulLog_add_negMulLog_one_sub]
  simp [add_comm]

theorem pmf_two (r : Fin 2 → ℝ) (hr : Pmf r) : r 0 = 1 - r 1 := by
  have := hr.sum
  rw [Fin.sum_univ_two] at this; linarith

end Komm.Info
