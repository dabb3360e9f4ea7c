import Verif.Model.Tolerance
import Verif.Props.C84_Draws
import Verif.Props.C78_Information
import Verif.Props.C128_FanoRate
/-! C131: probabilities that sum to one only within the tolerance of `np.isclose`. -/
set_option linter.unusedSimpArgs false
set_option linter.unusedSectionVars false
namespace Komm.Tolerant
open Komm.MarkovChain Komm.Info Real

section
variable {K : Type} [Field K] [LinearOrder K] [IsStrictOrderedRing K] {n m : ℕ}

theorem isclose_iff (a : K) : isclose a 1 = true ↔ |a - 1| ≤ 1001 / 10 ^ 8 := by
  rw [isclose, decide_eq_true_eq, abs_one]
  have : (1 : K) / 10 ^ 8 + 1 / 10 ^ 5 * 1 = 1001 / 10 ^ 8 := by norm_num
  rw [this]

theorem accepts_iff (p : Fin n → K) : validPmf p = true ↔ (∀ i, 0 ≤ p i) ∧ |∑ i, p i - 1| ≤ 1001 / 10 ^ 8 := by
  simp [validPmf, isclose_iff]

theorem accepts_matrix_iff (P : Fin m → Fin n → K) : validMatrix P = true ↔ (∀ i j, 0 ≤ P i j) ∧ ∀ i, |∑ j, P i j - 1| ≤ 1001 / 10 ^ 8 := by
  simp [validMatrix, isclose_iff]

theorem exact_accepted {p : Fin n → K} (h : Komm.validPmf p = true) : validPmf p = true ∧ drawable p = true := by
  have h' := (validPmf_iff p).mp h
  refine ⟨?_, ?_⟩
  · simp [validPmf, isclose_iff, h'.1, h'.2]; positivity
  · simp [drawable, h'.2]

theorem exact_matrix_accepted {P : Fin m → Fin n → K} (h : Komm.validChannelMatrix P = true) : validMatrix P = true := by
  simp only [Komm.validChannelMatrix, Bool.and_eq_true, decide_eq_true_eq] at h
  simp only [validMatrix, Bool.and_eq_true, decide_eq_true_eq, isclose_iff, h.2]
  exact ⟨h.1, fun i => by simp; positivity⟩

/-- What the validators accept: nonnegative entries, and sums that differ from one by at most `1.001e-5`; in particular everything that is exactly normalised. -/
theorem C131_accepts (p : Fin n → K) (P : Fin m → Fin n → K) :
    (validPmf p = true ↔ (∀ i, 0 ≤ p i) ∧ |∑ i, p i - 1| ≤ 1001 / 10 ^ 8) ∧
    (validMatrix P = true ↔ (∀ i j, 0 ≤ P i j) ∧ ∀ i, |∑ j, P i j - 1| ≤ 1001 / 10 ^ 8) ∧
    (Komm.validPmf p = true → validPmf p = true ∧ drawable p = true) ∧ (Komm.validChannelMatrix P = true → validMatrix P = true) :=
  ⟨accepts_iff p, accepts_matrix_iff P, exact_accepted, exact_matrix_accepted⟩

/-- `validate_integer_range` and `validate_integer_min` return their argument when all its entries are in range, and raise otherwise. -/
theorem C131_integers (value : List Int) (low high : Int) :
    ((∀ x ∈ value, low ≤ x ∧ x < high) → validateIntegerRange value low high = some value) ∧
    ((∃ x ∈ value, ¬ (low ≤ x ∧ x < high)) → validateIntegerRange value low high = none) ∧
    ((∀ x ∈ value, low ≤ x) → validateIntegerMin value low = some value) ∧ ((∃ x ∈ value, x < low) → validateIntegerMin value low = none) := by
  refine ⟨fun h => ?_, fun ⟨x, hx, h⟩ => ?_, fun h => ?_, fun ⟨x, hx, h⟩ => ?_⟩
  · rw [validateIntegerRange, if_neg]
    rw [not_not]
    exact ⟨fun x hx => (h x hx).1, fun x hx => (h x hx).2⟩
  · rw [validateIntegerRange, if_pos]
    rintro ⟨h1, h2⟩
    exact h ⟨h1 x hx, h2 x hx⟩
  · rw [validateIntegerMin, if_neg]
    rw [not_not]
    exact h
  · rw [validateIntegerMin, if_pos]
    intro h1
    exact absurd (h1 x hx) (not_le.mpr h)

/-- The probabilities divided by their sum. -/
def normalised (p : Fin n → K) : Fin n → K := fun i => p i / ∑ j, p j

theorem sum_pos_of_close {s : K} (h : |s - 1| ≤ 1001 / 10 ^ 8) : 0 < s := by
  have := (abs_le.mp h).1
  have h2 : (1001 : K) / 10 ^ 8 < 1 := by norm_num
  linarith

theorem normalised_valid (p : Fin n → K) (h0 : ∀ i, 0 ≤ p i) (hs : 0 < ∑ i, p i) : Komm.validPmf (normalised p) = true := by
  rw [validPmf_iff]
  refine ⟨fun i => div_nonneg (h0 i) hs.le, ?_⟩
  simp only [normalised, ← Finset.sum_div]
  exact div_self hs.ne'

theorem rngChoice_normalised (p : Fin n → K) (hs : 0 < ∑ i, p i) (u : K) : rngChoice (normalised p) u = rngChoice p u := by
  have h1 : ∑ i, normalised p i = 1 := by
    simp only [normalised, ← Finset.sum_div]
    exact div_self hs.ne'
  have h2 : ∀ j, cumsum (normalised p) j = cumsum p j / ∑ i, p i := fun j => by
    simp only [cumsum, normalised, ← Finset.sum_div]
  unfold rngChoice
  simp only [h1, h2, div_one]

theorem normalised_close (p : Fin n → K) (h0 : ∀ i, 0 ≤ p i) (hs : 0 < ∑ i, p i) (i : Fin n) : |normalised p i - p i| ≤ |∑ i, p i - 1| := by
  have hle : p i ≤ ∑ j, p j := Finset.single_le_sum (fun j _ => h0 j) (Finset.mem_univ i)
  have e : normalised p i - p i = p i / (∑ j, p j) * (1 - ∑ j, p j) := by rw [normalised]; field_simp
  rw [e, abs_mul, abs_of_nonneg (div_nonneg (h0 i) hs.le), abs_sub_comm]
  exact mul_le_of_le_one_left (abs_nonneg _) ((div_le_one hs).mpr hle)

/-- Draws with probabilities whose sum `s` is not exactly one: `emit`, `transmit` and `simulate` raise if some sum that is used differs from one by more than `2^-26` (numpy's
own check, which is stricter than that of komm); otherwise they do exactly what they do for the probabilities divided by their sum, which differ from the given ones by at
most `|s - 1|`. -/
theorem C131_draws (p : Fin n → K) (hp : validPmf p = true) (P : Fin m → Fin n → K) (hP : validMatrix P = true) (T : TMat K n) (hT : validMatrix T = true) :
    Komm.validPmf (normalised p) = true ∧ (∀ i, |normalised p i - p i| ≤ |∑ i, p i - 1|) ∧
    (∀ us, emit p us = if |∑ i, p i - 1| ≤ 1 / 2 ^ 26 then dmsEmit (normalised p) us else none) ∧
    ((∀ i, |∑ j, P i j - 1| ≤ 1 / 2 ^ 26) → ∀ input, transmit P input = dmcTransmit (fun i => normalised (P i)) input) ∧
    (∀ (i : Fin m) (u : K) input, ¬ |∑ j, P i j - 1| ≤ 1 / 2 ^ 26 → transmit P ((i.val, u) :: input) = none) ∧
    ((∀ i, |∑ j, T i j - 1| ≤ 1 / 2 ^ 26) → ∀ i us, simulate T i us = MarkovChain.simulate (fun i => normalised (T i)) i us) ∧
    (∀ (i : Fin n) (u : K) us, ¬ |∑ j, T i j - 1| ≤ 1 / 2 ^ 26 → simulate T i (u :: us) = none) := by
  obtain ⟨h0, h1⟩ := (accepts_iff p).mp hp
  obtain ⟨hP0, hP1⟩ := (accepts_matrix_iff P).mp hP
  obtain ⟨hT0, hT1⟩ := (accepts_matrix_iff T).mp hT
  have hs := sum_pos_of_close h1
  refine ⟨normalised_valid p h0 hs, normalised_close p h0 hs, fun us => ?_, fun h input => ?_, fun i u input h => ?_, fun h i us => ?_, fun i u us h => ?_⟩
  · have : rngChoice (normalised p) = rngChoice p := funext (rngChoice_normalised p hs)
    simp only [emit, drawable, decide_eq_true_eq, dmsEmit, this]
  · unfold transmit dmcTransmit
    congr 1
    funext xu
    by_cases hx : xu.1 < m
    · rw [dif_pos hx, dif_pos hx, choice, if_pos (by rw [drawable, decide_eq_true_eq]; exact h _), rngChoice_normalised _ (sum_pos_of_close (hP1 _))]
    · rw [dif_neg hx, dif_neg hx]
  · unfold transmit
    rw [List.mapM_cons, dif_pos i.2, choice, if_neg (by rw [drawable, decide_eq_true_eq]; exact h)]
    rfl
  · induction us generalizing i with
    | nil => rfl
    | cons u us ih =>
      rw [simulate, MarkovChain.simulate, choice, if_pos (by rw [drawable, decide_eq_true_eq]; exact h _), rngChoice_normalised _ (sum_pos_of_close (hT1 _))]
      simp only [ih]
  · rw [simulate, choice, if_neg (by rw [drawable, decide_eq_true_eq]; exact h)]
    rfl

end

/-- Finding: the constructor accepts probabilities for which every call of `emit` raises. -/
theorem C131_accepted_but_raises : validPmf (![1 / 2, 1 / 2 + 1 / 10 ^ 6] : Fin 2 → ℚ) = true ∧ ∀ us : List ℚ, emit (![1 / 2, 1 / 2 + 1 / 10 ^ 6] : Fin 2 → ℚ) us = none := by
  refine ⟨by decide +kernel, fun us => ?_⟩
  have : drawable (![1 / 2, 1 / 2 + 1 / 10 ^ 6] : Fin 2 → ℚ) = false := by decide +kernel
  rw [emit, this]
  rfl


section Information
variable {n m : ℕ}

/-- On exactly normalised probabilities (the inputs of the other properties) the tolerance makes no difference. -/
theorem C131_conservative (p q : Fin n → ℝ) (hp : Komm.validPmf p = true) (hq : Komm.validPmf q = true) (P : Fin n → Fin m → ℝ) (hP : validChannelMatrix P = true)
    (r : Fin 2 → ℝ) (hr : Komm.validPmf r = true) (T : TMat ℝ n) (hT : validChannelMatrix T = true) (base : LogBase) (ε : ℝ) :
    entropy p base = Komm.entropy p base ∧ relativeEntropy p q base = Komm.relativeEntropy p q base ∧
    mutualInformation p P base = Komm.mutualInformation p P base ∧ bscMutualInformation ε r base = Komm.bscMutualInformation ε r base ∧
    (∀ us, emit p us = dmsEmit p us) ∧ (∀ input, transmit P input = dmcTransmit P input) ∧ (∀ i us, simulate T i us = MarkovChain.simulate T i us) := by
  have e : ∀ {l : ℕ} (v : Fin l → ℝ), Komm.validPmf v = true → ∀ base, entropy v base = Komm.entropy v base := by
    intro l v hv base
    rw [entropy, Komm.entropy, (exact_accepted hv).1, hv]
  have hP' := (channel_iff P).mp hP
  have hT' := (channel_iff T).mp hT
  have hrow : ∀ {l : ℕ} (v : Fin l → ℝ), Pmf v → ∀ u, choice v u = rngChoice v u := fun v hv u => by
    rw [choice, if_pos (exact_accepted ((pmf_iff v).mpr hv)).2]
  refine ⟨e p hp base, ?_, ?_, ?_, fun us => ?_, fun input => ?_, fun i us => ?_⟩
  · rw [relativeEntropy, Komm.relativeEntropy, (exact_accepted hp).1, (exact_accepted hq).1, hp, hq]
  · rw [mutualInformation, Komm.mutualInformation, (exact_accepted hp).1, exact_matrix_accepted hP, hp, hP]
    have h1 := e (outputPmf p P) ((pmf_iff _).mpr (out_pmf ((pmf_iff p).mp hp) hP')) base
    have h2 : ∀ i, entropy (P i) base = Komm.entropy (P i) base := fun i => e _ ((pmf_iff _).mpr (hP' i)) base
    simp only [h1, h2]
  · rw [bscMutualInformation, Komm.bscMutualInformation, (exact_accepted hr).1, hr]
  · rw [emit, if_pos (exact_accepted hp).2]
  · unfold transmit dmcTransmit
    congr 1
    funext xu
    by_cases hx : xu.1 < n
    · rw [dif_pos hx, dif_pos hx, hrow _ (hP' _)]
    · rw [dif_neg hx, dif_neg hx]
  · induction us generalizing i with
    | nil => rfl
    | cons u us ih =>
      rw [simulate, MarkovChain.simulate, hrow _ (hT' _)]
      simp only [ih]

theorem accepted {p : Fin n → ℝ} (hp : validPmf p = true) : (∀ i, 0 ≤ p i) ∧ |∑ i, p i - 1| ≤ 1001 / 10 ^ 8 := (accepts_iff p).mp hp

theorem normalised_pmf {p : Fin n → ℝ} (hp : validPmf p = true) : Pmf (normalised p) :=
  (pmf_iff _).mp (normalised_valid p (accepted hp).1 (sum_pos_of_close (accepted hp).2))

theorem entropy_nats (p : Fin n → ℝ) (hp : validPmf p = true) (base : LogBase) (hb : validLogBase base = true) :
    entropy p base = some (H p / log base.val) := by
  rw [entropy, if_pos (by simp [hp, hb])]
  congr 1
  rw [H, Finset.sum_div, Finset.sum_filter]
  refine Finset.sum_congr rfl fun i _ => ?_
  by_cases h : p i > 0
  · rw [if_pos h, infoLog_eq, one_div, log_inv, negMulLog]; ring
  · rw [if_neg h, le_antisymm (not_lt.mp h) ((accepted hp).1 i)]; simp

theorem H_scale (p : Fin n → ℝ) (hs : 0 < ∑ i, p i) : H p = (∑ i, p i) * H (normalised p) - (∑ i, p i) * log (∑ i, p i) := by
  have h : ∀ i, negMulLog (p i) = (∑ j, p j) * negMulLog (normalised p i) - p i * log (∑ j, p j) := by
    intro i
    have e : p i = (∑ j, p j) * normalised p i := by rw [normalised]; field_simp
    conv_lhs => rw [e]
    rw [negMulLog_mul]
    have e2 : normalised p i * negMulLog (∑ j, p j) = -(p i * log (∑ j, p j)) := by
      rw [negMulLog, normalised]; field_simp
    rw [e2]; ring
  rw [H, H, Finset.sum_congr rfl fun i _ => h i, Finset.sum_sub_distrib, ← Finset.mul_sum, ← Finset.sum_mul]

theorem log_scale_le {s : ℝ} (h : |s - 1| ≤ 1001 / 10 ^ 8) : |s * log s| ≤ 2 * |s - 1| := by
  have hs := sum_pos_of_close h
  have h1 := log_le_sub_one_of_pos hs
  have h2 := one_sub_inv_le_log_of_pos hs
  have h3 : s * (1 - s⁻¹) = s - 1 := by field_simp
  have h4 : s - 1 ≤ s * log s := by rw [← h3]; exact mul_le_mul_of_nonneg_left h2 hs.le
  have h5 : s * log s ≤ s * (s - 1) := mul_le_mul_of_nonneg_left h1 hs.le
  have h6 := abs_le.mp h
  rw [abs_le]
  rcases le_total 1 s with h7 | h7
  · rw [abs_of_nonneg (by linarith)]
    constructor
    · nlinarith
    · nlinarith
  · rw [abs_of_nonpos (by linarith)]
    constructor
    · nlinarith
    · nlinarith

/-- `entropy` of probabilities whose sum `s` is not exactly one: it is `s` times the entropy of the probabilities divided by `s`, minus `s * log(s)`; so it is off by
at most `|s - 1|` times the entropy plus `2 / log(base)`, but the bounds of an entropy need not hold: it can be negative. -/
theorem C131_entropy (p : Fin n → ℝ) (hp : validPmf p = true) (base : LogBase) (hb : validLogBase base = true) :
    ∃ h, Komm.entropy (normalised p) base = some h ∧ entropy p base = some ((∑ i, p i) * h - (∑ i, p i) * logb base.val (∑ i, p i)) ∧
      (1 < base.val → |((∑ i, p i) * h - (∑ i, p i) * logb base.val (∑ i, p i)) - h| ≤ |∑ i, p i - 1| * (h + 2 / log base.val)) := by
  obtain ⟨h0, h1⟩ := accepted hp
  have hs := sum_pos_of_close h1
  refine ⟨_, entropy_eq _ base (normalised_pmf hp) hb, ?_, fun hb1 => ?_⟩
  · rw [entropy_nats p hp base hb, H_scale p hs, logb]
    congr 1; ring
  · have hl : 0 < log base.val := log_pos hb1
    obtain ⟨h, hh, hnn, -⟩ := C78_entropy_bounds (normalised p) base ((pmf_iff _).mpr (normalised_pmf hp)) hb1
    rw [entropy_eq _ base (normalised_pmf hp) hb] at hh
    cases hh
    have e : ((∑ i, p i) * (H (normalised p) / log base.val) - (∑ i, p i) * logb base.val (∑ i, p i)) - H (normalised p) / log base.val =
        (∑ i, p i - 1) * (H (normalised p) / log base.val) - ((∑ i, p i) * log (∑ i, p i)) / log base.val := by rw [logb]; ring
    rw [e]
    refine (abs_sub _ _).trans ?_
    rw [abs_mul, abs_of_nonneg hnn, abs_div, abs_of_pos hl, mul_add]
    refine add_le_add le_rfl ((div_le_div_of_nonneg_right (log_scale_le h1) hl.le).trans (le_of_eq ?_))
    ring

/-- Finding: an entropy that is negative. -/
theorem C131_negative_entropy : ∃ h, entropy (![1 + 1 / 10 ^ 6] : Fin 1 → ℝ) (.num 2) = some h ∧ h < 0 := by
  have hp : validPmf (![1 + 1 / 10 ^ 6] : Fin 1 → ℝ) = true := by
    rw [accepts_iff]
    constructor
    · intro i; fin_cases i; simp; positivity
    · simp only [Fin.sum_univ_one, Fin.sum_univ_two, Matrix.cons_val_zero, Matrix.cons_val_one, zero_add]; rw [abs_of_pos] <;> norm_num
  have hb : validLogBase (.num 2) = true := by simp [validLogBase]
  refine ⟨_, entropy_nats _ hp _ hb, ?_⟩
  refine div_neg_of_neg_of_pos ?_ (log_pos (by simp [LogBase.val]))
  simp only [H, Fin.sum_univ_one, Matrix.cons_val_zero, negMulLog]
  have : 0 < log (1 + 1 / 10 ^ 6 : ℝ) := log_pos (by norm_num)
  nlinarith

/-- `relative_entropy` of probabilities whose sums are `s` and `t`: infinite in the same cases as for the normalised probabilities, and otherwise `s` times the relative
entropy of these plus `s * log(s / t)`. -/
theorem C131_relative_entropy (p q : Fin n → ℝ) (hp : validPmf p = true) (hq : validPmf q = true) (base : LogBase) (hb : 1 < base.val) :
    ((∃ i, 0 < p i ∧ q i = 0) → relativeEntropy p q base = some ⊤ ∧ Komm.relativeEntropy (normalised p) (normalised q) base = some ⊤) ∧
    ((∀ i, 0 < p i → q i ≠ 0) → ∃ d : ℝ, 0 ≤ d ∧ Komm.relativeEntropy (normalised p) (normalised q) base = some (d : EReal) ∧
      relativeEntropy p q base = some (((∑ i, p i) * d + (∑ i, p i) * logb base.val ((∑ i, p i) / ∑ i, q i) : ℝ) : EReal)) := by
  have hv := base_valid base hb
  obtain ⟨h0, h1⟩ := accepted hp
  obtain ⟨g0, g1⟩ := accepted hq
  have hs := sum_pos_of_close h1
  have ht := sum_pos_of_close g1
  have hpos : ∀ i, 0 < normalised p i ↔ 0 < p i := fun i => by rw [normalised]; exact div_pos_iff_of_pos_right hs
  have hzero : ∀ i, normalised q i = 0 ↔ q i = 0 := fun i => by rw [normalised, div_eq_zero_iff]; simp [ht.ne']
  obtain ⟨d, hd, hd0, -, hdt, hdf⟩ := C78_relative_entropy (normalised p) (normalised q) base ((pmf_iff _).mpr (normalised_pmf hp)) ((pmf_iff _).mpr (normalised_pmf hq)) hb
  constructor
  · rintro ⟨i, hi, hq0⟩
    constructor
    · rw [relativeEntropy, if_pos (by simp [hp, hq, hv]), if_pos ⟨i, hi, hq0⟩, if_neg (by linarith)]
    · rw [hd, hdt.mpr ⟨i, (hpos i).mpr hi, (hzero i).mpr hq0⟩]
  · intro hsup
    have hd' := hdf fun i hi => fun h => hsup i ((hpos i).mp hi) ((hzero i).mp h)
    refine ⟨_, ?_, by rw [hd, hd'], ?_⟩
    · rw [hd'] at hd0; exact_mod_cast hd0
    · rw [relativeEntropy, if_pos (by simp [hp, hq, hv]), if_neg (by rintro ⟨i, hi, h⟩; exact hsup i hi h)]
      congr 2
      rw [Finset.sum_filter, Finset.mul_sum]
      have e : (∑ i, p i) * logb base.val ((∑ i, p i) / ∑ i, q i) = ∑ i, p i * logb base.val ((∑ i, p i) / ∑ i, q i) := by rw [Finset.sum_mul]
      rw [e, ← Finset.sum_add_distrib]
      refine Finset.sum_congr rfl fun i _ => ?_
      by_cases h : p i > 0
      · rw [if_pos h, infoLog_eq, ← logb]
        have hqi := hsup i h
        have e1 : p i / q i = normalised p i / normalised q i * ((∑ i, p i) / ∑ i, q i) := by
          simp only [normalised]; field_simp
        have e2 : (∑ j, p j) * (normalised p i * logb base.val (normalised p i / normalised q i)) = p i * logb base.val (normalised p i / normalised q i) := by
          simp only [normalised]; field_simp
        rw [e2, ← mul_add, e1, logb_mul (div_ne_zero ((hpos i).mpr h).ne' fun h => hqi ((hzero i).mp h)) (div_ne_zero hs.ne' ht.ne')]
      · rw [if_neg h, le_antisymm (not_lt.mp h) (h0 i)]
        simp [normalised, le_antisymm (not_lt.mp h) (h0 i)]

/-- Finding: a relative entropy that is negative. -/
theorem C131_negative_relative_entropy : ∃ d : ℝ, relativeEntropy (![1] : Fin 1 → ℝ) ![1 + 1 / 10 ^ 6] (.num 2) = some (d : EReal) ∧ d < 0 := by
  have hq : validPmf (![1 + 1 / 10 ^ 6] : Fin 1 → ℝ) = true := by
    rw [accepts_iff]
    constructor
    · intro i; fin_cases i; simp; positivity
    · simp only [Fin.sum_univ_one, Fin.sum_univ_two, Matrix.cons_val_zero, Matrix.cons_val_one, zero_add]; rw [abs_of_pos] <;> norm_num
  have hp : validPmf (![1] : Fin 1 → ℝ) = true := by
    rw [accepts_iff]
    constructor
    · intro i; fin_cases i; simp
    · simp; positivity
  have hb : validLogBase (.num 2) = true := by simp [validLogBase]
  refine ⟨_, by rw [relativeEntropy, if_pos (by rw [hp, hq, hb]; rfl), if_neg]; rintro ⟨i, -, hi⟩; fin_cases i; simp at hi; linarith [show (0 : ℝ) < 1 + (10 ^ 6)⁻¹ by positivity], ?_⟩
  rw [Finset.sum_filter, Fin.sum_univ_one, if_pos (by simp), infoLog_eq]
  simp only [Matrix.cons_val_zero, one_mul, LogBase.val]
  exact div_neg_of_neg_of_pos (log_neg (by positivity) (by norm_num)) (log_pos (by norm_num))

/-- `mutual_information`: the probabilities of the outputs are validated again, so it raises if they sum to a number that differs from one by more than `1.001e-5`; otherwise it
is given by the usual formula.  With an exact channel it never raises, and is `s` times the mutual information for the normalised input minus `s * log(s)`. -/
theorem C131_mutual_information (r : Fin n → ℝ) (P : Fin n → Fin m → ℝ) (hr : validPmf r = true) (hP : validMatrix P = true) (base : LogBase) (hb : validLogBase base = true) :
    mutualInformation r P base = (if |∑ i, r i * ∑ j, P i j - 1| ≤ 1001 / 10 ^ 8 then some (∑ i, ∑ j, r i * P i j * logb base.val (P i j / ∑ k, r k * P k j)) else none) ∧
    (validChannelMatrix P = true → ∃ i, Komm.mutualInformation (normalised r) P base = some i ∧
      mutualInformation r P base = some ((∑ i, r i) * i - (∑ i, r i) * logb base.val (∑ i, r i))) := by
  obtain ⟨h0, h1⟩ := accepted hr
  obtain ⟨hP0, hP1⟩ := (accepts_matrix_iff P).mp hP
  have hs := sum_pos_of_close h1
  have hrow : ∀ i, validPmf (P i) = true := fun i => (accepts_iff (P i)).mpr ⟨hP0 i, hP1 i⟩
  have hosum : ∑ j, outputPmf r P j = ∑ i, r i * ∑ j, P i j := by
    simp only [outputPmf]
    rw [Finset.sum_comm]
    simp only [Finset.mul_sum]
  have ho0 : ∀ j, 0 ≤ outputPmf r P j := fun j => Finset.sum_nonneg fun i _ => mul_nonneg (h0 i) (hP0 i j)
  have hmi : mutualInformation r P base = if |∑ i, r i * ∑ j, P i j - 1| ≤ 1001 / 10 ^ 8 then some (I r P / log base.val) else none := by
    rw [mutualInformation, if_pos (by simp [hr, hb, hP])]
    have h : ∀ i, entropy (P i) base = some (H (P i) / log base.val) := fun i => entropy_nats _ (hrow i) base hb
    by_cases hc : |∑ i, r i * ∑ j, P i j - 1| ≤ 1001 / 10 ^ 8
    · have ho : validPmf (outputPmf r P) = true := (accepts_iff _).mpr ⟨ho0, by rw [hosum]; exact hc⟩
      rw [if_pos hc]
      simp only [entropy_nats _ ho base hb, h, Option.isSome_some, implies_true, if_true, Option.getD_some, Option.bind_eq_bind, Option.bind_some]
      rw [I, sub_div, Finset.sum_div]
      congr 2
      refine Finset.sum_congr rfl fun i _ => ?_
      ring
    · have ho : validPmf (outputPmf r P) = false := by
        rw [← Bool.not_eq_true, accepts_iff, hosum]
        exact fun h => hc h.2
      rw [if_neg hc, entropy, if_neg (by simp [ho])]
      rfl
  have hI : I r P = ∑ i, ∑ j, r i * P i j * log (P i j / ∑ k, r k * P k j) := by
    have e1 : H (outputPmf r P) = ∑ i, ∑ j, -(r i * P i j * log (outputPmf r P j)) := by
      rw [H, Finset.sum_comm]
      refine Finset.sum_congr rfl fun j _ => ?_
      rw [negMulLog, Finset.sum_neg_distrib, ← Finset.sum_mul, neg_mul]
      rfl
    rw [I, e1, ← Finset.sum_sub_distrib]
    refine Finset.sum_congr rfl fun i _ => ?_
    rw [H, Finset.mul_sum, ← Finset.sum_sub_distrib]
    refine Finset.sum_congr rfl fun j _ => ?_
    rw [negMulLog]
    rcases (h0 i).eq_or_lt with hi | hi
    · simp [← hi]
    rcases (hP0 i j).eq_or_lt with hj | hj
    · simp [← hj]
    have ho : 0 < outputPmf r P j := Finset.sum_pos' (fun k _ => mul_nonneg (h0 k) (hP0 k j)) ⟨i, Finset.mem_univ _, mul_pos hi hj⟩
    have e : (∑ k, r k * P k j) = outputPmf r P j := rfl
    rw [e, log_div hj.ne' ho.ne']
    ring
  refine ⟨?_, fun hPe => ?_⟩
  · rw [hmi, hI]
    refine if_congr Iff.rfl ?_ rfl
    rw [Finset.sum_div]
    congr 1
    refine Finset.sum_congr rfl fun i _ => ?_
    rw [Finset.sum_div]
    refine Finset.sum_congr rfl fun j _ => ?_
    rw [logb]; ring
  · have hP' := (channel_iff P).mp hPe
    refine ⟨_, mutualInformation_eq (normalised r) P base (normalised_pmf hr) hP' hb, ?_⟩
    have hc : |∑ i, r i * ∑ j, P i j - 1| ≤ 1001 / 10 ^ 8 := by simpa only [(hP' _).sum, mul_one] using h1
    rw [hmi, if_pos hc]
    have hos : ∑ j, outputPmf r P j = ∑ i, r i := by rw [hosum]; simp only [(hP' _).sum, mul_one]
    have hn : normalised (outputPmf r P) = outputPmf (normalised r) P := by
      funext j
      rw [normalised, hos]
      simp only [outputPmf, normalised, Finset.sum_div]
      refine Finset.sum_congr rfl fun i _ => ?_
      ring
    have hpost : ∑ i, r i * H (P i) = (∑ i, r i) * ∑ i, normalised r i * H (P i) := by
      rw [Finset.mul_sum]
      refine Finset.sum_congr rfl fun i _ => ?_
      rw [normalised]; field_simp
    congr 1
    rw [I, H_scale _ (by rw [hos]; exact hs), hn, hos, hpost, I, logb]
    ring

/-- Finding: an input pmf and a transition matrix that are both accepted, for which `mutual_information` raises. -/
theorem C131_mutual_information_raises : validPmf (![1 + 1 / 10 ^ 5] : Fin 1 → ℝ) = true ∧ validMatrix (![![1 + 1 / 10 ^ 5]] : Fin 1 → Fin 1 → ℝ) = true ∧
    mutualInformation (![1 + 1 / 10 ^ 5] : Fin 1 → ℝ) ![![1 + 1 / 10 ^ 5]] (.num 2) = none := by
  have hp : validPmf (![1 + 1 / 10 ^ 5] : Fin 1 → ℝ) = true := by
    rw [accepts_iff]
    constructor
    · intro i; fin_cases i; simp; positivity
    · simp only [Fin.sum_univ_one, Fin.sum_univ_two, Matrix.cons_val_zero, Matrix.cons_val_one, zero_add]; rw [abs_of_pos] <;> norm_num
  have hP : validMatrix (![![1 + 1 / 10 ^ 5]] : Fin 1 → Fin 1 → ℝ) = true := by
    rw [accepts_matrix_iff]
    constructor
    · intro i j; fin_cases i; fin_cases j; simp; positivity
    · intro i; fin_cases i; simp only [Fin.sum_univ_one, Fin.sum_univ_two, Matrix.cons_val_zero, Matrix.cons_val_one, zero_add]; rw [abs_of_pos] <;> norm_num
  refine ⟨hp, hP, ?_⟩
  rw [(C131_mutual_information _ _ hp hP (.num 2) (by simp [validLogBase])).1, if_neg]
  simp
  rw [abs_of_pos] <;> norm_num

/-- Finding: the closed form of the binary symmetric channel raises for an input pmf that is accepted, because `binary_entropy` tests for the interval [0, 1] without tolerance. -/
theorem C131_bsc_raises : validPmf (![0, 1 + 1 / 10 ^ 6] : Fin 2 → ℝ) = true ∧ bscMutualInformation 0 ![0, 1 + 1 / 10 ^ 6] (.num 2) = none ∧
    (mutualInformation ![0, 1 + 1 / 10 ^ 6] (bscMatrix 0) (.num 2)).isSome = true := by
  have hp : validPmf (![0, 1 + 1 / 10 ^ 6] : Fin 2 → ℝ) = true := by
    rw [accepts_iff]
    constructor
    · intro i; fin_cases i <;> simp; positivity
    · simp only [Fin.sum_univ_one, Fin.sum_univ_two, Matrix.cons_val_zero, Matrix.cons_val_one, zero_add]; rw [abs_of_pos] <;> norm_num
  have hb : validLogBase (.num 2) = true := by simp [validLogBase]
  refine ⟨hp, ?_, ?_⟩
  · rw [bscMutualInformation, if_pos (by rw [hp, hb]; rfl), binaryEntropy, if_pos]
    · rfl
    · simp [validProbability]
  · have hP := (channel_iff (bscMatrix (0 : ℝ))).mpr (bsc_rows 0 le_rfl zero_le_one)
    obtain ⟨i, -, h⟩ := (C131_mutual_information _ (bscMatrix 0) hp (exact_matrix_accepted hP) (.num 2) hb).2 hP
    rw [h]; rfl

end Information

section Lossless

/-- The probabilities divided by their sum. -/
def unit (pmf : List ℚ) : List ℚ := pmf.map (pmf.sum⁻¹ * ·)

theorem blockProbabilities_scale (c : ℚ) (pmf : List ℚ) (k : ℕ) :
    FVCode.blockProbabilities (pmf.map (c * ·)) k = (FVCode.blockProbabilities pmf k).map (c ^ k * ·) := by
  induction k with
  | zero => simp [FVCode.blockProbabilities]
  | succ k ih =>
    rw [FVCode.blockProbabilities, FVCode.blockProbabilities, ih, List.map_flatMap, List.flatMap_map]
    congr 1
    funext p
    rw [List.map_map, List.map_map]
    congr 1
    funext x
    simp only [Function.comp]
    ring

theorem extendedPmf_scale (c : ℚ) (pmf : List ℚ) (j : ℕ) :
    extendedPmf (pmf.map (c * ·)) (j + 1) = (extendedPmf pmf (j + 1)).map (c ^ (j + 1) * ·) := by
  rw [extendedPmf_eq, extendedPmf_eq, blockProbabilities_scale]

theorem cumsumFrom_scale (c : ℚ) (l : List ℚ) : ∀ acc, cumsumFrom (c * acc) (l.map (c * ·)) = (cumsumFrom acc l).map (c * ·) := by
  induction l with
  | nil => intro acc; rfl
  | cons p l ih =>
    intro acc
    rw [List.map_cons, cumsumFrom, cumsumFrom, List.map_cons, ← mul_add, ih]

theorem argminAux_scale {c : ℚ} (hc : 0 < c) (l : List ℚ) : ∀ best bi next, argminAux (c * best) bi next (l.map (c * ·)) = argminAux best bi next l := by
  induction l with
  | nil => intro best bi next; rfl
  | cons v l ih =>
    intro best bi next
    rw [List.map_cons, argminAux, argminAux, ih, ih]
    exact if_congr (mul_lt_mul_iff_right₀ hc) rfl rfl

theorem fanoSplit_scale {c : ℚ} (hc : 0 < c) (l : List ℚ) : fanoSplit (l.map (c * ·)) = fanoSplit l := by
  have h1 := cumsumFrom_scale c l 0
  rw [mul_zero] at h1
  have h2 : (l.map (c * ·)).sum = c * l.sum := by rw [List.sum_map_mul_left, List.map_id']
  have h3 : ∀ m : List ℚ, argminList (m.map (c * ·)) = argminList m := fun m => by
    cases m with
    | nil => rfl
    | cons v m => rw [List.map_cons, argminList, argminList, argminAux_scale hc]
  rw [fanoSplit, fanoSplit, h1, h2, ← h3 ((cumsumFrom 0 l).map fun s => |s - l.sum / 2|), List.map_map, List.map_map]
  congr 2
  funext s
  simp only [Function.comp]
  rw [mul_div_assoc, ← mul_sub, abs_mul, abs_of_pos hc]

theorem fanoLoop_scale {c : ℚ} (hc : 0 < c) (items : List (ℕ × ℚ)) : ∀ fuel stack lengths,
    fanoLoop (items.map fun a => (a.1, c * a.2)) fuel stack lengths = fanoLoop items fuel stack lengths := by
  intro fuel
  induction fuel with
  | zero => intro stack lengths; cases stack <;> rfl
  | succ fuel ih =>
    intro stack lengths
    cases stack with
    | nil => rfl
    | cons t stack =>
      obtain ⟨lo, hi, length⟩ := t
      rw [fanoLoop, fanoLoop]
      have e1 : ((items.map fun a => (a.1, c * a.2)).getD lo (0, 0)).1 = (items.getD lo (0, 0)).1 := by
        rw [List.getD_eq_getElem?_getD, List.getD_eq_getElem?_getD, List.getElem?_map]
        cases items[lo]? <;> rfl
      have e2 : (((items.map fun a => (a.1, c * a.2)).drop lo).take (hi - lo)).map Prod.snd = (((items.drop lo).take (hi - lo)).map Prod.snd).map (c * ·) := by
        rw [← List.map_drop, ← List.map_take, List.map_map, List.map_map]
        rfl
      simp only [e1, e2, fanoSplit_scale hc, ih]

theorem fanoLengths_scale {c : ℚ} (hc : 0 < c) (l : List ℚ) : fanoLengths (l.map (c * ·)) = fanoLengths l := by
  have e : ((l.map (c * ·)).mapIdx fun i p => (i, p)).insertionSort (fun a b => b.2 ≤ a.2) =
      ((l.mapIdx fun i p => (i, p)).insertionSort fun a b => b.2 ≤ a.2).map fun a => (a.1, c * a.2) := by
    rw [List.map_insertionSort (r := fun a b : ℕ × ℚ => b.2 ≤ a.2) (s := fun a b : ℕ × ℚ => b.2 ≤ a.2)]
    · congr 1
      apply List.ext_getElem? fun i => ?_
      simp only [List.getElem?_mapIdx, List.getElem?_map, Option.map_map]
      rfl
    · intro a _ b _
      exact (mul_le_mul_iff_right₀ hc).symm
  rw [fanoLengths, fanoLengths, e, fanoLoop_scale hc, List.length_map]

/-- A node whose probability is multiplied by a number. -/
def scaleNode (c : ℚ) (nd : HNode ℚ) : HNode ℚ := { nd with probability := c * nd.probability }

theorem nodeLt_scale {c : ℚ} (hc : 0 < c) (tree : List (HNode ℚ)) : nodeLt (tree.map (scaleNode c)) = nodeLt tree := by
  funext i j
  rw [nodeLt, nodeLt, List.getElem?_map, List.getElem?_map]
  cases tree[i]? with
  | none => rfl
  | some a =>
    cases tree[j]? with
    | none => rfl
    | some b =>
      simp only [Option.map_some, HNode.lt, scaleNode, mul_right_inj' hc.ne', mul_lt_mul_iff_right₀ hc]

theorem setParent_scale (c : ℚ) (tree : List (HNode ℚ)) (i bit parent : ℕ) :
    setParent (tree.map (scaleNode c)) i bit parent = (setParent tree i bit parent).map (scaleNode c) := by
  apply List.ext_getElem?
  intro j
  simp only [setParent, List.getElem?_modify, List.getElem?_map]
  cases tree[j]? with
  | none => rfl
  | some a => by_cases h : i = j <;> simp [h, scaleNode]

theorem huffmanJoin_scale (c : ℚ) (policy : HuffmanPolicy) (tree : List (HNode ℚ)) (i1 i0 : ℕ) :
    huffmanJoin policy (tree.map (scaleNode c)) i1 i0 = (huffmanJoin policy tree i1 i0).map (scaleNode c) := by
  have h : mkParent policy (tree.map (scaleNode c)) i0 i1 = (mkParent policy tree i0 i1).map (scaleNode c) := by
    rw [mkParent, mkParent, List.getElem?_map, List.getElem?_map]
    cases tree[i0]? with
    | none => rfl
    | some a =>
      cases tree[i1]? with
      | none => rfl
      | some b => simp [mkHNode, scaleNode, mul_add]
  rw [huffmanJoin, huffmanJoin, List.length_map, setParent_scale, setParent_scale, h, List.map_append]

theorem huffmanLoop_scale {c : ℚ} (hc : 0 < c) (policy : HuffmanPolicy) : ∀ fuel (tree : List (HNode ℚ)) heap,
    huffmanLoop policy fuel (tree.map (scaleNode c)) heap = (huffmanLoop policy fuel tree heap).map (scaleNode c) := by
  intro fuel
  induction fuel with
  | zero => intro tree heap; rfl
  | succ fuel ih =>
    intro tree heap
    match heap with
    | [] => rfl
    | [_] => rfl
    | h :: h' :: hs =>
      rw [huffmanLoop, huffmanLoop, nodeLt_scale hc]
      · simp only
        cases (h :: h' :: hs).erase (heapMin (nodeLt tree) h (h' :: hs)) with
        | nil => rfl
        | cons g gs => simp only [huffmanJoin_scale, ih, List.length_map]
      · simp
      · simp

theorem huffmanCodewords_scale {c : ℚ} (hc : 0 < c) (l : List ℚ) (policy : HuffmanPolicy) (assignment : HuffmanAssignment) :
    huffmanCodewords (l.map (c * ·)) policy assignment = huffmanCodewords l policy assignment := by
  have ht : huffmanTree (l.map (c * ·)) policy = (huffmanTree l policy).map (scaleNode c) := by
    have e : huffmanLeaves policy (l.map (c * ·)) = (huffmanLeaves policy l).map (scaleNode c) := by
      apply List.ext_getElem? fun i => ?_
      simp only [huffmanLeaves, List.getElem?_mapIdx, List.getElem?_map, Option.map_map]
      rfl
    rw [huffmanTree, huffmanTree, e, huffmanLoop_scale hc, List.length_map]
  have hpar : ∀ i, ((huffmanTree l policy).map (scaleNode c))[i]?.bind HNode.parent = ((huffmanTree l policy)[i]?).bind HNode.parent := fun i => by
    rw [List.getElem?_map]
    cases (huffmanTree l policy)[i]? <;> rfl
  have hw : ∀ fuel i, walkUp ((huffmanTree l policy).map (scaleNode c)) fuel i = walkUp (huffmanTree l policy) fuel i := by
    intro fuel
    induction fuel with
    | zero => intro i; rfl
    | succ fuel ih =>
      intro i
      rw [walkUp, walkUp, List.getElem?_map]
      cases (huffmanTree l policy)[i]? with
      | none => rfl
      | some nd => simp only [Option.map_some, scaleNode, ih]
  have hd : depthStep ((huffmanTree l policy).map (scaleNode c)) = depthStep (huffmanTree l policy) := by
    funext depths i
    rw [depthStep, depthStep, hpar]
  cases assignment with
  | canonical => simp only [huffmanCodewords, ht, treeLengths, List.length_map, hd]
  | tree => simp only [huffmanCodewords, ht, treeCodewords, List.length_map, hw]

theorem unit_facts {pmf : List ℚ} (h : validPmf (vec pmf) = true) :
    0 < pmf.sum ∧ |pmf.sum - 1| ≤ 1001 / 10 ^ 8 ∧ (∀ x ∈ pmf, 0 ≤ x) ∧ IsPmf (unit pmf) := by
  obtain ⟨h0, h1⟩ := (accepts_iff _).mp h
  have hsum : ∑ i, vec pmf i = pmf.sum := by
    rw [← List.sum_ofFn]
    congr 1
    exact List.ofFn_getElem
  have h0' : ∀ x ∈ pmf, 0 ≤ x := fun x hx => by
    obtain ⟨i, hi, rfl⟩ := List.getElem_of_mem hx
    exact h0 ⟨i, hi⟩
  rw [hsum] at h1
  have hs := sum_pos_of_close h1
  refine ⟨hs, h1, h0', fun x hx => ?_, ?_⟩
  · obtain ⟨y, hy, rfl⟩ := List.mem_map.mp hx
    exact mul_nonneg (inv_nonneg.mpr hs.le) (h0' y hy)
  · rw [unit, List.sum_map_mul_left, List.map_id', inv_mul_cancel₀ hs.ne']

theorem rate_scale (c : FVCode) (a : ℚ) (pmf : List ℚ) : c.rate (pmf.map (a * ·)) = (c.rate pmf).map (a ^ c.sourceBlockSize * ·) := by
  have hz : ∀ (b : ℚ) (ls : List ℕ) (l : List ℚ), (List.zipWith (fun (l : Nat) (p : ℚ) => l * p) ls (l.map (b * ·))).sum =
      b * (List.zipWith (fun (l : Nat) (p : ℚ) => l * p) ls l).sum := by
    intro b ls
    induction ls with
    | nil => intro l; simp
    | cons n ls ih =>
      intro l
      cases l with
      | nil => simp
      | cons p l => simp only [List.map_cons, List.zipWith_cons_cons, List.sum_cons, ih]; ring
  rw [FVCode.rate, FVCode.rate]
  simp only [blockProbabilities_scale, List.length_map, hz]
  split
  · rfl
  · rw [Option.map_some, mul_div_assoc]

/-- `rate` for probabilities with the sum `s`: it is `s ^ k` times the rate for the normalised probabilities. -/
theorem C131_rate (pmf : List ℚ) (hp : validPmf (vec pmf) = true) (c : FVCode) :
    IsPmf (unit pmf) ∧ c.rate pmf = (c.rate (unit pmf)).map (pmf.sum ^ c.sourceBlockSize * ·) := by
  obtain ⟨hs, -, -, hu⟩ := unit_facts hp
  refine ⟨hu, ?_⟩
  rw [← rate_scale, unit, List.map_map]
  congr 1
  rw [List.map_congr_left (g := id) fun x _ => by simp [mul_inv_cancel_left₀ hs.ne'], List.map_id]

/-- Huffman and Fano codes for probabilities that are accepted: the constructors return exactly the codes for the normalised probabilities, so that everything that is
proved about these (optimality, rate within the bounds of the entropy) holds for those. -/
theorem C131_huffman_fano (pmf : List ℚ) (hp : validPmf (vec pmf) = true) (k : ℕ) (policy : HuffmanPolicy) (assignment : HuffmanAssignment) :
    IsPmf (unit pmf) ∧ huffmanCode pmf k policy assignment = Komm.huffmanCode (unit pmf) k policy assignment ∧ fanoCode pmf k = Komm.fanoCode (unit pmf) k := by
  obtain ⟨hs, -, -, hu⟩ := unit_facts hp
  have hc : 0 < pmf.sum⁻¹ := inv_pos.mpr hs
  refine ⟨hu, ?_, ?_⟩
  · rw [huffmanCode, if_pos hp, Komm.huffmanCode, Komm.huffmanCode]
    cases k with
    | zero => rfl
    | succ j => rw [unit, extendedPmf_scale, huffmanCodewords_scale (pow_pos hc _), List.length_map]
  · rw [fanoCode, if_pos hp, Komm.fanoCode, Komm.fanoCode]
    cases k with
    | zero => rfl
    | succ j => rw [unit, extendedPmf_scale, fanoLengths_scale (pow_pos hc _), List.length_map]

/-- So the rates are within the bounds of the entropy `h` of the normalised probabilities, up to the factor `s ^ k`. -/
theorem C131_huffman_fano_rate (pmf : List ℚ) (hp : validPmf (vec pmf) = true) (k : ℕ) (policy : HuffmanPolicy) (assignment : HuffmanAssignment) (h2 : 2 ≤ pmf.length) (hk : 1 ≤ k) :
    ∃ c f h rc rf, huffmanCode pmf k policy assignment = some c ∧ fanoCode pmf k = some f ∧ Komm.entropy (pmfVec (unit pmf)) (.num 2) = some h ∧
      c.rate pmf = some (pmf.sum ^ k * rc) ∧ f.rate pmf = some (pmf.sum ^ k * rf) ∧ h ≤ (rc : ℝ) ∧ rc ≤ rf ∧ (rf : ℝ) ≤ h + 1 / k := by
  obtain ⟨hu, h1, h3⟩ := C131_huffman_fano pmf hp k policy assignment
  have hl : 2 ≤ (unit pmf).length := by rw [unit, List.length_map]; exact h2
  obtain ⟨c, h, r, a1, a2, a3, a4, -⟩ := C128_huffman (unit pmf) hu k policy assignment hl hk
  obtain ⟨f, h', r', b1, b2, b3, -, b5⟩ := C128_fano (unit pmf) hu k hl hk
  rw [a2] at b2; cases b2
  obtain ⟨c', e1, e2, e3⟩ := C27_huffman_optimal (unit pmf) hu.1 k policy assignment hl hk
  rw [a1] at e1; cases e1
  obtain ⟨f', g1, gkeys, gwords, gpf, -, gup⟩ := C28_fano_complete_prefix (unit pmf) hu.1 k hl hk
  rw [b1] at g1; cases g1
  have hk0 : (0 : ℚ) < k := by exact_mod_cast hk
  have hck : c.sourceBlockSize = k := by
    obtain ⟨c₁, i1, -⟩ := huffmanCode_facts (unit pmf) k policy assignment hl hk
    rw [a1] at i1; cases i1
    rw [Komm.huffmanCode] at a1
    split at a1
    · exact absurd a1 (by simp)
    · split at a1
      · exact absurd a1 (by simp)
      · unfold FVCode.create at a1
        split at a1 <;> simp_all
        rw [← a1.2.2]
  have hfk : f.sourceBlockSize = k := by
    rw [Komm.fanoCode] at b1
    split at b1
    · exact absurd b1 (by simp)
    · split at b1
      · exact absurd b1 (by simp)
      · split at b1
        · exact absurd b1 (by simp)
        · unfold FVCode.create at b1
          split at b1 <;> simp_all
          rw [← b1.2.2]
  have hfl : f.codewords.length = (unit pmf).length ^ k := by
    have := congrArg List.length gkeys
    rw [List.length_map, allWords_length] at this
    rw [← this]; simp [FVCode.codewords]
  have hopt := e3 f.codewords hfl (fun w hw => (gwords w hw).2) (gpf.nodup fun w hw => (gwords w hw).1) gup
  have hrf : r' = expectedLength (FVCode.blockProbabilities (unit pmf) k) f.codewords / k := by
    rw [FVCode.rate] at b3
    split at b3
    · exact absurd b3 (by simp)
    · have := Option.some.inj b3
      rw [← this, hfk, expectedLength, List.zipWith_map_left]
  have hrc : r = expectedLength (FVCode.blockProbabilities (unit pmf) k) c.codewords / k := by
    rw [a3] at e2; exact Option.some.inj e2
  refine ⟨c, f, h, r, r', h1 ▸ a1, h3 ▸ b1, a2, ?_, ?_, a4, ?_, ?_⟩
  · rw [(C131_rate pmf hp c).2, a3, hck]; rfl
  · rw [(C131_rate pmf hp f).2, b3, hfk]; rfl
  · rw [hrf, hrc]
    exact div_le_div_of_nonneg_right hopt hk0.le
  · have := b5 0 le_rfl hu.1
    refine this.trans ?_
    have hk1 : (0 : ℝ) < k := by exact_mod_cast hk
    refine add_le_add le_rfl (div_le_div_of_nonneg_right ?_ hk1.le)
    rw [Rat.cast_zero, zero_pow (by omega)]; simp

/-- Shannon codes for probabilities that are accepted and positive: the constructor succeeds exactly if the codeword lengths satisfy Kraft's inequality; always if the
sum is at most one. -/
theorem C131_shannon (pmf : List ℚ) (hp : validPmf (vec pmf) = true) (hpos : ∀ p ∈ pmf, 0 < p) (k : ℕ) (h2 : 2 ≤ pmf.length) (hk : 1 ≤ k) :
    ((shannonCode pmf k).isSome = true ↔ ((FVCode.blockProbabilities pmf k).map fun p => (1 / 2 : ℚ) ^ shannonLength p).sum ≤ 1) ∧
    (∀ c, shannonCode pmf k = some c → PrefixFree c.codewords ∧ c.codewords.map List.length = (FVCode.blockProbabilities pmf k).map shannonLength) ∧
    (pmf.sum ≤ 1 → (shannonCode pmf k).isSome = true) := by
  obtain ⟨j, rfl⟩ : ∃ j, k = j + 1 := ⟨k - 1, by omega⟩
  have hbpos := blockProbabilities_pos hpos (j + 1)
  have hlenB : (FVCode.blockProbabilities pmf (j + 1)).length = pmf.length ^ (j + 1) := by
    rw [← extendedPmf_eq, extendedPmf_length]
  have hl0 : ∀ l ∈ (FVCode.blockProbabilities pmf (j + 1)).map shannonLength, l ≠ 0 := by
    intro l hl
    obtain ⟨p, hpm, rfl⟩ := List.mem_map.mp hl
    have := (shannonLength_spec (hbpos p hpm)).1
    omega
  have hk2 : kraftSum ((FVCode.blockProbabilities pmf (j + 1)).map shannonLength) 2 =
      ((FVCode.blockProbabilities pmf (j + 1)).map fun p => (1 / 2 : ℚ) ^ shannonLength p).sum := by
    rw [kraftSum_pos hl0, List.map_map]
    congr 1
    refine List.map_congr_left fun x _ => ?_
    simp
  have hex : shannonCode pmf (j + 1) = (match canonicalCode ((FVCode.blockProbabilities pmf (j + 1)).map shannonLength) with
      | none => none
      | some codewords => FVCode.create pmf.length 2 (j + 1) (dictOfPairs ((allWords pmf.length (j + 1)).zip codewords))) := by
    rw [shannonCode, if_pos hp, Komm.shannonCode, if_neg (not_not.mpr hpos), if_neg (by omega), extendedPmf_eq]
    rfl
  have hcode : ∀ cs, canonicalCode ((FVCode.blockProbabilities pmf (j + 1)).map shannonLength) = some cs → ∃ c, shannonCode pmf (j + 1) = some c ∧ c.codewords = cs := by
    intro cs hcs
    obtain ⟨_, _, _, h3, h4, h5⟩ := canonicalCode_spec hcs
    have hlen : cs.length = pmf.length ^ (j + 1) := by
      have := congrArg List.length h3
      rw [List.length_map, List.length_map, hlenB] at this
      exact this
    obtain ⟨hc1, hc2, hc3⟩ := create_zip h2 le_rfl hk hlen h4
    exact ⟨_, by rw [hex, hcs]; exact hc1, hc2⟩
  refine ⟨⟨fun h => ?_, fun h => ?_⟩, fun c hc => ?_, fun hs => ?_⟩
  · rw [hex] at h
    split at h
    · simp at h
    · rename_i cs hcs
      rw [← hk2]
      exact (canonicalCode_spec hcs).2.2.1
  · obtain ⟨cs, hcs⟩ := (canonicalCode_isSome_iff _ 2 le_rfl).mpr ⟨by
      intro h
      have := congrArg List.length h
      rw [List.length_map, hlenB, List.length_nil] at this
      have : 0 < pmf.length ^ (j + 1) := Nat.pow_pos (by omega)
      omega, hk2.trans_le h⟩
    obtain ⟨c, hc, -⟩ := hcode cs hcs
    rw [hc]; rfl
  · cases hcs : canonicalCode ((FVCode.blockProbabilities pmf (j + 1)).map shannonLength) with
    | none => rw [hex, hcs] at hc; simp at hc
    | some cs =>
      obtain ⟨c', hc', he⟩ := hcode cs hcs
      rw [hc] at hc'; cases hc'
      obtain ⟨_, _, _, h3, h4, h5⟩ := canonicalCode_spec hcs
      rw [he]
      exact ⟨h5, h3⟩
  · obtain ⟨c, h1, -⟩ := shannonCode_spec pmf (j + 1) hpos hs h2 hk
    rw [shannonCode, if_pos hp, h1]; rfl

/-- Finding: probabilities that are accepted, for which the constructor of the Shannon code raises. -/
theorem C131_shannon_raises : validPmf (vec [1 / 2, 1 / 2, 1 / 2 ^ 20]) = true ∧ shannonCode [1 / 2, 1 / 2, 1 / 2 ^ 20] 1 = none := by
  have hp : validPmf (vec [1 / 2, 1 / 2, 1 / 2 ^ 20]) = true := by decide +kernel
  refine ⟨hp, ?_⟩
  by_contra h
  have := (C131_shannon _ hp (by simp) 1 (by simp) le_rfl).1.mp (Option.isSome_iff_ne_none.mpr h)
  have h1 : shannonLength (1 / 2) = 1 := by decide +kernel
  have h3 : 0 < (1 / 2 : ℚ) ^ shannonLength (1 / 2 ^ 20) := by positivity
  simp only [FVCode.blockProbabilities, List.map_cons, List.map_nil, List.flatMap_cons, List.flatMap_nil, mul_one, List.cons_append, List.nil_append, List.sum_cons, List.sum_nil, h1] at this
  linarith

/-- Tunstall codes for probabilities that are accepted: the constructor succeeds and the sourcewords are the leaves of a complete tree. -/
theorem C131_tunstall (pmf : List ℚ) (hp : validPmf (vec pmf) = true) (n : ℕ) (hS : 2 ≤ pmf.length) (hn : pmf.length ≤ 2 ^ n)
    (choose : List TNode → ℕ) (hc : ∀ heap, heap ≠ [] → choose heap < heap.length) :
    ∃ c, tunstallCode pmf n choose = some c ∧ PrefixFree c.sourcewords ∧ FullyCovering c.sourcewords pmf.length ∧ c.sourcewords.Nodup := by
  obtain ⟨c, h1, h3, h4, h5, -⟩ := C30_tunstall_tree pmf n hS hn choose hc
  exact ⟨c, by rw [tunstallCode, if_pos hp, h1], h3, h4, h5⟩

/-- Everything else raises `ValueError`: a pmf (or a matrix) is refused if some entry is negative or the sum (of some row) is off by more than `1.001e-5`. -/
theorem C131_rejects (pmf : List ℚ) (hp : (∃ x ∈ pmf, x < 0) ∨ 1001 / 10 ^ 8 < |pmf.sum - 1|) (k : ℕ) (policy : HuffmanPolicy) (assignment : HuffmanAssignment)
    (choose : List TNode → ℕ) {n m : ℕ} (p q : Fin n → ℝ) (P : Fin n → Fin m → ℝ) (base : LogBase) (r : Fin 2 → ℝ) (ε : ℝ) :
    huffmanCode pmf k policy assignment = none ∧ fanoCode pmf k = none ∧ shannonCode pmf k = none ∧ tunstallCode pmf k choose = none ∧
    (((∃ i, p i < 0) ∨ 1001 / 10 ^ 8 < |∑ i, p i - 1|) → entropy p base = none ∧ relativeEntropy p q base = none ∧ relativeEntropy q p base = none ∧ mutualInformation p P base = none) ∧
    (((∃ i j, P i j < 0) ∨ ∃ i, 1001 / 10 ^ 8 < |∑ j, P i j - 1|) → mutualInformation p P base = none) ∧
    (((∃ i, r i < 0) ∨ 1001 / 10 ^ 8 < |∑ i, r i - 1|) → bscMutualInformation ε r base = none) := by
  have h1 : validPmf (vec pmf) = false := by
    rw [← Bool.not_eq_true]
    intro h
    obtain ⟨-, h2, h3, -⟩ := unit_facts h
    rcases hp with ⟨x, hx, h⟩ | h
    · exact absurd (h3 x hx) (not_le.mpr h)
    · exact absurd h2 (not_le.mpr h)
  have h2 : ∀ {l : ℕ} (v : Fin l → ℝ), ((∃ i, v i < 0) ∨ 1001 / 10 ^ 8 < |∑ i, v i - 1|) → validPmf v = false := by
    intro l v hv
    rw [← Bool.not_eq_true, accepts_iff]
    rintro ⟨h2, h3⟩
    rcases hv with ⟨i, h⟩ | h
    · exact absurd (h2 i) (not_le.mpr h)
    · exact absurd h3 (not_le.mpr h)
  refine ⟨by simp [huffmanCode, h1], by simp [fanoCode, h1], by simp [shannonCode, h1], by simp [tunstallCode, h1], fun h => ?_, fun h => ?_, fun h => ?_⟩
  · simp [entropy, relativeEntropy, mutualInformation, h2 p h]
  · have : validMatrix P = false := by
      rw [← Bool.not_eq_true, accepts_matrix_iff]
      rintro ⟨h3, h4⟩
      rcases h with ⟨i, j, h⟩ | ⟨i, h⟩
      · exact absurd (h3 i j) (not_le.mpr h)
      · exact absurd (h4 i) (not_le.mpr h)
    simp [mutualInformation, this]
  · simp [bscMutualInformation, h2 r h]

end Lossless

example : validPmf (vec [1 / 3, 2 / 3 + 1 / 10 ^ 6]) = true ∧ Komm.validPmf (vec [1 / 3, 2 / 3 + 1 / 10 ^ 6]) = false := by decide +kernel

example : validPmf (vec [1 / 3, 2 / 3 + 2 / 10 ^ 5]) = false := by decide +kernel

example : emit (![1 / 4, 3 / 4 + 1 / 10 ^ 8] : Fin 2 → ℚ) [1 / 8, 1 / 2] = some [0, 1] ∧ drawable (![1 / 4, 3 / 4 + 1 / 10 ^ 7] : Fin 2 → ℚ) = false := by decide +kernel

end Komm.Tolerant
