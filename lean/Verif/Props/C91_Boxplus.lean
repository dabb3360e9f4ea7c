import Verif.Model.SCDecoder
import Mathlib.Analysis.SpecialFunctions.Trigonometric.DerivHyp
import Mathlib.Analysis.SpecialFunctions.Arcosh
import Mathlib.Tactic.Ring
import Mathlib.Tactic.FieldSimp
/-! C91: `boxplus` and `logcosh`. -/
namespace Komm

theorem npSign_mul_self (x : ℝ) : npSign x * x = |x| := by
  rw [npSign]
  split_ifs with h1 h2
  · rw [abs_of_neg h1]; ring
  · rw [h2]; simp
  · rw [abs_of_pos (lt_of_le_of_ne (not_lt.mp h1) (Ne.symm h2))]; ring

theorem npSign_abs (x : ℝ) : npSign x * |x| = x := by
  rw [npSign]
  split_ifs with h1 h2
  · rw [abs_of_neg h1]; ring
  · rw [h2]; simp
  · rw [abs_of_pos (lt_of_le_of_ne (not_lt.mp h1) (Ne.symm h2))]; ring

theorem npSign_min (a b : ℝ) : npSign a * npSign b * min |a| |b| = (|a + b| - |a - b|) / 2 := by
  rcases lt_trichotomy a 0 with ha | ha | ha
  · rcases lt_trichotomy b 0 with hb | hb | hb
    · rw [npSign, if_pos ha, npSign, if_pos hb, abs_of_neg ha, abs_of_neg hb, abs_of_neg (by linarith : a + b < 0)]
      rcases le_total a b with h | h
      · rw [min_eq_right (by linarith), abs_of_nonpos (by linarith)]; ring
      · rw [min_eq_left (by linarith), abs_of_nonneg (by linarith)]; ring
    · subst hb; simp
    · rw [npSign, if_pos ha, npSign, if_neg (by linarith), if_neg hb.ne', abs_of_neg ha, abs_of_pos hb,
        abs_of_neg (by linarith : a - b < 0)]
      rcases le_total (a + b) 0 with h | h
      · rw [min_eq_right (by linarith), abs_of_nonpos h]; ring
      · rw [min_eq_left (by linarith), abs_of_nonneg h]; ring
  · subst ha; simp [npSign]
  · rcases lt_trichotomy b 0 with hb | hb | hb
    · rw [npSign, if_neg (by linarith), if_neg ha.ne', npSign, if_pos hb, abs_of_pos ha, abs_of_neg hb,
        abs_of_pos (by linarith : 0 < a - b)]
      rcases le_total (a + b) 0 with h | h
      · rw [min_eq_left (by linarith), abs_of_nonpos h]; ring
      · rw [min_eq_right (by linarith), abs_of_nonneg h]; ring
    · subst hb; simp
    · rw [npSign, if_neg (by linarith), if_neg ha.ne', npSign, if_neg (by linarith), if_neg hb.ne', abs_of_pos ha,
        abs_of_pos hb, abs_of_pos (by linarith : 0 < a + b)]
      rcases le_total a b with h | h
      · rw [min_eq_left h, abs_of_nonpos (by linarith)]; ring
      · rw [min_eq_right h, abs_of_nonneg (by linarith)]; ring

/-- `|x| / 2 + log (1 + e^{-|x|}) = log (2 cosh (x / 2))`. -/
theorem half_abs_log (x : ℝ) : |x| / 2 + Real.log (1 + Real.exp (-|x|)) = Real.log (Real.exp (x / 2) + Real.exp (-x / 2)) := by
  have h1 : Real.exp (x / 2) + Real.exp (-x / 2) = Real.exp (|x| / 2) * (1 + Real.exp (-|x|)) := by
    rw [mul_add, mul_one, ← Real.exp_add]
    rcases le_total 0 x with h | h
    · rw [abs_of_nonneg h]; congr 2; ring
    · rw [abs_of_nonpos h, add_comm]; congr 2; ring
  rw [h1, Real.log_mul (Real.exp_pos _).ne' (by positivity), Real.log_exp]

theorem boxplus_eq (a b : ℝ) : boxplus a b =
    Real.log (Real.exp ((a + b) / 2) + Real.exp (-(a + b) / 2)) - Real.log (Real.exp ((a - b) / 2) + Real.exp (-(a - b) / 2)) := by
  rw [boxplus, ← half_abs_log, ← half_abs_log, npSign_min]
  ring

theorem boxplus_exp (a b : ℝ) : boxplus a b = Real.log ((1 + Real.exp (a + b)) / (Real.exp a + Real.exp b)) := by
  rw [boxplus_eq, ← Real.log_div (by positivity) (by positivity)]
  congr 1
  rw [div_eq_div_iff (by positivity) (by positivity)]
  have e1 : Real.exp ((a + b) / 2) * Real.exp a = Real.exp (a + b) * Real.exp ((a - b) / 2) := by
    rw [← Real.exp_add, ← Real.exp_add]; congr 1; ring
  have e2 : Real.exp ((a + b) / 2) * Real.exp b = Real.exp (a + b) * Real.exp (-(a - b) / 2) := by
    rw [← Real.exp_add, ← Real.exp_add]; congr 1; ring
  have e3 : Real.exp (-(a + b) / 2) * Real.exp a = Real.exp ((a - b) / 2) := by
    rw [← Real.exp_add]; congr 1; ring
  have e4 : Real.exp (-(a + b) / 2) * Real.exp b = Real.exp (-(a - b) / 2) := by
    rw [← Real.exp_add]; congr 1; ring
  linear_combination e1 + e2 + e3 + e4

/-- If `a` and `b` are the log-ratios of two independent bits, `boxplus a b` is the log-ratio of their sum modulo 2. -/
theorem C91_xor (p q : ZMod 2 → ℝ) (hp : ∀ b, 0 < p b) (hq : ∀ b, 0 < q b) :
    boxplus (Real.log (p 0 / p 1)) (Real.log (q 0 / q 1)) =
      Real.log ((∑ x : ZMod 2 × ZMod 2 with x.1 + x.2 = 0, p x.1 * q x.2) / (∑ x : ZMod 2 × ZMod 2 with x.1 + x.2 = 1, p x.1 * q x.2)) := by
  have hp0 := hp 0
  have hp1 := hp 1
  have hq0 := hq 0
  have hq1 := hq 1
  have s0 : (Finset.univ.filter fun x : ZMod 2 × ZMod 2 => x.1 + x.2 = 0) = {(0, 0), (1, 1)} := by decide
  have s1 : (Finset.univ.filter fun x : ZMod 2 × ZMod 2 => x.1 + x.2 = 1) = {(0, 1), (1, 0)} := by decide
  rw [s0, s1, Finset.sum_insert (by decide), Finset.sum_insert (by decide), Finset.sum_singleton, Finset.sum_singleton, boxplus_exp,
    Real.exp_add, Real.exp_log (by positivity), Real.exp_log (by positivity)]
  congr 1
  field_simp
  ring

/-- The hyperbolic tangent rule. -/
theorem C91_tanh (a b : ℝ) : Real.tanh (boxplus a b / 2) = Real.tanh (a / 2) * Real.tanh (b / 2) := by
  have key : ∀ x : ℝ, Real.tanh (x / 2) = (Real.exp x - 1) / (Real.exp x + 1) := by
    intro x
    rw [Real.tanh_eq_sinh_div_cosh, Real.sinh_eq, Real.cosh_eq, div_div_div_cancel_right₀ (by norm_num),
      div_eq_div_iff (by positivity) (by positivity)]
    have e1 : Real.exp (x / 2) * Real.exp (-(x / 2)) = 1 := by rw [← Real.exp_add]; simp
    have e2 : Real.exp x = Real.exp (x / 2) * Real.exp (x / 2) := by rw [← Real.exp_add]; congr 1; ring
    rw [e2]
    linear_combination (-2 * Real.exp (x / 2)) * e1
  rw [key, key, key, boxplus_exp, Real.exp_log (by positivity), Real.exp_add, div_mul_div_comm,
    div_eq_div_iff (by positivity) (by positivity)]
  field_simp
  ring

/-- Symmetric, odd in each argument, associative, 0 is absorbing. -/
theorem C91_algebra (a b c : ℝ) : boxplus a b = boxplus b a ∧ boxplus (-a) b = -boxplus a b ∧ boxplus a 0 = 0 ∧
    boxplus (boxplus a b) c = boxplus a (boxplus b c) := by
  refine ⟨?_, ?_, ?_, ?_⟩
  · rw [boxplus_exp, boxplus_exp, add_comm a b, add_comm (Real.exp a)]
  · rw [boxplus_eq, boxplus_eq, neg_sub]
    congr 2 <;> (rw [add_comm]; congr 2 <;> ring_nf)
  · rw [boxplus_exp, add_zero, Real.exp_zero, add_comm, div_self (by positivity), Real.log_one]
  · have hexp : ∀ x y : ℝ, Real.exp (boxplus x y) = (1 + Real.exp x * Real.exp y) / (Real.exp x + Real.exp y) := by
      intro x y
      rw [boxplus_exp, Real.exp_log (by positivity), Real.exp_add]
    rw [boxplus_exp (boxplus a b), boxplus_exp a (boxplus b c), Real.exp_add, Real.exp_add, hexp, hexp]
    congr 1
    field_simp
    ring

theorem boxplus_pos_iff (a b : ℝ) : 0 < boxplus a b ↔ 0 < a * b := by
  rw [boxplus_exp, Real.log_pos_iff (by positivity), one_lt_div (by positivity), Real.exp_add]
  have : 1 + Real.exp a * Real.exp b - (Real.exp a + Real.exp b) = (Real.exp a - 1) * (Real.exp b - 1) := by ring
  rw [← sub_pos, this, mul_pos_iff, mul_pos_iff]
  simp only [sub_pos, sub_neg, Real.one_lt_exp_iff, Real.exp_lt_one_iff]

/-- The sign of the result is the product of the signs, its magnitude is at most each of the two magnitudes. -/
theorem C91_sign (a b : ℝ) : npSign (boxplus a b) = npSign a * npSign b ∧ |boxplus a b| ≤ min |a| |b| := by
  have hneg : ∀ a b, boxplus (-a) b = -boxplus a b := fun a b => (C91_algebra a b 0).2.1
  have hzero : ∀ b, boxplus 0 b = 0 := fun b => by rw [(C91_algebra 0 b 0).1, (C91_algebra b 0 0).2.2.1]
  have sneg : ∀ x, npSign (-x) = -npSign x := by
    intro x
    rcases lt_trichotomy x 0 with h | h | h
    · rw [npSign, npSign, if_neg (by linarith), if_neg (by linarith), if_pos h]; ring
    · subst h; simp [npSign]
    · rw [npSign, npSign, if_pos (by linarith), if_neg (by linarith), if_neg h.ne']
  have hbound : ∀ a b : ℝ, 0 < a → 0 < b → boxplus a b ≤ a := by
    intro a b ha hb
    have h1 := Real.one_lt_exp_iff.mpr ha
    have h2 := Real.exp_pos b
    rw [boxplus_exp, Real.log_le_iff_le_exp (by positivity), div_le_iff₀ (by positivity), Real.exp_add]
    nlinarith
  have hpp : ∀ a b : ℝ, 0 < a → 0 < b → npSign (boxplus a b) = npSign a * npSign b ∧ |boxplus a b| ≤ min |a| |b| := by
    intro a b ha hb
    have hpos := (boxplus_pos_iff a b).mpr (mul_pos ha hb)
    constructor
    · rw [npSign, npSign, npSign, if_neg hpos.le.not_gt, if_neg hpos.ne', if_neg ha.le.not_gt, if_neg ha.ne', if_neg hb.le.not_gt,
        if_neg hb.ne', one_mul]
    · rw [abs_of_pos hpos, abs_of_pos ha, abs_of_pos hb, le_min_iff]
      exact ⟨hbound a b ha hb, by rw [(C91_algebra a b 0).1]; exact hbound b a hb ha⟩
  have hnegr : ∀ a b, boxplus a (-b) = -boxplus a b := fun a b => by
    rw [(C91_algebra a (-b) 0).1, hneg, (C91_algebra b a 0).1]
  have hfst : ∀ a b : ℝ, 0 < b → npSign (boxplus a b) = npSign a * npSign b ∧ |boxplus a b| ≤ min |a| |b| := by
    intro a b hb
    rcases lt_trichotomy a 0 with h | h | h
    · obtain ⟨h1, h2⟩ := hpp (-a) b (by linarith) hb
      rw [hneg, sneg, sneg] at h1
      rw [hneg, abs_neg, abs_neg] at h2
      exact ⟨by linarith, h2⟩
    · subst h
      rw [hzero]
      simp [npSign]
    · exact hpp a b h hb
  rcases lt_trichotomy b 0 with h | h | h
  · obtain ⟨h1, h2⟩ := hfst a (-b) (by linarith)
    rw [hnegr, sneg, sneg] at h1
    rw [hnegr, abs_neg, abs_neg] at h2
    exact ⟨by linarith, h2⟩
  · subst h
    rw [(C91_algebra a 0 0).2.2.1]
    simp [npSign]
  · exact hfst a b h

/-- `boxplus` of arrays: refused exactly when the shapes differ, otherwise entry by entry. -/
theorem C91_array (a b : List ℝ) :
    (boxplusArray a b = none ↔ a.length ≠ b.length) ∧
    ∀ r, boxplusArray a b = some r → r.length = a.length ∧
      ∀ (i : Nat) (h1 : i < r.length) (h2 : i < a.length) (h3 : i < b.length), r[i] = boxplus a[i] b[i] := by
  rw [boxplusArray]
  split
  · rename_i h
    simp [h]
  · rename_i h
    simp only [reduceCtorEq, false_iff, Option.some.injEq]
    refine ⟨h, ?_⟩
    rintro r rfl
    simp only [ne_eq, not_not] at h
    refine ⟨by simp [h], fun i h1 h2 h3 => by simp⟩

/-- `logcosh` is the logarithm of the hyperbolic cosine. -/
theorem C91_logcosh (x : ℝ) : logcosh x = Real.log (Real.cosh x) := by
  have h := half_abs_log (2 * x)
  rw [logcosh, npSign_mul_self]
  rw [abs_mul, abs_of_pos (by norm_num : (0 : ℝ) < 2)] at h
  rw [Real.cosh_eq, Real.log_div (by positivity) (by norm_num), show Real.exp x + Real.exp (-x) =
    Real.exp (2 * x / 2) + Real.exp (-(2 * x) / 2) by congr 2 <;> ring, ← h]
  have e : -2 * |x| = -(2 * |x|) := by ring
  rw [e]
  ring

/-- A concrete case: two bits of probabilities (3/4, 1/4), log-ratio `log 3`; their sum is 0 with probability 10/16. -/
example : boxplus (Real.log 3) (Real.log 3) = Real.log (5 / 3) := by
  rw [boxplus_exp, Real.exp_add, Real.exp_log (by norm_num)]
  norm_num

end Komm
