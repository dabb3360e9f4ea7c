import Verif.Model.DoubleDecoders
import Verif.Lemmas.DoubleViterbi
import Verif.Props.C92_SCDecoder
import Verif.Props.C135_DoublePam
import Verif.Props.C52_C53_ReedMuller
import Verif.Props.C56_Wagner
import Verif.Props.C134_DoubleViterbi
import Mathlib.Analysis.Complex.ExponentialBounds

/-! C138: the soft-input decoders of block codes in double precision. -/
namespace Komm
open scoped BigOperators

/-! ### boxplus -/

/-- `boxplus` does not enlarge errors. -/
theorem boxplus_le (a b a' b' h : ℝ) (ha : |a' - a| ≤ h) (hb : |b' - b| ≤ h) : boxplus a' b' ≤ boxplus a b + h := by
  rw [boxplus_exp, boxplus_exp]
  have hh : Real.exp (Real.log ((1 + Real.exp (a + b)) / (Real.exp a + Real.exp b)) + h) = (1 + Real.exp (a + b)) / (Real.exp a + Real.exp b) * Real.exp h := by
    rw [Real.exp_add, Real.exp_log (by positivity)]
  rw [← Real.log_exp (Real.log ((1 + Real.exp (a + b)) / (Real.exp a + Real.exp b)) + h), hh]
  apply Real.log_le_log (by positivity)
  rw [div_mul_eq_mul_div, div_le_div_iff₀ (by positivity) (by positivity)]
  rw [abs_le] at ha hb
  obtain ⟨A, hA⟩ : ∃ A, A = Real.exp a := ⟨_, rfl⟩
  obtain ⟨B, hB⟩ : ∃ B, B = Real.exp b := ⟨_, rfl⟩
  obtain ⟨X, hX⟩ : ∃ X, X = Real.exp (a' - a) := ⟨_, rfl⟩
  obtain ⟨Y, hY⟩ : ∃ Y, Y = Real.exp (b' - b) := ⟨_, rfl⟩
  obtain ⟨H, hH⟩ : ∃ H, H = Real.exp h := ⟨_, rfl⟩
  have e1 : Real.exp a' = A * X := by rw [hA, hX, ← Real.exp_add]; ring_nf
  have e2 : Real.exp b' = B * Y := by rw [hB, hY, ← Real.exp_add]; ring_nf
  have A0 : 0 < A := by rw [hA]; positivity
  have B0 : 0 < B := by rw [hB]; positivity
  have X0 : 0 < X := by rw [hX]; positivity
  have Y0 : 0 < Y := by rw [hY]; positivity
  have H0 : 0 < H := by rw [hH]; positivity
  have x1 : X ≤ H := by rw [hX, hH]; exact Real.exp_le_exp.mpr ha.2
  have y1 : Y ≤ H := by rw [hY, hH]; exact Real.exp_le_exp.mpr hb.2
  have x2 : 1 ≤ H * X := by rw [hX, hH, ← Real.exp_add]; exact Real.one_le_exp (by linarith)
  have y2 : 1 ≤ H * Y := by rw [hY, hH, ← Real.exp_add]; exact Real.one_le_exp (by linarith)
  rw [Real.exp_add a' b', Real.exp_add a b, e1, e2, ← hA, ← hB, ← hH]
  have t1 : A * 1 ≤ A * (H * X) := mul_le_mul_of_nonneg_left x2 A0.le
  have t2 : B * 1 ≤ B * (H * Y) := mul_le_mul_of_nonneg_left y2 B0.le
  have t3 : A * A * B * X * Y ≤ A * A * B * X * H := mul_le_mul_of_nonneg_left y1 (by positivity)
  have t4 : A * B * B * Y * X ≤ A * B * B * Y * H := mul_le_mul_of_nonneg_left x1 (by positivity)
  calc (1 + A * X * (B * Y)) * (A + B) = A * 1 + B * 1 + A * A * B * X * Y + A * B * B * Y * X := by ring
    _ ≤ A * (H * X) + B * (H * Y) + A * A * B * X * H + A * B * B * Y * H := by linarith
    _ = (1 + A * B) * H * (A * X + B * Y) := by ring

theorem boxplus_lipschitz (a b a' b' h : ℝ) (ha : |a' - a| ≤ h) (hb : |b' - b| ≤ h) : |boxplus a' b' - boxplus a b| ≤ h := by
  have h1 := boxplus_le a b a' b' h ha hb
  have h2 := boxplus_le a' b' a b h (by rwa [abs_sub_comm]) (by rwa [abs_sub_comm])
  rw [abs_le]; constructor <;> linarith

theorem exp_diff_le {y y' u : ℝ} (hu : 0 ≤ u) (hu' : u ≤ 1 / 2) (hy : 0 ≤ y) (h : |y' - y| ≤ y * u) : |Real.exp (-y') - Real.exp (-y)| ≤ u := by
  have key : ∀ m M : ℝ, m ≤ M → M - m ≤ y * u → y / 2 ≤ m → Real.exp (-m) - Real.exp (-M) ≤ u := by
    intro m M hmM hd hm
    have h1 : Real.exp (-M) = Real.exp (-m) * Real.exp (-(M - m)) := by rw [← Real.exp_add]; ring_nf
    have h2 : 1 - (M - m) ≤ Real.exp (-(M - m)) := by have := Real.add_one_le_exp (-(M - m)); linarith
    have h3 : Real.exp (-m) ≤ Real.exp (-(y / 2)) := Real.exp_le_exp.mpr (by linarith)
    have h4 : y * Real.exp (-(y / 2)) ≤ 1 := by
      rw [Real.exp_neg, ← div_eq_mul_inv, div_le_one (Real.exp_pos _)]
      have := Real.quadratic_le_exp_of_nonneg (x := y / 2) (by linarith)
      nlinarith [sq_nonneg (y - 2)]
    have h5 : 0 < Real.exp (-m) := Real.exp_pos _
    calc Real.exp (-m) - Real.exp (-M) ≤ Real.exp (-m) * (M - m) := by rw [h1]; nlinarith
      _ ≤ Real.exp (-(y / 2)) * (y * u) := mul_le_mul h3 hd (by linarith) (Real.exp_pos _).le
      _ = (y * Real.exp (-(y / 2))) * u := by ring
      _ ≤ 1 * u := mul_le_mul_of_nonneg_right h4 hu
      _ = u := one_mul u
  rw [abs_le] at h ⊢
  have hyu : y * u ≤ y * (1 / 2) := mul_le_mul_of_nonneg_left hu' hy
  rcases le_total y y' with hle | hle
  · have h1 := key y y' hle (by linarith) (by linarith)
    have h2 : Real.exp (-y') ≤ Real.exp (-y) := Real.exp_le_exp.mpr (by linarith)
    constructor <;> linarith
  · have h1 := key y' y hle (by linarith) (by linarith)
    have h2 : Real.exp (-y) ≤ Real.exp (-y') := Real.exp_le_exp.mpr (by linarith)
    constructor <;> linarith

theorem log1p_diff {x y e : ℝ} (hx : 0 ≤ x) (hy : 0 ≤ y) (h : |x - y| ≤ e) : |Real.log (1 + x) - Real.log (1 + y)| ≤ e := by
  have key : ∀ x y : ℝ, 0 ≤ x → 0 ≤ y → Real.log (1 + x) - Real.log (1 + y) ≤ |x - y| := by
    intro x y hx hy
    rw [← Real.log_div (by linarith) (by linarith)]
    refine (Real.log_le_sub_one_of_pos (by positivity)).trans ?_
    have : (1 + x) / (1 + y) - 1 = (x - y) / (1 + y) := by field_simp; ring
    rw [this]
    exact (div_le_div_of_nonneg_right (le_abs_self _) (by linarith)).trans (div_le_self (abs_nonneg _) (by linarith))
  have h1 := key x y hx hy
  have h2 := key y x hy hx
  rw [abs_sub_comm] at h2
  rw [abs_le]; constructor <;> linarith

/-- The computed correction term. -/
theorem correction_near {E L : ℝ → ℝ} (hE : ExpAccurate E) (hL : Log1pAccurate L) {a b : ℝ} (ha : IsDouble a) (hb : IsDouble b) :
    0 ≤ L (E (-|rnd (a + b)|)) ∧ |L (E (-|rnd (a + b)|)) - Real.log (1 + Real.exp (-|a + b|))| ≤ 9 / 4 / 2 ^ 50 := by
  obtain ⟨e0, e1⟩ := hE (-|rnd (a + b)|) (by simp)
  have h1 := rnd_add_error ha hb
  have h2 : abs (|rnd (a + b)| - |a + b|) ≤ |a + b| * (1 / 2 ^ 53) := by
    rw [mul_one_div]; exact (abs_abs_sub_abs_le _ _).trans h1
  have h3 := exp_diff_le (by positivity) (by norm_num) (abs_nonneg _) h2
  have h4 : Real.exp (-|rnd (a + b)|) ≤ 1 := Real.exp_le_one_iff.mpr (by simp)
  have h5 : 0 < Real.exp (-|rnd (a + b)|) := Real.exp_pos _
  have h6 : 0 < Real.exp (-|a + b|) := Real.exp_pos _
  generalize E (-|rnd (a + b)|) = p at *
  generalize Real.exp (-|rnd (a + b)|) = q at *
  generalize Real.exp (-|a + b|) = q' at *
  rw [abs_le] at e1 h3
  obtain ⟨l0, l1⟩ := hL p e0 (by linarith [(by norm_num : (1 : ℝ) / 2 ^ 50 ≤ 1)])
  have h7 := log1p_diff e0 h6.le (e := 9 / 8 / 2 ^ 50) (by rw [abs_le]; constructor <;> linarith)
  refine ⟨l0, ?_⟩
  rw [abs_le] at l1 h7 ⊢
  constructor <;> linarith

theorem isDouble_neg {x : ℝ} (h : IsDouble x) : IsDouble (-x) := by
  obtain ⟨m, e, h1, h2, h3⟩ := h
  exact ⟨-m, e, by rwa [abs_neg], h2, by rw [h3]; push_cast; ring⟩

theorem isDouble_abs {x : ℝ} (h : IsDouble x) : IsDouble |x| := by
  rcases abs_choice x with h' | h' <;> rw [h']
  · exact h
  · exact isDouble_neg h

theorem isDouble_zero : IsDouble 0 := ⟨0, 0, by norm_num, by norm_num, by simp⟩

theorem npSign_prod_cases (a b : ℝ) : npSign a * npSign b = 1 ∨ npSign a * npSign b = -1 ∨ npSign a * npSign b = 0 := by
  unfold npSign
  split_ifs <;> norm_num

theorem isDouble_boxmin {a b : ℝ} (ha : IsDouble a) (hb : IsDouble b) : IsDouble (npSign a * npSign b * min |a| |b|) := by
  have hm : IsDouble (min |a| |b|) := by
    rcases min_choice |a| |b| with h | h <;> rw [h]
    · exact isDouble_abs ha
    · exact isDouble_abs hb
  rcases npSign_prod_cases a b with h | h | h <;> rw [h]
  · rwa [one_mul]
  · rw [neg_one_mul]; exact isDouble_neg hm
  · rw [zero_mul]; exact isDouble_zero

theorem log1p_exp_le (x : ℝ) : 0 ≤ Real.log (1 + Real.exp (-|x|)) ∧ Real.log (1 + Real.exp (-|x|)) ≤ 7 / 10 := by
  have h1 : Real.exp (-|x|) ≤ 1 := Real.exp_le_one_iff.mpr (by simp)
  have h2 : 0 < Real.exp (-|x|) := Real.exp_pos _
  constructor
  · exact Real.log_nonneg (by linarith)
  · have : Real.log (1 + Real.exp (-|x|)) ≤ Real.log 2 := Real.log_le_log (by linarith) (by linarith)
    have := Real.log_two_lt_d9
    linarith

/-- The error of `boxplus` in double precision. -/
theorem C138_boxplus {E L : ℝ → ℝ} (hE : ExpAccurate E) (hL : Log1pAccurate L) {a b : ℝ} (ha : IsDouble a) (hb : IsDouble b) :
    |boxplusD E L a b - boxplus a b| ≤ (min |a| |b| + 8) / 2 ^ 50 := by
  obtain ⟨a0, a1⟩ := correction_near hE hL ha hb
  obtain ⟨b0, b1⟩ := correction_near hE hL ha (isDouble_neg hb)
  rw [← sub_eq_add_neg] at b0 b1
  obtain ⟨c0, c1⟩ := log1p_exp_le (a + b)
  obtain ⟨d0, d1⟩ := log1p_exp_le (a - b)
  unfold boxplusD boxplus
  simp only
  generalize L (E (-|rnd (a + b)|)) = l1 at *
  generalize L (E (-|rnd (a - b)|)) = l2 at *
  generalize Real.log (1 + Real.exp (-|a + b|)) = m1 at *
  generalize Real.log (1 + Real.exp (-|a - b|)) = m2 at *
  have hs : abs (npSign a * npSign b * min |a| |b|) ≤ min |a| |b| := by
    have h0 : 0 ≤ min |a| |b| := le_min (abs_nonneg _) (abs_nonneg _)
    rcases npSign_prod_cases a b with h | h | h <;> rw [h]
    · rw [one_mul, abs_of_nonneg h0]
    · rw [neg_one_mul, abs_neg, abs_of_nonneg h0]
    · rw [zero_mul, abs_zero]; exact h0
  generalize npSign a * npSign b * min |a| |b| = s at *
  have h0 : 0 ≤ min |a| |b| := le_trans (abs_nonneg _) hs
  generalize min |a| |b| = M at *
  have tiny' : (2 : ℝ) ^ (-1075 : ℤ) ≤ 1 / 2 ^ 60 := by
    have h1 : (2 : ℝ) ^ (-1075 : ℤ) ≤ 2 ^ (-60 : ℤ) := zpow_le_zpow_right₀ (by norm_num) (by norm_num)
    have h2 : (2 : ℝ) ^ (-60 : ℤ) = 1 / 2 ^ 60 := by rw [zpow_neg, one_div]; norm_cast
    exact h1.trans h2.le
  have r1 := rnd_error (s + l1)
  have r2 := rnd_error (rnd (s + l1) - l2)
  generalize rnd (s + l1) = y at *
  generalize rnd (y - l2) = z at *
  generalize (2 : ℝ) ^ (-1075 : ℤ) = t at *
  have k1 : |s + l1| ≤ M + 1 := by
    rw [abs_le] at hs a1 ⊢
    constructor <;> norm_num at a1 ⊢ <;> linarith
  have k2 : |y - s - l1| ≤ (M + 2) / 2 ^ 53 := by
    have : y - s - l1 = y - (s + l1) := by ring
    rw [this]
    have : |s + l1| / 2 ^ 53 ≤ (M + 1) / 2 ^ 53 := div_le_div_of_nonneg_right k1 (by positivity)
    linarith
  have k3 : |y - l2| ≤ 2 * M + 4 := by
    rw [abs_le] at hs a1 b1 k2 ⊢
    constructor <;> norm_num at a1 b1 k2 ⊢ <;> linarith
  have k4 : |z - (y - l2)| ≤ (2 * M + 5) / 2 ^ 53 := by
    have : |y - l2| / 2 ^ 53 ≤ (2 * M + 4) / 2 ^ 53 := div_le_div_of_nonneg_right k3 (by positivity)
    linarith
  rw [abs_le] at a1 b1 k2 k4 ⊢
  constructor <;> linarith

/-- Magnitudes shrink by at most 3/4, and the sign is right. -/
theorem boxplusD_sign {E L : ℝ → ℝ} (hE : ExpAccurate E) (hL : Log1pAccurate L) {a b t : ℝ} (ha : IsDouble a) (hb : IsDouble b) (ht : IsDouble (t - 3 / 4))
    (hta : t ≤ |a|) (htb : t ≤ |b|) (h : 0 < a * b) : t - 3 / 4 ≤ boxplusD E L a b := by
  obtain ⟨a0, a1⟩ := correction_near hE hL ha hb
  obtain ⟨b0, b1⟩ := correction_near hE hL ha (isDouble_neg hb)
  rw [← sub_eq_add_neg] at b0 b1
  obtain ⟨d0, d1⟩ := log1p_exp_le (a - b)
  have hd := isDouble_boxmin ha hb
  have hs : npSign a * npSign b = 1 := by
    unfold npSign
    rcases mul_pos_iff.mp h with ⟨h1, h2⟩ | ⟨h1, h2⟩
    · rw [if_neg (by linarith), if_neg (by linarith), if_neg (by linarith), if_neg (by linarith)]; norm_num
    · rw [if_pos h1, if_pos h2]; norm_num
  unfold boxplusD
  simp only
  rw [hs, one_mul] at hd ⊢
  have hm : t ≤ min |a| |b| := le_min hta htb
  generalize L (E (-|rnd (a + b)|)) = l1 at *
  generalize L (E (-|rnd (a - b)|)) = l2 at *
  have h1 : min |a| |b| ≤ rnd (min |a| |b| + l1) := by
    conv_lhs => rw [← rnd_of_isDouble hd]
    exact rnd_mono (by linarith)
  rw [← rnd_of_isDouble ht]
  apply rnd_mono
  rw [abs_le] at b1
  have : (9 : ℝ) / 4 / 2 ^ 50 ≤ 1 / 20 := by norm_num
  linarith

theorem boxplusD_sign' {E L : ℝ → ℝ} (hE : ExpAccurate E) (hL : Log1pAccurate L) {a b t : ℝ} (ha : IsDouble a) (hb : IsDouble b) (ht : IsDouble (t - 3 / 4))
    (hta : t ≤ |a|) (htb : t ≤ |b|) (h : a * b < 0) : boxplusD E L a b ≤ -(t - 3 / 4) := by
  obtain ⟨a0, a1⟩ := correction_near hE hL ha hb
  obtain ⟨b0, b1⟩ := correction_near hE hL ha (isDouble_neg hb)
  rw [← sub_eq_add_neg] at b0 b1
  obtain ⟨d0, d1⟩ := log1p_exp_le (a + b)
  have hs : npSign a * npSign b = -1 := by
    unfold npSign
    rcases mul_neg_iff.mp h with ⟨h1, h2⟩ | ⟨h1, h2⟩
    · rw [if_neg (by linarith), if_neg (by linarith), if_pos h2]; norm_num
    · rw [if_pos h1, if_neg (by linarith), if_neg (by linarith)]; norm_num
  unfold boxplusD
  simp only
  rw [hs, neg_one_mul]
  have hm : t ≤ min |a| |b| := le_min hta htb
  generalize L (E (-|rnd (a + b)|)) = l1 at *
  generalize L (E (-|rnd (a - b)|)) = l2 at *
  generalize min |a| |b| = M at *
  have hnd := isDouble_neg ht
  have h1 : rnd (-M + l1) ≤ -(t - 3 / 4) := by
    conv_rhs => rw [← rnd_of_isDouble hnd]
    apply rnd_mono
    rw [abs_le] at a1
    have : (9 : ℝ) / 4 / 2 ^ 50 ≤ 1 / 20 := by norm_num
    linarith
  conv_rhs => rw [← rnd_of_isDouble hnd]
  apply rnd_mono
  linarith

/-! ### successive cancellation -/

variable {mu : Nat} {frozen : List Nat}

theorem isDouble_double {x : ℝ} (h : IsDouble x) : IsDouble (2 * x) := by
  obtain ⟨m, e, h1, h2, h3⟩ := h
  exact ⟨m, e + 1, h1, by omega, by rw [h3, zpow_add₀ (by norm_num)]; ring⟩

theorem rnd_abs_le {x Λ : ℝ} (hΛ : IsDouble Λ) (h : |x| ≤ Λ) : |rnd x| ≤ Λ := by
  rw [abs_le] at h ⊢
  constructor
  · rw [← rnd_of_isDouble (isDouble_neg hΛ)]; exact rnd_mono h.1
  · rw [← rnd_of_isDouble hΛ]; exact rnd_mono h.2

theorem boxplusD_abs_le {E L : ℝ → ℝ} (hE : ExpAccurate E) (hL : Log1pAccurate L) {a b Λ : ℝ} (ha : IsDouble a) (hb : IsDouble b) (hΛ : IsDouble Λ) (h2 : 2 ≤ Λ)
    (hma : |a| ≤ Λ) : |boxplusD E L a b| ≤ 2 * Λ := by
  obtain ⟨a0, a1⟩ := correction_near hE hL ha hb
  obtain ⟨b0, b1⟩ := correction_near hE hL ha (isDouble_neg hb)
  rw [← sub_eq_add_neg] at b0 b1
  obtain ⟨c0, c1⟩ := log1p_exp_le (a + b)
  obtain ⟨d0, d1⟩ := log1p_exp_le (a - b)
  have hs : abs (npSign a * npSign b * min |a| |b|) ≤ min |a| |b| := by
    have h0 : 0 ≤ min |a| |b| := le_min (abs_nonneg _) (abs_nonneg _)
    rcases npSign_prod_cases a b with h | h | h <;> rw [h]
    · rw [one_mul, abs_of_nonneg h0]
    · rw [neg_one_mul, abs_neg, abs_of_nonneg h0]
    · rw [zero_mul, abs_zero]; exact h0
  have hm : min |a| |b| ≤ Λ := (min_le_left _ _).trans hma
  unfold boxplusD
  simp only
  generalize npSign a * npSign b * min |a| |b| = s at *
  generalize L (E (-|rnd (a + b)|)) = l1 at *
  generalize L (E (-|rnd (a - b)|)) = l2 at *
  have h1 := isDouble_double hΛ
  apply rnd_abs_le h1
  have tiny' : (9 : ℝ) / 4 / 2 ^ 50 ≤ 1 / 20 := by norm_num
  have r1 := rnd_error (s + l1)
  have tz : (2 : ℝ) ^ (-1075 : ℤ) ≤ 1 / 4 := by
    have h1 : (2 : ℝ) ^ (-1075 : ℤ) ≤ 2 ^ (-2 : ℤ) := zpow_le_zpow_right₀ (by norm_num) (by norm_num)
    have h2 : (2 : ℝ) ^ (-2 : ℤ) = 1 / 4 := by norm_num
    exact h1.trans h2.le
  generalize (2 : ℝ) ^ (-1075 : ℤ) = t at *
  have k1 : |s + l1| ≤ Λ + 3 / 4 := by
    rw [abs_le] at hs a1 ⊢
    constructor <;> linarith
  have k2 : |s + l1| / 2 ^ 53 ≤ (Λ + 3 / 4) / 2 ^ 53 := div_le_div_of_nonneg_right k1 (by positivity)
  generalize rnd (s + l1) = y at *
  rw [abs_le] at b1 k1 r1 ⊢
  constructor <;> linarith

theorem scRecF_close {E L : ℝ → ℝ} (hE : ExpAccurate E) (hL : Log1pAccurate L) : ∀ (d idx : Nat) (msg msg' : Fin (2 ^ d) → ℝ) (Λ e : ℝ), IsDouble Λ → 2 ≤ Λ →
    (∀ i, IsDouble (msg' i)) → (∀ i, |msg' i| ≤ Λ) → (∀ i, |msg' i - msg i| ≤ e) →
    (∀ i : Fin (2 ^ d), idx * 2 ^ d + i ∉ frozen → 2 ^ d * (e + d * (5 * Λ / 2 ^ 51)) < |(scRec frozen d idx msg).1 i|) →
    (scRecF (boxplusD E L) (fun x y => rnd (x + y)) frozen d idx msg').2 = (scRec frozen d idx msg).2 ∧
    ∀ i, |(scRecF (boxplusD E L) (fun x y => rnd (x + y)) frozen d idx msg').1 i - (scRec frozen d idx msg).1 i| ≤ 2 ^ d * (e + d * (5 * Λ / 2 ^ 51)) := by
  intro d
  induction d with
  | zero =>
    intro idx msg msg' Λ e hΛ h2 hd hm he hmargin
    rw [scRecF, scRec] at *
    simp only [pow_zero, Nat.cast_zero, zero_mul, add_zero, one_mul, mul_one] at *
    refine ⟨?_, he⟩
    funext i
    by_cases hf : idx ∈ frozen
    · rw [if_pos hf, if_pos hf]
    · rw [if_neg hf, if_neg hf]
      have hi0 : (i : Nat) = 0 := by simp
      have h1 := hmargin i (by rw [hi0]; simpa using hf)
      have h3 := he i
      rw [abs_le] at h3
      by_cases hn : msg i < 0
      · rw [if_pos hn, if_pos]
        rw [abs_of_neg hn] at h1
        linarith
      · rw [if_neg hn, if_neg]
        rw [abs_of_nonneg (not_lt.mp hn)] at h1
        linarith
  | succ d ih =>
    intro idx msg msg' Λ e hΛ h2 hd hm he hmargin
    have hΛ0 : 0 ≤ Λ := by linarith
    -- the bound of the children
    have hbound : (2 : ℝ) ^ d * (2 * e + 5 * Λ / 2 ^ 50 + d * (5 * (2 * Λ) / 2 ^ 51)) = 2 ^ (d + 1) * (e + ((d + 1 : ℕ) : ℝ) * (5 * Λ / 2 ^ 51)) := by
      push_cast; ring
    have e0 : 0 ≤ e := le_trans (abs_nonneg _) (he ⟨0, by positivity⟩)
    obtain ⟨l1, l2⟩ := ih (idx * 2) (fun i => boxplus (lo msg i) (hi msg i)) (fun i => boxplusD E L (lo msg' i) (hi msg' i)) (2 * Λ) (2 * e + 5 * Λ / 2 ^ 50)
      (isDouble_double hΛ) (by linarith) (fun i => rnd_isDouble _) (fun i => boxplusD_abs_le hE hL (hd _) (hd _) hΛ h2 (hm _)) (fun i => by
        have b1 := C138_boxplus hE hL (hd (halfEquiv d (.inl i))) (hd (halfEquiv d (.inr i)))
        have b2 := boxplus_lipschitz (lo msg i) (hi msg i) (lo msg' i) (hi msg' i) e (he _) (he _)
        have b3 : min |lo msg' i| |hi msg' i| ≤ Λ := (min_le_left _ _).trans (hm _)
        have b4 : (min |lo msg' i| |hi msg' i| + 8) / 2 ^ 50 ≤ 5 * Λ / 2 ^ 50 := div_le_div_of_nonneg_right (by linarith) (by positivity)
        have b5 := abs_sub_le (boxplusD E L (lo msg' i) (hi msg' i)) (boxplus (lo msg' i) (hi msg' i)) (boxplus (lo msg i) (hi msg i))
        have b1' : |boxplusD E L (lo msg' i) (hi msg' i) - boxplus (lo msg' i) (hi msg' i)| ≤ (min |lo msg' i| |hi msg' i| + 8) / 2 ^ 50 := b1
        linarith) (by
        intro i hf
        have := hmargin (halfEquiv d (.inl i)) (by
          rw [half_inl, show idx * 2 ^ (d + 1) + (i : Nat) = idx * 2 * 2 ^ d + i by rw [pow_succ]; ring]
          exact hf)
        rw [scRec] at this
        simp only [join_inl] at this
        rw [hbound]
        exact this)
    obtain ⟨r1, r2⟩ := ih (idx * 2 + 1) (fun i => hi msg i + (-1) ^ (polarT d (scRec frozen d (idx * 2) fun i => boxplus (lo msg i) (hi msg i)).2 i).val * lo msg i)
      (fun i => rnd (hi msg' i + (-1) ^ (polarT d (scRec frozen d (idx * 2) fun i => boxplus (lo msg i) (hi msg i)).2 i).val * lo msg' i)) (2 * Λ) (2 * e + 5 * Λ / 2 ^ 50)
      (isDouble_double hΛ) (by linarith) (fun i => rnd_isDouble _) (fun i => by
        apply rnd_abs_le (isDouble_double hΛ)
        refine (abs_add_le _ _).trans ?_
        rw [abs_mul, abs_pow, abs_neg, abs_one, one_pow, one_mul]
        have := hm (halfEquiv d (.inl i))
        have := hm (halfEquiv d (.inr i))
        simp only [lo, hi]
        linarith) (fun i => by
        have m1 := hm (halfEquiv d (.inl i))
        have m2 := hm (halfEquiv d (.inr i))
        have q1 := he (halfEquiv d (.inl i))
        have q2 := he (halfEquiv d (.inr i))
        have d1 := hd (halfEquiv d (.inl i))
        have d2 := hd (halfEquiv d (.inr i))
        generalize polarT d (scRec frozen d (idx * 2) fun i => boxplus (lo msg i) (hi msg i)).2 i = x
        simp only [lo, hi]
        generalize msg (halfEquiv d (.inl i)) = u at *
        generalize msg (halfEquiv d (.inr i)) = v at *
        generalize msg' (halfEquiv d (.inl i)) = u' at *
        generalize msg' (halfEquiv d (.inr i)) = v' at *
        have hsg : ∀ w : ℝ, |(-1) ^ x.val * w| = |w| := by
          intro w; rw [abs_mul, abs_pow, abs_neg, abs_one, one_pow, one_mul]
        have hdd : IsDouble ((-1) ^ x.val * u') := by
          rcases zmod2_cases x with rfl | rfl
          · rw [ZMod.val_zero, pow_zero, one_mul]; exact d1
          · rw [show (1 : ZMod 2).val = 1 from rfl, pow_one, neg_one_mul]; exact isDouble_neg d1
        have k1 := rnd_add_error d2 hdd
        have k2 : |v' + (-1) ^ x.val * u'| ≤ 2 * Λ := (abs_add_le _ _).trans (by rw [hsg]; linarith)
        have k3 : |v' + (-1) ^ x.val * u'| / 2 ^ 53 ≤ 2 * Λ / 2 ^ 53 := div_le_div_of_nonneg_right k2 (by positivity)
        have k4 : |(v' + (-1) ^ x.val * u') - (v + (-1) ^ x.val * u)| ≤ 2 * e := by
          have : (v' + (-1) ^ x.val * u') - (v + (-1) ^ x.val * u) = (v' - v) + (-1) ^ x.val * (u' - u) := by ring
          rw [this]
          exact (abs_add_le _ _).trans (by rw [hsg]; linarith)
        have k5 := abs_sub_le (rnd (v' + (-1) ^ x.val * u')) (v' + (-1) ^ x.val * u') (v + (-1) ^ x.val * u)
        have k6 : 2 * Λ / 2 ^ 53 ≤ 5 * Λ / 2 ^ 50 := by
          rw [div_le_div_iff₀ (by positivity) (by positivity)]
          nlinarith
        linarith) (by
        intro i hf
        have := hmargin (halfEquiv d (.inr i)) (by
          rw [half_inr, show idx * 2 ^ (d + 1) + (2 ^ d + (i : Nat)) = (idx * 2 + 1) * 2 ^ d + i by rw [pow_succ]; ring]
          exact hf)
        rw [scRec] at this
        simp only [join_inr] at this
        rw [hbound]
        exact this)
    rw [scRecF, scRec]
    simp only
    rw [l1]
    refine ⟨by rw [r1], fun x => ?_⟩
    rw [← hbound]
    obtain ⟨y, rfl⟩ := (halfEquiv d).surjective x
    cases y with
    | inl i => simp only [join_inl]; exact l2 i
    | inr i => simp only [join_inr]; exact r2 i

/-- The threshold that noiseless beliefs keep. -/
theorem isDouble_quarter (d : Nat) (hd : d ≤ 2 ^ 50) : IsDouble ((3 * (d : ℝ) + 1) / 4) := by
  refine ⟨3 * d + 1, -2, ?_, by norm_num, ?_⟩
  · rw [abs_of_nonneg (by positivity)]; omega
  · push_cast; norm_num; ring

theorem scRecF_noiseless {E L : ℝ → ℝ} (hE : ExpAccurate E) (hL : Log1pAccurate L) : ∀ (d idx : Nat) (msg : Fin (2 ^ d) → ℝ) (u : BVec (2 ^ d)), d ≤ 2 ^ 50 →
    (∀ i : Fin (2 ^ d), idx * 2 ^ d + i ∈ frozen → u i = 0) → (∀ j, IsDouble (msg j)) → (∀ j, (3 * (d : ℝ) + 1) / 4 ≤ (-1) ^ (polarT d u j).val * msg j) →
    (scRecF (boxplusD E L) (fun x y => rnd (x + y)) frozen d idx msg).2 = u ∧
    ∀ i, 0 < (-1) ^ (u i).val * (scRecF (boxplusD E L) (fun x y => rnd (x + y)) frozen d idx msg).1 i := by
  intro d
  induction d with
  | zero =>
    intro idx msg u _ hu _ hm
    rw [polarT] at hm
    rw [scRecF]
    have hm' : ∀ j, 0 < (-1) ^ (u j).val * msg j := fun j => by have := hm j; push_cast at this; linarith
    refine ⟨?_, hm'⟩
    funext i
    have hi0 : (i : Nat) = 0 := by simp
    have hui := hu i
    rw [hi0] at hui
    simp only [pow_zero, mul_one, add_zero] at hui
    simp only
    split
    · rename_i h; rw [hui h]
    · have := hm' i
      rcases zmod2_cases (u i) with h | h
      · rw [h, ZMod.val_zero, pow_zero, one_mul] at this
        rw [if_neg (by linarith), h]
      · rw [h, show (1 : ZMod 2).val = 1 from rfl, pow_one, neg_one_mul] at this
        rw [if_pos (by linarith), h]
  | succ d ih =>
    intro idx msg u hd50 hu hdb hm
    have v1 : (1 : ZMod 2).val = 1 := rfl
    have hq := isDouble_quarter d (by omega)
    obtain ⟨t, ht⟩ : ∃ t : ℝ, t = (3 * ((d + 1 : ℕ) : ℝ) + 1) / 4 := ⟨_, rfl⟩
    have htd : t - 3 / 4 = (3 * (d : ℝ) + 1) / 4 := by rw [ht]; push_cast; ring
    have ht0 : 0 < t := by rw [ht]; positivity
    rw [← ht] at hm
    rw [← htd] at ih hq
    have hml : ∀ i, t ≤ (-1) ^ (polarT d (lo u) i + polarT d (hi u) i).val * lo msg i := by
      intro i
      have := hm (halfEquiv d (.inl i))
      rw [polarT, join_inl] at this
      exact this
    have hmh : ∀ i, t ≤ (-1) ^ (polarT d (hi u) i).val * hi msg i := by
      intro i
      have := hm (halfEquiv d (.inr i))
      rw [polarT, join_inr] at this
      exact this
    have habs : ∀ (x : ZMod 2) (a : ℝ), t ≤ (-1) ^ x.val * a → t ≤ |a| := by
      intro x a h
      refine h.trans ((le_abs_self _).trans ?_)
      rw [abs_mul, abs_pow, abs_neg, abs_one, one_pow, one_mul]
    obtain ⟨l1, l2⟩ := ih (idx * 2) (fun i => boxplusD E L (lo msg i) (hi msg i)) (lo u) (by omega) (by
      intro i hi
      apply hu (halfEquiv d (.inl i))
      rw [half_inl, show idx * 2 ^ (d + 1) + (i : Nat) = idx * 2 * 2 ^ d + i by rw [pow_succ]; ring]
      exact hi) (fun j => rnd_isDouble _) (fun j => by
        have h1 := hml j
        have h2 := hmh j
        have a1 := habs _ _ h1
        have a2 := habs _ _ h2
        have hprod : 0 < (-1) ^ (polarT d (lo u) j).val * (lo msg j * hi msg j) := by
          have h3 := mul_pos (lt_of_lt_of_le ht0 h1) (lt_of_lt_of_le ht0 h2)
          rw [sign_add] at h3
          have hy : ((-1 : ℝ)) ^ (polarT d (hi u) j).val * (-1) ^ (polarT d (hi u) j).val = 1 := by
            rcases zmod2_cases (polarT d (hi u) j) with e | e <;> rw [e] <;> simp [v1]
          have : (-1) ^ (polarT d (lo u) j).val * (-1) ^ (polarT d (hi u) j).val * lo msg j * ((-1) ^ (polarT d (hi u) j).val * hi msg j) =
            ((-1) ^ (polarT d (hi u) j).val * (-1) ^ (polarT d (hi u) j).val) * ((-1) ^ (polarT d (lo u) j).val * (lo msg j * hi msg j)) := by ring
          rw [this, hy, one_mul] at h3
          exact h3
        have dl : IsDouble (lo msg j) := hdb _
        have dh : IsDouble (hi msg j) := hdb _
        rcases zmod2_cases (polarT d (lo u) j) with e | e
        · rw [e, ZMod.val_zero, pow_zero, one_mul] at hprod ⊢
          exact boxplusD_sign hE hL dl dh hq a1 a2 hprod
        · rw [e, v1, pow_one, neg_one_mul] at hprod ⊢
          have := boxplusD_sign' hE hL dl dh hq a1 a2 (by linarith)
          linarith)
    obtain ⟨r1, r2⟩ := ih (idx * 2 + 1) (fun i => rnd (hi msg i + (-1) ^ (polarT d (lo u) i).val * lo msg i)) (hi u) (by omega) (by
      intro i hi
      apply hu (halfEquiv d (.inr i))
      rw [half_inr, show idx * 2 ^ (d + 1) + (2 ^ d + (i : Nat)) = (idx * 2 + 1) * 2 ^ d + i by rw [pow_succ]; ring]
      exact hi) (fun j => rnd_isDouble _) (fun j => by
        have h1 := hml j
        have h2 := hmh j
        rw [sign_add] at h1
        have hsum : t - 3 / 4 ≤ (-1) ^ (polarT d (hi u) j).val * (hi msg j + (-1) ^ (polarT d (lo u) j).val * lo msg j) := by
          have : (-1) ^ (polarT d (hi u) j).val * (hi msg j + (-1) ^ (polarT d (lo u) j).val * lo msg j) =
            (-1) ^ (polarT d (hi u) j).val * hi msg j + (-1) ^ (polarT d (lo u) j).val * (-1) ^ (polarT d (hi u) j).val * lo msg j := by ring
          rw [this]
          linarith
        rcases zmod2_cases (polarT d (hi u) j) with e | e
        · rw [e, ZMod.val_zero, pow_zero, one_mul] at hsum ⊢
          rw [← rnd_of_isDouble hq]
          exact rnd_mono hsum
        · rw [e, v1, pow_one, neg_one_mul] at hsum ⊢
          have h3 : rnd (hi msg j + (-1) ^ (polarT d (lo u) j).val * lo msg j) ≤ -(t - 3 / 4) := by
            rw [← rnd_of_isDouble (isDouble_neg hq)]
            exact rnd_mono (by linarith)
          linarith)
    rw [scRecF]
    simp only [l1]
    refine ⟨by rw [r1, join_lo_hi], fun x => ?_⟩
    obtain ⟨y, rfl⟩ := (halfEquiv d).surjective x
    cases y with
    | inl i => rw [join_inl]; exact l2 i
    | inr i => rw [join_inr]; exact r2 i

theorem scSoftD_eq (E L : ℝ → ℝ) (mu : Nat) (frozen : List Nat) (li : Fin (2 ^ mu) → ℝ) :
    scSoftD E L mu frozen (List.ofFn li) = some (List.ofFn fun i : Fin (polarActive mu frozen).length =>
      (scRecF (boxplusD E L) (fun x y => rnd (x + y)) frozen mu 0 li).1 ⟨(polarActive mu frozen)[i], polarActive_lt i⟩) := by
  apply StateSpace.blockwise_one _ (by positivity) _ _ (by simp)
  rw [scBlockF_eq, List.ofFn_eq_map]

/-- If every received log-likelihood ratio has the sign of the bit that was sent and a magnitude of at least `(3 μ + 1) / 4`, the message is recovered in double precision. -/
theorem C138_sc_noiseless {E L : ℝ → ℝ} (hE : ExpAccurate E) (hL : Log1pAccurate L) (hmu : 1 ≤ mu) (hmu' : mu ≤ 2 ^ 50) (hlt : ∀ i ∈ frozen, i < 2 ^ mu) (hnd : frozen.Nodup) :
    ∃ c, polarCode mu frozen = some c ∧ ∀ (u : BVec (polarActive mu frozen).length) (li : Fin (2 ^ mu) → ℝ), (∀ j, IsDouble (li j)) →
      (∀ j, (c.encode u j = 0 → (3 * (mu : ℝ) + 1) / 4 ≤ li j) ∧ (c.encode u j = 1 → li j ≤ -((3 * (mu : ℝ) + 1) / 4))) →
      scHardD E L mu frozen (List.ofFn li) = some (List.ofFn u) := by
  classical
  obtain ⟨c, h1, -, -⟩ := C41_generator (polarGenerator mu frozen) polar_independent
  refine ⟨_, by rw [polarCode, if_neg (by omega), if_neg (by simpa using hlt), if_neg (by rw [hnd.dedup]; simp), h1,
    Option.map_some], fun u li hdb hl => ?_⟩
  simp only at hl
  have hrec := scRecF_noiseless (frozen := frozen) hE hL mu 0 li (polarScatter mu frozen u) hmu' (by
    intro i hi
    rw [zero_mul, zero_add] at hi
    exact polarScatter_frozen u i hi) hdb (by
    intro j
    rw [polarT_transform]
    rcases zmod2_cases (polarTransform mu (polarScatter mu frozen u) j) with h | h
    · have := (hl j).1 h
      rw [h, ZMod.val_zero]; linarith
    · have := (hl j).2 h
      rw [h, show (1 : ZMod 2).val = 1 from rfl]; linarith)
  rw [scHardD, scSoftD_eq, Option.map_some, List.map_ofFn]
  congr 2
  funext i
  simp only [Function.comp]
  have hs := hrec.2 ⟨(polarActive mu frozen)[i], polarActive_lt i⟩
  rw [polarScatter_active] at hs
  rcases zmod2_cases (u i) with h | h
  · rw [h, ZMod.val_zero, pow_zero, one_mul] at hs
    rw [if_neg (by linarith), h]
  · rw [h, show (1 : ZMod 2).val = 1 from rfl, pow_one, neg_one_mul] at hs
    rw [if_pos (by linarith), h]

/-- The decoder in double precision takes the decisions of the decoder in exact arithmetic, and its soft outputs are close to the exact ones, when the exact outputs exceed
`μ · 2 ^ μ · Λ · 5 / 2⁵¹`, where `Λ` bounds the magnitudes of the inputs. -/
theorem C138_sc_near {E L : ℝ → ℝ} (hE : ExpAccurate E) (hL : Log1pAccurate L) (mu : Nat) (frozen : List Nat) (li : Fin (2 ^ mu) → ℝ) (hdb : ∀ j, IsDouble (li j)) (Λ : ℝ)
    (hΛ : IsDouble Λ) (h2 : 2 ≤ Λ) (hl : ∀ j, |li j| ≤ Λ) :
    ∃ out out' : Fin (polarActive mu frozen).length → ℝ, scSoft mu frozen (List.ofFn li) = some (List.ofFn out) ∧ scSoftD E L mu frozen (List.ofFn li) = some (List.ofFn out') ∧
      ((∀ i, mu * 2 ^ mu * (5 * Λ / 2 ^ 51) < |out i|) → (∀ i, |out' i - out i| ≤ mu * 2 ^ mu * (5 * Λ / 2 ^ 51)) ∧
        scHardD E L mu frozen (List.ofFn li) = scHard mu frozen (List.ofFn li)) := by
  refine ⟨_, _, scSoft_eq mu frozen li, scSoftD_eq E L mu frozen li, fun hm => ?_⟩
  have hb : (2 : ℝ) ^ mu * (0 + mu * (5 * Λ / 2 ^ 51)) = mu * 2 ^ mu * (5 * Λ / 2 ^ 51) := by ring
  obtain ⟨h1, h3⟩ := scRecF_close (frozen := frozen) hE hL mu 0 li li Λ 0 hΛ h2 hdb hl (fun i => by simp) (by
    intro i hf
    rw [zero_mul, zero_add] at hf
    rw [hb]
    have hmem : (i : Nat) ∈ polarActive mu frozen := by
      rw [polarActive, List.mem_filter, List.mem_range]
      exact ⟨i.2, by simpa using hf⟩
    obtain ⟨j, hj, hji⟩ := List.mem_iff_getElem.mp hmem
    have := hm ⟨j, hj⟩
    have e : (⟨(polarActive mu frozen)[j], polarActive_lt ⟨j, hj⟩⟩ : Fin (2 ^ mu)) = i := Fin.ext hji
    simp only [Fin.getElem_fin, e] at this
    exact this)
  rw [hb] at h3
  refine ⟨fun i => h3 _, ?_⟩
  rw [scHardD, scHard, scSoft_eq, scSoftD_eq, Option.map_some, Option.map_some, List.map_ofFn, List.map_ofFn]
  congr 2
  funext i
  simp only [Function.comp]
  have a := h3 ⟨(polarActive mu frozen)[i], polarActive_lt i⟩
  have b := hm i
  rw [abs_le] at a
  by_cases hn : (scRec frozen mu 0 li).1 ⟨(polarActive mu frozen)[i], polarActive_lt i⟩ < 0
  · rw [abs_of_neg hn] at b
    rw [if_pos hn, if_pos (by linarith)]
  · rw [abs_of_nonneg (not_lt.mp hn)] at b
    rw [if_neg hn, if_neg (by linarith)]

/-! ### Reed decoding -/

theorem Double.val_neg (x : Double) : x.neg.val = -x.val := rfl
theorem Double.val_abs (x : Double) : x.abs.val = |x.val| := rfl

theorem listMinD_spec : ∀ l : List Double, l ≠ [] → (∀ x ∈ l, listMinD l ≤ x) ∧ listMinD l ∈ l
  | [], h => absurd rfl h
  | [x], _ => by simp [listMinD]
  | x :: y :: l, _ => by
    obtain ⟨h1, h2⟩ := listMinD_spec (y :: l) (by simp)
    rw [listMinD]
    constructor
    · intro z hz
      rcases List.mem_cons.mp hz with rfl | hz
      · exact min_le_left _ _
      · exact (min_le_right _ _).trans (h1 z hz)
    · rcases min_choice x (listMinD (y :: l)) with h | h
      · rw [h]; simp
      · rw [h]; exact List.mem_cons_of_mem _ h2

/-- Soft-decision Reed decoding in doubles corrects errors, however the decision variables are summed: let every position whose sign is right have reliability at
least `m`, and let `δ = 2^mu / 2^52`.  If the positions whose sign is wrong satisfy `∑ ((1 - δ) m + (1 + δ) |r j|) < d (1 - δ) m`, where `d = 2^(mu - rho)` is the minimum
distance, the message is returned. -/
theorem C138_reed_corrects {rho mu : Nat} (dot : List Double → Double) (hdot : ∀ l, SumOf l (dot l)) (h : rho < mu) (hmu : mu ≤ 52) :
    ∃ c, reedMullerCode rho mu = some c ∧ ∀ u (r : Fin (2 ^ mu) → Double) (m δ : ℝ), 0 ≤ m → δ = 2 ^ mu / 2 ^ 52 →
      (∀ j, c.encode u j = (if (r j).val < 0 then 1 else 0) → m ≤ |(r j).val|) →
      ∑ j, (if c.encode u j = (if (r j).val < 0 then 1 else 0) then 0 else (1 - δ) * m + (1 + δ) * |(r j).val|) < reedMullerMinimumDistance rho mu * ((1 - δ) * m) →
      reedDecodeSoftD dot rho mu r = u := by
  obtain ⟨c, h1, h2, h3⟩ := C41_generator (rmGenerator rho mu) rm_independent
  refine ⟨c, by rw [reedMullerCode, if_neg (by omega), h1], ?_⟩
  intro u r m δ hm hδ hgood hlt
  have hδ0 : 0 ≤ δ := by rw [hδ]; positivity
  have hδ1 : δ ≤ 1 := by
    rw [hδ, div_le_one (by positivity)]
    exact pow_le_pow_right₀ (by norm_num) hmu
  have henc : c.encode u = rmWord mu (List.ofFn u) (rmLists rho mu) := by
    rw [← rm_encode]
    funext j
    rw [h3.encode_eq, h2]
  obtain ⟨e, he⟩ : ∃ e : BVec (2 ^ mu), e = fun j => c.encode u j + (if (r j).val < 0 then 1 else 0) := ⟨_, rfl⟩
  have he0 : ∀ j, e j = 0 ↔ c.encode u j = (if (r j).val < 0 then 1 else 0) := by
    intro j
    rw [he]
    exact CharTwo.add_eq_zero
  have hbx : (fun j => if r j < 0 then 1 else 0) = rmWord mu (List.ofFn u) (rmLists rho mu) + e := by
    funext j
    rw [Pi.add_apply, ← henc, he]
    have := CharTwo.add_self_eq_zero (c.encode u j)
    rw [if_congr (show r j < 0 ↔ (r j).val < 0 from Iff.rfl) rfl rfl]
    linear_combination -this
  obtain ⟨W, hW⟩ : ∃ W : List Nat → Double, W = fun row => listMinD (row.map fun j => if h : j < 2 ^ mu then (r ⟨j, h⟩).abs else 0) := ⟨_, rfl⟩
  obtain ⟨dv, hdv⟩ : ∃ dv : BVec (2 ^ mu) → List (List Nat) → Double, dv = fun bx P =>
    dot (List.zipWith (fun (c : Nat) (w : Double) => if c = 0 then w else w.neg) (reedChecksums bx P) (P.map W)) := ⟨_, rfl⟩
  rw [reedDecodeSoftD, zip_eq, hbx, reed_loop_generic (fun bx P => if dv bx P < 0 then 1 else 0) (reedSoftLoopD dot r) (fun _ => rfl)
    (fun bx P g rest => by rw [hdv, hW]; rfl) e _ _
    (by rw [List.length_ofFn, rmRows_eq, List.length_map]) (fun J hJ => ((mem_rmLists J).mp hJ).1) rmLists_pairwise ?_]
  · funext i
    simp [vecOfList]
  intro I hIm bx u0 hchk
  obtain ⟨hI, hl⟩ := (mem_rmLists I).mp hIm
  have hWv : ∀ row ∈ reedPartition mu I.length I, (∀ x ∈ row, (W row).val ≤ (if h : x < 2 ^ mu then |(r ⟨x, h⟩).val| else 0)) ∧
      ∃ x ∈ row, (W row).val = (if h : x < 2 ^ mu then |(r ⟨x, h⟩).val| else 0) := by
    intro row hrow
    have hval : ∀ x : Nat, (if h : x < 2 ^ mu then (r ⟨x, h⟩).abs else 0 : Double).val = (if h : x < 2 ^ mu then |(r ⟨x, h⟩).val| else 0) := by
      intro x
      split
      · rfl
      · exact Double.val_zero
    obtain ⟨a, b⟩ := listMinD_spec (row.map fun j => if h : j < 2 ^ mu then (r ⟨j, h⟩).abs else 0) (by simpa using partition_row_ne_nil hrow)
    rw [hW]
    refine ⟨fun x hx => ?_, ?_⟩
    · rw [← hval]; exact Double.le_iff.mp (a _ (List.mem_map_of_mem hx))
    · obtain ⟨x, hx, hx'⟩ := List.mem_map.mp b
      exact ⟨x, hx, by rw [← hval, hx']⟩
  have hpos := margin_pos hI hl (fun x => if h : x < 2 ^ mu then |(r ⟨x, h⟩).val| else 0) (fun x => by split <;> simp) e m δ hδ0 hδ1 hm
    (by
      intro x hx hx0
      rw [dif_pos hx]
      apply hgood
      rw [← he0]
      simpa [vget, hx] using hx0)
    (fun row => (W row).val) hWv
    (by
      refine lt_of_le_of_lt (le_of_eq ?_) (lt_of_lt_of_eq hlt ?_)
      · apply Finset.sum_congr rfl
        intro j _
        rw [if_congr (he0 j) rfl rfl]
        simp
      · rw [reedMullerMinimumDistance]; push_cast; ring)
  have hv := vote_sum bx e u0 _ hchk (fun row => (W row).val)
  have herr := (hdot (List.zipWith (fun (c : Nat) (w : Double) => if c = 0 then w else w.neg) (reedChecksums bx (reedPartition mu I.length I)) ((reedPartition mu I.length I).map W))).error
  have hlen : (reedPartition mu I.length I).length ≤ 2 ^ mu := by
    rw [partition_length hI]; exact Nat.pow_le_pow_right (by norm_num) (by omega)
  have hW0 : ∀ row ∈ reedPartition mu I.length I, 0 ≤ (W row).val := by
    intro row hrow
    obtain ⟨x, -, hx⟩ := (hWv row hrow).2
    rw [hx]; split <;> simp
  change (if dv bx _ < 0 then 1 else 0) = u0
  have hdvv : dv bx (reedPartition mu I.length I) = dot (List.zipWith (fun (c : Nat) (w : Double) => if c = 0 then w else w.neg) (reedChecksums bx (reedPartition mu I.length I))
    ((reedPartition mu I.length I).map W)) := by rw [hdv]
  rw [← hdvv] at herr
  have hzip : List.zipWith (fun (c : Nat) (w : Double) => if c = 0 then w else w.neg) (reedChecksums bx (reedPartition mu I.length I)) ((reedPartition mu I.length I).map W) =
      (reedPartition mu I.length I).map fun row => if (row.countP fun j => vget bx j ≠ 0) % 2 = 0 then W row else (W row).neg := by
    unfold reedChecksums
    rw [List.zipWith_map, List.zipWith_self]
  have hzip' : List.zipWith (fun (c : Nat) (w : ℝ) => if c = 0 then w else -w) (reedChecksums bx (reedPartition mu I.length I)) ((reedPartition mu I.length I).map fun row => (W row).val) =
      (reedPartition mu I.length I).map fun row => if (row.countP fun j => vget bx j ≠ 0) % 2 = 0 then (W row).val else -(W row).val := by
    unfold reedChecksums
    rw [List.zipWith_map, List.zipWith_self]
  rw [hzip'] at hv
  rw [hzip] at herr
  generalize reedPartition mu I.length I = P at *
  have hreal : realSum (P.map fun row => if (row.countP fun j => vget bx j ≠ 0) % 2 = 0 then W row else (W row).neg) =
      (P.map fun row => if (row.countP fun j => vget bx j ≠ 0) % 2 = 0 then (W row).val else -(W row).val).sum := by
    rw [realSum, List.map_map]
    congr 1
    apply List.map_congr_left
    intro row _
    simp only [Function.comp]
    split <;> rfl
  have habs : absSum (P.map fun row => if (row.countP fun j => vget bx j ≠ 0) % 2 = 0 then W row else (W row).neg) = (P.map fun row => (W row).val).sum := by
    rw [absSum, List.map_map]
    congr 1
    apply List.map_congr_left
    intro row hrow
    simp only [Function.comp]
    split
    · rw [abs_of_nonneg (hW0 row hrow)]
    · rw [Double.val_neg, abs_neg, abs_of_nonneg (hW0 row hrow)]
  rw [hreal, habs, hv, List.length_map] at herr
  have hS0 : 0 ≤ (P.map fun row => (W row).val).sum := List.sum_nonneg (by
    intro y hy
    obtain ⟨row, hrow, rfl⟩ := List.mem_map.mp hy
    exact hW0 row hrow)
  have hgr : (1 + 1 / 2 ^ 53 : ℝ) ^ P.length - 1 ≤ δ := by
    refine (growth P.length (hlen.trans (Nat.pow_le_pow_right (by norm_num) hmu))).trans ?_
    rw [hδ]
    apply div_le_div_of_nonneg_right _ (by positivity)
    exact_mod_cast hlen
  have herr' := herr.trans (mul_le_mul_of_nonneg_right hgr hS0)
  have hsplit : (P.map fun row => if chk e row = 0 then (1 - δ) * (W row).val else -((1 + δ) * (W row).val)).sum =
      (P.map fun row => if chk e row = 0 then (W row).val else -(W row).val).sum - δ * (P.map fun row => (W row).val).sum := by
    clear hpos hv herr herr' hreal habs hgr hlen hS0 hW0 hWv hchk hzip hzip' hdvv
    induction P with
    | nil => simp
    | cons row P ih =>
      rw [List.map_cons, List.map_cons, List.map_cons, List.sum_cons, List.sum_cons, List.sum_cons, ih]
      split <;> ring
  rw [hsplit] at hpos
  have hb := abs_le.mp herr'
  rcases zmod2_cases u0 with rfl | rfl
  · rw [if_pos rfl, one_mul] at hb
    rw [if_neg]
    intro hlt0
    have := Double.lt_iff.mp hlt0
    rw [Double.val_zero] at this
    linarith [hb.1]
  · rw [if_neg (show (1 : ZMod 2) ≠ 0 by decide)] at hb
    rw [if_pos]
    apply Double.lt_iff.mpr
    rw [Double.val_zero]
    linarith [hb.2]

/-- Soft-decision Reed decoding in doubles returns the message whenever the signs of the (non-zero) L-values spell its codeword, whatever the reliabilities. -/
theorem C138_reed_noiseless {rho mu : Nat} (dot : List Double → Double) (hdot : ∀ l, SumOf l (dot l)) (h : rho < mu) (hmu : mu ≤ 51) :
    ∃ c, reedMullerCode rho mu = some c ∧ ∀ u (r : Fin (2 ^ mu) → Double), (∀ j, (r j).val ≠ 0) → (∀ j, c.encode u j = if (r j).val < 0 then 1 else 0) →
      reedDecodeSoftD dot rho mu r = u := by
  obtain ⟨c, hc, hh⟩ := C138_reed_corrects dot hdot h (by omega)
  refine ⟨c, hc, fun u r hr hs => ?_⟩
  obtain ⟨j0, -, hj0⟩ := Finset.exists_min_image (Finset.univ : Finset (Fin (2 ^ mu))) (fun j => |(r j).val|) ⟨⟨0, by positivity⟩, by simp⟩
  have hδ1 : (2 : ℝ) ^ mu / 2 ^ 52 < 1 := by
    rw [div_lt_one (by positivity)]
    exact pow_lt_pow_right₀ (by norm_num) (by omega)
  refine hh u r |(r j0).val| _ (abs_nonneg _) rfl (fun j _ => hj0 j (by simp)) ?_
  rw [Finset.sum_eq_zero fun j _ => if_pos (hs j)]
  refine mul_pos ?_ (mul_pos (by linarith) (abs_pos.mpr (hr j0)))
  rw [reedMullerMinimumDistance]; positivity

/-! ### Wagner decoding -/

theorem argminOn_congr {α K K' : Type} [LT K] [DecidableRel (α := K) (· < ·)] [LT K'] [DecidableRel (α := K') (· < ·)] (f : α → K) (g : α → K')
    (h : ∀ x y, f x < f y ↔ g x < g y) (b : α) (l : List α) : argminOn f b l = argminOn g b l := by
  induction l generalizing b with
  | nil => rfl
  | cons a l ih => simp only [argminOn, h]

/-- The Wagner decoder makes no rounding error: it decides on doubles as in exact arithmetic. -/
theorem C138_wagner_exact {n : Nat} (r : Fin (n + 1) → Double) : wagnerWordD r = wagnerWord fun j => (r j).val := by
  unfold wagnerWordD wagnerWord
  simp only
  rw [argminOn_congr (fun j : Fin (n + 1) => (r j).abs) (fun j => |(r j).val|) (fun x y => Iff.rfl)]
  rfl

/-- The Wagner decoder in doubles is maximum likelihood for the single parity check code: no codeword has a larger (exact) correlation with the received values. -/
theorem C138_wagner {n : Nat} :
    ∃ c, singleParityCheckCode (n + 1) = some c ∧ ∀ (r : Fin (n + 1) → Double) (u : BVec (n + 1 - 1)),
      ∑ j, (r j).val * (-1) ^ (c.encode u j).val ≤ ∑ j, (r j).val * (-1) ^ (c.encode (wagnerDecodeD c r) j).val := by
  obtain ⟨c, h1, h2⟩ := C56_wagner (K := ℝ) (n := n)
  refine ⟨c, h1, fun r u => ?_⟩
  have := h2 (fun j => (r j).val) u
  unfold correlation at this
  rwa [wagnerDecode, ← C138_wagner_exact] at this

/-! ### exhaustive search -/

theorem signed_sums {n : Nat} (v : BVec n) (r : Fin n → Double) :
    realSum (List.ofFn fun j : Fin n => if v j = 0 then (r j).neg else r j) = -∑ j, (r j).val * (-1) ^ (v j).val ∧
    absSum (List.ofFn fun j : Fin n => if v j = 0 then (r j).neg else r j) = ∑ j, |(r j).val| := by
  constructor
  · rw [realSum, List.map_ofFn, List.sum_ofFn, ← Finset.sum_neg_distrib]
    apply Finset.sum_congr rfl
    intro j _
    simp only [Function.comp]
    rcases zmod2_cases (v j) with h | h <;> rw [h]
    · simp [Double.val_neg]
    · rw [if_neg (by decide), show (1 : ZMod 2).val = 1 from rfl]; ring
  · rw [absSum, List.map_ofFn, List.sum_ofFn]
    apply Finset.sum_congr rfl
    intro j _
    simp only [Function.comp]
    split
    · rw [Double.val_neg, abs_neg]
    · rfl

variable {k m n : Nat}

theorem exhaustiveSoftD_spec (sum : List Double → Double) (c : LinCode k m n) (h : c.Lawful) (r : Fin n → Double) :
    ∃ u, exhaustiveSoftD sum c r = some u ∧ ∀ u', sum (List.ofFn fun j : Fin n => if c.encode u j = 0 then (r j).neg else r j) ≤
      sum (List.ofFn fun j : Fin n => if c.encode u' j = 0 then (r j).neg else r j) := by
  obtain ⟨v0, vs, hc⟩ := codewords_cons c
  unfold exhaustiveSoftD
  rw [hc]
  obtain ⟨f, hf⟩ : ∃ f : BVec n → Double, f = fun v : BVec n => sum (List.ofFn fun j : Fin n => if v j = 0 then (r j).neg else r j) := ⟨_, rfl⟩
  obtain ⟨h1, h2⟩ := argminOn_spec f v0 vs
  rw [← hc] at h1 h2
  obtain ⟨u, hu⟩ := (codewords_mem c _).mp h1
  refine ⟨u, by simp only; rw [← hf, ← hu, h.project_encode], fun u' => ?_⟩
  have hle := h2 _ ((codewords_mem c _).mpr ⟨u', rfl⟩)
  rw [← hu, hf] at hle
  exact hle

/-- Soft-decision exhaustive search in doubles, for any lawful code and however `np.sum` orders its sums: the correlation of the returned codeword is within
`n · 2⁻⁵¹ · Σ |rⱼ|` of the best. -/
theorem C138_exhaustive_near (sum : List Double → Double) (hsum : ∀ l, SumOf l (sum l)) (c : LinCode k m n) (h : c.Lawful) (hn : n ≤ 2 ^ 52) (r : Fin n → Double) :
    ∃ u, exhaustiveSoftD sum c r = some u ∧ ∀ u',
      ∑ j, (r j).val * (-1) ^ (c.encode u' j).val ≤ ∑ j, (r j).val * (-1) ^ (c.encode u j).val + n / 2 ^ 51 * ∑ j, |(r j).val| := by
  obtain ⟨u, h1, h2⟩ := exhaustiveSoftD_spec sum c h r
  refine ⟨u, h1, fun u' => ?_⟩
  have e1 := (hsum (List.ofFn fun j : Fin n => if c.encode u j = 0 then (r j).neg else r j)).error
  have e2 := (hsum (List.ofFn fun j : Fin n => if c.encode u' j = 0 then (r j).neg else r j)).error
  obtain ⟨a1, b1⟩ := signed_sums (c.encode u) r
  obtain ⟨a2, b2⟩ := signed_sums (c.encode u') r
  rw [a1, b1, List.length_ofFn] at e1
  rw [a2, b2, List.length_ofFn] at e2
  have hR : 0 ≤ ∑ j, |(r j).val| := Finset.sum_nonneg fun i _ => abs_nonneg _
  have hg := mul_le_mul_of_nonneg_right (growth n hn) hR
  have hle := Double.le_iff.mp (h2 u')
  have e1' := abs_le.mp (e1.trans hg)
  have e2' := abs_le.mp (e2.trans hg)
  have hs : (n : ℝ) / 2 ^ 51 = 2 * (n / 2 ^ 52) := by ring
  rw [hs]
  linarith [e1'.1, e1'.2, e2'.1, e2'.2]

/-- Hence a message whose codeword beats every other one by more than `n · 2⁻⁵¹ · Σ |rⱼ|` is returned. -/
theorem C138_exhaustive_margin (sum : List Double → Double) (hsum : ∀ l, SumOf l (sum l)) (c : LinCode k m n) (h : c.Lawful) (hn : n ≤ 2 ^ 52) (r : Fin n → Double) (u : BVec k)
    (hu : ∀ u', u' ≠ u → ∑ j, (r j).val * (-1) ^ (c.encode u' j).val + n / 2 ^ 51 * ∑ j, |(r j).val| < ∑ j, (r j).val * (-1) ^ (c.encode u j).val) :
    exhaustiveSoftD sum c r = some u := by
  obtain ⟨u0, h1, h2⟩ := C138_exhaustive_near sum hsum c h hn r
  by_cases h0 : u0 = u
  · rw [h1, h0]
  · exact absurd (h2 u) (not_le.mpr (hu u0 h0))

/-- On integer L-values that sum to at most `2⁵³` in absolute value, exhaustive search in doubles is exactly maximum likelihood. -/
theorem C138_exhaustive_exact (sum : List Double → Double) (hsum : ∀ l, SumOf l (sum l)) (c : LinCode k m n) (h : c.Lawful) (r : Fin n → Double)
    (hint : ∀ j, ∃ z : ℤ, (r j).val = z) (hb : ∑ j, |(r j).val| ≤ 2 ^ 53) :
    ∃ u, exhaustiveSoftD sum c r = some u ∧ ∀ u', ∑ j, (r j).val * (-1) ^ (c.encode u' j).val ≤ ∑ j, (r j).val * (-1) ^ (c.encode u j).val := by
  obtain ⟨u, h1, h2⟩ := exhaustiveSoftD_spec sum c h r
  refine ⟨u, h1, fun u' => ?_⟩
  have key : ∀ u0 : BVec k, (sum (List.ofFn fun j : Fin n => if c.encode u0 j = 0 then (r j).neg else r j)).val = -∑ j, (r j).val * (-1) ^ (c.encode u0 j).val := by
    intro u0
    obtain ⟨a1, b1⟩ := signed_sums (c.encode u0) r
    rw [(hsum _).exact ?_ (by rw [b1]; exact hb), a1]
    intro x hx
    obtain ⟨j, rfl⟩ := (List.mem_ofFn' _ _).mp hx
    obtain ⟨z, hz⟩ := hint j
    dsimp only
    split
    · exact ⟨-z, by rw [Double.val_neg, hz]; push_cast; rfl⟩
    · exact ⟨z, hz⟩
  have := Double.le_iff.mp (h2 u')
  rw [key, key] at this
  linarith

/-! ### the hypotheses are met -/

theorem accurate_exist : ExpAccurate Real.exp ∧ Log1pAccurate fun x => Real.log (1 + x) :=
  ⟨fun x _ => ⟨(Real.exp_pos x).le, by simp⟩, fun x hx _ => ⟨Real.log_nonneg (by linarith), by simp⟩⟩

/-- A polar code of length 4 with received values 2 and -2: `(3 μ + 1) / 4 = 7 / 4`. -/
example : ∃ c, polarCode 2 [0, 1] = some c ∧ scHardD Real.exp (fun x => Real.log (1 + x)) 2 [0, 1] (List.ofFn fun j : Fin (2 ^ 2) => if c.encode ![1, 0] j = 0 then 2 else -2) =
    some (List.ofFn (![1, 0] : BVec 2)) := by
  obtain ⟨c, h1, h2⟩ := C138_sc_noiseless (mu := 2) (frozen := [0, 1]) accurate_exist.1 accurate_exist.2 (by norm_num) (by norm_num) (by decide) (by decide)
  refine ⟨c, h1, h2 ![1, 0] _ (fun j => ?_) fun j => ?_⟩
  · split
    · exact ⟨2, 0, by norm_num, by norm_num, by norm_num⟩
    · exact ⟨-2, 0, by norm_num, by norm_num, by norm_num⟩
  · constructor
    · intro h; rw [if_pos h]; norm_num
    · intro h; rw [h, if_neg (by decide)]; norm_num

/-- `ReedMullerCode(1, 3)`: one wrong sign, twice as reliable as the others. -/
example (dot : List Double → Double) (hdot : ∀ l, SumOf l (dot l)) : ∃ r : Fin (2 ^ 3) → Double, (fun j => (r j).val) = ![3, 3, 3, 3, -6, 3, 3, 3] ∧
    List.ofFn (reedDecodeSoftD dot 1 3 r) = [0, 0, 0, 0] := by
  obtain ⟨c, h1, h2⟩ := C138_reed_corrects (rho := 1) (mu := 3) dot hdot (by norm_num) (by norm_num)
  have h3 : (Double.ofInt 3).val = 3 := by rw [Double.val_ofInt 3 (by norm_num)]; norm_num
  have h6 : (Double.ofInt (-6)).val = -6 := by rw [Double.val_ofInt (-6) (by norm_num)]; norm_num
  obtain ⟨r, hr⟩ : ∃ r : Fin (2 ^ 3) → Double, ∀ j, (r j).val = (![3, 3, 3, 3, -6, 3, 3, 3] : Fin (2 ^ 3) → ℝ) j := by
    refine ⟨fun j => if j = 4 then Double.ofInt (-6) else Double.ofInt 3, fun j => ?_⟩
    dsimp only
    split
    · rename_i h; subst h; rw [h6]; rfl
    · rename_i h; rw [h3]; fin_cases j <;> first | rfl | exact absurd rfl h
  refine ⟨r, funext hr, ?_⟩
  have hl := C41_generator (rmGenerator 1 3) rm_independent
  have hz : ∀ j, c.encode 0 j = 0 := by
    obtain ⟨c', g1, -, g3⟩ := hl
    rw [reedMullerCode, if_neg (by norm_num), g1] at h1
    cases h1
    intro j
    rw [g3.encode_zero]; rfl
  rw [h2 0 r 3 _ (by norm_num) rfl ?_ ?_]
  · decide +kernel
  · intro j _
    rw [hr]; fin_cases j <;> norm_num [abs_of_nonneg, abs_of_neg]
  · rw [Finset.sum_congr rfl fun j _ => by rw [hz, hr]]
    rw [show reedMullerMinimumDistance 1 3 = 4 from rfl]
    simp [Fin.sum_univ_succ]
    norm_num

theorem exG_independent : LinearIndependent (ZMod 2) exG := by
  rw [linearIndependent_iff_card_eq_finrank_span, Fintype.card_fin, Set.finrank, ← rank_spec]; decide +kernel

/-- Exhaustive search over the code with generator matrix `exG`: integers. -/
example (sum : List Double → Double) (hsum : ∀ l, SumOf l (sum l)) : ∃ c, blockCodeOfGenerator exG = some c ∧ ∃ u, exhaustiveSoftD sum c (fun _ => Double.ofInt (-5)) = some u ∧
    ∀ u', ∑ j : Fin 6, (-5 : ℝ) * (-1) ^ (c.encode u' j).val ≤ ∑ j : Fin 6, (-5 : ℝ) * (-1) ^ (c.encode u j).val := by
  obtain ⟨c, h1, -, h3⟩ := C41_generator exG exG_independent
  have h5 : (Double.ofInt (-5)).val = -5 := by rw [Double.val_ofInt (-5) (by norm_num)]; norm_num
  refine ⟨c, h1, ?_⟩
  have := C138_exhaustive_exact sum hsum c h3 (fun _ => Double.ofInt (-5)) (fun _ => ⟨-5, by rw [h5]; norm_num⟩) (by simp [h5]; norm_num)
  simpa only [h5] using this

end Komm
