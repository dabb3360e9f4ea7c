import Verif.Model.Double
import Verif.Lemmas.Constellations
/-! Facts about rounding to double precision. -/
namespace Komm

/-- `npRound` is a nearest integer. -/
theorem npRound_nearest (x : ℝ) (k : ℤ) : |(npRound x : ℝ) - x| ≤ |(k : ℝ) - x| := by
  have h := npRound_spec x
  rw [abs_sub_comm] at h
  by_cases hk : k = npRound x
  · rw [hk]
  · have h1 : (1 : ℝ) ≤ |((k - npRound x : ℤ) : ℝ)| := by
      rw [← Int.cast_abs]
      exact_mod_cast Int.one_le_abs (sub_ne_zero.mpr hk)
    push_cast at h1
    have h2 : |(k : ℝ) - npRound x| ≤ |(k : ℝ) - x| + |x - npRound x| := abs_sub_le _ _ _
    rw [abs_sub_comm x] at h2
    linarith

theorem two_zpow_pos (e : ℤ) : (0 : ℝ) < 2 ^ e := by positivity

theorem rnd_error_ulp (x : ℝ) : |rnd x - x| ≤ 2 ^ ulpExp x / 2 := by
  have hU := two_zpow_pos (ulpExp x)
  have h := npRound_spec (x / 2 ^ ulpExp x)
  rw [abs_sub_comm] at h
  have e : rnd x - x = (npRound (x / 2 ^ ulpExp x) - x / 2 ^ ulpExp x) * 2 ^ ulpExp x := by
    rw [rnd]; field_simp
  rw [e, abs_mul, abs_of_pos hU]
  nlinarith

/-- Nearest among the multiples of the last place. -/
theorem rnd_nearest_multiple (x : ℝ) (k : ℤ) : |rnd x - x| ≤ |k * 2 ^ ulpExp x - x| := by
  have hU := two_zpow_pos (ulpExp x)
  have h := npRound_nearest (x / 2 ^ ulpExp x) k
  have e : ∀ j : ℤ, (j : ℝ) * 2 ^ ulpExp x - x = (j - x / 2 ^ ulpExp x) * 2 ^ ulpExp x := fun j => by field_simp
  rw [rnd, e, e, abs_mul, abs_mul, abs_of_pos hU]
  exact mul_le_mul_of_nonneg_right h hU.le

theorem zpow_split (e f : ℤ) (h : f ≤ e) : (2 : ℝ) ^ e = ((2 ^ (e - f).toNat : ℤ) : ℝ) * 2 ^ f := by
  push_cast
  rw [← zpow_natCast, ← zpow_add₀ (by norm_num), Int.toNat_of_nonneg (by omega)]
  congr 1; ring

theorem double_abs_lt (m e : ℤ) (hm : |m| < 2 ^ 53) : |(m : ℝ) * 2 ^ e| < 2 ^ (53 + e) := by
  rw [abs_mul, abs_of_pos (two_zpow_pos e), zpow_add₀ (by norm_num)]
  have : |(m : ℝ)| < 2 ^ (53 : ℤ) := by
    rw [← Int.cast_abs]
    have : ((|m| : ℤ) : ℝ) < ((2 ^ 53 : ℤ) : ℝ) := by exact_mod_cast hm
    rw [show (2 : ℝ) ^ (53 : ℤ) = ((2 ^ 53 : ℤ) : ℝ) by norm_num]
    exact this
  exact mul_lt_mul_of_pos_right this (two_zpow_pos e)

/-- A double is rounded to itself. -/
theorem rnd_of_isDouble {x : ℝ} (hx : IsDouble x) : rnd x = x := by
  obtain ⟨m, e, hm, he, rfl⟩ := hx
  by_cases h0 : m = 0
  · subst h0
    simp only [Int.cast_zero, zero_mul, rnd, zero_div]
    have := npRound_int (K := ℝ) 0
    rw [Int.cast_zero] at this
    rw [this]; simp
  have hpos : 0 < |(m : ℝ) * 2 ^ e| := by
    rw [abs_pos]
    have : (m : ℝ) ≠ 0 := by exact_mod_cast h0
    positivity
  have hlog : Int.log 2 |(m : ℝ) * 2 ^ e| < 53 + e := by
    rw [← Int.lt_zpow_iff_log_lt (by norm_num) hpos]
    exact_mod_cast double_abs_lt m e hm
  have hE : ulpExp ((m : ℝ) * 2 ^ e) ≤ e := by rw [ulpExp]; omega
  have h := rnd_nearest_multiple ((m : ℝ) * 2 ^ e) (m * 2 ^ (e - ulpExp ((m : ℝ) * 2 ^ e)).toNat)
  have hs := zpow_split e (ulpExp ((m : ℝ) * 2 ^ e)) hE
  rw [Int.cast_mul, mul_assoc, ← hs, sub_self, abs_zero] at h
  have := abs_nonpos_iff.mp h
  linarith

/-- The result of rounding is a double. -/
theorem rnd_isDouble (x : ℝ) : IsDouble (rnd x) := by
  by_cases h0 : x = 0
  · subst h0
    refine ⟨0, 0, by norm_num, by norm_num, ?_⟩
    have := npRound_int (K := ℝ) 0
    rw [Int.cast_zero] at this
    simp [rnd, this]
  have hpos : 0 < |x| := abs_pos.mpr h0
  have hlt : |x| < 2 ^ (53 + ulpExp x) := by
    have h1 := Int.lt_zpow_succ_log_self (b := 2) (by norm_num) |x|
    refine lt_of_lt_of_le (by exact_mod_cast h1) (zpow_le_zpow_right₀ (by norm_num) ?_)
    rw [ulpExp]; omega
  have hU := two_zpow_pos (ulpExp x)
  have hk : |npRound (x / 2 ^ ulpExp x)| ≤ 2 ^ 53 := by
    have h1 := npRound_spec (x / 2 ^ ulpExp x)
    have h2 : |x / 2 ^ ulpExp x| < 2 ^ 53 := by
      rw [abs_div, abs_of_pos hU, div_lt_iff₀ hU]
      rw [zpow_add₀ (by norm_num)] at hlt
      exact_mod_cast hlt
    have h3 : |(npRound (x / 2 ^ ulpExp x) : ℝ)| < 2 ^ 53 + 1 := by
      have := abs_sub_abs_le_abs_sub (npRound (x / 2 ^ ulpExp x) : ℝ) (x / 2 ^ ulpExp x)
      rw [abs_sub_comm] at this
      linarith
    rw [← Int.cast_abs] at h3
    have h4 : |npRound (x / 2 ^ ulpExp x)| < 2 ^ 53 + 1 := by exact_mod_cast h3
    omega
  have hE : -1074 ≤ ulpExp x := by rw [ulpExp]; omega
  rcases lt_or_eq_of_le hk with h | h
  · exact ⟨npRound (x / 2 ^ ulpExp x), ulpExp x, h, hE, rfl⟩
  · rcases abs_eq (by norm_num : (0 : ℤ) ≤ 2 ^ 53) |>.mp h with h | h
    · refine ⟨2 ^ 52, ulpExp x + 1, by norm_num, by omega, ?_⟩
      rw [rnd, h, zpow_add_one₀ (by norm_num)]; push_cast; ring
    · refine ⟨-2 ^ 52, ulpExp x + 1, by norm_num, by omega, ?_⟩
      rw [rnd, h, zpow_add_one₀ (by norm_num)]; push_cast; ring

theorem rnd_zero : rnd (0 : ℝ) = 0 := rnd_of_isDouble ⟨0, 0, by norm_num, by norm_num, by simp⟩

/-- No double is nearer to `x` than `rnd x`. -/
theorem rnd_nearest (x : ℝ) {d : ℝ} (hd : IsDouble d) : |rnd x - x| ≤ |d - x| := by
  by_cases h0 : x = 0
  · subst h0; rw [rnd_zero, sub_self, abs_zero]; exact abs_nonneg _
  obtain ⟨m, e, hm, he, rfl⟩ := hd
  rcases le_or_gt (ulpExp x) e with hE | hE
  · have h := rnd_nearest_multiple x (m * 2 ^ (e - ulpExp x).toNat)
    rwa [Int.cast_mul, mul_assoc, ← zpow_split e (ulpExp x) hE] at h
  · have hU : ulpExp x = Int.log 2 |x| - 52 := by
      have : ulpExp x = max (Int.log 2 |x| - 52) (-1074) := rfl
      omega
    have hpos : 0 < |x| := abs_pos.mpr h0
    have hlo : (2 : ℝ) ^ (52 + ulpExp x) ≤ |x| := by
      have h1 := Int.zpow_log_le_self (b := 2) (by norm_num) hpos
      rw [hU, show 52 + (Int.log 2 |x| - 52) = Int.log 2 |x| by ring]
      exact_mod_cast h1
    have hb : |(m : ℝ) * 2 ^ e| ≤ 2 ^ (52 + ulpExp x) :=
      (double_abs_lt m e hm).le.trans (zpow_le_zpow_right₀ (by norm_num) (by omega))
    obtain ⟨d, hd⟩ : ∃ d, d = (m : ℝ) * 2 ^ e := ⟨_, rfl⟩
    rw [← hd] at hb ⊢
    have hP : (2 : ℝ) ^ (52 + ulpExp x) = ((2 ^ 52 : ℤ) : ℝ) * 2 ^ ulpExp x := by
      rw [zpow_add₀ (by norm_num)]; norm_num
    rw [abs_le] at hb
    rcases lt_or_gt_of_ne h0 with hx | hx
    · have h := rnd_nearest_multiple x (-2 ^ 52)
      rw [abs_of_neg hx] at hlo
      rw [Int.cast_neg, neg_mul, ← hP, abs_of_nonneg (a := -_ - x) (by linarith)] at h
      rw [abs_of_nonneg (a := d - x) (by linarith)]
      linarith
    · have h := rnd_nearest_multiple x (2 ^ 52)
      rw [abs_of_pos hx] at hlo
      rw [← hP, abs_of_nonpos (a := _ ^ _ - x) (by linarith)] at h
      rw [abs_of_nonpos (a := d - x) (by linarith)]
      linarith

/-- Rounding is monotone. -/
theorem rnd_mono {x y : ℝ} (h : x ≤ y) : rnd x ≤ rnd y := by
  by_contra hlt
  rw [not_le] at hlt
  rcases eq_or_lt_of_le h with rfl | h
  · exact lt_irrefl _ hlt
  have h1 := rnd_nearest x (rnd_isDouble y)
  have h2 := rnd_nearest y (rnd_isDouble x)
  generalize rnd x = a at *
  generalize rnd y = b at *
  rw [abs_le_iff_mul_self_le] at h1 h2
  nlinarith

/-- Every double is a multiple of the smallest subnormal. -/
theorem isDouble_multiple {x : ℝ} (hx : IsDouble x) : ∃ k : ℤ, x = k * 2 ^ (-1074 : ℤ) := by
  obtain ⟨m, e, _, he, rfl⟩ := hx
  refine ⟨m * 2 ^ (e - -1074).toNat, ?_⟩
  rw [Int.cast_mul, mul_assoc, ← zpow_split e (-1074) he]

/-- The relative error of a rounding outside the subnormal range, and the absolute one inside. -/
theorem rnd_error_rel (x : ℝ) : |rnd x - x| ≤ |x| / 2 ^ 53 ∨ ulpExp x = -1074 := by
  by_cases h0 : x = 0
  · subst h0; left; rw [rnd_zero]; simp
  have h := rnd_error_ulp x
  rcases le_or_gt (Int.log 2 |x| - 52) (-1074) with hE | hE
  · right; rw [ulpExp]; omega
  · left
    have hU : ulpExp x = Int.log 2 |x| - 52 := by rw [ulpExp]; omega
    have h1 := Int.zpow_log_le_self (b := 2) (by norm_num) (abs_pos.mpr h0)
    have h2 : (2 : ℝ) ^ Int.log 2 |x| ≤ |x| := by exact_mod_cast h1
    rw [hU, zpow_sub₀ (by norm_num)] at h
    refine h.trans ?_
    rw [div_div, show ((2 : ℝ) ^ (52 : ℤ)) * 2 = 2 ^ 53 by norm_num]
    exact div_le_div_of_nonneg_right h2 (by positivity)

/-- Adding two doubles: the relative error of the result is at most `2⁻⁵³`, also when it is subnormal. -/
theorem rnd_add_error {a b : ℝ} (ha : IsDouble a) (hb : IsDouble b) : |rnd (a + b) - (a + b)| ≤ |a + b| / 2 ^ 53 := by
  rcases rnd_error_rel (a + b) with h | h
  · exact h
  · obtain ⟨i, hi⟩ := isDouble_multiple ha
    obtain ⟨j, hj⟩ := isDouble_multiple hb
    have h2 := rnd_nearest_multiple (a + b) (i + j)
    rw [h, Int.cast_add, add_mul, ← hi, ← hj, sub_self, abs_zero] at h2
    exact h2.trans (by positivity)

/-- The integers up to `2⁵³` are doubles. -/
theorem isDouble_int (n : ℤ) (h : |n| ≤ 2 ^ 53) : IsDouble (n : ℝ) := by
  rcases lt_or_eq_of_le h with h | h
  · exact ⟨n, 0, h, by norm_num, by simp⟩
  · rcases abs_eq (by norm_num : (0 : ℤ) ≤ 2 ^ 53) |>.mp h with h | h
    · exact ⟨2 ^ 52, 1, by norm_num, by norm_num, by rw [h]; norm_num⟩
    · exact ⟨-2 ^ 52, 1, by norm_num, by norm_num, by rw [h]; norm_num⟩

end Komm
