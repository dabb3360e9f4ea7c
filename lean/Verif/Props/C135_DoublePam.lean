import Verif.Model.DoublePam
import Mathlib.Tactic.Positivity
/-! C135: `PAMConstellation` in double precision (`rnd` is rounding to the nearest double, ties to even).  The stored points are close to the ideal ones
`δ (i - (M - 1)/2)`, every received value within just under half the spacing of a stored point is decided in its favour, and decisions are monotone. -/
namespace Komm

/-- The error of any rounding: relative `2⁻⁵³`, or half the smallest subnormal. -/
theorem rnd_error (x : ℝ) : |rnd x - x| ≤ |x| / 2 ^ 53 + 2 ^ (-1075 : ℤ) := by
  have h0 : (0 : ℝ) < 2 ^ (-1075 : ℤ) := by positivity
  rcases rnd_error_rel x with h | h
  · linarith
  · have h1 := rnd_error_ulp x
    rw [h] at h1
    have e : (2 : ℝ) ^ (-1074 : ℤ) / 2 = 2 ^ (-1075 : ℤ) := by
      rw [show (-1074 : ℤ) = -1075 + 1 by norm_num, zpow_add_one₀ (by norm_num)]; ring
    have : 0 ≤ |x| / 2 ^ 53 := by positivity
    linarith

/-- A rounding, for a value `x` near `y`, of magnitude at most `A`, where half the smallest subnormal is below `A · 2⁻⁶⁰`. -/
theorem rnd_near {x y A e : ℝ} (hA : (2 : ℝ) ^ (-1075 : ℤ) ≤ A / 2 ^ 60) (h : |x - y| ≤ e) (hy : |y| ≤ A) :
    |rnd x - y| ≤ e + (A + e) / 2 ^ 53 + A / 2 ^ 60 := by
  have h1 := rnd_error x
  have h2 : |x| ≤ A + e := by
    have := abs_sub_abs_le_abs_sub x y
    linarith
  have h3 := abs_add_le (rnd x - x) (x - y)
  rw [sub_add_sub_cancel] at h3
  have h4 : |x| / 2 ^ 53 ≤ (A + e) / 2 ^ 53 := div_le_div_of_nonneg_right h2 (by positivity)
  linarith

theorem npRound_near {x : ℝ} {k : ℤ} (h : |x - k| < 1 / 2) : npRound x = k := by
  have h1 := npRound_spec x
  by_contra hne
  have h2 : (1 : ℝ) ≤ |((npRound x - k : ℤ) : ℝ)| := by
    rw [← Int.cast_abs]
    exact_mod_cast Int.one_le_abs (sub_ne_zero.mpr hne)
  push_cast at h2
  have h3 := abs_sub_le (npRound x : ℝ) x k
  rw [abs_sub_comm] at h1
  linarith

section
variable {M : Nat} {δ : ℝ}

theorem tiny (hδ : (2 : ℝ) ^ (-1000 : ℤ) ≤ δ) : (2 : ℝ) ^ (-1075 : ℤ) ≤ δ / 2 ^ 60 := by
  rw [le_div_iff₀ (by positivity)]
  have : (2 : ℝ) ^ (-1075 : ℤ) * 2 ^ 60 = 2 ^ (-1015 : ℤ) := by
    rw [← zpow_natCast, ← zpow_add₀ (by norm_num)]; norm_num
  rw [this]
  exact le_trans (zpow_le_zpow_right₀ (by norm_num) (by norm_num)) hδ

theorem peak_near (hM : 2 ≤ M) (hδ : (2 : ℝ) ^ (-1000 : ℤ) ≤ δ) :
    |pamPeakD M δ - ((M : ℝ) - 1) * δ / 2| ≤ 2 * (((M : ℝ) - 1) * δ) / 2 ^ 53 := by
  have hM' : (2 : ℝ) ≤ M := by exact_mod_cast hM
  have hd0 : 0 < δ := lt_of_lt_of_le (by positivity) hδ
  have ht := tiny hδ
  have hA : δ ≤ ((M : ℝ) - 1) * δ := by nlinarith
  generalize hAd : ((M : ℝ) - 1) * δ = A at *
  have hA0 : 0 < A := by linarith
  have ht' : (2 : ℝ) ^ (-1075 : ℤ) ≤ A / 2 ^ 60 := ht.trans (div_le_div_of_nonneg_right hA (by positivity))
  have h1 := rnd_near (x := A) (y := A) (A := A) (e := 0) ht' (by simp) (abs_of_pos hA0).le
  have h2 : |rnd A / 2 - A / 2| ≤ (0 + (A + 0) / 2 ^ 53 + A / 2 ^ 60) / 2 := by
    rw [← sub_div, abs_div, abs_of_pos (by norm_num : (0 : ℝ) < 2)]
    exact div_le_div_of_nonneg_right h1 (by norm_num)
  have h3 := rnd_near (A := A) ht' h2 (by rw [abs_of_pos (by linarith)]; linarith)
  rw [pamPeakD, hAd]
  refine h3.trans ?_
  linarith

theorem step_near (hM : 2 ≤ M) (hδ : (2 : ℝ) ^ (-1000 : ℤ) ≤ δ) : |pamStepD M δ - δ| ≤ 8 * δ / 2 ^ 53 := by
  have hM' : (2 : ℝ) ≤ M := by exact_mod_cast hM
  have hd0 : 0 < δ := lt_of_lt_of_le (by positivity) hδ
  have ht := tiny hδ
  have hp := peak_near hM hδ
  have hA : δ ≤ ((M : ℝ) - 1) * δ := by nlinarith
  obtain ⟨m, hm⟩ : ∃ m : ℝ, m = (M : ℝ) - 1 := ⟨_, rfl⟩
  have hm1 : 1 ≤ m := by linarith
  rw [pamStepD]
  rw [← hm] at hp hA ⊢
  generalize hAd : m * δ = A at *
  have hA0 : 0 < A := by linarith
  have ht' : (2 : ℝ) ^ (-1075 : ℤ) ≤ A / 2 ^ 60 := ht.trans (div_le_div_of_nonneg_right hA (by positivity))
  have h1 : |(pamPeakD M δ - -pamPeakD M δ) - A| ≤ 4 * A / 2 ^ 53 := by
    rw [show (pamPeakD M δ - -pamPeakD M δ) - A = 2 * (pamPeakD M δ - A / 2) by ring, abs_mul, abs_of_pos (by norm_num : (0 : ℝ) < 2)]
    linarith
  have h2 := rnd_near (A := A) ht' h1 (abs_of_pos hA0).le
  have h3 : |rnd (pamPeakD M δ - -pamPeakD M δ) / m - δ| ≤ 6 * δ / 2 ^ 53 := by
    have : rnd (pamPeakD M δ - -pamPeakD M δ) / m - δ = (rnd (pamPeakD M δ - -pamPeakD M δ) - A) / m := by
      rw [← hAd]; field_simp
    rw [this, abs_div, abs_of_pos (by linarith : 0 < m), div_le_iff₀ (by linarith)]
    have e : 6 * δ / 2 ^ 53 * m = 6 * A / 2 ^ 53 := by rw [← hAd]; ring
    rw [e]
    refine h2.trans ?_
    linarith
  have h4 := rnd_near (A := δ) ht h3 (abs_of_pos hd0).le
  refine h4.trans ?_
  linarith

/-- The stored points are the ideal ones up to `(M - 1) δ · 2⁻⁴⁹`. -/
theorem C135_points (hM : 2 ≤ M) (hδ : (2 : ℝ) ^ (-1000 : ℤ) ≤ δ) (i : Nat) (hi : i < M) :
    |pamPointD M δ i - δ * ((i : ℝ) - ((M : ℝ) - 1) / 2)| ≤ ((M : ℝ) - 1) * δ / 2 ^ 49 := by
  have hM' : (2 : ℝ) ≤ M := by exact_mod_cast hM
  have hd0 : 0 < δ := lt_of_lt_of_le (by positivity) hδ
  have ht := tiny hδ
  have hp := peak_near hM hδ
  have hs := step_near hM hδ
  have hA : δ ≤ ((M : ℝ) - 1) * δ := by nlinarith
  have hi' : (i : ℝ) ≤ (M : ℝ) - 1 := by
    have : (i : ℝ) + 1 ≤ M := by exact_mod_cast hi
    linarith
  have hi0 : (0 : ℝ) ≤ i := by positivity
  obtain ⟨m, hm⟩ : ∃ m : ℝ, m = (M : ℝ) - 1 := ⟨_, rfl⟩
  have hlast : i = M - 1 → (i : ℝ) = m := by
    intro h
    rw [h, hm, Nat.cast_sub (by omega)]; simp
  rw [← hm] at hp hA hi' ⊢
  have hiA : (i : ℝ) * δ ≤ m * δ := by nlinarith
  have hiA0 : 0 ≤ (i : ℝ) * δ := by positivity
  have hstep : |(i : ℝ) * pamStepD M δ - i * δ| ≤ 8 * (m * δ) / 2 ^ 53 := by
    rw [← mul_sub, abs_mul, abs_of_nonneg hi0]
    have := mul_le_mul hi' hs (abs_nonneg _) (by linarith)
    refine this.trans (le_of_eq ?_)
    ring
  rw [pamPointD]
  by_cases hl : i = M - 1
  · rw [if_pos hl, hlast hl, show δ * (m - m / 2) = m * δ / 2 by ring]
    refine hp.trans ?_
    have : 0 < m * δ := by linarith
    linarith
  · rw [if_neg hl, show δ * ((i : ℝ) - m / 2) = i * δ - m * δ / 2 by ring]
    generalize m * δ = A at *
    generalize (i : ℝ) * δ = B at *
    have hA0 : 0 < A := by linarith
    have ht' : (2 : ℝ) ^ (-1075 : ℤ) ≤ A / 2 ^ 60 := ht.trans (div_le_div_of_nonneg_right hA (by positivity))
    have h1 := rnd_near (A := A) ht' hstep (by rw [abs_of_nonneg hiA0]; exact hiA)
    have h2 : |(rnd ((i : ℝ) * pamStepD M δ) + -pamPeakD M δ) - (B - A / 2)| ≤ 12 * A / 2 ^ 53 := by
      rw [show (rnd ((i : ℝ) * pamStepD M δ) + -pamPeakD M δ) - (B - A / 2) = (rnd ((i : ℝ) * pamStepD M δ) - B) - (pamPeakD M δ - A / 2) by ring]
      refine (abs_sub _ _).trans ?_
      linarith
    have h3 := rnd_near (A := A) ht' h2 (by rw [abs_le]; constructor <;> linarith)
    refine h3.trans ?_
    linarith

/-- The number that `closest_indices` rounds to an integer. -/
theorem index_near (hM : 2 ≤ M) (hM2 : M ≤ 2 ^ 53) (r R : ℝ) (hR : |r / δ| ≤ R) :
    |rnd (rnd (r / δ) + rnd (((M : ℝ) - 1) / 2)) - (r / δ + ((M : ℝ) - 1) / 2)| ≤ (2 * R + M) / 2 ^ 52 := by
  have hM' : (2 : ℝ) ≤ M := by exact_mod_cast hM
  have hR0 : 0 ≤ R := (abs_nonneg _).trans hR
  have hhalf : IsDouble (((M : ℝ) - 1) / 2) := by
    refine ⟨(M : ℤ) - 1, -1, ?_, by norm_num, ?_⟩
    · rw [abs_of_nonneg (by omega)]; norm_num at hM2 ⊢; omega
    · rw [zpow_neg_one]; push_cast; ring
  rw [rnd_of_isDouble hhalf]
  have htiny : (2 : ℝ) ^ (-1075 : ℤ) ≤ (R + M) / 2 ^ 60 := by
    have h1 : (2 : ℝ) ^ (-1075 : ℤ) ≤ 2 ^ (-60 : ℤ) := zpow_le_zpow_right₀ (by norm_num) (by norm_num)
    have h2 : (2 : ℝ) ^ (-60 : ℤ) = 1 / 2 ^ 60 := by norm_num
    rw [h2] at h1
    exact h1.trans (div_le_div_of_nonneg_right (by linarith) (by positivity))
  have h1 := rnd_error (r / δ)
  have h2 : |r / δ| / 2 ^ 53 ≤ R / 2 ^ 53 := div_le_div_of_nonneg_right hR (by positivity)
  have h3 := rnd_add_error (rnd_isDouble (r / δ)) hhalf
  have h4 : |rnd (r / δ) + ((M : ℝ) - 1) / 2| ≤ R + R / 2 ^ 53 + (R + M) / 2 ^ 60 + M / 2 - 1 / 2 := by
    refine (abs_add_le _ _).trans ?_
    rw [abs_of_nonneg (a := ((M : ℝ) - 1) / 2) (by linarith)]
    have := abs_sub_abs_le_abs_sub (rnd (r / δ)) (r / δ)
    linarith
  have h5 := h3.trans (div_le_div_of_nonneg_right h4 (by positivity))
  have h6 := abs_add_le (rnd (rnd (r / δ) + ((M : ℝ) - 1) / 2) - (rnd (r / δ) + ((M : ℝ) - 1) / 2)) (rnd (r / δ) - r / δ)
  rw [show rnd (rnd (r / δ) + ((M : ℝ) - 1) / 2) - (rnd (r / δ) + ((M : ℝ) - 1) / 2) + (rnd (r / δ) - r / δ) =
    rnd (rnd (r / δ) + ((M : ℝ) - 1) / 2) - (r / δ + ((M : ℝ) - 1) / 2) by ring] at h6
  refine h6.trans ?_
  linarith

theorem castInt64_id {k : ℤ} (h : |k| < 2 ^ 63) : castInt64 k = k := by
  rw [castInt64, if_pos]
  have := abs_lt.mp h
  exact ⟨this.1.le, this.2⟩

/-- A received value nearer to a stored point than `δ/2 - (M - 1) δ · 2⁻⁴⁸` is decided in favour of that point. -/
theorem C135_decides (hM : 2 ≤ M) (hM2 : M ≤ 2 ^ 53) (hδ : (2 : ℝ) ^ (-1000 : ℤ) ≤ δ) (i : Nat) (hi : i < M) (r : ℝ)
    (hr : |r - pamPointD M δ i| < δ / 2 - ((M : ℝ) - 1) * δ / 2 ^ 48) : pamClosestD M δ r = i := by
  have hM' : (2 : ℝ) ≤ M := by exact_mod_cast hM
  have hM2' : (M : ℝ) ≤ 2 ^ 53 := by exact_mod_cast hM2
  have hd0 : 0 < δ := lt_of_lt_of_le (by positivity) hδ
  have hp := C135_points hM hδ i hi
  have hi' : (i : ℝ) ≤ (M : ℝ) - 1 := by
    have : (i : ℝ) + 1 ≤ M := by exact_mod_cast hi
    linarith
  have hi0 : (0 : ℝ) ≤ i := by positivity
  have h1 : |r - δ * ((i : ℝ) - ((M : ℝ) - 1) / 2)| < δ / 2 - ((M : ℝ) - 1) * δ / 2 ^ 49 := by
    have := abs_sub_le r (pamPointD M δ i) (δ * ((i : ℝ) - ((M : ℝ) - 1) / 2))
    have e : ((M : ℝ) - 1) * δ / 2 ^ 48 = 2 * (((M : ℝ) - 1) * δ / 2 ^ 49) := by ring
    rw [e] at hr
    linarith
  have h2 : |(r / δ + ((M : ℝ) - 1) / 2) - i| < 1 / 2 - ((M : ℝ) - 1) / 2 ^ 49 := by
    have e : (r / δ + ((M : ℝ) - 1) / 2) - i = (r - δ * ((i : ℝ) - ((M : ℝ) - 1) / 2)) / δ := by field_simp; ring
    rw [e, abs_div, abs_of_pos hd0, div_lt_iff₀ hd0]
    refine h1.trans_le (le_of_eq ?_)
    ring
  have hR : |r / δ| ≤ (M : ℝ) := by
    have h3 := abs_lt.mp h2
    have : (0 : ℝ) ≤ ((M : ℝ) - 1) / 2 ^ 49 := by
      apply div_nonneg <;> [linarith; positivity]
    rw [abs_le]
    constructor <;> linarith [h3.1, h3.2]
  have h4 := index_near hM hM2 r (M : ℝ) hR
  have h5 : npRound (rnd (rnd (r / δ) + rnd (((M : ℝ) - 1) / 2))) = (i : ℤ) := by
    apply npRound_near
    rw [Int.cast_natCast]
    have := abs_sub_le (rnd (rnd (r / δ) + rnd (((M : ℝ) - 1) / 2))) (r / δ + ((M : ℝ) - 1) / 2) i
    linarith
  rw [pamClosestD, h5, castInt64_id, npClip_id _ _ (by omega) (by omega)]
  rw [abs_of_nonneg (by omega)]
  norm_num at hM2 ⊢
  omega

/-- Noiseless round trip: every stored point is decided as itself, for orders up to `2⁴⁶`. -/
theorem C135_roundtrip (hM : 2 ≤ M) (hM2 : M ≤ 2 ^ 46) (hδ : (2 : ℝ) ^ (-1000 : ℤ) ≤ δ) (i : Nat) (hi : i < M) :
    pamClosestD M δ (pamPointD M δ i) = i := by
  apply C135_decides hM (hM2.trans (by norm_num)) hδ i hi
  have hM2' : (M : ℝ) ≤ 2 ^ 46 := by exact_mod_cast hM2
  have hd0 : 0 < δ := lt_of_lt_of_le (by positivity) hδ
  rw [sub_self, abs_zero]
  have : ((M : ℝ) - 1) * δ ≤ 2 ^ 46 * δ := mul_le_mul_of_nonneg_right (by linarith) hd0.le
  linarith

/-- Away from the thresholds the decision is the exact one: if `r / δ + (M - 1)/2` is further than `(2 |r / δ| + M) · 2⁻⁵²` from every half-integer, then
the index returned is the nearest integer, clipped. -/
theorem C135_exact (hM : 2 ≤ M) (hM2 : M ≤ 2 ^ 53) (r : ℝ) (hr : |r / δ| ≤ 2 ^ 61)
    (hfar : ∀ k : ℤ, (2 * |r / δ| + M) / 2 ^ 52 < |r / δ + ((M : ℝ) - 1) / 2 - (k + 1 / 2)|) :
    pamClosestD M δ r = min (max (round (r / δ + ((M : ℝ) - 1) / 2)) 0) ((M : ℤ) - 1) := by
  have hM2' : (M : ℝ) ≤ 2 ^ 53 := by exact_mod_cast hM2
  have hM' : (2 : ℝ) ≤ M := by exact_mod_cast hM
  have h1 := index_near (δ := δ) hM hM2 r _ le_rfl
  obtain ⟨x, hx⟩ : ∃ x, x = r / δ + ((M : ℝ) - 1) / 2 := ⟨_, rfl⟩
  rw [← hx] at h1 hfar ⊢
  have hk1 := hfar (round x)
  have hk2 := hfar (round x - 1)
  have hrd := abs_sub_round x
  have hlt : |rnd (rnd (r / δ) + rnd (((M : ℝ) - 1) / 2)) - round x| < 1 / 2 := by
    push_cast at hk2
    generalize (2 * |r / δ| + (M : ℝ)) / 2 ^ 52 = ε at *
    rw [abs_le] at hrd
    rw [abs_of_nonpos (by linarith [hrd.2])] at hk1
    rw [abs_of_nonneg (by linarith [hrd.1])] at hk2
    rw [abs_le] at h1
    rw [abs_lt]
    constructor <;> linarith [h1.1, h1.2]
  rw [pamClosestD, npRound_near hlt, castInt64_id, npClip]
  have hxb : |x| ≤ 2 ^ 61 + 2 ^ 53 := by
    rw [hx]
    refine (abs_add_le _ _).trans ?_
    rw [abs_of_nonneg (a := ((M : ℝ) - 1) / 2) (by linarith)]
    linarith
  have hb : |((round x : ℤ) : ℝ)| < 2 ^ 63 := by
    have := abs_sub_abs_le_abs_sub ((round x : ℤ) : ℝ) x
    rw [abs_sub_comm] at this
    linarith
  rw [← Int.cast_abs] at hb
  have : ((|round x| : ℤ) : ℝ) < ((2 ^ 63 : ℤ) : ℝ) := by push_cast at hb ⊢; linarith
  exact_mod_cast this

theorem npRound_mono {x y : ℝ} (h : x ≤ y) : npRound x ≤ npRound y := by
  by_contra hlt
  rw [not_le] at hlt
  have h1 : (npRound y : ℝ) + 1 ≤ npRound x := by exact_mod_cast hlt
  have hx := npRound_spec x
  have hy := npRound_spec y
  rw [abs_le] at hx hy
  have e : x = y := by linarith [hx.1, hx.2, hy.1, hy.2]
  rw [e] at hlt
  exact lt_irrefl _ hlt

/-- Decisions are monotone in the received value (within the range of 64-bit integers). -/
theorem C135_monotone (hM : 2 ≤ M) (hM2 : M ≤ 2 ^ 53) (hδ : 0 < δ) (r s : ℝ) (hr : |r / δ| ≤ 2 ^ 61) (hs : |s / δ| ≤ 2 ^ 61) (h : r ≤ s) :
    pamClosestD M δ r ≤ pamClosestD M δ s := by
  have hM2' : (M : ℝ) ≤ 2 ^ 53 := by exact_mod_cast hM2
  have hM' : (2 : ℝ) ≤ M := by exact_mod_cast hM
  have hb : ∀ r : ℝ, |r / δ| ≤ 2 ^ 61 → |npRound (rnd (rnd (r / δ) + rnd (((M : ℝ) - 1) / 2)))| < 2 ^ 63 := by
    intro r hr
    have h1 := index_near hM hM2 r _ hr
    have h2 : |rnd (rnd (r / δ) + rnd (((M : ℝ) - 1) / 2))| ≤ 2 ^ 61 + 2 ^ 53 + 2 ^ 11 := by
      have := abs_sub_abs_le_abs_sub (rnd (rnd (r / δ) + rnd (((M : ℝ) - 1) / 2))) (r / δ + ((M : ℝ) - 1) / 2)
      have h3 := abs_add_le (r / δ) (((M : ℝ) - 1) / 2)
      rw [abs_of_nonneg (a := ((M : ℝ) - 1) / 2) (by linarith)] at h3
      linarith
    generalize rnd (rnd (r / δ) + rnd (((M : ℝ) - 1) / 2)) = y at *
    have h4 := npRound_spec y
    have h5 := abs_sub_abs_le_abs_sub (npRound y : ℝ) y
    rw [abs_sub_comm] at h5
    have h6 : |(npRound y : ℝ)| < 2 ^ 63 := by linarith
    rw [← Int.cast_abs] at h6
    have : ((|npRound y| : ℤ) : ℝ) < ((2 ^ 63 : ℤ) : ℝ) := by push_cast at h6 ⊢; linarith
    exact_mod_cast this
  rw [pamClosestD, pamClosestD, castInt64_id (hb r hr), castInt64_id (hb s hs)]
  have h1 : r / δ ≤ s / δ := div_le_div_of_nonneg_right h hδ.le
  have h2 := rnd_mono h1
  have h3 := npRound_mono (rnd_mono (add_le_add_left h2 (rnd (((M : ℝ) - 1) / 2))))
  rw [npClip, npClip]
  omega

end

/-- Beyond the range of 64-bit integers the decision is wrong: for every received value of at least `2⁶⁴ δ` the index returned is 0, although the nearest
point is the last one. -/
theorem C135_huge_wrong (M : Nat) (hM : 2 ≤ M) (hM2 : M ≤ 2 ^ 53) (δ r : ℝ) (hδ : 0 < δ) (hr : 2 ^ 64 * δ ≤ r) :
    pamClosestD M δ r = 0 ∧
    ∀ i : Nat, i + 1 < M → |r - δ * (((M : ℝ) - 1) - ((M : ℝ) - 1) / 2)| < |r - δ * ((i : ℝ) - ((M : ℝ) - 1) / 2)| := by
  have hM' : (2 : ℝ) ≤ M := by exact_mod_cast hM
  have hM2' : (M : ℝ) ≤ 2 ^ 53 := by exact_mod_cast hM2
  refine ⟨?_, fun i hi => ?_⟩
  swap
  · have hi' : (i : ℝ) + 1 < M := by exact_mod_cast hi
    have hlast : δ * (((M : ℝ) - 1) - ((M : ℝ) - 1) / 2) ≤ r := by
      refine le_trans ?_ hr
      rw [mul_comm]
      exact mul_le_mul_of_nonneg_right (by linarith) hδ.le
    have hlt : δ * ((i : ℝ) - ((M : ℝ) - 1) / 2) < δ * (((M : ℝ) - 1) - ((M : ℝ) - 1) / 2) := mul_lt_mul_of_pos_left (by linarith) hδ
    rw [abs_of_nonneg (by linarith), abs_of_nonneg (by linarith)]
    linarith
  have h1 : (2 : ℝ) ^ 64 ≤ r / δ := by rw [le_div_iff₀ hδ]; exact hr
  have hd : IsDouble ((2 : ℝ) ^ 64) := ⟨1, 64, by norm_num, by norm_num, by norm_num⟩
  have h2 : (2 : ℝ) ^ 64 ≤ rnd (r / δ) := by
    have := rnd_mono h1
    rwa [rnd_of_isDouble hd] at this
  have hhalf : 0 ≤ rnd (((M : ℝ) - 1) / 2) := by
    have := rnd_mono (show (0 : ℝ) ≤ ((M : ℝ) - 1) / 2 by linarith)
    rwa [rnd_zero] at this
  have h3 : (2 : ℝ) ^ 64 ≤ rnd (rnd (r / δ) + rnd (((M : ℝ) - 1) / 2)) := by
    have := rnd_mono (show (2 : ℝ) ^ 64 ≤ rnd (r / δ) + rnd (((M : ℝ) - 1) / 2) by linarith)
    rwa [rnd_of_isDouble hd] at this
  have h4 : (2 ^ 64 : ℤ) ≤ npRound (rnd (rnd (r / δ) + rnd (((M : ℝ) - 1) / 2))) := by
    have e : npRound (((2 ^ 64 : ℤ) : ℝ)) = 2 ^ 64 := npRound_int _
    have := npRound_mono (x := ((2 ^ 64 : ℤ) : ℝ)) (by push_cast; linarith)
    rwa [e] at this
  rw [pamClosestD, castInt64, if_neg (by omega), npClip]
  omega

/-- The hypotheses are met: 16-PAM with spacing 1/10, received 0.33 above the sixth point. -/
example : pamClosestD 16 (rnd (1 / 10)) (pamPointD 16 (rnd (1 / 10)) 5 + 0.033) = 5 := by
  have h := abs_le.mp (rnd_error (1 / 10))
  have h0 : (2 : ℝ) ^ (-1075 : ℤ) ≤ 1 / 2 ^ 60 := by
    have h1 : (2 : ℝ) ^ (-1075 : ℤ) ≤ 2 ^ (-60 : ℤ) := zpow_le_zpow_right₀ (by norm_num) (by norm_num)
    rwa [show (2 : ℝ) ^ (-60 : ℤ) = 1 / 2 ^ 60 by norm_num] at h1
  rw [abs_of_pos (by norm_num : (0 : ℝ) < 1 / 10)] at h
  have hlo : (9 : ℝ) / 100 ≤ rnd (1 / 10) := by linarith [h.1]
  have hhi : rnd (1 / 10 : ℝ) ≤ 11 / 100 := by linarith [h.2]
  refine C135_decides (by norm_num) (by norm_num) (le_trans ?_ hlo) 5 (by norm_num) _ ?_
  · have h1 : (2 : ℝ) ^ (-1000 : ℤ) ≤ 2 ^ (-10 : ℤ) := zpow_le_zpow_right₀ (by norm_num) (by norm_num)
    refine h1.trans ?_
    norm_num
  · rw [add_sub_cancel_left, abs_of_pos (by norm_num)]
    push_cast
    linarith

end Komm
