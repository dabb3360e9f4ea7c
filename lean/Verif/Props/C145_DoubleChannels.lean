import Verif.Model.DoubleChannels
import Verif.Props.C143_DoubleInfo
import Verif.Props.C78_Information

/-! C145: mutual information and capacity of the binary channels in double precision. -/
namespace Komm

/-! ### the argument of the binary entropy stays a probability -/

theorem gap_one {x : ℝ} (hx : IsDouble x) (h1 : 1 < x) : 1 + 1 / 2 ^ 52 ≤ x := by
  obtain ⟨m, e, hm, he, rfl⟩ := hx
  have hlt : -53 < e := by
    by_contra hc
    have h2 : (2 : ℝ) ^ e ≤ 2 ^ (-53 : ℤ) := zpow_le_zpow_right₀ (by norm_num) (by omega)
    have h3 : (2 : ℝ) ^ (-53 : ℤ) = 1 / 2 ^ 53 := by rw [zpow_neg, one_div]; norm_cast
    have h4 : (m : ℝ) < 2 ^ 53 := by exact_mod_cast lt_of_le_of_lt (le_abs_self m) hm
    have h5 : (0 : ℝ) < 2 ^ e := two_zpow_pos e
    have h6 := mul_lt_mul_of_pos_right h4 h5
    rw [h3] at h2
    have h7 := mul_le_mul_of_nonneg_left h2 (by norm_num : (0 : ℝ) ≤ 2 ^ 53)
    generalize (m : ℝ) * 2 ^ e = y at *
    generalize (2 : ℝ) ^ e = z at *
    norm_num at h7
    linarith
  obtain ⟨n, rfl⟩ : ∃ n : Nat, e = (n : ℤ) - 52 := ⟨(e + 52).toNat, by omega⟩
  have e1 : (2 : ℝ) ^ ((n : ℤ) - 52) = 2 ^ n * (1 / 2 ^ 52) := by
    rw [zpow_sub₀ (by norm_num), zpow_natCast, div_eq_mul_one_div]
    norm_cast
  have e2 : (m : ℝ) * (2 ^ n * (1 / 2 ^ 52)) = ((m * 2 ^ n : ℤ) : ℝ) * (1 / 2 ^ 52) := by push_cast; ring
  rw [e1, e2] at h1 ⊢
  generalize m * 2 ^ n = k at *
  have h3 : (2 : ℝ) ^ 52 < k := by
    rw [mul_one_div, lt_div_iff₀ (by positivity)] at h1
    linarith
  have h4 : (2 : ℤ) ^ 52 + 1 ≤ k := by exact_mod_cast h3
  have h5 : (2 : ℝ) ^ 52 + 1 ≤ k := by exact_mod_cast h4
  have h6 := mul_le_mul_of_nonneg_right h5 (by positivity : (0 : ℝ) ≤ 1 / 2 ^ 52)
  refine le_trans (le_of_eq ?_) h6
  norm_num

theorem isDouble_one' : IsDouble (1 : ℝ) := ⟨1, 0, by norm_num, by norm_num, by norm_num⟩

theorem rnd_le_one {x : ℝ} (h : x < 1 + 1 / 2 ^ 53) : rnd x ≤ 1 := by
  rcases le_or_gt x 1 with h1 | h1
  · have := rnd_mono h1
    rwa [rnd_of_isDouble isDouble_one'] at this
  · by_contra hc
    rw [not_le] at hc
    have g := gap_one (rnd_isDouble x) hc
    have n := rnd_nearest x isDouble_one'
    rw [abs_of_neg (by linarith : 1 - x < 0)] at n
    have := (abs_le.mp n).2
    linarith

theorem rnd_nonneg {x : ℝ} (h : 0 ≤ x) : 0 ≤ rnd x := by
  have := rnd_mono h
  rwa [rnd_zero] at this

/-- `p + pi - 2 p pi` in double precision is from 0 to 1 for all doubles `p`, `pi` from 0 to 1: `binary_entropy` does not raise. -/
theorem bsc_argument {p pi : ℝ} (dp : IsDouble p) (p0 : 0 ≤ p) (p1 : p ≤ 1) (q0 : 0 ≤ pi) (q1 : pi ≤ 1) :
    0 ≤ rnd (rnd (p + pi) - rnd (rnd (2 * p) * pi)) ∧ rnd (rnd (p + pi) - rnd (rnd (2 * p) * pi)) ≤ 1 := by
  rw [rnd_of_isDouble (isDouble_twice dp)]
  have hprod : 0 ≤ 2 * p * pi := by positivity
  have hb0 := rnd_nonneg hprod
  constructor
  · apply rnd_nonneg
    rw [sub_nonneg]
    apply rnd_mono
    nlinarith [sq_nonneg (p - pi), mul_nonneg p0 q0]
  · apply rnd_le_one
    rcases lt_or_ge (p + pi) (1 + 1 / 2 ^ 53) with h | h
    · have := rnd_le_one h
      have : (0 : ℝ) < 1 / 2 ^ 53 := by positivity
      linarith
    · -- p + pi = 1 + s
      obtain ⟨s, hs⟩ : ∃ s, p + pi = 1 + s := ⟨p + pi - 1, by ring⟩
      have hs0 : 1 / 2 ^ 53 ≤ s := by linarith
      have hs1 : s ≤ 1 := by linarith
      have hspos : 0 < s := lt_of_lt_of_le (by positivity) hs0
      -- the sum
      have ha : rnd (p + pi) ≤ 1 + s + (1 + s) / 2 ^ 53 := by
        have := rnd_error_big (x := p + pi) (by rw [hs]; exact le_trans (by norm_num) (by linarith : (1 : ℝ) ≤ 1 + s))
        rw [hs] at this ⊢
        linarith [(abs_le.mp this).2]
      -- the product
      have h2 : 2 * s ≤ 2 * p * pi := by nlinarith [mul_nonneg (sub_nonneg.mpr p1) (sub_nonneg.mpr q1)]
      have hb : 2 * s - 2 * s / 2 ^ 53 ≤ rnd (2 * p * pi) := by
        refine le_trans ?_ (rnd_mono h2)
        have := rnd_error_big (x := 2 * s) (le_trans (by norm_num) (by linarith : 1 / 2 ^ 53 ≤ 2 * s))
        linarith [(abs_le.mp this).1]
      have h3 : 3 * s / 2 ^ 53 < s := by rw [div_lt_iff₀ (by positivity)]; linarith
      linarith

/-! ### continuity of the binary entropy -/

theorem eta_sub {x d : ℝ} (hx : 0 ≤ x) (hd : 0 ≤ d) (h1 : x + d ≤ 1) :
    -((x + d) * Real.log (x + d)) ≤ -(x * Real.log x) + -(d * Real.log d) ∧ -(x * Real.log x) ≤ -((x + d) * Real.log (x + d)) + d := by
  rcases eq_or_lt_of_le hx with rfl | hx
  · simp only [zero_add, zero_mul, neg_zero, le_refl, true_and]
    have := Real.log_nonpos hd (by linarith)
    nlinarith
  rcases eq_or_lt_of_le hd with rfl | hd
  · simp
  constructor
  · have l1 := Real.log_le_log hx (by linarith : x ≤ x + d)
    have l2 := Real.log_le_log hd (by linarith : d ≤ x + d)
    nlinarith
  · have l1 := Real.log_le_sub_one_of_pos (div_pos (by linarith : 0 < x + d) hx)
    rw [Real.log_div (by linarith) hx.ne'] at l1
    have l2 : x * ((x + d) / x - 1) = d := by field_simp; ring
    have l3 := mul_le_mul_of_nonneg_left l1 hx.le
    rw [l2] at l3
    have l4 : d * Real.log (x + d) ≤ 0 := mul_nonpos_of_nonneg_of_nonpos hd.le (Real.log_nonpos (by linarith) h1)
    linarith

theorem eta_small {d : ℝ} (h0 : 0 ≤ d) (h1 : d ≤ 1 / 2 ^ 50) : -(d * Real.log d) ≤ 36 / 2 ^ 50 := by
  rcases eq_or_lt_of_le h0 with rfl | h0
  · rw [zero_mul, neg_zero]; positivity
  have hl2 := Real.log_two_lt_d9
  have e1 : Real.log (1 / 2 ^ 50) = -(50 * Real.log 2) := by rw [one_div, Real.log_inv, Real.log_pow]; norm_num
  have l1 := Real.log_le_sub_one_of_pos (div_pos (by positivity : (0 : ℝ) < 1 / 2 ^ 50) h0)
  rw [Real.log_div (by positivity) h0.ne', e1] at l1
  have l2 := mul_le_mul_of_nonneg_left l1 h0.le
  have e2 : d * (1 / 2 ^ 50 / d - 1) = 1 / 2 ^ 50 - d := by rw [mul_sub, mul_one, mul_div_cancel₀ _ h0.ne']
  rw [e2] at l2
  have l3 : d * (50 * Real.log 2) ≤ 1 / 2 ^ 50 * (50 * Real.log 2) := mul_le_mul_of_nonneg_right h1 (by have := Real.log_two_gt_d9; positivity)
  linarith

theorem bitEntropy_continuity {x y : ℝ} (hx0 : 0 ≤ x) (hx1 : x ≤ 1) (hy0 : 0 ≤ y) (hy1 : y ≤ 1) (h : |x - y| ≤ 1 / 2 ^ 50) : |bitEntropy x - bitEntropy y| ≤ 1 / 2 ^ 43 := by
  wlog hxy : x ≤ y generalizing x y
  · rw [abs_sub_comm]
    exact this hy0 hy1 hx0 hx1 (by rwa [abs_sub_comm]) (by linarith)
  obtain ⟨d, rfl⟩ : ∃ d, y = x + d := ⟨y - x, by ring⟩
  have hd : 0 ≤ d := by linarith
  have hd1 : d ≤ 1 / 2 ^ 50 := by
    rw [show x - (x + d) = -d by ring, abs_neg, abs_of_nonneg hd] at h
    exact h
  obtain ⟨a1, a2⟩ := eta_sub hx0 hd hy1
  obtain ⟨b1, b2⟩ := eta_sub (x := 1 - (x + d)) (d := d) (by linarith) hd (by linarith)
  rw [show 1 - (x + d) + d = 1 - x by ring] at b1 b2
  have s := eta_small hd hd1
  have hl2 := Real.log_two_gt_d9
  unfold bitEntropy
  rw [← sub_div, abs_div, abs_of_pos (by linarith : 0 < Real.log 2), div_le_iff₀ (by linarith)]
  have e : ∀ u : ℝ, Real.binEntropy u = -(u * Real.log u) + -((1 - u) * Real.log (1 - u)) := fun u => by
    rw [Real.binEntropy, Real.log_inv, Real.log_inv]; ring
  rw [e, e]
  have h3 : (1 : ℝ) / 2 ^ 43 * (69 / 100) ≤ 1 / 2 ^ 43 * Real.log 2 := mul_le_mul_of_nonneg_left (by linarith) (by positivity)
  refine le_trans ?_ h3
  rw [abs_le]
  constructor <;> linarith

/-! ### the base -/

/-- `1 / |log₂ base|`. -/
noncomputable def bitScale (base : LogBase) : ℝ := 1 / |Real.logb 2 base.val|

theorem base_facts {base : LogBase} (hb : validLogBase base = true) : 0 < base.val ∧ Real.logb 2 base.val ≠ 0 := by
  cases base with
  | e =>
    refine ⟨Real.exp_pos 1, ?_⟩
    change Real.logb 2 (Real.exp 1) ≠ 0
    rw [Real.logb, Real.log_exp]
    exact div_ne_zero one_ne_zero (Real.log_pos (by norm_num)).ne'
  | num b =>
    simp only [validLogBase, Bool.not_eq_true', Bool.or_eq_false_iff, decide_eq_false_iff_not, not_le] at hb
    refine ⟨hb.1, ?_⟩
    change Real.logb 2 b ≠ 0
    rw [Real.logb]
    refine div_ne_zero ?_ (Real.log_pos (by norm_num)).ne'
    intro h
    have := hb.1
    rcases Real.log_eq_zero.mp h with h | h | h <;> [linarith; exact hb.2 h; linarith]

theorem log2_base {F : InfoLibm} (hF : F.Accurate) {base : LogBase} (hb : validLogBase base = true) :
    |F.log2 (baseD base) - Real.logb 2 base.val| ≤ 11 * |Real.logb 2 base.val| / 2 ^ 50 := by
  cases base with
  | e =>
    change |F.log2 (rnd (Real.exp 1)) - Real.logb 2 (Real.exp 1)| ≤ 11 * |Real.logb 2 (Real.exp 1)| / 2 ^ 50
    have h1 : 1 ≤ Real.exp 1 := by linarith [Real.exp_one_gt_d9]
    have b1 := infoLog_near hF (.num 2) (by norm_num [LogBase.val]) (by norm_num [LogBase.val]) (x := Real.exp 1)
      (le_trans (by rw [div_le_one (by positivity)]; exact one_le_pow₀ (by norm_num)) h1)
    have b2 : logScale (.num 2) ≤ 3 / 2 := by
      have := Real.log_two_gt_d9
      unfold logScale
      change 1 / |Real.log 2| ≤ _
      rw [abs_of_pos (by linarith), div_le_iff₀ (by linarith)]
      linarith
    have e : infoLogD F (.num 2) (rnd (Real.exp 1)) = F.log2 (rnd (Real.exp 1)) := by unfold infoLogD; simp
    rw [e] at b1
    change |F.log2 (rnd (Real.exp 1)) - Real.logb 2 (Real.exp 1)| ≤ (logScale (.num 2) + 1 + 8 * |Real.logb 2 (Real.exp 1)|) / 2 ^ 50 at b1
    have hL : 1 ≤ |Real.logb 2 (Real.exp 1)| := by
      have l1 := Real.log_two_lt_d9
      have l2 := Real.log_two_gt_d9
      rw [Real.logb, Real.log_exp, abs_of_pos (by apply div_pos one_pos; linarith), le_div_iff₀ (by linarith)]
      linarith
    generalize |Real.logb 2 (Real.exp 1)| = L at *
    linarith
  | num b =>
    change |F.log2 b - Real.logb 2 b| ≤ 11 * |Real.logb 2 b| / 2 ^ 50
    have := hF.log2_near b (base_facts hb).1
    have := abs_nonneg (Real.logb 2 b)
    linarith

/-- Division by the logarithm of the base. -/
theorem quotient_near {F : InfoLibm} (hF : F.Accurate) {base : LogBase} (hb : validLogBase base = true) {N N' ε : ℝ} (hN : |N| ≤ 1) (h : |N' - N| ≤ ε) (hε : ε ≤ 1 / 2 ^ 20) :
    |rnd (N' / F.log2 (baseD base)) - N / Real.logb 2 base.val| ≤ bitScale base * (ε + 1 / 2 ^ 45) + 1 / 2 ^ 60 := by
  have hl := log2_base hF hb
  have hne := (base_facts hb).2
  have hpos : 0 < |Real.logb 2 base.val| := abs_pos.mpr hne
  unfold bitScale
  generalize Real.logb 2 base.val = l at *
  generalize F.log2 (baseD base) = l' at *
  have hl' : |l| * (1 - 11 / 2 ^ 50) ≤ |l'| := by
    have := abs_sub_abs_le_abs_sub l l'
    rw [abs_sub_comm] at this
    linarith
  have hl0 : 0 < |l'| := lt_of_lt_of_le (mul_pos hpos (by norm_num)) hl'
  have hne' : l' ≠ 0 := abs_pos.mp hl0
  have hk : 0 < 1 / |l| := by positivity
  have hN' : |N'| ≤ 1 + 1 / 2 ^ 20 := by
    have := abs_sub_abs_le_abs_sub N' N
    linarith
  have q1 : |N' / l' - N' / l| ≤ 12 / 2 ^ 50 * (1 / |l|) := by
    rw [div_sub_div _ _ hne' hne, abs_div, abs_mul, show N' * l - l' * N' = -(N' * (l' - l)) by ring, abs_neg, abs_mul, div_le_iff₀ (mul_pos hl0 hpos)]
    have e : 12 / 2 ^ 50 * (1 / |l|) * (|l'| * |l|) = 12 / 2 ^ 50 * |l'| := by field_simp
    rw [e]
    have := mul_le_mul hN' hl (abs_nonneg _) (by norm_num)
    linarith
  have q2 : |N' / l - N / l| ≤ ε * (1 / |l|) := by
    rw [← sub_div, abs_div, mul_one_div]
    exact div_le_div_of_nonneg_right h hpos.le
  have q3 : |N / l| ≤ 1 / |l| := by
    rw [abs_div]
    exact div_le_div_of_nonneg_right hN hpos.le
  have q4 := rnd_error (N' / l')
  have ht := small_t
  generalize (2 : ℝ) ^ (-1075 : ℤ) = t at *
  have t1 := abs_sub_le (rnd (N' / l')) (N' / l') (N / l)
  have t2 := abs_sub_le (N' / l') (N' / l) (N / l)
  have t3 := abs_sub_abs_le_abs_sub (N' / l') (N / l)
  have hε0 : 0 ≤ ε := (abs_nonneg _).trans h
  generalize 1 / |l| = k at *
  have m1 : ε * k ≤ 1 / 2 ^ 20 * k := mul_le_mul_of_nonneg_right hε hk.le
  have m2 : k * (ε + 1 / 2 ^ 45) = ε * k + k / 2 ^ 45 := by ring
  rw [m2]
  linarith

theorem checked_some {F : InfoLibm} {p : ℝ} (h0 : 0 ≤ p) (h1 : p ≤ 1) : checkedEntropyD F p = some (binaryEntropyD F p) := if_pos ⟨h0, h1⟩

theorem bitEntropy_nonneg {p : ℝ} (h0 : 0 ≤ p) (h1 : p ≤ 1) : 0 ≤ bitEntropy p :=
  div_nonneg (Real.binEntropy_nonneg h0 h1) (Real.log_pos (by norm_num)).le

theorem pair_pmf {pi : ℝ} (h0 : 0 ≤ pi) (h1 : pi ≤ 1) : validPmf (![1 - pi, pi] : Fin 2 → ℝ) = true := by
  rw [Info.pmf_iff]
  refine ⟨fun i => by fin_cases i <;> simp [h0, h1], by rw [Fin.sum_univ_two]; simp⟩

theorem rnd_small {x : ℝ} (h : |x| ≤ 4) : |rnd x - x| ≤ 5 / 2 ^ 53 := by
  have := rnd_error x
  have ht := small_t
  generalize (2 : ℝ) ^ (-1075 : ℤ) = t at *
  have : t ≤ 1 / 2 ^ 53 := ht.trans (by norm_num)
  have : |x| / 2 ^ 53 ≤ 4 / 2 ^ 53 := div_le_div_of_nonneg_right h (by positivity)
  linarith

/-! ### the channels -/

/-- `BinarySymmetricChannel.mutual_information` never raises, and is the mutual information up to `(1/|log₂ base| + 1) 2⁻⁴¹`. -/
theorem C145_bsc_mutual_information {F : InfoLibm} (hF : F.Accurate) {p pi : ℝ} (dp : IsDouble p) (p0 : 0 ≤ p) (p1 : p ≤ 1) (q0 : 0 ≤ pi) (q1 : pi ≤ 1) (base : LogBase)
    (hb : validLogBase base = true) :
    ∃ v x, bscMutualInformationD F p pi base = some v ∧ mutualInformation ![1 - pi, pi] (bscMatrix p) base = some x ∧ |v - x| ≤ (bitScale base + 1) / 2 ^ 41 := by
  have hv := pair_pmf q0 q1
  rw [← (C78_closed_forms p (by simp [validProbability, p0, p1]) _ hv base hb).1]
  obtain ⟨a0, a1⟩ := bsc_argument dp p0 p1 q0 q1
  have x0 : 0 ≤ p + pi - 2 * p * pi := by nlinarith
  have x1 : p + pi - 2 * p * pi ≤ 1 := by nlinarith
  have hx : bscMutualInformation p ![1 - pi, pi] base = some ((bitEntropy (p + pi - 2 * p * pi) - bitEntropy p) / Real.logb 2 base.val) := by
    rw [bscMutualInformation, if_pos (by simp [hv, hb]), show (![1 - pi, pi] : Fin 2 → ℝ) 1 = pi from rfl, Info.binaryEntropy_eq _ x0 x1, Info.binaryEntropy_eq _ p0 p1]
    rfl
  refine ⟨_, _, by rw [bscMutualInformationD, checked_some a0 a1, checked_some p0 p1]; rfl, hx, ?_⟩
  have harg : |rnd (rnd (p + pi) - rnd (rnd (2 * p) * pi)) - (p + pi - 2 * p * pi)| ≤ 1 / 2 ^ 50 - 0 := by
    rw [rnd_of_isDouble (isDouble_twice dp)]
    have m0 : 0 ≤ p * pi := mul_nonneg p0 q0
    have m1 : p * pi ≤ 1 := by nlinarith
    have r1 := rnd_error (p + pi)
    have r2 := rnd_error (2 * p * pi)
    have r3 := rnd_error (rnd (p + pi) - rnd (2 * p * pi))
    have ht := small_t
    generalize (2 : ℝ) ^ (-1075 : ℤ) = t at *
    rw [abs_of_nonneg (by linarith : 0 ≤ p + pi)] at r1
    rw [abs_of_nonneg (by linarith : 0 ≤ 2 * p * pi)] at r2
    generalize rnd (p + pi) = A at *
    generalize rnd (2 * p * pi) = B at *
    have t0 : A - B - (p + pi - 2 * p * pi) = (A - (p + pi)) - (B - 2 * p * pi) := by ring
    have t1 : |A - B - (p + pi - 2 * p * pi)| ≤ |A - (p + pi)| + |B - 2 * p * pi| := by rw [t0]; exact abs_sub _ _
    have t2 := abs_sub_abs_le_abs_sub (A - B) (p + pi - 2 * p * pi)
    rw [abs_of_nonneg x0] at t2
    have t3 := abs_sub_le (rnd (A - B)) (A - B) (p + pi - 2 * p * pi)
    have hAB : |A - B| ≤ 2 := by linarith
    linarith
  rw [sub_zero] at harg
  have hc := bitEntropy_continuity a0 a1 x0 x1 harg
  have n1 := C143_binary_entropy hF (rnd_isDouble _) a0 a1
  have n2 := C143_binary_entropy hF dp p0 p1
  change |_ - bitEntropy _| ≤ _ at n1
  change |_ - bitEntropy _| ≤ _ at n2
  have u1 := bitEntropy_le_one (p + pi - 2 * p * pi)
  have u2 := bitEntropy_nonneg x0 x1
  have u3 := bitEntropy_le_one p
  have u4 := bitEntropy_nonneg p0 p1
  generalize binaryEntropyD F (rnd (rnd (p + pi) - rnd (rnd (2 * p) * pi))) = A at *
  generalize bitEntropy (rnd (rnd (p + pi) - rnd (rnd (2 * p) * pi))) = A' at *
  generalize bitEntropy (p + pi - 2 * p * pi) = X at *
  generalize binaryEntropyD F p = B at *
  generalize bitEntropy p = Y at *
  have m1 := abs_le.mp hc
  have m2 := abs_le.mp n1
  have m3 := abs_le.mp n2
  have k1 : |(A - B) - (X - Y)| ≤ 1 / 2 ^ 43 + 2 / 2 ^ 45 := by rw [abs_le]; constructor <;> linarith [m1.1, m1.2, m2.1, m2.2, m3.1, m3.2]
  have k2 : |A - B| ≤ 4 := by
    have := abs_le.mp k1
    rw [abs_le]; constructor <;> linarith [this.1, this.2]
  have k3 := rnd_small k2
  have k4 := abs_sub_le (rnd (A - B)) (A - B) (X - Y)
  have fin := quotient_near hF hb (N := X - Y) (N' := rnd (A - B)) (ε := 13 / 2 ^ 46) (by rw [abs_le]; constructor <;> linarith)
    (by refine k4.trans (le_trans (add_le_add k3 k1) (by norm_num))) (by norm_num)
  have hk : 0 ≤ bitScale base := by unfold bitScale; positivity
  generalize bitScale base = k at *
  linarith

/-- `BinarySymmetricChannel.capacity`. -/
theorem C145_bsc_capacity {F : InfoLibm} (hF : F.Accurate) {p : ℝ} (dp : IsDouble p) (p0 : 0 ≤ p) (p1 : p ≤ 1) (base : LogBase) (hb : validLogBase base = true) :
    ∃ v x, bscCapacityD F p base = some v ∧ bscCapacity p base = some x ∧ |v - x| ≤ (bitScale base + 1) / 2 ^ 43 := by
  have hx : bscCapacity p base = some ((1 - bitEntropy p) / Real.logb 2 base.val) := by
    rw [bscCapacity, if_pos hb, Info.binaryEntropy_eq _ p0 p1]
    rfl
  refine ⟨_, _, by rw [bscCapacityD, checked_some p0 p1]; rfl, hx, ?_⟩
  have n2 := C143_binary_entropy hF dp p0 p1
  change |_ - bitEntropy _| ≤ _ at n2
  have u3 := bitEntropy_le_one p
  have u4 := bitEntropy_nonneg p0 p1
  generalize binaryEntropyD F p = B at *
  generalize bitEntropy p = Y at *
  have m3 := abs_le.mp n2
  have k1 : |(1 - B) - (1 - Y)| ≤ 1 / 2 ^ 45 := by rw [abs_le]; constructor <;> linarith [m3.1, m3.2]
  have k2 : |1 - B| ≤ 4 := by
    have := abs_le.mp k1
    rw [abs_le]; constructor <;> linarith [this.1, this.2]
  have k3 := rnd_small k2
  have k4 := abs_sub_le (rnd (1 - B)) (1 - B) (1 - Y)
  have fin := quotient_near hF hb (N := 1 - Y) (N' := rnd (1 - B)) (ε := 3 / 2 ^ 46) (by rw [abs_le]; constructor <;> linarith)
    (by refine k4.trans (le_trans (add_le_add k3 k1) (by norm_num))) (by norm_num)
  have hk : 0 ≤ bitScale base := by unfold bitScale; positivity
  generalize bitScale base = k at *
  linarith

/-- `BinaryErasureChannel.mutual_information` and `capacity`. -/
theorem C145_bec {F : InfoLibm} (hF : F.Accurate) {ε pi : ℝ} (dpi : IsDouble pi) (p0 : 0 ≤ ε) (p1 : ε ≤ 1) (q0 : 0 ≤ pi) (q1 : pi ≤ 1) (base : LogBase) (hb : validLogBase base = true) :
    (∃ v x, becMutualInformationD F ε pi base = some v ∧ mutualInformation ![1 - pi, pi] (becMatrix ε) base = some x ∧ |v - x| ≤ (bitScale base + 1) / 2 ^ 43) ∧
    ∃ x, becCapacity ε base = some x ∧ |becCapacityD F ε base - x| ≤ (bitScale base + 1) / 2 ^ 43 := by
  have hv := pair_pmf q0 q1
  have hk : 0 ≤ bitScale base := by unfold bitScale; positivity
  have hε : |rnd (1 - ε) - (1 - ε)| ≤ 5 / 2 ^ 53 := rnd_small (by rw [abs_le]; constructor <;> linarith)
  rw [← (C78_closed_forms ε (by simp [validProbability, p0, p1]) _ hv base hb).2.1]
  constructor
  · have hx : becMutualInformation ε ![1 - pi, pi] base = some ((1 - ε) * bitEntropy pi / Real.logb 2 base.val) := by
      rw [becMutualInformation, if_pos (by simp [hv, hb]), show (![1 - pi, pi] : Fin 2 → ℝ) 1 = pi from rfl, Info.binaryEntropy_eq _ q0 q1]
      rfl
    refine ⟨_, _, by rw [becMutualInformationD, checked_some q0 q1]; rfl, hx, ?_⟩
    have n2 := C143_binary_entropy hF dpi q0 q1
    change |_ - bitEntropy _| ≤ _ at n2
    have u3 := bitEntropy_le_one pi
    have u4 := bitEntropy_nonneg q0 q1
    generalize binaryEntropyD F pi = B at *
    generalize bitEntropy pi = Y at *
    generalize rnd (1 - ε) = E at *
    have g0 : 0 ≤ 1 - ε := by linarith
    have g1 : 1 - ε ≤ 1 := by linarith
    generalize 1 - ε = D at *
    have hB : |B| ≤ 2 := by
      have := abs_le.mp n2
      rw [abs_le]; constructor <;> linarith [this.1, this.2]
    have k1 : |E * B - D * Y| ≤ 1 / 2 ^ 45 + 10 / 2 ^ 53 := by
      rw [show E * B - D * Y = (E - D) * B + D * (B - Y) by ring]
      refine (abs_add_le _ _).trans ?_
      rw [abs_mul, abs_mul, abs_of_nonneg g0]
      have a1 := mul_le_mul hε hB (abs_nonneg _) (by positivity)
      have a2 := mul_le_mul g1 n2 (abs_nonneg _) zero_le_one
      linarith
    have hDY : 0 ≤ D * Y ∧ D * Y ≤ 1 := ⟨mul_nonneg g0 u4, by nlinarith⟩
    have k2 : |E * B| ≤ 4 := by
      have := abs_le.mp k1
      rw [abs_le]; constructor <;> linarith [this.1, this.2, hDY.1, hDY.2]
    have k3 := rnd_small k2
    have k4 := abs_sub_le (rnd (E * B)) (E * B) (D * Y)
    have fin := quotient_near hF hb (N := D * Y) (N' := rnd (E * B)) (ε := 3 / 2 ^ 46) (by rw [abs_le]; constructor <;> linarith [hDY.1, hDY.2])
      (by refine k4.trans (le_trans (add_le_add k3 k1) (by norm_num))) (by norm_num)
    generalize bitScale base = k at *
    linarith
  · refine ⟨_, by rw [becCapacity, if_pos hb], ?_⟩
    have fin := quotient_near hF hb (N := 1 - ε) (N' := rnd (1 - ε)) (ε := 5 / 2 ^ 53) (by rw [abs_le]; constructor <;> linarith) hε (by norm_num)
    unfold becCapacityD
    generalize bitScale base = k at *
    linarith

/-- `ZChannel.mutual_information` never raises. -/
theorem C145_z_mutual_information {F : InfoLibm} (hF : F.Accurate) {p pi : ℝ} (dp : IsDouble p) (p0 : 0 ≤ p) (p1 : p ≤ 1) (q0 : 0 ≤ pi) (q1 : pi ≤ 1) (base : LogBase)
    (hb : validLogBase base = true) :
    ∃ v x, zMutualInformationD F p pi base = some v ∧ mutualInformation ![1 - pi, pi] (zMatrix p) base = some x ∧ |v - x| ≤ (bitScale base + 1) / 2 ^ 41 := by
  have hv := pair_pmf q0 q1
  rw [← (C78_closed_forms p (by simp [validProbability, p0, p1]) _ hv base hb).2.2.1]
  have e0 := rnd_nonneg (by linarith : 0 ≤ 1 - p)
  have e1 : rnd (1 - p) ≤ 1 := rnd_le_one (by have : (0 : ℝ) < 1 / 2 ^ 53 := by positivity
                                              linarith)
  have he : |rnd (1 - p) - (1 - p)| ≤ 5 / 2 ^ 53 := rnd_small (by rw [abs_le]; constructor <;> linarith)
  have a0 : 0 ≤ rnd (pi * rnd (1 - p)) := rnd_nonneg (mul_nonneg q0 e0)
  have hm : pi * rnd (1 - p) ≤ 1 := by nlinarith
  have a1 : rnd (pi * rnd (1 - p)) ≤ 1 := rnd_le_one (by have : (0 : ℝ) < 1 / 2 ^ 53 := by positivity
                                                         linarith)
  have x0 : 0 ≤ pi * (1 - p) := mul_nonneg q0 (by linarith)
  have x1 : pi * (1 - p) ≤ 1 := by nlinarith
  have hx : zMutualInformation p ![1 - pi, pi] base = some ((bitEntropy (pi * (1 - p)) - pi * bitEntropy p) / Real.logb 2 base.val) := by
    rw [zMutualInformation, if_pos (by simp [hv, hb]), show (![1 - pi, pi] : Fin 2 → ℝ) 1 = pi from rfl, Info.binaryEntropy_eq _ x0 x1, Info.binaryEntropy_eq _ p0 p1]
    rfl
  refine ⟨_, _, by rw [zMutualInformationD, checked_some a0 a1, checked_some p0 p1]; rfl, hx, ?_⟩
  have harg : |rnd (pi * rnd (1 - p)) - pi * (1 - p)| ≤ 1 / 2 ^ 50 := by
    have r1 : |rnd (pi * rnd (1 - p)) - pi * rnd (1 - p)| ≤ 2 / 2 ^ 53 := by
      have := rnd_error (pi * rnd (1 - p))
      have ht := small_t
      generalize (2 : ℝ) ^ (-1075 : ℤ) = t at *
      rw [abs_of_nonneg (mul_nonneg q0 e0)] at this
      linarith
    have r2 : |pi * rnd (1 - p) - pi * (1 - p)| ≤ 5 / 2 ^ 53 := by
      rw [← mul_sub, abs_mul, abs_of_nonneg q0]
      have := mul_le_mul q1 he (abs_nonneg _) zero_le_one
      linarith
    have := abs_sub_le (rnd (pi * rnd (1 - p))) (pi * rnd (1 - p)) (pi * (1 - p))
    refine this.trans (le_trans (add_le_add r1 r2) (by norm_num))
  have hc := bitEntropy_continuity a0 a1 x0 x1 harg
  have n1 := C143_binary_entropy hF (rnd_isDouble _) a0 a1
  have n2 := C143_binary_entropy hF dp p0 p1
  change |_ - bitEntropy _| ≤ _ at n1
  change |_ - bitEntropy _| ≤ _ at n2
  have u1 := bitEntropy_le_one (pi * (1 - p))
  have u2 := bitEntropy_nonneg x0 x1
  have u3 := bitEntropy_le_one p
  have u4 := bitEntropy_nonneg p0 p1
  generalize binaryEntropyD F (rnd (pi * rnd (1 - p))) = A at *
  generalize bitEntropy (rnd (pi * rnd (1 - p))) = A' at *
  generalize bitEntropy (pi * (1 - p)) = X at *
  generalize binaryEntropyD F p = B at *
  generalize bitEntropy p = Y at *
  have m1 := abs_le.mp hc
  have m2 := abs_le.mp n1
  have hpiY : 0 ≤ pi * Y ∧ pi * Y ≤ 1 := ⟨mul_nonneg q0 u4, by nlinarith⟩
  have k0 : |pi * B - pi * Y| ≤ 1 / 2 ^ 45 := by
    rw [← mul_sub, abs_mul, abs_of_nonneg q0]
    have := mul_le_mul q1 n2 (abs_nonneg _) zero_le_one
    linarith
  have k0' : |rnd (pi * B) - pi * Y| ≤ 1 / 2 ^ 45 + 5 / 2 ^ 53 := by
    have h4 : |pi * B| ≤ 4 := by
      have := abs_le.mp k0
      rw [abs_le]; constructor <;> linarith [this.1, this.2, hpiY.1, hpiY.2]
    have := rnd_small h4
    have := abs_sub_le (rnd (pi * B)) (pi * B) (pi * Y)
    linarith
  generalize rnd (pi * B) = C at *
  have m3 := abs_le.mp k0'
  have k1 : |(A - C) - (X - pi * Y)| ≤ 1 / 2 ^ 43 + 2 / 2 ^ 45 + 5 / 2 ^ 53 := by rw [abs_le]; constructor <;> linarith [m1.1, m1.2, m2.1, m2.2, m3.1, m3.2]
  have k2 : |A - C| ≤ 4 := by
    have := abs_le.mp k1
    rw [abs_le]; constructor <;> linarith [this.1, this.2, hpiY.1, hpiY.2]
  have k3 := rnd_small k2
  have k4 := abs_sub_le (rnd (A - C)) (A - C) (X - pi * Y)
  have fin := quotient_near hF hb (N := X - pi * Y) (N' := rnd (A - C)) (ε := 13 / 2 ^ 46) (by rw [abs_le]; constructor <;> linarith [hpiY.1, hpiY.2])
    (by refine k4.trans (le_trans (add_le_add k3 k1) (by norm_num))) (by norm_num)
  have hk : 0 ≤ bitScale base := by unfold bitScale; positivity
  generalize bitScale base = k at *
  linarith

theorem double_log {p : ℝ} (hd : IsDouble p) (h : 0 < p) : -(1075 : ℝ) ≤ Real.log p := by
  obtain ⟨m, e, hm, he, rfl⟩ := hd
  have hz := two_zpow_pos e
  have hm0 : (0 : ℝ) < m := by
    by_contra hc
    have := mul_nonpos_of_nonpos_of_nonneg (not_lt.mp hc) hz.le
    linarith
  have hm1 : (1 : ℝ) ≤ m := by exact_mod_cast (by exact_mod_cast hm0 : 0 < m)
  rw [Real.log_mul hm0.ne' hz.ne', Real.log_zpow]
  have l1 := Real.log_nonneg hm1
  have l2 := Real.log_two_lt_d9
  have l3 := Real.log_two_gt_d9
  have he' : (-1074 : ℝ) ≤ e := by exact_mod_cast he
  nlinarith

theorem exp_lipschitz {a b : ℝ} (ha : a ≤ 0) (hb : b ≤ 0) : |Real.exp a - Real.exp b| ≤ |a - b| := by
  have key : ∀ {a b : ℝ}, a ≤ b → b ≤ 0 → Real.exp b - Real.exp a ≤ b - a := by
    intro a b hab hb
    have h1 : Real.exp a = Real.exp b * Real.exp (a - b) := by rw [← Real.exp_add]; ring_nf
    have h2 := Real.add_one_le_exp (a - b)
    have h3 : Real.exp b ≤ 1 := Real.exp_le_one_iff.mpr hb
    have h4 := Real.exp_pos b
    rw [h1]
    nlinarith
  rcases le_total a b with h | h
  · rw [abs_sub_comm, abs_of_nonneg (by linarith [Real.exp_le_exp.mpr h]), abs_sub_comm, abs_of_nonneg (by linarith)]
    exact key h hb
  · rw [abs_of_nonneg (by linarith [Real.exp_le_exp.mpr h]), abs_of_nonneg (by linarith)]
    exact key h ha

/-- `float.__pow__` is accurate to a few units in the last place where its result is from 1/4 to 1. -/
def PowAccurate (pow : ℝ → ℝ → ℝ) : Prop := ∀ x y : ℝ, 0 ≤ x → 0 ≤ y → 1 / 4 ≤ x ^ y → x ^ y ≤ 1 → |pow x y - x ^ y| ≤ x ^ y / 2 ^ 50

/-- The power in `ZChannel.capacity`. -/
theorem z_power {pow : ℝ → ℝ → ℝ} (hp : PowAccurate pow) {p : ℝ} (dp : IsDouble p) (p0 : 0 ≤ p) (p1 : p < 1) :
    0 ≤ p ^ (p / (1 - p)) ∧ p ^ (p / (1 - p)) ≤ 1 ∧ |pow p (rnd (p / rnd (1 - p))) - p ^ (p / (1 - p))| ≤ 8 / 2 ^ 50 := by
  have hq := one_sub_double dp p1
  have hqe := rnd_error_big (x := 1 - p) (le_trans (by norm_num) hq)
  have hq0 : 0 < 1 - p := by linarith
  have hq0' : 0 < rnd (1 - p) := by
    have := (abs_le.mp hqe).1
    have : (1 - p) / 2 ^ 53 ≤ (1 - p) / 2 := div_le_div_of_nonneg_left hq0.le (by norm_num) (by norm_num)
    linarith
  rcases eq_or_lt_of_le p0 with rfl | p0
  · have := hp 0 0 le_rfl le_rfl (by norm_num) (by norm_num)
    rw [zero_div, zero_div, rnd_zero]
    rw [Real.rpow_zero] at this ⊢
    refine ⟨zero_le_one, le_rfl, this.trans (by norm_num)⟩
  have hl : Real.log p ≤ 0 := Real.log_nonpos p0.le p1.le
  have hlD := double_log dp p0
  set a := p / (1 - p) with ha
  have a0 : 0 ≤ a := by positivity
  -- |a log p| ≤ 1
  have hal : a * (-Real.log p) ≤ 1 := by
    have h1 := Real.log_le_sub_one_of_pos (inv_pos.mpr p0)
    rw [Real.log_inv] at h1
    rw [ha, div_mul_eq_mul_div, div_le_one hq0]
    have h2 := mul_le_mul_of_nonneg_left h1 p0.le
    rw [mul_sub, mul_inv_cancel₀ p0.ne'] at h2
    linarith
  -- the quotient
  have hquot : |p / rnd (1 - p) - a| ≤ 2 * a / 2 ^ 53 := by
    rw [ha, div_sub_div _ _ hq0'.ne' hq0.ne', abs_div, abs_of_pos (mul_pos hq0' hq0), div_le_iff₀ (mul_pos hq0' hq0),
      show p * (1 - p) - rnd (1 - p) * p = p * -(rnd (1 - p) - (1 - p)) by ring, abs_mul, abs_neg, abs_of_pos p0]
    have e1 : 2 * (p / (1 - p)) / 2 ^ 53 * (rnd (1 - p) * (1 - p)) = p * (2 * rnd (1 - p) / 2 ^ 53) := by
      field_simp
    rw [e1]
    apply mul_le_mul_of_nonneg_left _ p0.le
    have := (abs_le.mp hqe).1
    linarith
  set a' := rnd (p / rnd (1 - p)) with ha'
  have a0' : 0 ≤ a' := rnd_nonneg (by positivity)
  have hdiff : |a' - a| ≤ 4 * a / 2 ^ 53 + 2 ^ (-1075 : ℤ) := by
    have r := rnd_error (p / rnd (1 - p))
    rw [← ha'] at r
    have t1 := abs_sub_le a' (p / rnd (1 - p)) a
    have t2 := abs_sub_abs_le_abs_sub (p / rnd (1 - p)) a
    rw [abs_of_nonneg a0] at t2
    linarith
  -- the powers
  have hpow : ∀ y : ℝ, p ^ y = Real.exp (Real.log p * y) := fun y => Real.rpow_def_of_pos p0 y
  have ht : (2 : ℝ) ^ (-1075 : ℤ) * 1075 ≤ 1 / 2 ^ 53 := by
    have h1 : (2 : ℝ) ^ (-1075 : ℤ) ≤ 2 ^ (-70 : ℤ) := zpow_le_zpow_right₀ (by norm_num) (by norm_num)
    have h2 : (2 : ℝ) ^ (-70 : ℤ) = 1 / 2 ^ 70 := by rw [zpow_neg, one_div]; norm_cast
    rw [h2] at h1
    generalize (2 : ℝ) ^ (-1075 : ℤ) = t at *
    linarith
  have hlip : |p ^ a' - p ^ a| ≤ 5 / 2 ^ 53 := by
    rw [hpow, hpow]
    refine (exp_lipschitz (mul_nonpos_of_nonpos_of_nonneg hl a0') (mul_nonpos_of_nonpos_of_nonneg hl a0)).trans ?_
    rw [← mul_sub, abs_mul, abs_of_nonpos hl]
    have h1 := mul_le_mul_of_nonneg_left hdiff (by linarith : 0 ≤ -Real.log p)
    refine h1.trans ?_
    have h2 : (2 : ℝ) ^ (-1075 : ℤ) * -Real.log p ≤ 2 ^ (-1075 : ℤ) * 1075 := mul_le_mul_of_nonneg_left (by linarith) (by positivity)
    generalize (2 : ℝ) ^ (-1075 : ℤ) = t at *
    have h3 : -Real.log p * (4 * a / 2 ^ 53 + t) = 4 * (a * -Real.log p) / 2 ^ 53 + t * -Real.log p := by ring
    rw [h3]
    linarith
  have hP0 : 1 / 3 ≤ p ^ a := by
    rw [hpow]
    have h1 : Real.exp (-1) ≤ Real.exp (Real.log p * a) := Real.exp_le_exp.mpr (by linarith)
    refine le_trans ?_ h1
    rw [Real.exp_neg, ← one_div]
    exact one_div_le_one_div_of_le (Real.exp_pos 1) (by linarith [Real.exp_one_lt_d9])
  have hP1 : p ^ a ≤ 1 := Real.rpow_le_one p0.le p1.le a0
  have hP1' : p ^ a' ≤ 1 := Real.rpow_le_one p0.le p1.le a0'
  have hl' := abs_le.mp hlip
  have h5 : (5 : ℝ) / 2 ^ 53 ≤ 1 / 100 := by norm_num
  have hn := hp p a' p0.le a0' (by linarith [hl'.1]) hP1'
  refine ⟨by linarith, hP1, ?_⟩
  have := abs_sub_le (pow p a') (p ^ a') (p ^ a)
  generalize p ^ a' = P' at *
  generalize p ^ a = P at *
  linarith

/-- `ZChannel.capacity`. -/
theorem C145_z_capacity {F : InfoLibm} (hF : F.Accurate) {pow : ℝ → ℝ → ℝ} (hp : PowAccurate pow) {p : ℝ} (dp : IsDouble p) (p0 : 0 ≤ p) (p1 : p ≤ 1) (base : LogBase) (hb : validLogBase base = true) :
    ∃ x, zCapacity p base = some x ∧ |zCapacityD F pow p base - x| ≤ (bitScale base + 1) / 2 ^ 42 := by
  have hk : 0 ≤ bitScale base := by unfold bitScale; positivity
  by_cases h1 : p = 1
  · refine ⟨0, by rw [zCapacity, if_pos hb, if_pos h1], ?_⟩
    rw [zCapacityD, if_pos h1, sub_zero, abs_zero]
    positivity
  refine ⟨_, by rw [zCapacity, if_pos hb, if_neg h1], ?_⟩
  rw [zCapacityD, if_neg h1]
  have p1' : p < 1 := lt_of_le_of_ne p1 h1
  obtain ⟨P0, P1, hP⟩ := z_power hp dp p0 p1'
  have q0 : 0 ≤ 1 - p := by linarith
  have qe : |rnd (1 - p) - (1 - p)| ≤ 5 / 2 ^ 53 := rnd_small (by rw [abs_le]; constructor <;> linarith)
  have q1 : 1 - p ≤ 1 := by linarith
  dsimp only
  generalize pow p (rnd (p / rnd (1 - p))) = P' at *
  generalize p ^ (p / (1 - p)) = P at *
  generalize rnd (1 - p) = q' at *
  generalize 1 - p = q at *
  have k1 : |q' * P' - q * P| ≤ 14 / 2 ^ 50 := by
    rw [show q' * P' - q * P = (q' - q) * P' + q * (P' - P) by ring]
    refine (abs_add_le _ _).trans ?_
    rw [abs_mul, abs_mul, abs_of_nonneg q0]
    have hP' : |P'| ≤ 2 := by
      have := abs_le.mp hP
      rw [abs_le]; constructor <;> linarith [this.1, this.2]
    have a1 := mul_le_mul qe hP' (abs_nonneg _) (by positivity)
    have a2 := mul_le_mul q1 hP (abs_nonneg _) zero_le_one
    linarith
  have hqP : 0 ≤ q * P ∧ q * P ≤ 1 := ⟨mul_nonneg q0 P0, by nlinarith⟩
  have k2 : |rnd (q' * P') - q * P| ≤ 15 / 2 ^ 50 := by
    have h4 : |q' * P'| ≤ 4 := by
      have := abs_le.mp k1
      rw [abs_le]; constructor <;> linarith [this.1, this.2, hqP.1, hqP.2]
    have := rnd_small h4
    have := abs_sub_le (rnd (q' * P')) (q' * P') (q * P)
    linarith
  generalize rnd (q' * P') = M at *
  generalize q * P = X at *
  have m2 := abs_le.mp k2
  have k3 : |rnd (1 + M) - (1 + X)| ≤ 16 / 2 ^ 50 := by
    have h4 : |1 + M| ≤ 4 := by rw [abs_le]; constructor <;> linarith [m2.1, m2.2, hqP.1, hqP.2]
    have h5 := rnd_small h4
    have h6 := abs_sub_le (rnd (1 + M)) (1 + M) (1 + X)
    rw [show (1 + M) - (1 + X) = M - X by ring] at h6
    linarith
  generalize rnd (1 + M) = S at *
  have m3 := abs_le.mp k3
  obtain ⟨X0, X1⟩ := hqP
  have S0 : 1 / 2 ≤ S := by linarith [m3.1, m3.2]
  have S1 : S ≤ 4 := by linarith [m3.1, m3.2]
  have l2 := Real.log_two_gt_d9
  have lg : |Real.logb 2 S - Real.logb 2 (1 + X)| ≤ 64 / 2 ^ 50 := by
    rw [Real.logb, Real.logb, ← sub_div, abs_div, abs_of_pos (by linarith : 0 < Real.log 2), div_le_iff₀ (by linarith)]
    have hlow : (64 : ℝ) / 2 ^ 50 * (1 / 2) ≤ 64 / 2 ^ 50 * Real.log 2 := mul_le_mul_of_nonneg_left (by linarith) (by positivity)
    refine le_trans ?_ hlow
    have hS : 0 < S := by linarith
    have hX : 0 < 1 + X := by linarith
    have e1 := Real.log_le_sub_one_of_pos (div_pos hS hX)
    have e2 := Real.log_le_sub_one_of_pos (div_pos hX hS)
    rw [Real.log_div hS.ne' hX.ne'] at e1
    rw [Real.log_div hX.ne' hS.ne'] at e2
    have f1 : S / (1 + X) - 1 ≤ 32 / 2 ^ 50 := by
      rw [sub_le_iff_le_add, div_le_iff₀ hX]
      linarith [m3.1, m3.2]
    have f2 : (1 + X) / S - 1 ≤ 32 / 2 ^ 50 := by
      rw [sub_le_iff_le_add, div_le_iff₀ hS]
      linarith [m3.1, m3.2]
    rw [abs_le]; constructor <;> linarith
  have L0 : 0 ≤ Real.logb 2 (1 + X) := Real.logb_nonneg (by norm_num) (by linarith)
  have L1 : Real.logb 2 (1 + X) ≤ 1 := by
    rw [Real.logb_le_iff_le_rpow (by norm_num) (by linarith), Real.rpow_one]
    linarith
  have hl := hF.log2_near S (by linarith)
  generalize F.log2 S = N' at *
  generalize Real.logb 2 S = T at *
  generalize Real.logb 2 (1 + X) = N at *
  have m4 := abs_le.mp lg
  have hT : |T| ≤ 2 := by rw [abs_le]; constructor <;> linarith [m4.1, m4.2]
  have n1 := abs_sub_le N' T N
  have fin := quotient_near hF hb (N := N) (N' := N') (ε := 66 / 2 ^ 50) (by rw [abs_of_nonneg L0]; exact L1) (by linarith) (by norm_num)
  generalize bitScale base = k at *
  linarith

/-! ### the hypotheses can be met -/

example : exactInfo.Accurate ∧ PowAccurate (fun x y : ℝ => x ^ y) ∧ IsDouble (1 / 4 : ℝ) ∧ validLogBase (.num 2) = true ∧ validLogBase .e = true ∧ bitScale (.num 2) = 1 := by
  refine ⟨exactInfo_accurate, fun x y _ _ h _ => ?_, ⟨1, -2, by norm_num, by norm_num, by norm_num⟩, by norm_num [validLogBase], rfl, ?_⟩
  · rw [sub_self, abs_zero]
    have : 0 ≤ x ^ y := by linarith
    positivity
  · unfold bitScale
    change 1 / |Real.logb 2 2| = 1
    rw [Real.logb_self_eq_one (by norm_num)]
    norm_num

example : ∃ v, bscMutualInformationD exactInfo (1 / 4) (1 / 2) (.num 2) = some v := by
  obtain ⟨v, x, h, -, -⟩ := C145_bsc_mutual_information exactInfo_accurate (p := 1 / 4) (pi := 1 / 2) ⟨1, -2, by norm_num, by norm_num, by norm_num⟩ (by norm_num) (by norm_num) (by norm_num) (by norm_num)
    (.num 2) (by norm_num [validLogBase])
  exact ⟨v, h⟩

end Komm
