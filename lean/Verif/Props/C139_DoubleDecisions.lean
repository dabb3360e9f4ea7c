import Verif.Model.DoubleDecisions
import Verif.Props.C135_DoublePam
import Verif.Props.C71_Quantizers
import Verif.Lemmas.DoubleViterbi
import Verif.Lemmas.BlockDistance
import Verif.Props.C138_DoubleDecoders
import Verif.Props.C134_DoubleViterbi
import Mathlib.Data.List.GetD
import Mathlib.Analysis.SpecialFunctions.Complex.Arg
import Mathlib.Analysis.SpecialFunctions.Trigonometric.Bounds
import Mathlib.Analysis.Real.Pi.Bounds
import Mathlib.Tactic.FinCases
import Mathlib.Analysis.SpecialFunctions.Trigonometric.Basic

/-! C139: uniform quantizers and QAM decisions in double precision. -/
namespace Komm

/-! ### uniform quantizers -/

variable {L : Nat} {Δ θ : ℝ}

theorem half_exact (hL2 : L ≤ 2 ^ 52) (i : Nat) (hi : i < L) : rnd ((i : ℝ) - rnd (((L : ℝ) - 1) / 2)) = (i : ℝ) - ((L : ℝ) - 1) / 2 := by
  have h1 : IsDouble (((L : ℝ) - 1) / 2) := ⟨(L : ℤ) - 1, -1, by rw [abs_of_nonneg (by omega)]; norm_num at hL2 ⊢; omega, by norm_num, by rw [zpow_neg_one]; push_cast; ring⟩
  rw [rnd_of_isDouble h1]
  apply rnd_of_isDouble
  exact ⟨2 * (i : ℤ) - ((L : ℤ) - 1), -1, by rw [abs_lt]; norm_num at hL2 ⊢; constructor <;> omega, by norm_num, by rw [zpow_neg_one]; push_cast; ring⟩

/-- The stored levels are within `(L + |θ|) Δ / 2^51` of the exact ones. -/
theorem C139_levels (hL2 : L ≤ 2 ^ 52) (hΔ : (2 : ℝ) ^ (-1000 : ℤ) ≤ Δ) (i : Nat) (hi : i < L) :
    |uniformLevelD L Δ θ i - ((i : ℝ) - ((L : ℝ) - 1) / 2 + θ) * Δ| ≤ ((L : ℝ) + |θ|) * Δ / 2 ^ 51 := by
  have hi' : (i : ℝ) + 1 ≤ L := by exact_mod_cast hi
  have hi0 : (0 : ℝ) ≤ i := Nat.cast_nonneg i
  have hd0 : 0 < Δ := lt_of_lt_of_le (by positivity) hΔ
  have ht := tiny hΔ
  have hθ := abs_nonneg θ
  rw [uniformLevelD, half_exact hL2 i hi]
  obtain ⟨h, hh⟩ : ∃ h : ℝ, h = (i : ℝ) - ((L : ℝ) - 1) / 2 := ⟨_, rfl⟩
  rw [← hh]
  have hb : |h| ≤ L := by rw [abs_le]; constructor <;> linarith
  obtain ⟨A, hA⟩ : ∃ A : ℝ, A = (L : ℝ) + |θ| := ⟨_, rfl⟩
  rw [← hA]
  have hA1 : 1 ≤ A := by linarith
  have hhA : |h + θ| ≤ A := (abs_add_le _ _).trans (by linarith)
  have h1 := rnd_error (h + θ)
  have ht1 : (2 : ℝ) ^ (-1075 : ℤ) ≤ 1 / 2 ^ 60 := by
    have : (2 : ℝ) ^ (-1075 : ℤ) ≤ 2 ^ (-60 : ℤ) := zpow_le_zpow_right₀ (by norm_num) (by norm_num)
    refine this.trans (le_of_eq ?_)
    rw [zpow_neg, one_div]; norm_cast
  have h2 : |rnd (h + θ) - (h + θ)| ≤ 2 * A / 2 ^ 53 := by
    generalize (2 : ℝ) ^ (-1075 : ℤ) = t at *
    linarith
  have h3 : |rnd (h + θ) * Δ - (h + θ) * Δ| ≤ 2 * (A * Δ) / 2 ^ 53 := by
    rw [← sub_mul, abs_mul, abs_of_pos hd0]
    calc _ ≤ 2 * A / 2 ^ 53 * Δ := mul_le_mul_of_nonneg_right h2 hd0.le
      _ = _ := by ring
  have hAΔ : Δ ≤ A * Δ := by nlinarith
  have h4 := rnd_near (A := A * Δ) (ht.trans (by apply div_le_div_of_nonneg_right hAΔ (by positivity))) h3
    (by rw [abs_mul, abs_of_pos hd0]; exact mul_le_mul_of_nonneg_right hhA hd0.le)
  refine h4.trans ?_
  generalize A * Δ = B at *
  linarith

theorem level_mono (hΔ : 0 ≤ Δ) {i j : Nat} (h : i ≤ j) : uniformLevelD L Δ θ i ≤ uniformLevelD L Δ θ j := by
  have h' : (i : ℝ) ≤ j := by exact_mod_cast h
  unfold uniformLevelD
  apply rnd_mono
  apply mul_le_mul_of_nonneg_right _ hΔ
  apply rnd_mono
  have : rnd ((i : ℝ) - rnd (((L : ℝ) - 1) / 2)) ≤ rnd ((j : ℝ) - rnd (((L : ℝ) - 1) / 2)) := rnd_mono (by linarith)
  linarith

theorem thresholds_getD {j : Nat} (hj : j + 1 < L) : (uniformThresholdsD L Δ θ).getD j 0 = rnd (uniformLevelD L Δ θ j + rnd (Δ / 2)) := by
  have hlen : (uniformThresholdsD L Δ θ).length = L - 1 := by simp [uniformThresholdsD, uniformLevelsD]
  rw [List.getD_eq_getElem _ _ (by omega)]
  simp only [uniformThresholdsD, uniformLevelsD, List.getElem_dropLast, List.getElem_map, List.getElem_range]

theorem thresholds_length : (uniformThresholdsD L Δ θ).length = L - 1 := by simp [uniformThresholdsD, uniformLevelsD]

/-- The stored thresholds do not decrease (`np.digitize` raises `ValueError` on bins that are not monotonic). -/
theorem C139_thresholds_monotone (hΔ : 0 ≤ Δ) : (uniformThresholdsD L Δ θ).Pairwise (· ≤ ·) := by
  rw [uniformThresholdsD, uniformLevelsD, List.map_map]
  refine List.Pairwise.sublist (List.dropLast_sublist _) ?_
  rw [List.pairwise_map]
  refine List.pairwise_lt_range.imp ?_
  intro i j h
  simp only [Function.comp]
  apply rnd_mono
  have := level_mono (L := L) (θ := θ) hΔ h.le
  linarith

theorem threshold_near (hL2 : L ≤ 2 ^ 52) (hΔ : (2 : ℝ) ^ (-1000 : ℤ) ≤ Δ) (j : Nat) (hj : j + 1 < L) :
    |(uniformThresholdsD L Δ θ).getD j 0 - ((j : ℝ) - ((L : ℝ) - 1) / 2 + θ + 1 / 2) * Δ| ≤ ((L : ℝ) + |θ|) * Δ / 2 ^ 50 := by
  have hd0 : 0 < Δ := lt_of_lt_of_le (by positivity) hΔ
  have ht := tiny hΔ
  have hθ := abs_nonneg θ
  rw [thresholds_getD hj]
  have h1 := C139_levels (θ := θ) hL2 hΔ j (by omega)
  have h2 := rnd_error (Δ / 2)
  rw [abs_of_pos (show (0 : ℝ) < Δ / 2 by linarith)] at h2
  have hj' : (j : ℝ) + 2 ≤ L := by exact_mod_cast hj
  have hj0 : (0 : ℝ) ≤ j := Nat.cast_nonneg j
  obtain ⟨A, hA⟩ : ∃ A : ℝ, A = (L : ℝ) + |θ| := ⟨_, rfl⟩
  have hb : |(j : ℝ) - ((L : ℝ) - 1) / 2 + θ + 1 / 2| ≤ A := by
    have : |(j : ℝ) - ((L : ℝ) - 1) / 2 + 1 / 2| ≤ L := by rw [abs_le]; constructor <;> linarith
    have h3 := abs_add_le ((j : ℝ) - ((L : ℝ) - 1) / 2 + 1 / 2) θ
    rw [show (j : ℝ) - ((L : ℝ) - 1) / 2 + 1 / 2 + θ = (j : ℝ) - ((L : ℝ) - 1) / 2 + θ + 1 / 2 by ring] at h3
    linarith
  rw [← hA] at h1 ⊢
  have hA1 : 1 ≤ A := by linarith
  have hAΔ : Δ ≤ A * Δ := by nlinarith
  have h3 : |uniformLevelD L Δ θ j + rnd (Δ / 2) - ((j : ℝ) - ((L : ℝ) - 1) / 2 + θ + 1 / 2) * Δ| ≤ A * Δ / 2 ^ 51 + A * Δ / 2 ^ 52 := by
    have h4 := abs_add_le (uniformLevelD L Δ θ j - ((j : ℝ) - ((L : ℝ) - 1) / 2 + θ) * Δ) (rnd (Δ / 2) - Δ / 2)
    rw [show uniformLevelD L Δ θ j - ((j : ℝ) - ((L : ℝ) - 1) / 2 + θ) * Δ + (rnd (Δ / 2) - Δ / 2) =
      uniformLevelD L Δ θ j + rnd (Δ / 2) - ((j : ℝ) - ((L : ℝ) - 1) / 2 + θ + 1 / 2) * Δ by ring] at h4
    refine h4.trans ?_
    generalize A * Δ = B at *
    generalize (2 : ℝ) ^ (-1075 : ℤ) = t at *
    linarith
  have h4 := rnd_near (A := A * Δ) (ht.trans (by apply div_le_div_of_nonneg_right hAΔ (by positivity))) h3
    (by rw [abs_mul, abs_of_pos hd0]; exact mul_le_mul_of_nonneg_right hb hd0.le)
  refine h4.trans ?_
  generalize A * Δ = B at *
  linarith

theorem quantizeD_eq (hL : 1 < L) (x : ℝ) :
    digitize (uniformThresholdsD L Δ θ) x < L ∧
    quantize (uniformLevelsD L Δ θ) (uniformThresholdsD L Δ θ) x = some (uniformLevelD L Δ θ (digitize (uniformThresholdsD L Δ θ) x)) := by
  have h1 := digitize_le (uniformThresholdsD L Δ θ) x
  rw [thresholds_length] at h1
  refine ⟨by omega, ?_⟩
  rw [quantize, uniformLevelsD, List.getElem?_map, List.getElem?_range (by omega)]
  rfl

/-- `quantize` returns a stored level that is nearest to the input up to `(L + |θ|) Δ / 2^48`, for every input. -/
theorem C139_quantize_nearest (hL : 1 < L) (hL2 : L ≤ 2 ^ 52) (hΔ : (2 : ℝ) ^ (-1000 : ℤ) ≤ Δ) (x : ℝ) :
    ∃ y ∈ uniformLevelsD L Δ θ, quantize (uniformLevelsD L Δ θ) (uniformThresholdsD L Δ θ) x = some y ∧
      ∀ y' ∈ uniformLevelsD L Δ θ, |x - y| ≤ |x - y'| + ((L : ℝ) + |θ|) * Δ / 2 ^ 48 := by
  obtain ⟨hj, hq⟩ := quantizeD_eq (Δ := Δ) (θ := θ) hL x
  have hd0 : 0 < Δ := lt_of_lt_of_le (by positivity) hΔ
  refine ⟨_, List.mem_map.mpr ⟨_, List.mem_range.mpr hj, rfl⟩, hq, ?_⟩
  intro y' hy'
  obtain ⟨i, hi, rfl⟩ := List.mem_map.mp hy'
  rw [List.mem_range] at hi
  obtain ⟨s1, s2⟩ := digitize_spec (uniformThresholdsD L Δ θ) x
  rw [thresholds_length] at s2
  obtain ⟨j, hjd⟩ : ∃ j, j = digitize (uniformThresholdsD L Δ θ) x := ⟨_, rfl⟩
  rw [← hjd] at hj s1 s2 ⊢
  have e1 := C139_levels (θ := θ) hL2 hΔ j hj
  have e2 := C139_levels (θ := θ) hL2 hΔ i hi
  have hB : 0 ≤ ((L : ℝ) + |θ|) * Δ := by positivity
  generalize hBd : ((L : ℝ) + |θ|) * Δ = B at *
  generalize hyj : uniformLevelD L Δ θ j = yj at *
  generalize hyi : uniformLevelD L Δ θ i = yi at *
  obtain ⟨c, hc⟩ : ∃ c : ℝ, c = -((L : ℝ) - 1) / 2 + θ := ⟨_, rfl⟩
  have k1 : ((j : ℝ) - ((L : ℝ) - 1) / 2 + θ) * Δ = (j + c) * Δ := by rw [hc]; ring
  have k2 : ((i : ℝ) - ((L : ℝ) - 1) / 2 + θ) * Δ = (i + c) * Δ := by rw [hc]; ring
  rw [k1] at e1
  rw [k2] at e2
  have a1 := abs_le.mp e1
  have a2 := abs_le.mp e2
  rcases lt_trichotomy i j with hij | rfl | hij
  · have ht := s1 (j - 1) (by omega)
    have hn := threshold_near (θ := θ) hL2 hΔ (j - 1) (by omega)
    rw [hBd] at hn
    rw [Nat.cast_sub (by omega), Nat.cast_one, show ((j : ℝ) - 1 - ((L : ℝ) - 1) / 2 + θ + 1 / 2) * Δ = (j + c) * Δ - Δ / 2 by rw [hc]; ring] at hn
    have a3 := abs_le.mp hn
    have hij' : (i : ℝ) + 1 ≤ j := by exact_mod_cast hij
    have hm : (i + c) * Δ + Δ ≤ (j + c) * Δ := by nlinarith
    generalize ((j : ℝ) + c) * Δ = u at *
    generalize ((i : ℝ) + c) * Δ = v at *
    rcases abs_cases (x - yj) with ⟨h1, g1⟩ | ⟨h1, g1⟩ <;> rcases abs_cases (x - yi) with ⟨h2, g2⟩ | ⟨h2, g2⟩ <;> rw [h1, h2] <;> linarith [a1.1, a1.2, a2.1, a2.2, a3.1, a3.2]
  · rw [← hyj, ← hyi]; linarith [div_nonneg hB (show (0 : ℝ) ≤ 2 ^ 48 by positivity)]
  · have ht := s2 (by omega)
    have hn := threshold_near (θ := θ) hL2 hΔ j (by omega)
    rw [hBd] at hn
    rw [show ((j : ℝ) - ((L : ℝ) - 1) / 2 + θ + 1 / 2) * Δ = (j + c) * Δ + Δ / 2 by rw [hc]; ring] at hn
    have a3 := abs_le.mp hn
    have hij' : (j : ℝ) + 1 ≤ i := by exact_mod_cast hij
    have hm : (j + c) * Δ + Δ ≤ (i + c) * Δ := by nlinarith
    generalize ((j : ℝ) + c) * Δ = u at *
    generalize ((i : ℝ) + c) * Δ = v at *
    rcases abs_cases (x - yj) with ⟨h1, g1⟩ | ⟨h1, g1⟩ <;> rcases abs_cases (x - yi) with ⟨h2, g2⟩ | ⟨h2, g2⟩ <;> rw [h1, h2] <;> linarith [a1.1, a1.2, a2.1, a2.2, a3.1, a3.2]

/-- An input whose distance to the `i`-th stored level is less than `Δ/2` minus the rounding error is quantized to that level. -/
theorem C139_quantize_decides (hL : 1 < L) (hL2 : L ≤ 2 ^ 52) (hΔ : (2 : ℝ) ^ (-1000 : ℤ) ≤ Δ) (x : ℝ) (i : Nat) (hi : i < L)
    (hx : |x - uniformLevelD L Δ θ i| < Δ / 2 - ((L : ℝ) + |θ|) * Δ / 2 ^ 48) : digitize (uniformThresholdsD L Δ θ) x = i := by
  obtain ⟨hj, -⟩ := quantizeD_eq (Δ := Δ) (θ := θ) hL x
  obtain ⟨s1, s2⟩ := digitize_spec (uniformThresholdsD L Δ θ) x
  rw [thresholds_length] at s2
  have hd0 : 0 < Δ := lt_of_lt_of_le (by positivity) hΔ
  obtain ⟨j, hjd⟩ : ∃ j, j = digitize (uniformThresholdsD L Δ θ) x := ⟨_, rfl⟩
  rw [← hjd] at hj s1 s2 ⊢
  have e2 := abs_le.mp (C139_levels (θ := θ) hL2 hΔ i hi)
  have hx' := abs_lt.mp hx
  have hB : 0 ≤ ((L : ℝ) + |θ|) * Δ := by positivity
  rcases lt_trichotomy i j with hij | h | hij
  · exfalso
    have ht := s1 i hij
    have hn := abs_le.mp (threshold_near (θ := θ) hL2 hΔ i (by omega))
    rw [show ((i : ℝ) - ((L : ℝ) - 1) / 2 + θ + 1 / 2) * Δ = ((i : ℝ) - ((L : ℝ) - 1) / 2 + θ) * Δ + Δ / 2 by ring] at hn
    generalize ((L : ℝ) + |θ|) * Δ = B at *
    generalize ((i : ℝ) - ((L : ℝ) - 1) / 2 + θ) * Δ = u at *
    linarith [hn.1, hx'.2, e2.2]
  · exact h.symm
  · exfalso
    have ht := s2 (by omega)
    have hm : (uniformThresholdsD L Δ θ).getD j 0 ≤ (uniformThresholdsD L Δ θ).getD (i - 1) 0 := by
      rw [thresholds_getD (by omega), thresholds_getD (by omega)]
      apply rnd_mono
      have := level_mono (L := L) (θ := θ) hd0.le (show j ≤ i - 1 by omega)
      linarith
    have hn := abs_le.mp (threshold_near (θ := θ) hL2 hΔ (i - 1) (by omega))
    rw [Nat.cast_sub (by omega), Nat.cast_one, show ((i : ℝ) - 1 - ((L : ℝ) - 1) / 2 + θ + 1 / 2) * Δ = ((i : ℝ) - ((L : ℝ) - 1) / 2 + θ) * Δ - Δ / 2 by ring] at hn
    generalize ((L : ℝ) + |θ|) * Δ = B at *
    generalize ((i : ℝ) - ((L : ℝ) - 1) / 2 + θ) * Δ = u at *
    linarith [hn.2, hx'.1, e2.1]

/-- Quantizing a level returns its index and itself, for `L + |θ| < 2^47`. -/
theorem C139_quantize_idempotent (hL : 1 < L) (hsize : (L : ℝ) + |θ| < 2 ^ 47) (hΔ : (2 : ℝ) ^ (-1000 : ℤ) ≤ Δ) (i : Nat) (hi : i < L) :
    digitize (uniformThresholdsD L Δ θ) (uniformLevelD L Δ θ i) = i ∧
    quantize (uniformLevelsD L Δ θ) (uniformThresholdsD L Δ θ) (uniformLevelD L Δ θ i) = some (uniformLevelD L Δ θ i) := by
  have hd0 : 0 < Δ := lt_of_lt_of_le (by positivity) hΔ
  have hL2 : L ≤ 2 ^ 52 := by
    have h1 : (L : ℝ) < 2 ^ 47 := by linarith [abs_nonneg θ]
    have h2 : L < 2 ^ 47 := by exact_mod_cast h1
    omega
  have h := C139_quantize_decides (θ := θ) hL hL2 hΔ (uniformLevelD L Δ θ i) i hi (by
    rw [sub_self, abs_zero]
    have : ((L : ℝ) + |θ|) * Δ < 2 ^ 47 * Δ := mul_lt_mul_of_pos_right hsize hd0
    linarith)
  refine ⟨h, ?_⟩
  rw [(quantizeD_eq hL _).2, h]

/-! ### QAM -/

/-- The clipped nearest integer of an approximation is nearly nearest. -/
theorem coord_near {u v e : ℝ} (h : |v - u| ≤ e) (hi j : ℤ) (h0 : 0 ≤ j) (h1 : j ≤ hi) : |u - npClip (npRound v) hi| ≤ |u - j| + 2 * e := by
  have h2 := clip_round_nearest v hi j h0 h1
  have h3 := abs_sub_le u v (npClip (npRound v) hi : ℤ)
  have h4 := abs_sub_le v u j
  rw [abs_sub_comm u v] at h3
  linarith

/-- One coordinate of a rotated point. -/
theorem rotate_near {a b p q C S η T : ℝ} (hη : η ≤ 1) (hC : |C| ≤ 1) (hS : |S| ≤ 1) (hp : |p - C| ≤ η) (hq : |q - S| ≤ η) (hT : |a| + |b| ≤ T) (ht : (2 : ℝ) ^ (-1075 : ℤ) ≤ T / 2 ^ 60) :
    |rnd (rnd (a * p) - rnd (b * q)) - (a * C - b * S)| ≤ (η + 1 / 2 ^ 49) * T ∧ |rnd (rnd (a * p) + rnd (b * q)) - (a * C + b * S)| ≤ (η + 1 / 2 ^ 49) * T := by
  have ha := abs_nonneg a
  have hb := abs_nonneg b
  have hη0 : 0 ≤ η := (abs_nonneg _).trans hp
  have h1 : |a * p - a * C| ≤ η * |a| := by
    rw [← mul_sub, abs_mul, mul_comm]; exact mul_le_mul_of_nonneg_right hp ha
  have h2 : |b * q - b * S| ≤ η * |b| := by
    rw [← mul_sub, abs_mul, mul_comm]; exact mul_le_mul_of_nonneg_right hq hb
  have b1 : |a * C| ≤ |a| := by rw [abs_mul]; exact mul_le_of_le_one_right ha hC
  have b2 : |b * S| ≤ |b| := by rw [abs_mul]; exact mul_le_of_le_one_right hb hS
  have r1 := rnd_near ht h1 (b1.trans (by linarith))
  have r2 := rnd_near ht h2 (b2.trans (by linarith))
  have m1 : η * |a| ≤ |a| := mul_le_of_le_one_left ha hη
  have m2 : η * |b| ≤ |b| := mul_le_of_le_one_left hb hη
  have mT : η * |a| + η * |b| ≤ η * T := by rw [← mul_add]; exact mul_le_mul_of_nonneg_left hT hη0
  obtain ⟨x, hx⟩ : ∃ x, x = rnd (a * p) := ⟨_, rfl⟩
  obtain ⟨y, hy⟩ : ∃ y, y = rnd (b * q) := ⟨_, rfl⟩
  rw [← hx] at r1 ⊢
  rw [← hy] at r2 ⊢
  rw [add_mul]
  generalize a * C = u at *
  generalize b * S = v at *
  generalize η * |a| = ea at *
  generalize η * |b| = eb at *
  generalize η * T = eT at *
  have hT0 : 0 ≤ T := by linarith
  constructor
  · have d : |x - y - (u - v)| ≤ ea + eb + 8 * T / 2 ^ 53 := by
      have := abs_sub (x - u) (y - v)
      rw [show x - u - (y - v) = x - y - (u - v) by ring] at this
      linarith
    have := rnd_near ht d ((abs_sub _ _).trans (by linarith))
    linarith
  · have d : |x + y - (u + v)| ≤ ea + eb + 8 * T / 2 ^ 53 := by
      have := abs_add_le (x - u) (y - v)
      rw [show x - u + (y - v) = x + y - (u + v) by ring] at this
      linarith
    have := rnd_near ht d ((abs_add_le _ _).trans (by linarith))
    linarith

variable {M : Nat} {δ : ℝ}

/-- The real number that is rounded to an index. -/
theorem qamIndex_near (hM : 1 ≤ M) (hδ : (2 : ℝ) ^ (-1000 : ℤ) ≤ δ) {z z' T κ : ℝ} (hz : |z' - z| ≤ κ * T) (hκ : κ ≤ 2) (hzT : |z| ≤ T) (hMT : (M : ℝ) * δ ≤ T) :
    |rnd (rnd (rnd (rnd (z' / rnd (δ / 2)) + M) - 1) / 2) - (z / δ + ((M : ℝ) - 1) / 2)| ≤ (κ + 1 / 2 ^ 48) * T / δ := by
  have hd0 : 0 < δ := lt_of_lt_of_le (by positivity) hδ
  have hM' : (1 : ℝ) ≤ M := by exact_mod_cast hM
  have hT0 : 0 < T := lt_of_lt_of_le (by positivity) hMT
  have hκ0 : 0 ≤ κ := by
    by_contra h
    have : κ * T < 0 := mul_neg_of_neg_of_pos (not_le.mp h) hT0
    linarith [abs_nonneg (z' - z)]
  -- the divisor
  have hhalf : |rnd (δ / 2) - δ / 2| ≤ δ / 2 / 2 ^ 53 := by
    rcases rnd_error_rel (δ / 2) with h | h
    · rwa [abs_of_pos (a := δ / 2) (by linarith)] at h
    · exfalso
      have hlog : (-1002 : ℤ) ≤ Int.log 2 |δ / 2| := by
        rw [abs_of_pos (by linarith)]
        have h1 : (2 : ℝ) ^ (-1002 : ℤ) ≤ δ / 2 := by
          refine le_trans ?_ (div_le_div_of_nonneg_right hδ (by norm_num : (0 : ℝ) ≤ 2))
          rw [le_div_iff₀ (by norm_num), ← zpow_add_one₀ (by norm_num)]
          exact zpow_le_zpow_right₀ (by norm_num) (by norm_num)
        have := (Int.zpow_le_iff_le_log (b := 2) (by norm_num) (show (0 : ℝ) < δ / 2 by linarith)).mp (show ((2 : ℕ) : ℝ) ^ (-1002 : ℤ) ≤ δ / 2 by exact_mod_cast h1)
        exact this
      rw [ulpExp] at h
      omega
  have h2 := abs_le.mp hhalf
  obtain ⟨D, hD⟩ : ∃ D, D = rnd (δ / 2) := ⟨_, rfl⟩
  rw [← hD] at h2 ⊢
  have hDpos : 0 < D := by linarith [h2.1]
  -- in units of δ
  obtain ⟨t, ht⟩ : ∃ t, t = T / δ := ⟨_, rfl⟩
  have htM : (M : ℝ) ≤ t := by rw [ht, le_div_iff₀ hd0]; exact hMT
  have hw : |z / δ| ≤ t := by
    rw [abs_div, abs_of_pos hd0, ht]; exact div_le_div_of_nonneg_right hzT hd0.le
  have ht0 : 0 < t := by linarith
  have hquot : |z' / D - 2 * (z / δ)| ≤ 2 * (κ * t) + 8 * t / 2 ^ 53 := by
    have hTd : T = t * δ := by rw [ht]; field_simp
    have hzd : z = z / δ * δ := by field_simp
    obtain ⟨w, hwd⟩ : ∃ w, w = z / δ := ⟨_, rfl⟩
    rw [← hwd] at hw hzd ⊢
    have e : z' / D - 2 * w = (z' - 2 * w * D) / D := by field_simp
    rw [e, abs_div, abs_of_pos hDpos, div_le_iff₀ hDpos]
    have t1 : |z' - 2 * w * D| ≤ κ * t * δ + |w| * δ / 2 ^ 53 := by
      have := abs_add_le (z' - z) (2 * w * (δ / 2 - D))
      rw [show z' - z + 2 * w * (δ / 2 - D) = z' - 2 * w * D by rw [hzd]; ring] at this
      refine this.trans (add_le_add (by rw [hTd] at hz; linarith) ?_)
      rw [abs_mul, abs_mul, abs_sub_comm, hD, abs_of_nonneg (show (0 : ℝ) ≤ 2 by norm_num)]
      calc 2 * |w| * |rnd (δ / 2) - δ / 2| ≤ 2 * |w| * (δ / 2 / 2 ^ 53) := mul_le_mul_of_nonneg_left hhalf (by positivity)
        _ = _ := by ring
    refine t1.trans ?_
    have t2 : |w| * δ ≤ t * δ := mul_le_mul_of_nonneg_right hw hd0.le
    have t3 : (2 * (κ * t) + 8 * t / 2 ^ 53) * (δ / 2 * (1 - 1 / 2 ^ 53)) ≤ (2 * (κ * t) + 8 * t / 2 ^ 53) * D := by
      apply mul_le_mul_of_nonneg_left _ (by positivity)
      linarith [h2.1]
    refine le_trans ?_ t3
    have t4 : κ * t * δ ≤ 2 * (t * δ) := by rw [mul_assoc]; exact mul_le_mul_of_nonneg_right hκ (by positivity)
    have t5 : (2 * (κ * t) + 8 * t / 2 ^ 53) * (δ / 2 * (1 - 1 / 2 ^ 53)) = κ * t * δ * (1 - 1 / 2 ^ 53) + 4 * (t * δ) / 2 ^ 53 * (1 - 1 / 2 ^ 53) := by ring
    rw [t5]
    have hp : 0 ≤ t * δ := by positivity
    generalize κ * t * δ = A at *
    generalize t * δ = B at *
    linarith
  have ht1 : 1 ≤ t := hM'.trans htM
  have htiny : ∀ x : ℝ, 1 ≤ x → (2 : ℝ) ^ (-1075 : ℤ) ≤ x / 2 ^ 60 := by
    intro x hx
    have h1 : (2 : ℝ) ^ (-1075 : ℤ) ≤ 2 ^ (-60 : ℤ) := zpow_le_zpow_right₀ (by norm_num) (by norm_num)
    refine h1.trans ?_
    rw [zpow_neg, le_div_iff₀ (by positivity)]
    norm_cast
    rw [Nat.cast_pow, Nat.cast_ofNat, inv_mul_cancel₀ (by positivity)]
    exact hx
  have hκt : κ * t ≤ 2 * t := mul_le_mul_of_nonneg_right hκ (by linarith)
  have hκt0 : 0 ≤ κ * t := by positivity
  have hgoal : (κ + 1 / 2 ^ 48) * T / δ = κ * t + t / 2 ^ 48 := by rw [ht]; ring
  rw [hgoal]
  generalize κ * t = k at *
  generalize z / δ = w at *
  have hw' := abs_le.mp hw
  have s1 := rnd_near (htiny (2 * t) (by linarith)) hquot (A := 2 * t) (by rw [abs_mul, abs_two]; linarith)
  obtain ⟨x1, hx1⟩ : ∃ x, x = rnd (z' / D) := ⟨_, rfl⟩
  rw [← hx1] at s1 ⊢
  have s1' : |x1 - 2 * w| ≤ 2 * k + 16 * t / 2 ^ 53 := by linarith
  have s2 := rnd_near (x := x1 + M) (y := 2 * w + M) (e := 2 * k + 16 * t / 2 ^ 53) (A := 3 * t) (htiny (3 * t) (by linarith))
    (by rw [show x1 + M - (2 * w + M) = x1 - 2 * w by ring]; exact s1') (by rw [abs_le]; constructor <;> linarith [hw'.1, hw'.2])
  obtain ⟨x2, hx2⟩ : ∃ x, x = rnd (x1 + M) := ⟨_, rfl⟩
  rw [← hx2] at s2 ⊢
  have s2' : |x2 - (2 * w + M)| ≤ 2 * k + 26 * t / 2 ^ 53 := by linarith
  have s3 := rnd_near (x := x2 - 1) (y := 2 * w + M - 1) (e := 2 * k + 26 * t / 2 ^ 53) (A := 3 * t) (htiny (3 * t) (by linarith))
    (by rw [show x2 - 1 - (2 * w + M - 1) = x2 - (2 * w + M) by ring]; exact s2') (by rw [abs_le]; constructor <;> linarith [hw'.1, hw'.2])
  obtain ⟨x3, hx3⟩ : ∃ x, x = rnd (x2 - 1) := ⟨_, rfl⟩
  rw [← hx3] at s3 ⊢
  have s3' : |x3 - (2 * w + M - 1)| ≤ 2 * k + 36 * t / 2 ^ 53 := by linarith
  have s4 := rnd_near (x := x3 / 2) (y := w + ((M : ℝ) - 1) / 2) (e := k + 18 * t / 2 ^ 53) (A := 3 * t) (htiny (3 * t) (by linarith))
    (by
      rw [show x3 / 2 - (w + ((M : ℝ) - 1) / 2) = (x3 - (2 * w + M - 1)) / 2 by ring, abs_div, abs_two]
      linarith) (by rw [abs_le]; constructor <;> linarith [hw'.1, hw'.2])
  refine s4.trans ?_
  linarith

variable {Mi Mq : Nat} {δi δq φ η c s : ℝ}

/-- The exact `i`-th point of a PAM constellation. -/
noncomputable def exactPam (M : Nat) (δ : ℝ) (i : ℤ) : ℝ := δ * ((i : ℝ) - ((M : ℝ) - 1) / 2)

theorem qamIndex_nearest (hM : 1 ≤ M) (hδ : (2 : ℝ) ^ (-1000 : ℤ) ≤ δ) {z z' T κ : ℝ} (hz : |z' - z| ≤ κ * T) (hκ : κ ≤ 2) (hzT : |z| ≤ T) (hMT : (M : ℝ) * δ ≤ T) (j : Nat) (hj : j < M) :
    |z - exactPam M δ (qamIndexD M δ z')| ≤ |z - exactPam M δ j| + 2 * (κ + 1 / 2 ^ 48) * T := by
  have hd0 : 0 < δ := lt_of_lt_of_le (by positivity) hδ
  have h1 := coord_near (qamIndex_near hM hδ hz hκ hzT hMT) ((M : ℤ) - 1) (j : ℤ) (by omega) (by omega)
  have e : ∀ k : ℤ, |z - exactPam M δ k| = δ * |z / δ + ((M : ℝ) - 1) / 2 - k| := by
    intro k
    rw [show z - exactPam M δ k = δ * (z / δ + ((M : ℝ) - 1) / 2 - k) by unfold exactPam; field_simp; ring, abs_mul, abs_of_pos hd0]
  rw [e, e, qamIndexD]
  have h2 := mul_le_mul_of_nonneg_left h1 hd0.le
  rw [mul_add, show δ * (2 * ((κ + 1 / 2 ^ 48) * T / δ)) = 2 * (κ + 1 / 2 ^ 48) * T by field_simp] at h2
  exact h2

/-- `QAMConstellation.closest_indices` in double precision: for every received value, each coordinate of the decided point is nearest to the (exactly) rotated received value among the
exact coordinates, up to `(2 η + 2⁻⁴⁶) T` where `T = |a| + |b| + Mi δi + Mq δq`; `c + s j` is the computed `exp(-2πjφ)`. -/
theorem C139_qam_nearest (hMi : 1 ≤ Mi) (hMq : 1 ≤ Mq) (hδi : (2 : ℝ) ^ (-1000 : ℤ) ≤ δi) (hδq : (2 : ℝ) ^ (-1000 : ℤ) ≤ δq) (hη : η ≤ 1) (hrot : RotationAccurate (-φ) η c s) (a b T : ℝ)
    (hT : T = |a| + |b| + Mi * δi + Mq * δq) :
    ∃ i q : Nat, i < Mi ∧ q < Mq ∧ qamClosestD Mi Mq δi δq c s a b = Mq * i + q ∧
      (∀ i' < Mi, |(a * Real.cos (2 * Real.pi * φ) + b * Real.sin (2 * Real.pi * φ)) - exactPam Mi δi i| ≤
        |(a * Real.cos (2 * Real.pi * φ) + b * Real.sin (2 * Real.pi * φ)) - exactPam Mi δi i'| + (2 * η + 1 / 2 ^ 46) * T) ∧
      (∀ q' < Mq, |(b * Real.cos (2 * Real.pi * φ) - a * Real.sin (2 * Real.pi * φ)) - exactPam Mq δq q| ≤
        |(b * Real.cos (2 * Real.pi * φ) - a * Real.sin (2 * Real.pi * φ)) - exactPam Mq δq q'| + (2 * η + 1 / 2 ^ 46) * T) := by
  obtain ⟨hc, hs⟩ := hrot
  rw [show 2 * Real.pi * -φ = -(2 * Real.pi * φ) by ring, Real.cos_neg] at hc
  rw [show 2 * Real.pi * -φ = -(2 * Real.pi * φ) by ring, Real.sin_neg] at hs
  have hC := Real.abs_cos_le_one (2 * Real.pi * φ)
  have hS := Real.abs_sin_le_one (2 * Real.pi * φ)
  generalize Real.cos (2 * Real.pi * φ) = C at *
  generalize Real.sin (2 * Real.pi * φ) = S at *
  have hi0 : 0 < δi := lt_of_lt_of_le (by positivity) hδi
  have hq0 : 0 < δq := lt_of_lt_of_le (by positivity) hδq
  have ha := abs_nonneg a
  have hb := abs_nonneg b
  have hMi' : (1 : ℝ) ≤ Mi := by exact_mod_cast hMi
  have hMq' : (1 : ℝ) ≤ Mq := by exact_mod_cast hMq
  have p1 : δi ≤ Mi * δi := by nlinarith
  have p2 : δq ≤ Mq * δq := by nlinarith
  have ht := (tiny hδi).trans (show δi / 2 ^ 60 ≤ T / 2 ^ 60 by apply div_le_div_of_nonneg_right _ (by positivity); rw [hT]; linarith)
  have hT0 : 0 < T := by rw [hT]; linarith
  have r1 := (rotate_near (a := a) (b := b) hη hC (by rw [abs_neg]; exact hS) hc hs (show |a| + |b| ≤ T by rw [hT]; linarith) ht).1
  have r2 := (rotate_near (a := a) (b := b) (p := s) (q := c) (C := -S) (S := C) hη (by rw [abs_neg]; exact hS) hC hs hc (show |a| + |b| ≤ T by rw [hT]; linarith) ht).2
  rw [show a * C - b * -S = a * C + b * S by ring] at r1
  rw [show a * -S + b * C = b * C - a * S by ring] at r2
  have zb1 : |a * C + b * S| ≤ T := by
    have h1 : |a * C| ≤ |a| := by rw [abs_mul]; exact mul_le_of_le_one_right ha hC
    have h2 : |b * S| ≤ |b| := by rw [abs_mul]; exact mul_le_of_le_one_right hb hS
    rw [hT]; linarith [abs_add_le (a * C) (b * S)]
  have zb2 : |b * C - a * S| ≤ T := by
    have h1 : |b * C| ≤ |b| := by rw [abs_mul]; exact mul_le_of_le_one_right hb hC
    have h2 : |a * S| ≤ |a| := by rw [abs_mul]; exact mul_le_of_le_one_right ha hS
    rw [hT]; linarith [abs_sub (b * C) (a * S)]
  have n1 := qamIndex_nearest hMi hδi r1 (by linarith) zb1 (by rw [hT]; linarith)
  have n2 := qamIndex_nearest hMq hδq r2 (by linarith) zb2 (by rw [hT]; linarith)
  have hx : 2 * (η + 1 / 2 ^ 49 + 1 / 2 ^ 48) * T ≤ (2 * η + 1 / 2 ^ 46) * T := mul_le_mul_of_nonneg_right (by linarith) hT0.le
  have g1 := npClip_range (npRound (rnd (rnd (rnd (rnd ((cmulD a b c s).1 / rnd (δi / 2)) + Mi) - 1) / 2))) hMi
  have g2 := npClip_range (npRound (rnd (rnd (rnd (rnd ((cmulD a b c s).2 / rnd (δq / 2)) + Mq) - 1) / 2))) hMq
  obtain ⟨i, hi⟩ := Int.eq_ofNat_of_zero_le g1.1
  obtain ⟨q, hq⟩ := Int.eq_ofNat_of_zero_le g2.1
  have hi' : qamIndexD Mi δi (cmulD a b c s).1 = (i : ℤ) := hi
  have hq' : qamIndexD Mq δq (cmulD a b c s).2 = (q : ℤ) := hq
  refine ⟨i, q, by omega, by omega, by rw [qamClosestD, hi', hq'], fun j hj => ?_, fun j hj => ?_⟩
  · have := n1 j hj
    change |_ - exactPam Mi δi (qamIndexD Mi δi (cmulD a b c s).1)| ≤ _ at this
    rw [hi'] at this
    linarith
  · have := n2 j hj
    change |_ - exactPam Mq δq (qamIndexD Mq δq (cmulD a b c s).2)| ≤ _ at this
    rw [hq'] at this
    linarith

/-- A received value whose rotated coordinates are nearer to those of a point than half the spacings minus the rounding error is decided in favour of that point. -/
theorem C139_qam_decides (hMi : 1 ≤ Mi) (hMq : 1 ≤ Mq) (hδi : (2 : ℝ) ^ (-1000 : ℤ) ≤ δi) (hδq : (2 : ℝ) ^ (-1000 : ℤ) ≤ δq) (hη : η ≤ 1) (hrot : RotationAccurate (-φ) η c s) (a b T : ℝ)
    (hT : T = |a| + |b| + Mi * δi + Mq * δq) (i q : Nat) (hi : i < Mi) (hq : q < Mq)
    (h1 : |(a * Real.cos (2 * Real.pi * φ) + b * Real.sin (2 * Real.pi * φ)) - exactPam Mi δi i| < δi / 2 - (η + 1 / 2 ^ 47) * T)
    (h2 : |(b * Real.cos (2 * Real.pi * φ) - a * Real.sin (2 * Real.pi * φ)) - exactPam Mq δq q| < δq / 2 - (η + 1 / 2 ^ 47) * T) :
    qamClosestD Mi Mq δi δq c s a b = Mq * i + q := by
  obtain ⟨i', q', hi', hq', e, n1, n2⟩ := C139_qam_nearest hMi hMq hδi hδq hη hrot a b T hT
  have key : ∀ (M : Nat) (δ z : ℝ) (x y : Nat), 0 < δ → |z - exactPam M δ x| < δ / 2 - (η + 1 / 2 ^ 47) * T →
      |z - exactPam M δ y| ≤ |z - exactPam M δ x| + (2 * η + 1 / 2 ^ 46) * T → y = x := by
    intro M δ z x y hδ hx hy
    have h3 : |exactPam M δ y - exactPam M δ x| < δ := by
      have := abs_sub_le (exactPam M δ y) z (exactPam M δ x)
      rw [abs_sub_comm (exactPam M δ y) z] at this
      have e2 : (2 * η + 1 / 2 ^ 46) * T = 2 * ((η + 1 / 2 ^ 47) * T) := by ring
      rw [e2] at hy
      linarith
    have h4 : exactPam M δ y - exactPam M δ x = δ * ((y : ℝ) - x) := by simp only [exactPam]; push_cast; ring
    rw [h4, abs_mul, abs_of_pos hδ] at h3
    have h5 : |(y : ℝ) - x| < 1 := by
      by_contra h
      have := mul_le_mul_of_nonneg_left (not_lt.mp h) hδ.le
      linarith
    have h6 := abs_lt.mp h5
    have h7 : (y : ℝ) < x + 1 := by linarith [h6.2]
    have h8 : (x : ℝ) < y + 1 := by linarith [h6.1]
    have h9 : y < x + 1 := by exact_mod_cast h7
    have h10 : x < y + 1 := by exact_mod_cast h8
    omega
  rw [e, key Mi δi _ i i' (lt_of_lt_of_le (by positivity) hδi) h1 (n1 i hi), key Mq δq _ q q' (lt_of_lt_of_le (by positivity) hδq) h2 (n2 q hq)]

/-- Every stored point of a QAM constellation (with a rotation that is accurate to `η`, both ways) is decided correctly: for `η ≤ 2⁻⁴⁴` and
`16 (Mi δi + Mq δq) (η + 2⁻⁴⁶) < min δi δq`. -/
theorem C139_qam_roundtrip (hMi : 2 ≤ Mi) (hMq : 2 ≤ Mq) (hδi : (2 : ℝ) ^ (-1000 : ℤ) ≤ δi) (hδq : (2 : ℝ) ^ (-1000 : ℤ) ≤ δq) (hη : η ≤ 1 / 2 ^ 44) {c' s' : ℝ}
    (hfwd : RotationAccurate φ η c' s') (hback : RotationAccurate (-φ) η c s) (h1 : 16 * ((Mi * δi + Mq * δq) * (η + 1 / 2 ^ 46)) < δi) (h2 : 16 * ((Mi * δi + Mq * δq) * (η + 1 / 2 ^ 46)) < δq)
    (i q : Nat) (hi : i < Mi) (hq : q < Mq) :
    ∀ p, p = qamPointD (pamPointD Mi δi i) (pamPointD Mq δq q) c' s' → qamClosestD Mi Mq δi δq c s p.1 p.2 = Mq * i + q := by
  rintro p rfl
  have hi0 : 0 < δi := lt_of_lt_of_le (by positivity) hδi
  have hq0 : 0 < δq := lt_of_lt_of_le (by positivity) hδq
  have hMi' : (2 : ℝ) ≤ Mi := by exact_mod_cast hMi
  have hMq' : (2 : ℝ) ≤ Mq := by exact_mod_cast hMq
  have hη0 : 0 ≤ η := (abs_nonneg _).trans hfwd.1
  have hη1 : η ≤ 1 := hη.trans (by norm_num)
  obtain ⟨U, hU⟩ : ∃ U, U = Mi * δi + Mq * δq := ⟨_, rfl⟩
  have p1 : 2 * δi ≤ Mi * δi := by nlinarith
  have p2 : 2 * δq ≤ Mq * δq := by nlinarith
  have x1 := C135_points hMi hδi i hi
  have y1 := C135_points hMq hδq q hq
  have hi' : (i : ℝ) + 1 ≤ Mi := by exact_mod_cast hi
  have hq' : (q : ℝ) + 1 ≤ Mq := by exact_mod_cast hq
  have hin : (0 : ℝ) ≤ i := Nat.cast_nonneg i
  have hqn : (0 : ℝ) ≤ q := Nat.cast_nonneg q
  have ex : |exactPam Mi δi i| ≤ Mi * δi / 2 := by
    rw [exactPam, abs_mul, abs_of_pos hi0, Int.cast_natCast]
    have : |(i : ℝ) - ((Mi : ℝ) - 1) / 2| ≤ Mi / 2 := by rw [abs_le]; constructor <;> linarith
    nlinarith
  have ey : |exactPam Mq δq q| ≤ Mq * δq / 2 := by
    rw [exactPam, abs_mul, abs_of_pos hq0, Int.cast_natCast]
    have : |(q : ℝ) - ((Mq : ℝ) - 1) / 2| ≤ Mq / 2 := by rw [abs_le]; constructor <;> linarith
    nlinarith
  have x2 : |pamPointD Mi δi i - exactPam Mi δi i| ≤ Mi * δi / 2 ^ 49 := by
    rw [exactPam, Int.cast_natCast]
    refine x1.trans (div_le_div_of_nonneg_right ?_ (by positivity))
    nlinarith
  have y2 : |pamPointD Mq δq q - exactPam Mq δq q| ≤ Mq * δq / 2 ^ 49 := by
    rw [exactPam, Int.cast_natCast]
    refine y1.trans (div_le_div_of_nonneg_right ?_ (by positivity))
    nlinarith
  rw [← hU] at h1 h2
  obtain ⟨X, hX⟩ : ∃ X, X = exactPam Mi δi i := ⟨_, rfl⟩
  obtain ⟨Y, hY⟩ : ∃ Y, Y = exactPam Mq δq q := ⟨_, rfl⟩
  obtain ⟨x, hx⟩ : ∃ x, x = pamPointD Mi δi i := ⟨_, rfl⟩
  obtain ⟨y, hy⟩ : ∃ y, y = pamPointD Mq δq q := ⟨_, rfl⟩
  rw [← hX] at ex x2
  rw [← hY] at ey y2
  rw [← hx] at x2 ⊢
  rw [← hy] at y2 ⊢
  obtain ⟨u, hu⟩ : ∃ u, u = Mi * δi := ⟨_, rfl⟩
  obtain ⟨v, hv⟩ : ∃ v, v = Mq * δq := ⟨_, rfl⟩
  rw [← hu] at ex x2 p1 hU
  rw [← hv] at ey y2 p2 hU
  have hx0 : |x| ≤ u := by
    have := abs_sub_abs_le_abs_sub x X
    linarith
  have hy0 : |y| ≤ v := by
    have := abs_sub_abs_le_abs_sub y Y
    linarith
  have ht := (tiny hδi).trans (show δi / 2 ^ 60 ≤ U / 2 ^ 60 by apply div_le_div_of_nonneg_right _ (by positivity); rw [hU]; linarith)
  have hcs := Real.cos_sq_add_sin_sq (2 * Real.pi * φ)
  obtain ⟨f1, f2⟩ := hfwd
  have hC := Real.abs_cos_le_one (2 * Real.pi * φ)
  have hS := Real.abs_sin_le_one (2 * Real.pi * φ)
  have r1 := (rotate_near (a := x) (b := y) hη1 hC hS f1 f2 (show |x| + |y| ≤ U by rw [hU]; linarith) ht).1
  have r2 := (rotate_near (a := x) (b := y) hη1 hS hC f2 f1 (show |x| + |y| ≤ U by rw [hU]; linarith) ht).2
  obtain ⟨C, hCd⟩ : ∃ C, C = Real.cos (2 * Real.pi * φ) := ⟨_, rfl⟩
  obtain ⟨S, hSd⟩ : ∃ S, S = Real.sin (2 * Real.pi * φ) := ⟨_, rfl⟩
  rw [← hCd] at r1 r2 hcs hC
  rw [← hSd] at r1 r2 hcs hS
  -- the stored point
  obtain ⟨a, ha⟩ : ∃ a, a = rnd (rnd (x * c') - rnd (y * s')) := ⟨_, rfl⟩
  obtain ⟨b, hb⟩ : ∃ b, b = rnd (rnd (x * s') + rnd (y * c')) := ⟨_, rfl⟩
  have hpt : qamPointD x y c' s' = (a, b) := by rw [ha, hb]; rfl
  rw [hpt]
  rw [← ha] at r1
  rw [← hb] at r2
  obtain ⟨E, hE⟩ : ∃ E, E = (η + 1 / 2 ^ 49) * U := ⟨_, rfl⟩
  rw [← hE] at r1 r2
  have hU0 : 0 < U := by rw [hU]; linarith
  have hEU : E ≤ U := by
    rw [hE]
    exact mul_le_of_le_one_left hU0.le (by linarith)
  have hE0 : 0 ≤ E := (abs_nonneg _).trans r1
  have mulb : ∀ p t : ℝ, |t| ≤ 1 → |p * t| ≤ |p| := fun p t ht => by rw [abs_mul]; exact mul_le_of_le_one_right (abs_nonneg p) ht
  have ha0 : |a| ≤ 2 * U := by
    have g1 := abs_sub_abs_le_abs_sub a (x * C - y * S)
    have g2 := abs_sub (x * C) (y * S)
    linarith [mulb x C hC, mulb y S hS]
  have hb0 : |b| ≤ 2 * U := by
    have g1 := abs_sub_abs_le_abs_sub b (x * S + y * C)
    have g2 := abs_add_le (x * S) (y * C)
    linarith [mulb x S hS, mulb y C hC]
  have hT5 : |a| + |b| + Mi * δi + Mq * δq ≤ 5 * U := by rw [← hu, ← hv, hU] ; rw [hU] at ha0 hb0; linarith
  have hW : (η + 1 / 2 ^ 47) * (|a| + |b| + Mi * δi + Mq * δq) ≤ 5 * (U * (η + 1 / 2 ^ 47)) := by
    calc _ ≤ (η + 1 / 2 ^ 47) * (5 * U) := mul_le_mul_of_nonneg_left hT5 (by positivity)
      _ = _ := by ring
  have hUη : 0 ≤ U * η := by positivity
  have hE' : E = U * η + U / 2 ^ 49 := by rw [hE]; ring
  have d1 : |a * C + b * S - X| ≤ 2 * E + u / 2 ^ 49 := by
    have e : a * C + b * S - X = (a - (x * C - y * S)) * C + (b - (x * S + y * C)) * S + (x - X) := by linear_combination x * hcs
    rw [e]
    have g1 := abs_add_three ((a - (x * C - y * S)) * C) ((b - (x * S + y * C)) * S) (x - X)
    linarith [mulb (a - (x * C - y * S)) C hC, mulb (b - (x * S + y * C)) S hS]
  have d2 : |b * C - a * S - Y| ≤ 2 * E + v / 2 ^ 49 := by
    have e : b * C - a * S - Y = (b - (x * S + y * C)) * C + -((a - (x * C - y * S)) * S) + (y - Y) := by linear_combination y * hcs
    rw [e]
    have g1 := abs_add_three ((b - (x * S + y * C)) * C) (-((a - (x * C - y * S)) * S)) (y - Y)
    rw [abs_neg] at g1
    linarith [mulb (a - (x * C - y * S)) S hS, mulb (b - (x * S + y * C)) C hC]
  have hUe : U * (η + 1 / 2 ^ 47) = U * η + U / 2 ^ 47 := by ring
  have hUe' : U * (η + 1 / 2 ^ 46) = U * η + U / 2 ^ 46 := by ring
  rw [hUe] at hW
  rw [hUe'] at h1 h2
  apply C139_qam_decides (by omega) (by omega) hδi hδq hη1 hback a b _ rfl i q hi hq
  · rw [← hCd, ← hSd, ← hX]
    generalize (η + 1 / 2 ^ 47) * (|a| + |b| + Mi * δi + Mq * δq) = W at *
    generalize U * η = z at *
    linarith
  · rw [← hCd, ← hSd, ← hY]
    generalize (η + 1 / 2 ^ 47) * (|a| + |b| + Mi * δi + Mq * δq) = W at *
    generalize U * η = z at *
    linarith

variable {A : ℝ}

/-! ### ASK -/

/-- `ASKConstellation.closest_indices` in double precision: for every received value that is not huge (`T ≤ 2⁶⁰ A`, `T = |a| + |b| + A M`), the decided point is nearest to the (exactly)
rotated received value up to `(2 η + 2⁻⁴⁶) T`; the `j`-th point is at `A j` on the real axis after the rotation. -/
theorem C139_ask_nearest (hM : 1 ≤ M) (hA : (2 : ℝ) ^ (-1000 : ℤ) ≤ A) (hη : η ≤ 1) (hrot : RotationAccurate (-φ) η c s) (a b T : ℝ) (hT : T = |a| + |b| + A * M) (hbig : T ≤ 2 ^ 60 * A) :
    ∃ i < M, askClosestD M A c s a b = i ∧ ∀ j < M, |(a * Real.cos (2 * Real.pi * φ) + b * Real.sin (2 * Real.pi * φ)) - A * i| ≤
      |(a * Real.cos (2 * Real.pi * φ) + b * Real.sin (2 * Real.pi * φ)) - A * j| + (2 * η + 1 / 2 ^ 46) * T := by
  obtain ⟨hc, hs⟩ := hrot
  rw [show 2 * Real.pi * -φ = -(2 * Real.pi * φ) by ring, Real.cos_neg] at hc
  rw [show 2 * Real.pi * -φ = -(2 * Real.pi * φ) by ring, Real.sin_neg] at hs
  have hC := Real.abs_cos_le_one (2 * Real.pi * φ)
  have hS := Real.abs_sin_le_one (2 * Real.pi * φ)
  generalize Real.cos (2 * Real.pi * φ) = C at *
  generalize Real.sin (2 * Real.pi * φ) = S at *
  have hA0 : 0 < A := lt_of_lt_of_le (by positivity) hA
  have ha := abs_nonneg a
  have hb := abs_nonneg b
  have hM' : (1 : ℝ) ≤ M := by exact_mod_cast hM
  have hη0 : 0 ≤ η := (abs_nonneg _).trans hc
  have p1 : A ≤ A * M := by nlinarith
  have ht := (tiny hA).trans (show A / 2 ^ 60 ≤ T / 2 ^ 60 by apply div_le_div_of_nonneg_right _ (by positivity); rw [hT]; linarith)
  have hT0 : 0 < T := by rw [hT]; linarith
  have r1 := (rotate_near (a := a) (b := b) hη hC (by rw [abs_neg]; exact hS) hc hs (show |a| + |b| ≤ T by rw [hT]; linarith) ht).1
  rw [show a * C - b * -S = a * C + b * S by ring] at r1
  have zb1 : |a * C + b * S| ≤ T := by
    have h1 : |a * C| ≤ |a| := by rw [abs_mul]; exact mul_le_of_le_one_right ha hC
    have h2 : |b * S| ≤ |b| := by rw [abs_mul]; exact mul_le_of_le_one_right hb hS
    rw [hT]; linarith [abs_add_le (a * C) (b * S)]
  change |(cmulD a b c s).1 - _| ≤ _ at r1
  rw [askClosestD]
  generalize (cmulD a b c s).1 = z' at *
  generalize a * C + b * S = z at *
  obtain ⟨t, htd⟩ : ∃ t, t = T / A := ⟨_, rfl⟩
  have ht1 : 1 ≤ t := by rw [htd, le_div_iff₀ hA0, hT]; linarith
  have ht60 : t ≤ 2 ^ 60 := by rw [htd, div_le_iff₀ hA0]; exact hbig
  have d1 : |z' / A - z / A| ≤ (η + 1 / 2 ^ 49) * t := by
    rw [← sub_div, abs_div, abs_of_pos hA0, htd, ← mul_div_assoc]
    exact div_le_div_of_nonneg_right r1 hA0.le
  have d2 : |z / A| ≤ t := by
    rw [abs_div, abs_of_pos hA0, htd]; exact div_le_div_of_nonneg_right zb1 hA0.le
  have htiny : (2 : ℝ) ^ (-1075 : ℤ) ≤ t / 2 ^ 60 := by
    have h1 : (2 : ℝ) ^ (-1075 : ℤ) ≤ 2 ^ (-60 : ℤ) := zpow_le_zpow_right₀ (by norm_num) (by norm_num)
    refine h1.trans ?_
    rw [zpow_neg, le_div_iff₀ (by positivity)]
    norm_cast
    rw [Nat.cast_pow, Nat.cast_ofNat, inv_mul_cancel₀ (by positivity)]
    exact ht1
  have d3 := rnd_near htiny d1 d2
  have hηt : η * t ≤ t := mul_le_of_le_one_left (by linarith) hη
  have hηt0 : 0 ≤ η * t := by positivity
  have d4 : |rnd (z' / A) - z / A| ≤ (η + 1 / 2 ^ 47) * t := by
    refine d3.trans ?_
    rw [add_mul, add_mul]
    linarith
  have hv : |rnd (z' / A)| ≤ 3 * t := by
    have := abs_sub_abs_le_abs_sub (rnd (z' / A)) (z / A)
    rw [add_mul] at d4
    linarith
  have hcast : castInt64 (npRound (rnd (z' / A))) = npRound (rnd (z' / A)) := by
    apply castInt64_id
    have hsp := npRound_spec (rnd (z' / A))
    rw [abs_sub_comm] at hsp
    have h5 := abs_sub_abs_le_abs_sub (npRound (rnd (z' / A)) : ℝ) (rnd (z' / A))
    have h6 : ((|npRound (rnd (z' / A))| : ℤ) : ℝ) < ((2 ^ 63 : ℤ) : ℝ) := by
      rw [Int.cast_abs]; push_cast; linarith
    exact_mod_cast h6
  rw [hcast]
  have g1 := npClip_range (npRound (rnd (z' / A))) hM
  obtain ⟨i, hi⟩ := Int.eq_ofNat_of_zero_le g1.1
  refine ⟨i, by omega, hi, fun j hj => ?_⟩
  have h1 := coord_near d4 ((M : ℤ) - 1) (j : ℤ) (by omega) (by omega)
  rw [hi] at h1
  have e : ∀ k : ℝ, |z - A * k| = A * |z / A - k| := by
    intro k
    rw [show z - A * k = A * (z / A - k) by field_simp, abs_mul, abs_of_pos hA0]
  rw [e, e]
  have h2 := mul_le_mul_of_nonneg_left h1 hA0.le
  rw [mul_add, show A * (2 * ((η + 1 / 2 ^ 47) * t)) = (2 * η + 1 / 2 ^ 46) * T by rw [htd]; field_simp] at h2
  push_cast at h2
  exact h2

/-! ### generic decisions -/

theorem nat52 {N : Nat} (h : N ≤ 2 ^ 48) : N ≤ 2 ^ 52 := by
  norm_num at h ⊢
  omega

theorem nat48 {N : Nat} (h : N ≤ 2 ^ 48) : (N : ℝ) ≤ 2 ^ 48 := by
  have := (Nat.cast_le (α := ℝ)).mpr h
  rwa [Nat.cast_pow, Nat.cast_ofNat] at this


theorem sqTerm_near {h : ℝ → ℝ → ℝ} (hh : ModulusAccurate h) (x y : ℝ × ℝ) (hx1 : IsDouble x.1) (hx2 : IsDouble x.2) (hy1 : IsDouble y.1) (hy2 : IsDouble y.2) :
    |(sqTermD h x y).val - ((x.1 - y.1) ^ 2 + (x.2 - y.2) ^ 2)| ≤ ((x.1 - y.1) ^ 2 + (x.2 - y.2) ^ 2) / 2 ^ 47 + 2 ^ (-1075 : ℤ) := by
  have n1 := rnd_add_error hx1 (isDouble_neg hy1)
  have n2 := rnd_add_error hx2 (isDouble_neg hy2)
  rw [← sub_eq_add_neg] at n1 n2
  change |rnd _ - _| ≤ _
  generalize x.1 - y.1 = p at *
  generalize x.2 - y.2 = q at *
  generalize rnd p = p' at *
  generalize rnd q = q' at *
  obtain ⟨h0, h1⟩ := hh p' q'
  have hS0 : 0 ≤ p' ^ 2 + q' ^ 2 := by positivity
  -- squares of the rounded differences
  have sq : ∀ a b : ℝ, |b - a| ≤ |a| / 2 ^ 53 → |b ^ 2 - a ^ 2| ≤ a ^ 2 / 2 ^ 51 := by
    intro a b hab
    have e1 : b ^ 2 - a ^ 2 = (b - a) * (b - a + 2 * a) := by ring
    rw [e1, abs_mul]
    have h2 : |b - a + 2 * a| ≤ 3 * |a| := by
      have := abs_add_le (b - a) (2 * a)
      rw [abs_mul, abs_two] at this
      linarith [abs_nonneg a]
    calc |b - a| * |b - a + 2 * a| ≤ |a| / 2 ^ 53 * (3 * |a|) := mul_le_mul hab h2 (abs_nonneg _) (by positivity)
      _ = 3 * |a| ^ 2 / 2 ^ 53 := by ring
      _ = 3 * a ^ 2 / 2 ^ 53 := by rw [sq_abs]
      _ ≤ a ^ 2 / 2 ^ 51 := by linarith [sq_nonneg a]
  have s1 := abs_le.mp (sq p p' n1)
  have s2 := abs_le.mp (sq q q' n2)
  obtain ⟨R, hR⟩ : ∃ R, R = Real.sqrt (p' ^ 2 + q' ^ 2) := ⟨_, rfl⟩
  rw [← hR] at h1
  have hR0 : 0 ≤ R := by rw [hR]; exact Real.sqrt_nonneg _
  have hR2 : R ^ 2 = p' ^ 2 + q' ^ 2 := by rw [hR]; exact Real.sq_sqrt hS0
  generalize h p' q' = m at *
  have m1 : |m * m - R ^ 2| ≤ 3 * R ^ 2 / 2 ^ 51 := by
    rw [show m * m - R ^ 2 = (m - R) * (m - R + 2 * R) by ring, abs_mul]
    have h2 : |m - R + 2 * R| ≤ 3 * R := by
      have := abs_add_le (m - R) (2 * R)
      rw [abs_mul, abs_two, abs_of_nonneg hR0] at this
      linarith
    calc |m - R| * |m - R + 2 * R| ≤ R / 2 ^ 51 * (3 * R) := mul_le_mul h1 h2 (abs_nonneg _) (by positivity)
      _ = _ := by ring
  have m2 := rnd_error (m * m)
  have m3 := abs_le.mp m1
  have hmm : |m * m| ≤ 2 * R ^ 2 := by rw [abs_of_nonneg (by positivity)]; linarith [sq_nonneg R]
  have m4 := abs_le.mp m2
  have hp0 := sq_nonneg p
  have hq0 := sq_nonneg q
  rw [hR2] at m3 hmm
  generalize (2 : ℝ) ^ (-1075 : ℤ) = t at *
  rw [abs_le]
  constructor <;> linarith

/-- The distance from the received block to a point, as computed. -/
theorem sqDist_near {N : Nat} {sum : List Double → Double} (hsum : ∀ l, SumOf l (sum l)) {h : ℝ → ℝ → ℝ} (hh : ModulusAccurate h) (hN : N ≤ 2 ^ 48) (p r : Fin N → ℝ × ℝ)
    (hp : ∀ n, IsDouble (p n).1 ∧ IsDouble (p n).2) (hr : ∀ n, IsDouble (r n).1 ∧ IsDouble (r n).2) :
    |(sqDistD sum h r p).val - ∑ n, (((r n).1 - (p n).1) ^ 2 + ((r n).2 - (p n).2) ^ 2)| ≤
      (1 / 2 ^ 47 + N / 2 ^ 52 * (1 + 1 / 2 ^ 47)) * ∑ n, (((r n).1 - (p n).1) ^ 2 + ((r n).2 - (p n).2) ^ 2) + 2 * (N * 2 ^ (-1075 : ℤ)) := by
  have he := (hsum (List.ofFn fun n : Fin N => sqTermD h (r n) (p n))).error
  have t1 : ∀ n, |(sqTermD h (r n) (p n)).val - (((r n).1 - (p n).1) ^ 2 + ((r n).2 - (p n).2) ^ 2)| ≤ _ := fun n =>
    sqTerm_near hh (r n) (p n) (hr n).1 (hr n).2 (hp n).1 (hp n).2
  have hre : realSum (List.ofFn fun n : Fin N => sqTermD h (r n) (p n)) = ∑ n, (sqTermD h (r n) (p n)).val := by
    rw [realSum, List.map_ofFn, List.sum_ofFn]; rfl
  have hab : absSum (List.ofFn fun n : Fin N => sqTermD h (r n) (p n)) = ∑ n, |(sqTermD h (r n) (p n)).val| := by
    rw [absSum, List.map_ofFn, List.sum_ofFn]; rfl
  rw [hre, hab, List.length_ofFn] at he
  obtain ⟨D, hD⟩ : ∃ D : Fin N → ℝ, D = fun n => ((r n).1 - (p n).1) ^ 2 + ((r n).2 - (p n).2) ^ 2 := ⟨_, rfl⟩
  have hDn : ∀ n, 0 ≤ D n := fun n => by rw [hD]; positivity
  have t2 : ∀ n, |(sqTermD h (r n) (p n)).val - D n| ≤ D n / 2 ^ 47 + 2 ^ (-1075 : ℤ) := by rw [hD]; exact t1
  have hgoal : ∑ n, (((r n).1 - (p n).1) ^ 2 + ((r n).2 - (p n).2) ^ 2) = ∑ n, D n := by rw [hD]
  rw [hgoal]
  have hDS : 0 ≤ ∑ n, D n := Finset.sum_nonneg fun n _ => hDn n
  have s1 : |∑ n, (sqTermD h (r n) (p n)).val - ∑ n, D n| ≤ (∑ n, D n) / 2 ^ 47 + N * 2 ^ (-1075 : ℤ) := by
    rw [← Finset.sum_sub_distrib]
    refine (Finset.abs_sum_le_sum_abs _ _).trans ((Finset.sum_le_sum fun n _ => t2 n).trans (le_of_eq ?_))
    rw [Finset.sum_add_distrib, ← Finset.sum_div, Finset.sum_const, Finset.card_univ, Fintype.card_fin, nsmul_eq_mul]
  have s2 : ∑ n, |(sqTermD h (r n) (p n)).val| ≤ (1 + 1 / 2 ^ 47) * (∑ n, D n) + N * 2 ^ (-1075 : ℤ) := by
    refine (Finset.sum_le_sum fun n _ => show |(sqTermD h (r n) (p n)).val| ≤ (1 + 1 / 2 ^ 47) * D n + 2 ^ (-1075 : ℤ) from ?_).trans (le_of_eq ?_)
    · have := abs_sub_abs_le_abs_sub (sqTermD h (r n) (p n)).val (D n)
      rw [abs_of_nonneg (hDn n)] at this
      have := t2 n
      generalize (2 : ℝ) ^ (-1075 : ℤ) = t at *
      linarith
    · rw [Finset.sum_add_distrib, ← Finset.mul_sum, Finset.sum_const, Finset.card_univ, Fintype.card_fin, nsmul_eq_mul]
  have hN52 : N ≤ 2 ^ 52 := nat52 hN
  have hNr : (N : ℝ) ≤ 2 ^ 48 := nat48 hN
  have hg := growth N hN52
  have s0 : 0 ≤ ∑ n, |(sqTermD h (r n) (p n)).val| := Finset.sum_nonneg fun n _ => abs_nonneg _
  have he' := he.trans (mul_le_mul_of_nonneg_right hg s0)
  have hN0 : (0 : ℝ) ≤ N / 2 ^ 52 := div_nonneg (Nat.cast_nonneg N) (by norm_num)
  have he2 := he'.trans (mul_le_mul_of_nonneg_left s2 hN0)
  have htr := abs_sub_le (sqDistD sum h r p).val (∑ n, (sqTermD h (r n) (p n)).val) (∑ n, D n)
  change |(sqDistD sum h r p).val - _| ≤ _ at he2
  have ht0 : (0 : ℝ) < 2 ^ (-1075 : ℤ) := by positivity
  have hNt : (0 : ℝ) ≤ N * 2 ^ (-1075 : ℤ) := mul_nonneg (Nat.cast_nonneg N) ht0.le
  have hk : (N : ℝ) / 2 ^ 52 * (N * 2 ^ (-1075 : ℤ)) ≤ N * 2 ^ (-1075 : ℤ) := by
    apply mul_le_of_le_one_left hNt
    rw [div_le_one (by positivity)]
    linarith
  generalize (N : ℝ) * 2 ^ (-1075 : ℤ) = w at *
  rw [mul_add] at he2
  have e1 : (1 / 2 ^ 47 + (N : ℝ) / 2 ^ 52 * (1 + 1 / 2 ^ 47)) * ∑ n, D n = (∑ n, D n) / 2 ^ 47 + (N : ℝ) / 2 ^ 52 * ((1 + 1 / 2 ^ 47) * ∑ n, D n) := by ring
  rw [e1]
  linarith

/-- The generic `closest_indices` in double precision, real or complex, any dimension: no other stored point is nearer to the received block than the decided one by more than the factor
`1 + (N + 64) / 2⁵⁰` in squared distance (up to underflow), however `np.sum` orders its sums. -/
theorem C139_generic_nearest {M N : Nat} (sum : List Double → Double) (hsum : ∀ l, SumOf l (sum l)) (h : ℝ → ℝ → ℝ) (hh : ModulusAccurate h) (hN : N ≤ 2 ^ 48)
    (m : Fin (M + 1) → Fin N → ℝ × ℝ) (hm : ∀ i n, IsDouble (m i n).1 ∧ IsDouble (m i n).2) (r : Fin N → ℝ × ℝ) (hr : ∀ n, IsDouble (r n).1 ∧ IsDouble (r n).2) (j : Fin (M + 1)) :
    ∑ n, (((r n).1 - (m (closestD sum h m r) n).1) ^ 2 + ((r n).2 - (m (closestD sum h m r) n).2) ^ 2) ≤
      (1 + ((N : ℝ) + 64) / 2 ^ 50) * ∑ n, (((r n).1 - (m j n).1) ^ 2 + ((r n).2 - (m j n).2) ^ 2) + 2 ^ (-1000 : ℤ) := by
  have hnear : ∀ i, |(sqDistD sum h r (m i)).val - ∑ n, (((r n).1 - (m i n).1) ^ 2 + ((r n).2 - (m i n).2) ^ 2)| ≤
      (1 / 2 ^ 47 + N / 2 ^ 52 * (1 + 1 / 2 ^ 47)) * ∑ n, (((r n).1 - (m i n).1) ^ 2 + ((r n).2 - (m i n).2) ^ 2) + 2 * (N * 2 ^ (-1075 : ℤ)) :=
    fun i => sqDist_near hsum hh hN (m i) r (hm i) hr
  have hle : (sqDistD sum h r (m (closestD sum h m r))).val ≤ (sqDistD sum h r (m j)).val := by
    apply Double.le_iff.mp
    refine (argminOn_spec (fun i => sqDistD sum h r (m i)) 0 ((List.finRange (M + 1)).drop 1)).2 j ?_
    have : (0 : Fin (M + 1)) :: (List.finRange (M + 1)).drop 1 = List.finRange (M + 1) := by rw [List.finRange_succ]; rfl
    rw [this]
    exact List.mem_finRange j
  have e1 := abs_le.mp (hnear (closestD sum h m r))
  have e2 := abs_le.mp (hnear j)
  generalize closestD sum h m r = i at *
  have hD1 : 0 ≤ ∑ n, (((r n).1 - (m i n).1) ^ 2 + ((r n).2 - (m i n).2) ^ 2) := Finset.sum_nonneg fun n _ => by positivity
  have hD2 : 0 ≤ ∑ n, (((r n).1 - (m j n).1) ^ 2 + ((r n).2 - (m j n).2) ^ 2) := Finset.sum_nonneg fun n _ => by positivity
  generalize ∑ n, (((r n).1 - (m i n).1) ^ 2 + ((r n).2 - (m i n).2) ^ 2) = d1 at *
  generalize ∑ n, (((r n).1 - (m j n).1) ^ 2 + ((r n).2 - (m j n).2) ^ 2) = d2 at *
  have hNr : (N : ℝ) ≤ 2 ^ 48 := nat48 hN
  have hN0 : (0 : ℝ) ≤ N := Nat.cast_nonneg N
  have htw : (N : ℝ) * 2 ^ (-1075 : ℤ) ≤ 2 ^ (-1027 : ℤ) := by
    calc (N : ℝ) * 2 ^ (-1075 : ℤ) ≤ 2 ^ (48 : ℤ) * 2 ^ (-1075 : ℤ) := by
          apply mul_le_mul_of_nonneg_right _ (by positivity)
          rw [show (2 : ℝ) ^ (48 : ℤ) = 2 ^ (48 : ℕ) from zpow_natCast _ 48]
          exact hNr
      _ = 2 ^ (-1027 : ℤ) := by rw [← zpow_add₀ (by norm_num)]; norm_num
  have hbig : (16 : ℝ) * 2 ^ (-1027 : ℤ) ≤ 2 ^ (-1000 : ℤ) := by
    rw [show (16 : ℝ) = 2 ^ (4 : ℤ) by norm_num, ← zpow_add₀ (by norm_num)]
    exact zpow_le_zpow_right₀ (by norm_num) (by norm_num)
  obtain ⟨w, hw⟩ : ∃ w : ℝ, w = N * 2 ^ (-1075 : ℤ) := ⟨_, rfl⟩
  rw [← hw] at e1 e2 htw
  obtain ⟨g, hgd⟩ : ∃ g : ℝ, g = 1 / 2 ^ 47 + N / 2 ^ 52 * (1 + 1 / 2 ^ 47) := ⟨_, rfl⟩
  rw [← hgd] at e1 e2
  have hg0 : 0 ≤ g := by rw [hgd]; exact add_nonneg (by norm_num) (mul_nonneg (div_nonneg hN0 (by norm_num)) (by norm_num))
  have hg1 : g ≤ 1 / 8 := by rw [hgd]; linarith
  have hw0 : 0 ≤ w := by rw [hw]; exact mul_nonneg hN0 (zpow_nonneg (by norm_num) _)
  have k1 : (1 - g) * d1 ≤ (1 + g) * d2 + 4 * w := by linarith [e1.1, e2.2]
  have k2 : (1 + g) ≤ (1 + (N + 64) / 2 ^ 50) * (1 - g) := by
    have : (2 + 1 / 2) * g ≤ (N + 64) / 2 ^ 50 := by
      rw [hgd]
      linarith
    nlinarith
  have k3 : (1 - g) * d1 ≤ (1 - g) * ((1 + (N + 64) / 2 ^ 50) * d2 + 16 * w) := by
    have := mul_le_mul_of_nonneg_right k2 hD2
    have h16 : 4 * w ≤ (1 - g) * (16 * w) := by nlinarith
    linarith
  have k4 := le_of_mul_le_mul_left k3 (by linarith)
  refine k4.trans ?_
  have : 16 * w ≤ 2 ^ (-1000 : ℤ) := (mul_le_mul_of_nonneg_left htw (by norm_num)).trans hbig
  generalize (2 : ℝ) ^ (-1000 : ℤ) = y at *
  linarith


/-! ### PSK -/

theorem arg_near_one {w : ℂ} {r : ℝ} (h : ‖w - 1‖ ≤ r) (hr : r ≤ 1 / 2) : |w.arg| ≤ Real.pi * r := by
  have h1 : |w.re - 1| ≤ r := by
    have := (Complex.abs_re_le_norm (w - 1)).trans h
    simpa using this
  have h2 : |w.im| ≤ r := by
    have := (Complex.abs_im_le_norm (w - 1)).trans h
    simpa using this
  have h3 := abs_le.mp h1
  have hre : 0 ≤ w.re := by linarith
  have hn : 1 / 2 ≤ ‖w‖ := by
    have := Complex.abs_re_le_norm w
    rw [abs_of_nonneg hre] at this
    linarith
  have h4 := Complex.abs_arg_le_pi_div_two_iff.mpr hre
  have h5 := Real.mul_le_sin (abs_nonneg w.arg) h4
  have h6 : Real.sin |w.arg| = |w.im| / ‖w‖ := by
    have e : |Real.sin w.arg| = |w.im| / ‖w‖ := by rw [Complex.sin_arg, abs_div, abs_norm]
    rw [← e]
    have hb := abs_le.mp h4
    rcases le_total 0 w.arg with h | h
    · rw [abs_of_nonneg h, abs_of_nonneg (Real.sin_nonneg_of_nonneg_of_le_pi h (Complex.arg_le_pi w))]
    · rw [abs_of_nonpos h, Real.sin_neg, abs_of_nonpos (Real.sin_nonpos_of_nonpos_of_neg_pi_le h (by linarith [Real.pi_pos]))]
  rw [h6] at h5
  have h7 : |w.im| / ‖w‖ ≤ 2 * r := by
    rw [div_le_iff₀ (by linarith)]
    have hr0 : 0 ≤ r := (norm_nonneg _).trans h
    nlinarith
  have hp := Real.pi_pos
  have h8 := mul_le_mul_of_nonneg_left (h5.trans h7) hp.le
  rw [← mul_assoc, mul_div_cancel₀ _ hp.ne'] at h8
  linarith

/-- A small relative change of a complex number changes its angle little. -/
theorem angle_of_near {ρ α r : ℝ} (hρ : 0 < ρ) {x y : ℝ} (hx : |x - ρ * Real.cos α| ≤ r * ρ / 2) (hy : |y - ρ * Real.sin α| ≤ r * ρ / 2) (hr : r ≤ 1 / 2) :
    (x ≠ 0 ∨ y ≠ 0) ∧ ∃ k : ℤ, |Complex.arg ⟨x, y⟩ - (α + 2 * Real.pi * k)| ≤ Real.pi * r := by
  obtain ⟨z, hz⟩ : ∃ z : ℂ, z = ρ * (Real.cos α + Real.sin α * Complex.I) := ⟨_, rfl⟩
  have hzn : ‖z‖ = ρ := by
    rw [hz, norm_mul, Complex.norm_real, Real.norm_eq_abs, abs_of_pos hρ, Complex.ofReal_cos, Complex.ofReal_sin, Complex.norm_cos_add_sin_mul_I, mul_one]
  have hz0 : z ≠ 0 := by rw [← norm_pos_iff, hzn]; exact hρ
  have hzr : z.re = ρ * Real.cos α := by
    rw [hz, Complex.re_ofReal_mul, Complex.add_re, Complex.ofReal_re, Complex.re_ofReal_mul, Complex.I_re, mul_zero, add_zero]
  have hzi : z.im = ρ * Real.sin α := by
    rw [hz, Complex.im_ofReal_mul, Complex.add_im, Complex.ofReal_im, Complex.im_ofReal_mul, Complex.I_im, mul_one, zero_add]
  have hd : ‖(⟨x, y⟩ : ℂ) - z‖ ≤ r * ρ := by
    refine (Complex.norm_le_abs_re_add_abs_im _).trans ?_
    rw [Complex.sub_re, Complex.sub_im, hzr, hzi]
    linarith
  obtain ⟨w, hw⟩ : ∃ w : ℂ, w = ⟨x, y⟩ / z := ⟨_, rfl⟩
  have hzw : (⟨x, y⟩ : ℂ) = z * w := by rw [hw, mul_div_cancel₀ _ hz0]
  have hw1 : ‖w - 1‖ ≤ r := by
    have e : w - 1 = (⟨x, y⟩ - z) / z := by rw [hw, sub_div, div_self hz0]
    rw [e, norm_div, hzn, div_le_iff₀ hρ]
    exact hd
  have hw0 : w ≠ 0 := by
    intro h0
    rw [h0, zero_sub, norm_neg, norm_one] at hw1
    linarith
  have hne : (⟨x, y⟩ : ℂ) ≠ 0 := by rw [hzw]; exact mul_ne_zero hz0 hw0
  refine ⟨?_, ?_⟩
  · by_contra hc
    push Not at hc
    exact hne (Complex.ext hc.1 hc.2)
  · have e1 := Complex.arg_mul_coe_angle hz0 hw0
    have e2 : (z.arg : Real.Angle) = (α : Real.Angle) := by
      have := Complex.arg_mul_cos_add_sin_mul_I_coe_angle hρ (α : Real.Angle)
      rw [Real.Angle.cos_coe, Real.Angle.sin_coe, ← hz] at this
      exact this
    rw [e2, ← hzw, ← Real.Angle.coe_add, Real.Angle.angle_eq_iff_two_pi_dvd_sub] at e1
    obtain ⟨k, hk⟩ := e1
    refine ⟨k, ?_⟩
    rw [show Complex.arg ⟨x, y⟩ - (α + 2 * Real.pi * k) = w.arg by linarith]
    exact arg_near_one hw1 hr

/-- `PSKConstellation.closest_indices` in double precision: for every received value `ρ exp(j θ)` (`ρ` not subnormal) the decided point's angle differs from `θ`, up to whole turns, by
at most `π/M + 16 (η + 2⁻⁴⁸)`. -/
theorem C139_psk_nearest {ang : ℝ → ℝ → ℝ} (hang : AngleAccurate ang) {pi : ℝ} (hpi : |pi - Real.pi| ≤ 1 / 2 ^ 51) (hM : 1 ≤ M) (hη : η ≤ 1 / 16) (hrot : RotationAccurate (-φ) η c s)
    (ρ θ : ℝ) (hρ : (2 : ℝ) ^ (-1000 : ℤ) ≤ ρ) :
    ∃ i < M, pskClosestD ang pi M c s (ρ * Real.cos θ) (ρ * Real.sin θ) = i ∧
      ∃ K : ℤ, |θ - 2 * Real.pi * (φ + (i : ℝ) / M + K)| ≤ Real.pi / M + 16 * (η + 1 / 2 ^ 48) := by
  obtain ⟨hc, hs⟩ := hrot
  have hη0 : 0 ≤ η := (abs_nonneg _).trans hc
  have hρ0 : 0 < ρ := lt_of_lt_of_le (by positivity) hρ
  have hM' : (1 : ℝ) ≤ M := by exact_mod_cast hM
  have ca := Real.abs_cos_le_one θ
  have sa := Real.abs_sin_le_one θ
  have hT : |ρ * Real.cos θ| + |ρ * Real.sin θ| ≤ 2 * ρ := by
    rw [abs_mul, abs_mul, abs_of_pos hρ0]; nlinarith
  have ht : (2 : ℝ) ^ (-1075 : ℤ) ≤ 2 * ρ / 2 ^ 60 := (tiny hρ).trans (by apply div_le_div_of_nonneg_right _ (by positivity); linarith)
  have r1 := (rotate_near (a := ρ * Real.cos θ) (b := ρ * Real.sin θ) (by linarith) (Real.abs_cos_le_one _) (Real.abs_sin_le_one _) hc hs hT ht).1
  have r2 := (rotate_near (a := ρ * Real.cos θ) (b := ρ * Real.sin θ) (by linarith) (Real.abs_sin_le_one _) (Real.abs_cos_le_one _) hs hc hT ht).2
  obtain ⟨α, hα⟩ : ∃ α, α = θ - 2 * Real.pi * φ := ⟨_, rfl⟩
  rw [show ρ * Real.cos θ * Real.cos (2 * Real.pi * -φ) - ρ * Real.sin θ * Real.sin (2 * Real.pi * -φ) = ρ * Real.cos α by
    rw [hα, show θ - 2 * Real.pi * φ = θ + 2 * Real.pi * -φ by ring, Real.cos_add]; ring] at r1
  rw [show ρ * Real.cos θ * Real.sin (2 * Real.pi * -φ) + ρ * Real.sin θ * Real.cos (2 * Real.pi * -φ) = ρ * Real.sin α by
    rw [hα, show θ - 2 * Real.pi * φ = θ + 2 * Real.pi * -φ by ring, Real.sin_add]; ring] at r2
  rw [show (η + 1 / 2 ^ 49) * (2 * ρ) = (4 * (η + 1 / 2 ^ 49)) * ρ / 2 by ring] at r1 r2
  obtain ⟨hne, k1, hk1⟩ := angle_of_near hρ0 r1 r2 (by linarith)
  obtain ⟨hb, k2, hk2⟩ := hang _ _ hne
  rw [show pskClosestD ang pi M c s (ρ * Real.cos θ) (ρ * Real.sin θ) =
    npRound (rnd (M * rnd (ang (rnd (rnd (ρ * Real.cos θ * c) - rnd (ρ * Real.sin θ * s))) (rnd (rnd (ρ * Real.cos θ * s) + rnd (ρ * Real.sin θ * c))) / (2 * pi)))) % (M : ℤ) from rfl]
  generalize rnd (rnd (ρ * Real.cos θ * c) - rnd (ρ * Real.sin θ * s)) = x at *
  generalize rnd (rnd (ρ * Real.cos θ * s) + rnd (ρ * Real.sin θ * c)) = y at *
  generalize ang x y = g at *
  generalize Complex.arg ⟨x, y⟩ = u at *
  clear r1 r2 hT ht
  -- the angle
  have hπ3 := Real.pi_gt_three
  have hπ4 : Real.pi < 3.15 := Real.pi_lt_d2
  have hpi2 := abs_le.mp hpi
  have hg : |g - (α + 2 * Real.pi * ((k1 + k2 : ℤ) : ℝ))| ≤ Real.pi * (4 * (η + 1 / 2 ^ 49)) + 1 / 2 ^ 50 := by
    have := abs_sub_le g (u + 2 * Real.pi * k2) (α + 2 * Real.pi * ((k1 + k2 : ℤ) : ℝ))
    rw [show u + 2 * Real.pi * k2 - (α + 2 * Real.pi * ((k1 + k2 : ℤ) : ℝ)) = u - (α + 2 * Real.pi * k1) by push_cast; ring] at this
    linarith
  have ht : (2 : ℝ) ^ (-1075 : ℤ) ≤ 1 / 2 ^ 60 := by
    have h1 : (2 : ℝ) ^ (-1075 : ℤ) ≤ 2 ^ (-60 : ℤ) := zpow_le_zpow_right₀ (by norm_num) (by norm_num)
    rwa [show (2 : ℝ) ^ (-60 : ℤ) = 1 / 2 ^ (60 : ℕ) by rw [zpow_neg, one_div]; rfl] at h1
  have d1 : |g / (2 * pi) - g / (2 * Real.pi)| ≤ 1 / 2 ^ 52 := by
    have hp3 : 2 < pi := by linarith
    rw [show g / (2 * pi) - g / (2 * Real.pi) = g * (Real.pi - pi) / (2 * (pi * Real.pi)) by field_simp, abs_div, abs_mul, abs_sub_comm, abs_of_pos (show 0 < 2 * (pi * Real.pi) by positivity),
      div_le_iff₀ (by positivity)]
    have h6 : 4 ≤ pi * Real.pi := by nlinarith
    calc |g| * |pi - Real.pi| ≤ 4 * (1 / 2 ^ 51) := mul_le_mul hb hpi (abs_nonneg _) (by norm_num)
      _ ≤ 1 / 2 ^ 52 * (2 * (pi * Real.pi)) := by linarith
  have d0 : |g / (2 * Real.pi)| ≤ 2 / 3 := by
    rw [abs_div, abs_of_pos (show 0 < 2 * Real.pi by positivity), div_le_iff₀ (by positivity)]; linarith
  have d2 := rnd_error (g / (2 * pi))
  obtain ⟨t, htd⟩ : ∃ t, t = rnd (g / (2 * pi)) := ⟨_, rfl⟩
  rw [← htd] at d2 ⊢
  have d3 : |t - g / (2 * Real.pi)| ≤ 1 / 2 ^ 51 := by
    have h1 := abs_sub_le t (g / (2 * pi)) (g / (2 * Real.pi))
    have h2 := abs_sub_abs_le_abs_sub (g / (2 * pi)) (g / (2 * Real.pi))
    generalize (2 : ℝ) ^ (-1075 : ℤ) = tt at *
    linarith
  have d4 : |M * t| ≤ M := by
    rw [abs_mul, abs_of_nonneg (by linarith : (0 : ℝ) ≤ M)]
    apply mul_le_of_le_one_right (by linarith)
    have := abs_sub_abs_le_abs_sub t (g / (2 * Real.pi))
    linarith
  have d5 := rnd_error (M * t)
  obtain ⟨v, hv⟩ : ∃ v, v = rnd (M * t) := ⟨_, rfl⟩
  rw [← hv] at d5 ⊢
  have hsp := npRound_spec v
  obtain ⟨n, hn⟩ : ∃ n, n = npRound v := ⟨_, rfl⟩
  rw [← hn] at hsp ⊢
  have hM0 : (0 : ℤ) < M := by exact_mod_cast hM
  obtain ⟨i, hi⟩ := Int.eq_ofNat_of_zero_le (Int.emod_nonneg n hM0.ne')
  have hlt := Int.emod_lt_of_pos n hM0
  refine ⟨i, by omega, hi, k1 * (-1) - k2 + n / M, ?_⟩
  have hdiv : (n : ℝ) = i + M * ((n / M : ℤ) : ℝ) := by
    have := Int.emod_add_mul_ediv n M
    rw [hi] at this
    exact_mod_cast this.symm
  obtain ⟨q, hq⟩ : ∃ q : ℤ, q = n / M := ⟨_, rfl⟩
  rw [← hq] at hdiv ⊢
  -- collect
  have hMpos : (0 : ℝ) < M := by linarith
  have f1 : |g / (2 * Real.pi) - n / M| ≤ 1 / 2 / M + 1 / 2 ^ 50 := by
    have s1 : |M * (g / (2 * Real.pi)) - n| ≤ 1 / 2 + M / 2 ^ 50 := by
      have a1 : |M * t - M * (g / (2 * Real.pi))| ≤ M * (1 / 2 ^ 51) := by
        rw [← mul_sub, abs_mul, abs_of_pos hMpos]; exact mul_le_mul_of_nonneg_left d3 hMpos.le
      generalize (2 : ℝ) ^ (-1075 : ℤ) = tt at *
      have a2 := abs_le.mp a1
      have a3 := abs_le.mp d5
      have a4 := abs_le.mp hsp
      rw [abs_le]
      constructor <;> linarith
    rw [show g / (2 * Real.pi) - n / M = (M * (g / (2 * Real.pi)) - n) / M by field_simp, abs_div, abs_of_pos hMpos, div_le_iff₀ hMpos]
    refine s1.trans (le_of_eq ?_)
    field_simp
  have f2 : |g - 2 * Real.pi * (n / M)| ≤ Real.pi / M + Real.pi / 2 ^ 49 := by
    rw [show g - 2 * Real.pi * (n / M) = (2 * Real.pi) * (g / (2 * Real.pi) - n / M) by field_simp, abs_mul, abs_of_pos (show 0 < 2 * Real.pi by positivity)]
    refine (mul_le_mul_of_nonneg_left f1 (by positivity)).trans (le_of_eq ?_)
    ring
  have e : θ - 2 * Real.pi * (φ + (i : ℝ) / M + ((k1 * (-1) - k2 + q : ℤ) : ℝ)) = (g - 2 * Real.pi * (n / M)) - (g - (α + 2 * Real.pi * ((k1 + k2 : ℤ) : ℝ))) := by
    rw [hα, hdiv]
    push_cast
    field_simp
    ring
  rw [e]
  refine (abs_sub _ _).trans ((add_le_add f2 hg).trans ?_)
  have hx : Real.pi * (4 * (η + 1 / 2 ^ 49)) ≤ 3.15 * (4 * (η + 1 / 2 ^ 49)) := mul_le_mul_of_nonneg_right hπ4.le (by linarith)
  linarith

/-- Received values whose angle is within `π/M` of a point's, less `16 (η + 2⁻⁴⁸)`, are decided as that point. -/
theorem C139_psk_decides {ang : ℝ → ℝ → ℝ} (hang : AngleAccurate ang) {pi : ℝ} (hpi : |pi - Real.pi| ≤ 1 / 2 ^ 51) (hη : η ≤ 1 / 16) (hrot : RotationAccurate (-φ) η c s)
    (ρ θ : ℝ) (hρ : (2 : ℝ) ^ (-1000 : ℤ) ≤ ρ) (k : Nat) (hk : k < M) (K : ℤ) (hθ : |θ - 2 * Real.pi * (φ + (k : ℝ) / M + K)| + 16 * (η + 1 / 2 ^ 48) < Real.pi / M) :
    pskClosestD ang pi M c s (ρ * Real.cos θ) (ρ * Real.sin θ) = k := by
  have hM : 1 ≤ M := by omega
  have hMpos : (0 : ℝ) < M := by exact_mod_cast hM
  obtain ⟨i, hi, he, K', hK⟩ := C139_psk_nearest hang hpi hM hη hrot ρ θ hρ
  rw [he]
  have hp := Real.pi_pos
  have h1 : |2 * Real.pi * (((i : ℝ) / M + K') - ((k : ℝ) / M + K))| < 2 * (Real.pi / M) := by
    have := abs_sub_le (φ * (2 * Real.pi) + 2 * Real.pi * ((i : ℝ) / M + K')) θ (φ * (2 * Real.pi) + 2 * Real.pi * ((k : ℝ) / M + K))
    rw [abs_sub_comm _ θ] at this
    rw [show θ - 2 * Real.pi * (φ + (k : ℝ) / M + K) = θ - (φ * (2 * Real.pi) + 2 * Real.pi * ((k : ℝ) / M + K)) by ring] at hθ
    rw [show θ - 2 * Real.pi * (φ + (i : ℝ) / M + K') = θ - (φ * (2 * Real.pi) + 2 * Real.pi * ((i : ℝ) / M + K')) by ring] at hK
    rw [show φ * (2 * Real.pi) + 2 * Real.pi * ((i : ℝ) / M + K') - (φ * (2 * Real.pi) + 2 * Real.pi * ((k : ℝ) / M + K)) = 2 * Real.pi * (((i : ℝ) / M + K') - ((k : ℝ) / M + K)) by ring] at this
    linarith
  rw [abs_mul, abs_of_pos (show 0 < 2 * Real.pi by positivity), show 2 * (Real.pi / M) = 2 * Real.pi * (1 / M) by ring] at h1
  have h2 := lt_of_mul_lt_mul_left h1 (by positivity)
  rw [show ((i : ℝ) / M + K') - ((k : ℝ) / M + K) = (((i : ℤ) - k + M * (K' - K) : ℤ) : ℝ) / M by push_cast; field_simp; ring, abs_div, abs_of_pos hMpos,
    div_lt_div_iff_of_pos_right hMpos, ← Int.cast_abs] at h2
  have h3 : |(i : ℤ) - k + M * (K' - K)| < 1 := by exact_mod_cast h2
  have h4 := Int.abs_lt_one_iff.mp h3
  have h5 : ((i : ℤ) - k) = M * (K - K') := by linarith
  have h6 : |(i : ℤ) - k| < M := by rw [abs_lt]; omega
  have h7 : (i : ℤ) - k = 0 := Int.eq_zero_of_abs_lt_dvd ⟨_, h5⟩ h6
  omega

theorem round15_near (x : ℝ) : |round15 x - x| ≤ |x| / 2 ^ 51 + 1 / 10 ^ 15 := by
  have ht : (2 : ℝ) ^ (-1075 : ℤ) ≤ 1 / 2 ^ 60 := by
    have h1 : (2 : ℝ) ^ (-1075 : ℤ) ≤ 2 ^ (-60 : ℤ) := zpow_le_zpow_right₀ (by norm_num) (by norm_num)
    rwa [show (2 : ℝ) ^ (-60 : ℤ) = 1 / 2 ^ (60 : ℕ) by rw [zpow_neg, one_div]; rfl] at h1
  have h1 := rnd_error (x * 10 ^ 15)
  rw [abs_mul, abs_of_pos (show (0 : ℝ) < 10 ^ 15 by positivity)] at h1
  rw [round15]
  generalize rnd (x * 10 ^ 15) = y at *
  have h2 := npRound_spec y
  generalize ((npRound y : ℤ) : ℝ) = n at *
  have h3 := rnd_error (n / 10 ^ 15)
  generalize rnd (n / 10 ^ 15) = z at *
  generalize (2 : ℝ) ^ (-1075 : ℤ) = t at *
  obtain ⟨m, hm⟩ : ∃ m, m = n / 10 ^ 15 := ⟨_, rfl⟩
  rw [← hm] at h3
  have hn : n = m * 10 ^ 15 := by rw [hm]; field_simp
  rw [hn] at h2
  have a1 := abs_le.mp h1
  have a2 := abs_le.mp h2
  have a3 := abs_le.mp h3
  have hx := abs_nonneg x
  have b1 : |m| ≤ 2 * |x| + 1 / 10 ^ 15 := by
    have b0 := abs_le.mp (le_refl |x|)
    rw [abs_le]
    constructor <;> linarith
  rw [abs_le]
  constructor <;> linarith

set_option maxHeartbeats 1000000 in
/-- The stored points of a PSK constellation are decided as themselves, as long as the number of points is not too large for the precision and the amplitude not too small for the rounding of the
stored points to 15 decimal places. -/
theorem C139_psk_roundtrip {ang : ℝ → ℝ → ℝ} (hang : AngleAccurate ang) {pi : ℝ} (hpi : |pi - Real.pi| ≤ 1 / 2 ^ 51) (hrot : RotationAccurate (-φ) η c s) {c1 s1 c2 s2 : ℝ}
    (k : Nat) (hk : k < M) (h1 : RotationAccurate ((k : ℝ) / M) η c1 s1) (h2 : RotationAccurate φ η c2 s2) (hA : (2 : ℝ) ^ (-999 : ℤ) ≤ A)
    (hsize : M * (20 * η + 1 / 2 ^ 44 + 4 / 10 ^ 15 / A) < 1) :
    pskClosestD ang pi M c s (pskPointD A c1 s1 c2 s2).1 (pskPointD A c1 s1 c2 s2).2 = k := by
  have hη0 : 0 ≤ η := (abs_nonneg _).trans h1.1
  have hM : 1 ≤ M := by omega
  have hM' : (1 : ℝ) ≤ M := by exact_mod_cast hM
  have hA0 : 0 < A := lt_of_lt_of_le (by positivity) hA
  have hA1 : (2 : ℝ) ^ (-1000 : ℤ) ≤ A / 2 := by
    rw [le_div_iff₀ (by norm_num)]
    refine le_trans (le_of_eq ?_) hA
    rw [← zpow_add_one₀ (by norm_num)]; norm_num
  have ht0 := tiny hA1
  obtain ⟨w, hw⟩ : ∃ w, w = 1 / 10 ^ 15 / A := ⟨_, rfl⟩
  have hw0 : 0 ≤ w := by rw [hw]; positivity
  have hwA : w * A = 1 / 10 ^ 15 := by rw [hw]; field_simp
  rw [show 4 / 10 ^ 15 / A = 4 * w by rw [hw]; ring] at hsize
  have hsz : 20 * η + 1 / 2 ^ 44 + 4 * w < 1 := by
    refine lt_of_le_of_lt ?_ hsize
    exact le_mul_of_one_le_left (by linarith) hM'
  -- the point
  obtain ⟨C1, hC1⟩ : ∃ x, x = Real.cos (2 * Real.pi * ((k : ℝ) / M)) := ⟨_, rfl⟩
  obtain ⟨S1, hS1⟩ : ∃ x, x = Real.sin (2 * Real.pi * ((k : ℝ) / M)) := ⟨_, rfl⟩
  obtain ⟨C2, hC2⟩ : ∃ x, x = Real.cos (2 * Real.pi * φ) := ⟨_, rfl⟩
  obtain ⟨S2, hS2⟩ : ∃ x, x = Real.sin (2 * Real.pi * φ) := ⟨_, rfl⟩
  have bC1 : |C1| ≤ 1 := by rw [hC1]; exact Real.abs_cos_le_one _
  have bS1 : |S1| ≤ 1 := by rw [hS1]; exact Real.abs_sin_le_one _
  have bC2 : |C2| ≤ 1 := by rw [hC2]; exact Real.abs_cos_le_one _
  have bS2 : |S2| ≤ 1 := by rw [hS2]; exact Real.abs_sin_le_one _
  obtain ⟨g1, g2⟩ := h1
  obtain ⟨g3, g4⟩ := h2
  rw [← hC1] at g1
  rw [← hS1] at g2
  rw [← hC2] at g3
  rw [← hS2] at g4
  have hAη : 0 ≤ η * A := by positivity
  have hAη' : η * A ≤ A / 20 := by nlinarith
  have p1 : ∀ x X : ℝ, |x - X| ≤ η → |X| ≤ 1 → |rnd (A * x) - A * X| ≤ η * A + A / 2 ^ 51 := by
    intro x X hx hX
    have q1 : |A * x - A * X| ≤ η * A := by
      rw [← mul_sub, abs_mul, abs_of_pos hA0, mul_comm]; exact mul_le_mul_of_nonneg_right hx hA0.le
    have q2 : |A * X| ≤ A := by rw [abs_mul, abs_of_pos hA0]; exact mul_le_of_le_one_right hA0.le hX
    have := rnd_near (A := A) (ht0.trans (by apply div_le_div_of_nonneg_right _ (by positivity); linarith)) q1 q2
    linarith
  have n1 := p1 c1 C1 g1 bC1
  have n2 := p1 s1 S1 g2 bS1
  rw [pskPointD]
  generalize rnd (A * c1) = a at *
  generalize rnd (A * s1) = b at *
  have q1 : |A * C1| ≤ A := by rw [abs_mul, abs_of_pos hA0]; exact mul_le_of_le_one_right hA0.le bC1
  have q2 : |A * S1| ≤ A := by rw [abs_mul, abs_of_pos hA0]; exact mul_le_of_le_one_right hA0.le bS1
  have hab : |a| + |b| ≤ 3 * A := by
    have := abs_sub_abs_le_abs_sub a (A * C1)
    have := abs_sub_abs_le_abs_sub b (A * S1)
    linarith
  have ht3 : (2 : ℝ) ^ (-1075 : ℤ) ≤ 3 * A / 2 ^ 60 := ht0.trans (by apply div_le_div_of_nonneg_right _ (by positivity); linarith)
  have m1 := (rotate_near (a := a) (b := b) (by linarith) bC2 bS2 g3 g4 hab ht3).1
  have m2 := (rotate_near (a := a) (b := b) (by linarith) bS2 bC2 g4 g3 hab ht3).2
  have e1 : |(a * C2 - b * S2) - (A * C1 * C2 - A * S1 * S2)| ≤ 2 * (η * A + A / 2 ^ 51) := by
    have u1 : |(a - A * C1) * C2| ≤ η * A + A / 2 ^ 51 := by rw [abs_mul]; exact (mul_le_of_le_one_right (abs_nonneg _) bC2).trans n1
    have u2 : |(b - A * S1) * S2| ≤ η * A + A / 2 ^ 51 := by rw [abs_mul]; exact (mul_le_of_le_one_right (abs_nonneg _) bS2).trans n2
    rw [show (a * C2 - b * S2) - (A * C1 * C2 - A * S1 * S2) = (a - A * C1) * C2 - (b - A * S1) * S2 by ring]
    linarith [abs_sub ((a - A * C1) * C2) ((b - A * S1) * S2)]
  have e2 : |(a * S2 + b * C2) - (A * C1 * S2 + A * S1 * C2)| ≤ 2 * (η * A + A / 2 ^ 51) := by
    have u1 : |(a - A * C1) * S2| ≤ η * A + A / 2 ^ 51 := by rw [abs_mul]; exact (mul_le_of_le_one_right (abs_nonneg _) bS2).trans n1
    have u2 : |(b - A * S1) * C2| ≤ η * A + A / 2 ^ 51 := by rw [abs_mul]; exact (mul_le_of_le_one_right (abs_nonneg _) bC2).trans n2
    rw [show (a * S2 + b * C2) - (A * C1 * S2 + A * S1 * C2) = (a - A * C1) * S2 + (b - A * S1) * C2 by ring]
    linarith [abs_add_le ((a - A * C1) * S2) ((b - A * S1) * C2)]
  obtain ⟨α, hα⟩ : ∃ α, α = 2 * Real.pi * ((k : ℝ) / M) + 2 * Real.pi * φ := ⟨_, rfl⟩
  have z1 : A * C1 * C2 - A * S1 * S2 = A * Real.cos α := by rw [hα, Real.cos_add, ← hC1, ← hC2, ← hS1, ← hS2]; ring
  have z2 : A * C1 * S2 + A * S1 * C2 = A * Real.sin α := by rw [hα, Real.sin_add, ← hC1, ← hC2, ← hS1, ← hS2]; ring
  rw [z1] at e1
  rw [z2] at e2
  change pskClosestD ang pi M c s (round15 (rnd (rnd (a * c2) - rnd (b * s2)))) (round15 (rnd (rnd (a * s2) + rnd (b * c2)))) = k
  generalize rnd (rnd (a * c2) - rnd (b * s2)) = x at *
  generalize rnd (rnd (a * s2) + rnd (b * c2)) = y at *
  have o1 := round15_near x
  have o2 := round15_near y
  generalize round15 x = x' at *
  generalize round15 y = y' at *
  have bca : |A * Real.cos α| ≤ A := by rw [abs_mul, abs_of_pos hA0]; exact mul_le_of_le_one_right hA0.le (Real.abs_cos_le_one _)
  have bsa : |A * Real.sin α| ≤ A := by rw [abs_mul, abs_of_pos hA0]; exact mul_le_of_le_one_right hA0.le (Real.abs_sin_le_one _)
  obtain ⟨κ, hκ⟩ : ∃ κ, κ = 5 * η + 1 / 2 ^ 46 + w := ⟨_, rfl⟩
  have hκA : κ * A = 5 * (η * A) + A / 2 ^ 46 + 1 / 10 ^ 15 := by rw [hκ, add_mul, hwA]; ring
  have y1 : |x' - A * Real.cos α| ≤ κ * A := by
    have w1 := abs_sub_le x (a * C2 - b * S2) (A * Real.cos α)
    have w2 := abs_sub_abs_le_abs_sub x (A * Real.cos α)
    have w3 := abs_sub_le x' x (A * Real.cos α)
    rw [add_mul] at m1
    rw [hκA]
    linarith
  have y2 : |y' - A * Real.sin α| ≤ κ * A := by
    have w1 := abs_sub_le y (a * S2 + b * C2) (A * Real.sin α)
    have w2 := abs_sub_abs_le_abs_sub y (A * Real.sin α)
    have w3 := abs_sub_le y' y (A * Real.sin α)
    rw [add_mul] at m2
    rw [hκA]
    linarith
  have hκ2 : 2 * κ ≤ 1 / 2 := by rw [hκ]; linarith
  obtain ⟨-, K, hK⟩ := angle_of_near (r := 2 * κ) hA0 (by rw [show 2 * κ * A / 2 = κ * A by ring]; exact y1) (by rw [show 2 * κ * A / 2 = κ * A by ring]; exact y2) hκ2
  have x1 : x' = ‖(⟨x', y'⟩ : ℂ)‖ * Real.cos (Complex.arg ⟨x', y'⟩) := (Complex.norm_mul_cos_arg ⟨x', y'⟩).symm
  have x2 : y' = ‖(⟨x', y'⟩ : ℂ)‖ * Real.sin (Complex.arg ⟨x', y'⟩) := (Complex.norm_mul_sin_arg ⟨x', y'⟩).symm
  have hnorm : A / 2 ≤ ‖(⟨x', y'⟩ : ℂ)‖ := by
    have v1 : x' * Real.cos α + y' * Real.sin α ≤ ‖(⟨x', y'⟩ : ℂ)‖ := by
      have : x' * Real.cos α + y' * Real.sin α = ‖(⟨x', y'⟩ : ℂ)‖ * Real.cos (Complex.arg ⟨x', y'⟩ - α) := by
        rw [Real.cos_sub]
        generalize ‖(⟨x', y'⟩ : ℂ)‖ = n at *
        generalize Complex.arg ⟨x', y'⟩ = g at *
        rw [x1, x2]; ring
      rw [this]
      exact mul_le_of_le_one_right (norm_nonneg _) (Real.cos_le_one _)
    have v2 : x' * Real.cos α + y' * Real.sin α = A + ((x' - A * Real.cos α) * Real.cos α + (y' - A * Real.sin α) * Real.sin α) := by
      have := Real.cos_sq_add_sin_sq α
      linear_combination A * this
    have v3 : |(x' - A * Real.cos α) * Real.cos α| ≤ κ * A := by rw [abs_mul]; exact (mul_le_of_le_one_right (abs_nonneg _) (Real.abs_cos_le_one _)).trans y1
    have v4 : |(y' - A * Real.sin α) * Real.sin α| ≤ κ * A := by rw [abs_mul]; exact (mul_le_of_le_one_right (abs_nonneg _) (Real.abs_sin_le_one _)).trans y2
    have v5 := abs_le.mp v3
    have v6 := abs_le.mp v4
    have v7 : κ * A ≤ 1 / 4 * A := mul_le_mul_of_nonneg_right (by linarith only [hκ2]) hA0.le
    linarith only [v1, v2, v5.1, v6.1, v7]
  generalize ‖(⟨x', y'⟩ : ℂ)‖ = n at *
  generalize Complex.arg ⟨x', y'⟩ = g at *
  rw [x1, x2]
  refine C139_psk_decides hang hpi (by linarith) hrot n g (hA1.trans hnorm) k hk K ?_
  rw [show 2 * Real.pi * (φ + (k : ℝ) / M + K) = α + 2 * Real.pi * K by rw [hα]; ring]
  have hπ3 := Real.pi_gt_three
  have hMpos : (0 : ℝ) < M := by linarith
  have hfin : Real.pi * (20 * η + 1 / 2 ^ 44 + 4 * w) < Real.pi / M := by
    rw [lt_div_iff₀ hMpos]
    have := mul_lt_mul_of_pos_left hsize Real.pi_pos
    linarith
  have hm1 : 3 * η ≤ Real.pi * η := mul_le_mul_of_nonneg_right hπ3.le hη0
  have hm2 : 0 ≤ Real.pi * w := mul_nonneg Real.pi_pos.le hw0
  rw [show Real.pi * (20 * η + 1 / 2 ^ 44 + 4 * w) = 20 * (Real.pi * η) + Real.pi / 2 ^ 44 + 4 * (Real.pi * w) by ring] at hfin
  rw [show Real.pi * (2 * κ) = 10 * (Real.pi * η) + Real.pi / 2 ^ 45 + 2 * (Real.pi * w) by rw [hκ]; ring] at hK
  generalize Real.pi * η = e3 at *
  generalize Real.pi * w = e4 at *
  linarith

/-- The 15-decimal rounding of the stored points makes every point of a PSK constellation of small amplitude zero. -/
theorem C139_psk_collapse (hA0 : 0 ≤ A) (hd : IsDouble A) (hA : A ≤ 2 / 10 ^ 16) {c1 s1 c2 s2 : ℝ} (h1 : |c1| ≤ 1) (h2 : |s1| ≤ 1) (h3 : |c2| ≤ 1) (h4 : |s2| ≤ 1) :
    pskPointD A c1 s1 c2 s2 = (0, 0) := by
  have b : ∀ x y : ℝ, |x| ≤ A → |y| ≤ 1 → |rnd (x * y)| ≤ A := by
    intro x y hx hy
    have : |x * y| ≤ A := by rw [abs_mul]; exact (mul_le_of_le_one_right (abs_nonneg _) hy).trans hx
    exact rnd_abs_le hd this
  have b1 := b A c1 (by rw [abs_of_nonneg hA0]) h1
  have b2 := b A s1 (by rw [abs_of_nonneg hA0]) h2
  have z : ∀ x : ℝ, |x| ≤ 2 * A → round15 (rnd x) = 0 := by
    intro x hx
    have e1 : |rnd x| ≤ 2 * A := rnd_abs_le (isDouble_double hd) hx
    have e2 : |rnd x * 10 ^ 15| ≤ 49 / 100 := by
      rw [abs_mul, abs_of_pos (show (0 : ℝ) < 10 ^ 15 by positivity)]
      linarith
    have e3 : |rnd (rnd x * 10 ^ 15)| < 1 / 2 := by
      have := rnd_error (rnd x * 10 ^ 15)
      have ht : (2 : ℝ) ^ (-1075 : ℤ) ≤ 1 / 2 ^ 60 := by
        have h1 : (2 : ℝ) ^ (-1075 : ℤ) ≤ 2 ^ (-60 : ℤ) := zpow_le_zpow_right₀ (by norm_num) (by norm_num)
        rwa [show (2 : ℝ) ^ (-60 : ℤ) = 1 / 2 ^ (60 : ℕ) by rw [zpow_neg, one_div]; rfl] at h1
      have h5 := abs_sub_abs_le_abs_sub (rnd (rnd x * 10 ^ 15)) (rnd x * 10 ^ 15)
      generalize (2 : ℝ) ^ (-1075 : ℤ) = t at *
      generalize |rnd x * 10 ^ 15| = u at *
      generalize |rnd (rnd x * 10 ^ 15) - rnd x * 10 ^ 15| = u' at *
      generalize |rnd (rnd x * 10 ^ 15)| = u'' at *
      norm_num at ht this ⊢
      linarith only [this, ht, h5, e2]
    have e4 : npRound (rnd (rnd x * 10 ^ 15)) = 0 := by
      have h5 := npRound_spec (rnd (rnd x * 10 ^ 15))
      generalize rnd (rnd x * 10 ^ 15) = v at *
      have h6 := abs_lt.mp e3
      have h7 := abs_le.mp h5
      have h8 : ((npRound v : ℤ) : ℝ) < 1 := by linarith
      have h9 : (-1 : ℝ) < ((npRound v : ℤ) : ℝ) := by linarith
      have h10 : npRound v < 1 := by exact_mod_cast h8
      have h11 : -1 < npRound v := by exact_mod_cast h9
      omega
    rw [round15, e4, Int.cast_zero, zero_div, rnd_zero]
  rw [pskPointD]
  generalize rnd (A * c1) = a at *
  generalize rnd (A * s1) = b' at *
  have i1 := b a c2 b1 h3
  have i2 := b b' s2 b2 h4
  have i3 := b a s2 b1 h4
  have i4 := b b' c2 b2 h3
  refine Prod.ext ?_ ?_
  · exact z _ (by linarith [abs_sub (rnd (a * c2)) (rnd (b' * s2))])
  · exact z _ (by linarith [abs_add_le (rnd (a * s2)) (rnd (b' * c2))])

/-! ### the hypotheses are met -/

/-- Eight levels of step 1/4, offset 1/2. -/
example : ∀ i < 8, quantize (uniformLevelsD 8 (1 / 4) (1 / 2)) (uniformThresholdsD 8 (1 / 4) (1 / 2)) (uniformLevelD 8 (1 / 4) (1 / 2) i) = some (uniformLevelD 8 (1 / 4) (1 / 2) i) := by
  intro i hi
  refine (C139_quantize_idempotent (by norm_num) (by rw [abs_of_pos (by norm_num)]; norm_num) ?_ i hi).2
  have : (2 : ℝ) ^ (-1000 : ℤ) ≤ 2 ^ (-2 : ℤ) := zpow_le_zpow_right₀ (by norm_num) (by norm_num)
  exact this.trans (by norm_num)

/-- 16 × 8 points, spacings 2 and 1, rotated by an eighth of a turn with cosines and sines rounded to double precision. -/
example : ∃ c s c' s' : ℝ, IsDouble c ∧ IsDouble s ∧ RotationAccurate (1 / 8) (1 / 2 ^ 52) c' s' ∧ RotationAccurate (-(1 / 8)) (1 / 2 ^ 52) c s ∧
    ∀ i < 16, ∀ q < 8, ∀ p, p = qamPointD (pamPointD 16 2 i) (pamPointD 8 1 q) c' s' → qamClosestD 16 8 2 1 c s p.1 p.2 = 8 * i + q := by
  have hr : ∀ x : ℝ, |x| ≤ 1 → |rnd x - x| ≤ 1 / 2 ^ 52 := by
    intro x hx
    have h := rnd_error x
    have h1 : (2 : ℝ) ^ (-1075 : ℤ) ≤ 2 ^ (-53 : ℤ) := zpow_le_zpow_right₀ (by norm_num) (by norm_num)
    have h2 : (2 : ℝ) ^ (-53 : ℤ) = 1 / 2 ^ 53 := by rw [zpow_neg, one_div]; norm_cast
    rw [h2] at h1
    generalize (2 : ℝ) ^ (-1075 : ℤ) = t at *
    linarith
  have f : ∀ φ : ℝ, RotationAccurate φ (1 / 2 ^ 52) (rnd (Real.cos (2 * Real.pi * φ))) (rnd (Real.sin (2 * Real.pi * φ))) :=
    fun φ => ⟨hr _ (Real.abs_cos_le_one _), hr _ (Real.abs_sin_le_one _)⟩
  refine ⟨_, _, _, _, rnd_isDouble _, rnd_isDouble _, f _, f _, fun i hi q hq => ?_⟩
  have hb : ∀ x : ℝ, 1 ≤ x → (2 : ℝ) ^ (-1000 : ℤ) ≤ x := by
    intro x hx
    have : (2 : ℝ) ^ (-1000 : ℤ) ≤ 2 ^ (0 : ℤ) := zpow_le_zpow_right₀ (by norm_num) (by norm_num)
    rw [zpow_zero] at this
    exact this.trans hx
  exact C139_qam_roundtrip (φ := 1 / 8) (Mi := 16) (Mq := 8) (by norm_num) (by norm_num) (hb 2 (by norm_num)) (hb 1 (by norm_num)) (by norm_num) (f _) (f _) (by norm_num) (by norm_num) i q hi hq

/-- 16-PSK of amplitude 1 with offset 1/32: everything correctly rounded. -/
example : ∃ (ang : ℝ → ℝ → ℝ) (c s c2 s2 : ℝ) (c1 s1 : Nat → ℝ), AngleAccurate ang ∧ IsDouble c ∧ IsDouble s ∧ RotationAccurate (-(1 / 32)) (1 / 2 ^ 52) c s ∧
    ∀ k < 16, IsDouble (c1 k) ∧ IsDouble (s1 k) ∧ RotationAccurate ((k : ℝ) / (16 : ℕ)) (1 / 2 ^ 52) (c1 k) (s1 k) ∧
      pskClosestD ang (rnd Real.pi) 16 c s (pskPointD 1 (c1 k) (s1 k) c2 s2).1 (pskPointD 1 (c1 k) (s1 k) c2 s2).2 = k := by
  have ht : (2 : ℝ) ^ (-1075 : ℤ) ≤ 1 / 2 ^ 60 := by
    have h1 : (2 : ℝ) ^ (-1075 : ℤ) ≤ 2 ^ (-60 : ℤ) := zpow_le_zpow_right₀ (by norm_num) (by norm_num)
    rwa [show (2 : ℝ) ^ (-60 : ℤ) = 1 / 2 ^ (60 : ℕ) by rw [zpow_neg, one_div]; rfl] at h1
  have hr : ∀ x : ℝ, |rnd x - x| ≤ |x| / 2 ^ 53 + 1 / 2 ^ 60 := fun x => (rnd_error x).trans (by
    generalize (2 : ℝ) ^ (-1075 : ℤ) = t at *
    linarith)
  have hr1 : ∀ x : ℝ, |x| ≤ 1 → |rnd x - x| ≤ 1 / 2 ^ 52 := fun x hx => (hr x).trans (by linarith)
  have f : ∀ φ : ℝ, RotationAccurate φ (1 / 2 ^ 52) (rnd (Real.cos (2 * Real.pi * φ))) (rnd (Real.sin (2 * Real.pi * φ))) :=
    fun φ => ⟨hr1 _ (Real.abs_cos_le_one _), hr1 _ (Real.abs_sin_le_one _)⟩
  have hπ := Real.pi_lt_d2
  have hang : AngleAccurate fun x y => rnd (Complex.arg ⟨x, y⟩) := by
    intro x y _
    have h1 := Complex.abs_arg_le_pi ⟨x, y⟩
    have h2 := hr (Complex.arg ⟨x, y⟩)
    have h3 := abs_sub_abs_le_abs_sub (rnd (Complex.arg ⟨x, y⟩)) (Complex.arg ⟨x, y⟩)
    refine ⟨by linarith, 0, ?_⟩
    rw [Int.cast_zero, mul_zero, add_zero]
    linarith
  refine ⟨_, _, _, rnd (Real.cos (2 * Real.pi * (1 / 32))), rnd (Real.sin (2 * Real.pi * (1 / 32))), fun k => rnd (Real.cos (2 * Real.pi * ((k : ℝ) / (16 : ℕ)))),
    fun k => rnd (Real.sin (2 * Real.pi * ((k : ℝ) / (16 : ℕ)))), hang, rnd_isDouble _, rnd_isDouble _, f _, fun k hk => ⟨rnd_isDouble _, rnd_isDouble _, f _, ?_⟩⟩
  refine C139_psk_roundtrip (φ := 1 / 32) hang ?_ (f _) k hk (f _) (f _) ?_ (by norm_num)
  · refine (hr _).trans ?_
    rw [abs_of_pos Real.pi_pos]
    linarith
  · have : (2 : ℝ) ^ (-999 : ℤ) ≤ 2 ^ (0 : ℤ) := zpow_le_zpow_right₀ (by norm_num) (by norm_num)
    rwa [zpow_zero] at this

/-- An amplitude of `2⁻⁵³` is a double below the bound of `C139_psk_collapse`, and the exact minimum distance of that constellation is not zero. -/
example : IsDouble ((2 : ℝ) ^ (-53 : ℤ)) ∧ (2 : ℝ) ^ (-53 : ℤ) ≤ 2 / 10 ^ 16 ∧ 0 < 2 * (2 : ℝ) ^ (-53 : ℤ) * Real.sin (Real.pi / 4) := by
  refine ⟨⟨1, -53, by norm_num, by norm_num, by norm_num⟩, ?_, ?_⟩
  · rw [show (2 : ℝ) ^ (-53 : ℤ) = 1 / 2 ^ (53 : ℕ) by rw [zpow_neg, one_div]; rfl]; norm_num
  · have := Real.sin_pos_of_pos_of_lt_pi (show 0 < Real.pi / 4 by linarith [Real.pi_pos]) (by linarith [Real.pi_pos])
    positivity

/-- There are accurate moduli and sums; the decision between 0 and 2 + 2j for the received value 2 + j. -/
example : ∃ (sum : List Double → Double) (h : ℝ → ℝ → ℝ), (∀ l, SumOf l (sum l)) ∧ ModulusAccurate h ∧
    closestD (M := 1) (N := 1) sum h (fun i _ => if i = 0 then (0, 0) else (2, 2)) (fun _ => (2, 1)) = 1 := by
  obtain ⟨sum, hsum⟩ := exists_dot
  have hh : ModulusAccurate fun x y => Real.sqrt (x ^ 2 + y ^ 2) := fun x y => ⟨Real.sqrt_nonneg _, by rw [sub_self, abs_zero]; positivity⟩
  refine ⟨sum, _, hsum, hh, ?_⟩
  have hd : ∀ n : Nat, n ≤ 2 → IsDouble (n : ℝ) := fun n hn => isDouble_int (n : ℤ) (by rw [abs_of_nonneg (by positivity)]; norm_num; omega)
  have d0 : IsDouble (0 : ℝ) := isDouble_zero
  have d1 : IsDouble (1 : ℝ) := by simpa using hd 1 (by norm_num)
  have d2 : IsDouble (2 : ℝ) := by simpa using hd 2 (by norm_num)
  have key := C139_generic_nearest (M := 1) (N := 1) sum hsum _ hh (by norm_num) (fun i _ => if i = 0 then (0, 0) else (2, 2)) (by
    intro i n
    by_cases hi : i = 0
    · rw [if_pos hi]; exact ⟨d0, d0⟩
    · rw [if_neg hi]; exact ⟨d2, d2⟩) (fun _ => (2, 1)) (fun _ => ⟨d2, d1⟩) 1
  generalize closestD sum _ _ _ = i at *
  by_contra hi
  have h0 : i = 0 := by
    fin_cases i
    · rfl
    · exact absurd rfl hi
  rw [h0] at key
  have ht : (2 : ℝ) ^ (-1000 : ℤ) ≤ 1 := by
    have : (2 : ℝ) ^ (-1000 : ℤ) ≤ 2 ^ (0 : ℤ) := zpow_le_zpow_right₀ (by norm_num) (by norm_num)
    rwa [zpow_zero] at this
  generalize (2 : ℝ) ^ (-1000 : ℤ) = t at *
  simp only [Finset.univ_unique, Finset.sum_const, Finset.card_singleton, one_smul, if_true, Fin.isValue, one_ne_zero, if_false] at key
  norm_num at key
  linarith

end Komm
