import Verif.Lemmas.PulseIntegrals
import Mathlib.Analysis.SpecialFunctions.Gaussian.FourierTransform
/-! C95: the rectangular, Manchester and Gaussian pulses. -/
namespace Komm
open MeasureTheory

theorem cis_comm (f t : ℝ) : cis f t = cis t f := by
  rw [cis, cis]; congr 1; ring

theorem integral_cis (f a b : ℝ) :
    ∫ t in a..b, cis f t = (((b - a) * npSinc (f * (b - a)) : ℝ) : ℂ) * cis f ((a + b) / 2) := by
  rcases eq_or_ne f 0 with rfl | hf
  · simp [cis, npSinc_zero]
  · have hpi := Real.pi_ne_zero
    rcases eq_or_ne (b - a) 0 with h | h
    · rw [sub_eq_zero] at h
      subst h
      simp
    · have hc : 2 * (Real.pi : ℂ) * Complex.I * f ≠ 0 := by
        have h1 : (Real.pi : ℂ) ≠ 0 := by exact_mod_cast hpi
        have h2 : (f : ℂ) ≠ 0 := by exact_mod_cast hf
        have := Complex.I_ne_zero
        exact mul_ne_zero (mul_ne_zero (mul_ne_zero two_ne_zero h1) this) h2
      have e : ∀ t : ℝ, cis f t = Complex.exp (2 * (Real.pi : ℂ) * Complex.I * f * t) := fun t => rfl
      simp only [e]
      rw [integral_exp_mul_complex hc, npSinc_of_ne (mul_ne_zero hf h), div_eq_iff hc]
      have e1 : 2 * (Real.pi : ℂ) * Complex.I * f * b = 2 * (Real.pi : ℂ) * Complex.I * f * (((a + b) / 2 : ℝ) : ℂ) +
          (((Real.pi * (f * (b - a)) : ℝ) : ℂ)) * Complex.I := by push_cast; ring
      have e2 : 2 * (Real.pi : ℂ) * Complex.I * f * a = 2 * (Real.pi : ℂ) * Complex.I * f * (((a + b) / 2 : ℝ) : ℂ) +
          (((-(Real.pi * (f * (b - a))) : ℝ) : ℂ)) * Complex.I := by push_cast; ring
      rw [e1, e2, Complex.exp_add, Complex.exp_add, ← mul_sub, Complex.exp_mul_I, Complex.exp_mul_I]
      rw [Complex.ofReal_neg, Complex.cos_neg, Complex.sin_neg]
      push_cast
      have h1 : (Real.pi : ℂ) ≠ 0 := by exact_mod_cast hpi
      have h2 : (f : ℂ) ≠ 0 := by exact_mod_cast hf
      have h3 : (b : ℂ) - a ≠ 0 := by exact_mod_cast h
      field_simp
      ring

/-- The indicator of `[a, a + h)`. -/
noncomputable def box (a h t : ℝ) : ℝ := if a ≤ t ∧ t < a + h then 1 else 0

theorem box_eq (a h : ℝ) : box a h = (Set.Ico a (a + h)).indicator fun _ => (1 : ℝ) := by
  funext t
  rw [box, Set.indicator_apply]
  rfl

theorem box_integrable (a h : ℝ) : Integrable (box a h) := by
  rw [box_eq]
  exact (integrable_indicator_iff measurableSet_Ico).mpr (integrableOn_const (by simp))

theorem box_memLp (a h : ℝ) : MemLp (box a h) 2 := by
  rw [box_eq]
  exact memLp_indicator_const 2 measurableSet_Ico 1 (Or.inr (by simp))

theorem box_fourier (a h f : ℝ) (hh : 0 ≤ h) :
    ∫ t : ℝ, (box a h t : ℂ) * cis (-f) t = ((h * npSinc (f * h) : ℝ) : ℂ) * cis (-f) (a + h / 2) := by
  have e : (fun t : ℝ => (box a h t : ℂ) * cis (-f) t) = (Set.Ico a (a + h)).indicator fun t => cis (-f) t := by
    funext t
    rw [box, Set.indicator_apply]
    simp only [Set.mem_Ico]
    split <;> simp
  rw [e, integral_indicator measurableSet_Ico, integral_Ico_eq_integral_Ioc, ← intervalIntegral.integral_of_le (by linarith), integral_cis]
  rw [add_sub_cancel_left, neg_mul, npSinc_neg]
  congr 2
  ring

theorem npTri_eq (x : ℝ) : npTri x = max 0 (1 - |x|) := by
  rw [npTri]
  by_cases h1 : -1 ≤ x
  · by_cases h2 : x < 1
    · rw [if_pos h1, if_pos h2, max_eq_right]
      · ring
      · have : |x| ≤ 1 := abs_le.mpr ⟨h1, h2.le⟩
        linarith
    · rw [if_neg h2, max_eq_left]
      · ring
      · have := le_abs_self x
        push Not at h2
        linarith
  · rw [if_neg h1, max_eq_left]
    · ring
    · have := neg_abs_le x
      push Not at h1
      linarith

theorem box_correlation (a b h τ : ℝ) (hh : 0 < h) :
    ∫ t, box a h t * box b h (t + τ) = h * npTri ((τ - (b - a)) / h) := by
  have e : (fun t : ℝ => box a h t * box b h (t + τ)) =
      (Set.Ico (max a (b - τ)) (min (a + h) (b + h - τ))).indicator fun _ => (1 : ℝ) := by
    funext t
    rw [box, box, Set.indicator_apply]
    simp only [Set.mem_Ico, max_le_iff, lt_min_iff]
    by_cases h1 : a ≤ t ∧ t < a + h
    · by_cases h2 : b ≤ t + τ ∧ t + τ < b + h
      · rw [if_pos h1, if_pos h2, if_pos ⟨⟨h1.1, by linarith [h2.1]⟩, h1.2, by linarith [h2.2]⟩, one_mul]
      · rw [if_neg h2, mul_zero, if_neg]
        rintro ⟨⟨-, h3⟩, -, h4⟩
        exact h2 ⟨by linarith, by linarith⟩
    · rw [if_neg h1, zero_mul, if_neg]
      rintro ⟨⟨h3, -⟩, h4, -⟩
      exact h1 ⟨h3, h4⟩
  rw [e, integral_indicator measurableSet_Ico, setIntegral_const, smul_eq_mul, mul_one, Measure.real, Real.volume_Ico,
    ENNReal.toReal_ofReal', npTri_eq, mul_max_of_nonneg _ _ hh.le, mul_zero, max_comm, abs_div, abs_of_pos hh]
  congr 1
  rw [mul_sub, mul_one, mul_div_cancel₀ _ hh.ne']
  rcases le_total a (b - τ) with h1 | h1
  · rw [max_eq_right h1, min_eq_left (by linarith), abs_of_nonpos (by linarith)]
    ring
  · rw [max_eq_left h1, min_eq_right (by linarith), abs_of_nonneg (by linarith)]
    ring

theorem rect_eq_box (a h t : ℝ) (hh : 0 < h) : npRect ((t - (a + h / 2)) / h) = box a h t := by
  rw [npRect, box]
  refine if_congr ?_ rfl rfl
  rw [le_div_iff₀ hh, div_lt_iff₀ hh]
  refine ⟨fun ⟨h1, h2⟩ => ⟨by linarith, by linarith⟩, fun ⟨h1, h2⟩ => ⟨by linarith, by linarith⟩⟩

/-! ### Rectangular pulse -/

theorem rectangular_waveform (w : ℝ) (hw : 0 < w) : (rectangularPulse w).waveform = box 0 w := by
  funext t
  rw [← rect_eq_box 0 w t hw, zero_add]
  rfl

/-- The waveform of `RectangularPulse(w)` is 1 on `[0, w)` and 0 elsewhere. -/
theorem C95_rectangular_waveform (w : ℝ) (hw : 0 < w) (t : ℝ) :
    (rectangularPulse w).waveform t = if 0 ≤ t ∧ t < w then 1 else 0 := by
  rw [rectangular_waveform w hw, box, zero_add]

/-- The spectrum is the Fourier integral of the waveform, at every frequency. -/
theorem C95_rectangular_spectrum (w : ℝ) (hw : 0 < w) (f : ℝ) :
    (rectangularPulse w).spectrum f =
      ∫ t : ℝ, ((rectangularPulse w).waveform t : ℂ) * Complex.exp (-2 * Real.pi * Complex.I * f * t) := by
  have e : ∀ t : ℝ, Complex.exp (-2 * Real.pi * Complex.I * f * t) = cis (-f) t := by
    intro t; rw [cis]; congr 1; push_cast; ring
  simp only [e]
  rw [rectangular_waveform w hw, box_fourier 0 w f hw.le, rectangularPulse]
  simp only
  rw [mul_comm f w, cis]
  congr 2
  push_cast
  ring

theorem C95_rectangular (w : ℝ) (hw : 0 < w) : (rectangularPulse w).Consistent := by
  refine consistent_of_time _ ?_ ?_ ?_ ?_ ?_ ?_ ?_
  · rw [rectangular_waveform w hw]; exact box_integrable 0 w
  · rw [rectangular_waveform w hw]; exact box_memLp 0 w
  · intro f
    rw [C95_rectangular_spectrum w hw]
    refine integral_congr_ae (Filter.Eventually.of_forall fun t => ?_)
    simp only [cis]
    congr 2
    push_cast
    ring
  · intro f
    rw [rectangularPulse]
    simp only
    rw [norm_mul, show -2 * Complex.I * (Real.pi : ℂ) * w / 2 * f = ((-(Real.pi * w * f) : ℝ) : ℂ) * Complex.I by push_cast; ring,
      Complex.norm_exp_ofReal_mul_I, mul_one, Complex.norm_real, Real.norm_eq_abs, sq_abs, mul_pow]
  · intro τ
    rw [rectangular_waveform w hw, box_correlation 0 0 w τ hw]
    simp [rectangularPulse]
  · simp [rectangularPulse, npTri_eq]
  · intro t ht
    rw [C95_rectangular_waveform w hw] at ht
    have h : 0 ≤ t ∧ t < w := by by_contra h; exact ht (if_neg h)
    simp only [rectangularPulse]
    exact ⟨by exact_mod_cast h.1, by exact_mod_cast h.2.le⟩

/-- Widths are not checked: `RectangularPulse(-1)` is accepted, and its "energy" is negative. -/
theorem C95_negative_width : (rectangularPulse (-1)).energy < 0 ∧ ¬ (rectangularPulse (-1)).Consistent := by
  have h : (rectangularPulse (-1)).energy < 0 := by norm_num [rectangularPulse]
  refine ⟨h, fun hc => ?_⟩
  have := hc.energy
  have h2 : 0 ≤ ∫ t, (rectangularPulse (-1)).waveform t ^ 2 := integral_nonneg fun t => by positivity
  linarith

/-! ### Manchester pulse -/

theorem manchester_waveform : manchesterPulse.waveform = fun t => -box 0 (1 / 2) t + box (1 / 2) (1 / 2) t := by
  funext t
  rw [← rect_eq_box 0 (1 / 2) t (by norm_num), ← rect_eq_box (1 / 2) (1 / 2) t (by norm_num), manchesterPulse]
  simp only
  rw [show (t - (0 + 1 / 2 / 2)) / (1 / 2) = 2 * (t - 1 / 4) by ring, show (t - (1 / 2 + 1 / 2 / 2)) / (1 / 2) = 2 * (t - 3 / 4) by ring]

/-- The waveform is -1 in the first half of the symbol and 1 in the second. -/
theorem C95_manchester_waveform (t : ℝ) : manchesterPulse.waveform t =
    if 0 ≤ t ∧ t < 1 / 2 then -1 else if 1 / 2 ≤ t ∧ t < 1 then 1 else 0 := by
  rw [manchester_waveform]
  simp only [box]
  rw [zero_add, show (1 / 2 + 1 / 2 : ℝ) = 1 by norm_num]
  by_cases h1 : 0 ≤ t ∧ t < 1 / 2
  · rw [if_pos h1, if_pos h1, if_neg (by rintro ⟨h, -⟩; linarith [h1.2])]; norm_num
  · rw [if_neg h1, if_neg h1]; simp

theorem cis_sub_half (f : ℝ) : -cis (-f) (1 / 4) + cis (-f) (3 / 4) =
    2 * ((Real.sin (2 * Real.pi * f / 4) : ℝ) : ℂ) * Complex.exp (-2 * Complex.I * Real.pi * (f / 2 + 1 / 4)) := by
  have e1 : cis (-f) (1 / 4) = Complex.exp (-Complex.I * Real.pi * f) * Complex.exp (((2 * Real.pi * f / 4 : ℝ) : ℂ) * Complex.I) := by
    rw [cis, ← Complex.exp_add]; congr 1; push_cast; ring
  have e2 : cis (-f) (3 / 4) = Complex.exp (-Complex.I * Real.pi * f) * Complex.exp (((-(2 * Real.pi * f / 4) : ℝ) : ℂ) * Complex.I) := by
    rw [cis, ← Complex.exp_add]; congr 1; push_cast; ring
  have e3 : Complex.exp (-2 * Complex.I * Real.pi * (f / 2 + 1 / 4)) = Complex.exp (-Complex.I * Real.pi * f) * (-Complex.I) := by
    rw [show -2 * Complex.I * (Real.pi : ℂ) * (f / 2 + 1 / 4) = -Complex.I * Real.pi * f + -(Real.pi / 2 * Complex.I) by ring,
      Complex.exp_add, Complex.exp_neg, Complex.exp_pi_div_two_mul_I, Complex.inv_I]
  rw [e1, e2, e3, Complex.exp_mul_I, Complex.exp_mul_I, Complex.ofReal_neg, Complex.cos_neg, Complex.sin_neg, Complex.ofReal_sin]
  ring

/-- The spectrum is the Fourier integral of the waveform, at every frequency. -/
theorem C95_manchester_spectrum (f : ℝ) : manchesterPulse.spectrum f =
    ∫ t : ℝ, (manchesterPulse.waveform t : ℂ) * Complex.exp (-2 * Real.pi * Complex.I * f * t) := by
  have e : ∀ t : ℝ, Complex.exp (-2 * Real.pi * Complex.I * f * t) = cis (-f) t := by
    intro t; rw [cis]; congr 1; push_cast; ring
  simp only [e]
  rw [manchester_waveform]
  have h : ∀ t : ℝ, (((-box 0 (1 / 2) t + box (1 / 2) (1 / 2) t : ℝ)) : ℂ) * cis (-f) t =
      -((box 0 (1 / 2) t : ℂ) * cis (-f) t) + (box (1 / 2) (1 / 2) t : ℂ) * cis (-f) t := by
    intro t; push_cast; ring
  simp only [h]
  have hc : Continuous fun t => cis (-f) t := by unfold cis; fun_prop
  have hi : ∀ a, Integrable fun t : ℝ => (box a (1 / 2) t : ℂ) * cis (-f) t := fun a =>
    (box_integrable a (1 / 2)).ofReal.mul_bdd (c := 1) hc.aestronglyMeasurable (Filter.Eventually.of_forall fun t => (norm_cis _ _).le)
  rw [integral_add (f := fun t : ℝ => -((box 0 (1 / 2) t : ℂ) * cis (-f) t)) (hi 0).neg (hi (1 / 2)), integral_neg, box_fourier _ _ _ (by norm_num), box_fourier _ _ _ (by norm_num)]
  rw [show (0 + 1 / 2 / 2 : ℝ) = 1 / 4 by norm_num, show (1 / 2 + 1 / 2 / 2 : ℝ) = 3 / 4 by norm_num, manchesterPulse]
  simp only
  have := cis_sub_half f
  rw [show f * (1 / 2) = f / 2 by ring]
  push_cast at this ⊢
  linear_combination (-(1 / 2) * (npSinc (f / 2) : ℂ)) * this

theorem C95_manchester : manchesterPulse.Consistent := by
  have hi : ∀ a b τ : ℝ, Integrable fun t => box a (1 / 2) t * box b (1 / 2) (t + τ) := by
    intro a b τ
    refine (box_integrable a (1 / 2)).mul_bdd (c := 1) ((box_integrable b (1 / 2)).comp_add_right τ).aestronglyMeasurable ?_
    refine Filter.Eventually.of_forall fun t => ?_
    rw [box]
    split <;> simp
  refine consistent_of_time _ ?_ ?_ ?_ ?_ ?_ ?_ ?_
  · rw [manchester_waveform]; exact (box_integrable _ _).neg.add (box_integrable _ _)
  · rw [manchester_waveform]; exact (box_memLp _ _).neg.add (box_memLp _ _)
  · intro f
    rw [C95_manchester_spectrum]
    refine integral_congr_ae (Filter.Eventually.of_forall fun t => ?_)
    simp only [cis]
    congr 2
    push_cast
    ring
  · intro f
    rw [manchesterPulse]
    simp only
    rw [norm_mul, show -2 * Complex.I * (Real.pi : ℂ) * (f / 2 + 1 / 4) = ((-2 * (Real.pi * (f / 2 + 1 / 4)) : ℝ) : ℂ) * Complex.I by
      push_cast; ring, Complex.norm_exp_ofReal_mul_I, mul_one, Complex.norm_real, Real.norm_eq_abs, sq_abs, mul_pow]
  · intro τ
    rw [manchester_waveform]
    have h : ∀ t : ℝ, (-box 0 (1 / 2) t + box (1 / 2) (1 / 2) t) * (-box 0 (1 / 2) (t + τ) + box (1 / 2) (1 / 2) (t + τ)) =
        (box 0 (1 / 2) t * box 0 (1 / 2) (t + τ) + box (1 / 2) (1 / 2) t * box (1 / 2) (1 / 2) (t + τ)) -
        (box 0 (1 / 2) t * box (1 / 2) (1 / 2) (t + τ) + box (1 / 2) (1 / 2) t * box 0 (1 / 2) (t + τ)) := by intro t; ring
    simp only [h]
    rw [integral_sub (f := fun t => box 0 (1 / 2) t * box 0 (1 / 2) (t + τ) + box (1 / 2) (1 / 2) t * box (1 / 2) (1 / 2) (t + τ))
      (g := fun t => box 0 (1 / 2) t * box (1 / 2) (1 / 2) (t + τ) + box (1 / 2) (1 / 2) t * box 0 (1 / 2) (t + τ))
      ((hi _ _ _).add (hi _ _ _)) ((hi _ _ _).add (hi _ _ _)), integral_add (hi _ _ _) (hi _ _ _),
      integral_add (hi _ _ _) (hi _ _ _)]
    iterate 4 rw [box_correlation _ _ _ _ (by norm_num)]
    rw [manchesterPulse]
    simp only
    rw [show (τ - (0 - 0)) / (1 / 2) = 2 * τ by ring, show (τ - (1 / 2 - 1 / 2)) / (1 / 2) = 2 * τ by ring,
      show (τ - (1 / 2 - 0)) / (1 / 2) = 2 * (τ - 1 / 2) by ring, show (τ - (0 - 1 / 2)) / (1 / 2) = 2 * (τ + 1 / 2) by ring]
    ring
  · rw [manchesterPulse]
    simp only [npTri_eq]
    norm_num
  · intro t ht
    rw [C95_manchester_waveform] at ht
    simp only [manchesterPulse]
    by_cases h1 : 0 ≤ t ∧ t < 1 / 2
    · exact ⟨by exact_mod_cast h1.1, by exact_mod_cast (by linarith [h1.2] : t ≤ 1)⟩
    · rw [if_neg h1] at ht
      have h : 1 / 2 ≤ t ∧ t < 1 := by by_contra h; exact ht (if_neg h)
      exact ⟨by exact_mod_cast (by linarith [h.1] : 0 ≤ t), by exact_mod_cast h.2.le⟩

/-! ### Gaussian pulse -/

theorem gaussianB_pos {B : ℝ} (h : 0 < B) : 0 < gaussianB B := by
  have := Real.sqrt_pos.mpr (Real.log_pos one_lt_two)
  rw [gaussianB]
  positivity

/-- Which bandwidths are accepted. -/
theorem C95_gaussian_accepts (B : ℝ) : (gaussianPulse B).isSome ↔ 0 < B := by
  rw [gaussianPulse]
  split
  · rename_i h; simpa using h
  · rename_i h; simpa using h

/-- The spectrum is the Fourier integral of the waveform, at every frequency. -/
theorem C95_gaussian_spectrum (B : ℝ) (P : Pulse) (hP : gaussianPulse B = some P) (f : ℝ) :
    P.spectrum f = ∫ t : ℝ, (P.waveform t : ℂ) * Complex.exp (-2 * Real.pi * Complex.I * f * t) := by
  have hB : 0 < B := (C95_gaussian_accepts B).mp (by rw [hP]; rfl)
  rw [gaussianPulse, if_neg (by simpa using hB), Option.some.injEq] at hP
  subst hP
  simp only
  have hb := gaussianB_pos hB
  set b := gaussianB B with hbdef
  have hpi := Real.pi_pos
  have hc : 0 < (((2 * Real.pi ^ 2 * b ^ 2 : ℝ) : ℂ)).re := by rw [Complex.ofReal_re]; positivity
  have h := fourierIntegral_gaussian hc ((-(2 * Real.pi * f) : ℝ) : ℂ)
  have e : ∫ t : ℝ, ((Real.exp (-(1 / 2) * (2 * Real.pi * b * t) ^ 2) : ℝ) : ℂ) * Complex.exp (-2 * Real.pi * Complex.I * f * t) =
      ∫ x : ℝ, Complex.exp (Complex.I * ((-(2 * Real.pi * f) : ℝ) : ℂ) * x) * Complex.exp (-((2 * Real.pi ^ 2 * b ^ 2 : ℝ) : ℂ) * x ^ 2) := by
    refine integral_congr_ae (Filter.Eventually.of_forall fun t => ?_)
    simp only
    rw [mul_comm, Complex.ofReal_exp]
    congr 2 <;> push_cast <;> ring
  rw [e, h]
  have hreal : ((Real.pi : ℂ) / ((2 * Real.pi ^ 2 * b ^ 2 : ℝ) : ℂ)) ^ (1 / 2 : ℂ) = ((1 / (Real.sqrt (2 * Real.pi) * b) : ℝ) : ℂ) := by
    rw [← Complex.ofReal_div, show (1 / 2 : ℂ) = ((1 / 2 : ℝ) : ℂ) by push_cast; ring, ← Complex.ofReal_cpow (by positivity),
      ← Real.sqrt_eq_rpow, show Real.pi / (2 * Real.pi ^ 2 * b ^ 2) = (1 / (Real.sqrt (2 * Real.pi) * b)) ^ 2 by
        rw [div_pow, mul_pow, Real.sq_sqrt (by positivity)]; field_simp, Real.sqrt_sq (by positivity)]
  rw [hreal, Complex.ofReal_mul, Complex.ofReal_exp]
  congr 2
  push_cast
  have h1 : (b : ℂ) ≠ 0 := by exact_mod_cast hb.ne'
  have h2 : (Real.pi : ℂ) ≠ 0 := by exact_mod_cast hpi.ne'
  field_simp
  ring

theorem C95_gaussian (B : ℝ) (P : Pulse) (hP : gaussianPulse B = some P) : P.Consistent := by
  have hspec := C95_gaussian_spectrum B P hP
  have hB : 0 < B := (C95_gaussian_accepts B).mp (by rw [hP]; rfl)
  rw [gaussianPulse, if_neg (by simpa using hB), Option.some.injEq] at hP
  subst hP
  have hb := gaussianB_pos hB
  set b := gaussianB B with hbdef
  have hpi := Real.pi_pos
  have hc : 0 < 2 * Real.pi ^ 2 * b ^ 2 := by positivity
  have hwf : ∀ t : ℝ, Real.exp (-(1 / 2) * (2 * Real.pi * b * t) ^ 2) = Real.exp (-(2 * Real.pi ^ 2 * b ^ 2) * t ^ 2) := by
    intro t; congr 1; ring
  have hint : Integrable fun t : ℝ => Real.exp (-(1 / 2) * (2 * Real.pi * b * t) ^ 2) := by
    simp only [hwf]; exact integrable_exp_neg_mul_sq hc
  refine consistent_of_time _ hint ?_ ?_ ?_ ?_ ?_ ?_
  · rw [memLp_two_iff_integrable_sq hint.aestronglyMeasurable]
    have : ∀ t : ℝ, Real.exp (-(1 / 2) * (2 * Real.pi * b * t) ^ 2) ^ 2 = Real.exp (-(4 * Real.pi ^ 2 * b ^ 2) * t ^ 2) := by
      intro t; rw [sq, ← Real.exp_add]; congr 1; ring
    simp only [this]
    exact integrable_exp_neg_mul_sq (by positivity)
  · intro f
    rw [hspec]
    refine integral_congr_ae (Filter.Eventually.of_forall fun t => ?_)
    simp only [cis]
    congr 2
    push_cast
    ring
  · intro f
    simp only
    rw [Complex.norm_real, Real.norm_eq_abs, sq_abs, mul_pow, show (1 / (Real.sqrt (2 * Real.pi) * b)) ^ 2 = 1 / (2 * Real.pi * b ^ 2) by
      rw [div_pow, mul_pow, Real.sq_sqrt (by positivity), one_pow], ← Real.exp_nat_mul]
    congr 2
    push_cast
    ring
  · intro τ
    simp only
    have h : ∀ t : ℝ, Real.exp (-(1 / 2) * (2 * Real.pi * b * t) ^ 2) * Real.exp (-(1 / 2) * (2 * Real.pi * b * (t + τ)) ^ 2) =
        Real.exp (-(Real.pi * b * τ) ^ 2) * Real.exp (-(4 * Real.pi ^ 2 * b ^ 2) * (t + τ / 2) ^ 2) := by
      intro t; rw [← Real.exp_add, ← Real.exp_add]; congr 1; ring
    simp only [h]
    rw [integral_const_mul, integral_add_right_eq_self (fun t : ℝ => Real.exp (-(4 * Real.pi ^ 2 * b ^ 2) * t ^ 2)), integral_gaussian, mul_comm]
    congr 1
    rw [show Real.pi / (4 * Real.pi ^ 2 * b ^ 2) = (1 / (2 * Real.sqrt Real.pi * b)) ^ 2 by
      rw [div_pow, mul_pow, mul_pow, Real.sq_sqrt hpi.le]; field_simp; norm_num, Real.sqrt_sq (by positivity)]
  · simp
  · intro t _
    simp

/-- `half_power_bandwidth` is where the energy spectral density has half its maximum. -/
theorem C95_gaussian_half_power (B : ℝ) (P : Pulse) (hP : gaussianPulse B = some P) :
    P.energySpectralDensity B = P.energySpectralDensity 0 / 2 ∧ ∀ f, P.energySpectralDensity f ≤ P.energySpectralDensity 0 := by
  have hB : 0 < B := (C95_gaussian_accepts B).mp (by rw [hP]; rfl)
  rw [gaussianPulse, if_neg (by simpa using hB), Option.some.injEq] at hP
  subst hP
  have hb := gaussianB_pos hB
  have hl := Real.log_pos one_lt_two
  simp only
  constructor
  · have : (B / gaussianB B) ^ 2 = Real.log 2 := by
      rw [gaussianB, div_div_cancel₀ hB.ne', Real.sq_sqrt hl.le]
    rw [this, Real.exp_neg, Real.exp_log two_pos]
    simp
    ring
  · intro f
    have : Real.exp (-(f / gaussianB B) ^ 2) ≤ Real.exp (-(0 / gaussianB B) ^ 2) := by
      rw [Real.exp_le_exp]
      have := sq_nonneg (f / gaussianB B)
      simp
      positivity
    have h0 : 0 ≤ 1 / (2 * Real.pi * gaussianB B ^ 2) := by have := Real.pi_pos; positivity
    exact mul_le_mul_of_nonneg_left this h0

example : (gaussianPulse 1).isSome := (C95_gaussian_accepts 1).mpr one_pos
/-- A concrete value: `RectangularPulse(2)` at lag 1. -/
example : (rectangularPulse 2).autocorrelation 1 = 1 := by
  simp only [rectangularPulse, npTri_eq]
  rw [abs_of_pos (by norm_num)]
  norm_num

end Komm
