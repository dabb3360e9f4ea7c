import Verif.Props.C96_RaisedCosine
/-! C97: the Beaulieu ("better than raised cosine") pulse. -/
namespace Komm
open MeasureTheory

/-- Which roll-off factors are accepted. -/
theorem C97_accepts (α : ℝ) : (beaulieuPulse α).isSome ↔ 0 ≤ α ∧ α ≤ 1 := by
  rw [beaulieuPulse]
  split <;> simp_all

/-- The object that an accepted roll-off factor yields. -/
noncomputable def beaulieuOf (α : ℝ) : Pulse where
  waveform := beaulieuWaveform α
  spectrum := beaulieuSpectrum α
  energy := 1 - α / (4 * Real.log 2)
  autocorrelation := beaulieuAutocorrelation α
  energySpectralDensity f := ‖beaulieuSpectrum α f‖ ^ 2
  support := (⊥, ⊤)

theorem beaulieu_some {α : ℝ} {P : Pulse} (hP : beaulieuPulse α = some P) : (0 ≤ α ∧ α ≤ 1) ∧ P = beaulieuOf α := by
  rw [beaulieuPulse] at hP
  split at hP
  · simp at hP
  · rename_i h
    rw [not_not] at h
    exact ⟨h, (Option.some.inj hP).symm⟩

/-- The half spectrum. -/
noncomputable def bHalf (α f : ℝ) : ℝ :=
  if f ≤ (1 - α) / 2 then 1
  else if f ≤ 1 / 2 then Real.exp (-beaulieuBeta α * f + beaulieuBeta α * ((1 - α) / 2))
  else 1 - Real.exp (beaulieuBeta α * f + -(beaulieuBeta α * ((1 + α) / 2)))

theorem beta_pos {α : ℝ} (h0 : 0 < α) : 0 < beaulieuBeta α := by
  have := Real.log_pos (by norm_num : (1 : ℝ) < 2)
  rw [beaulieuBeta]; positivity

theorem beta_mul {α : ℝ} (h0 : 0 < α) : beaulieuBeta α * (α / 2) = Real.log 2 := by rw [beaulieuBeta]; field_simp

theorem exp_half {α : ℝ} (h0 : 0 < α) : Real.exp (-(beaulieuBeta α * (α / 2))) = 1 / 2 := by
  rw [beta_mul h0, Real.exp_neg, Real.exp_log (by norm_num)]; norm_num

theorem bSpectrum_half {α : ℝ} (h0 : 0 < α) {f : ℝ} (hf : |f| < (1 + α) / 2) : beaulieuSpectrum α f = (bHalf α |f| : ℂ) := by
  rw [beaulieuSpectrum, if_neg h0.ne', bHalf]
  rcases lt_trichotomy |f| ((1 - α) / 2) with h | h | h
  · rw [if_neg (by rintro ⟨h, -⟩; linarith), if_neg (by rintro ⟨h, -⟩; linarith), if_pos h, if_pos h.le]; simp
  · rw [if_neg (by rintro ⟨h, -⟩; linarith), if_pos ⟨h.ge, by linarith⟩, if_pos h.le, h, sub_self, mul_zero, Real.exp_zero]
  · rw [if_neg (by linarith : ¬ |f| ≤ (1 - α) / 2)]
    rcases lt_trichotomy |f| (1 / 2) with g | g | g
    · rw [if_neg (by rintro ⟨h, -⟩; linarith), if_pos ⟨h.le, g⟩, if_pos g.le]
      congr 2; ring
    · rw [if_pos ⟨g.ge, hf⟩, if_pos g.le, g]
      rw [show -beaulieuBeta α * ((1 + α) / 2 - 1 / 2) = -(beaulieuBeta α * (α / 2)) by ring,
        show -beaulieuBeta α * (1 / 2) + beaulieuBeta α * ((1 - α) / 2) = -(beaulieuBeta α * (α / 2)) by ring, exp_half h0]
      norm_num
    · rw [if_pos ⟨g.le, hf⟩, if_neg (by linarith)]
      congr 3; ring

theorem bSpectrum_out {α : ℝ} (h0 : 0 < α) {f : ℝ} (hf : (1 + α) / 2 ≤ |f|) : beaulieuSpectrum α f = 0 := by
  rw [beaulieuSpectrum, if_neg h0.ne', if_neg (by rintro ⟨-, h⟩; linarith), if_neg (by rintro ⟨-, h⟩; linarith), if_neg (by linarith)]

theorem bHalf_mem {α f : ℝ} (h0 : 0 < α) (hf : f < (1 + α) / 2) : 0 ≤ bHalf α f ∧ bHalf α f ≤ 1 := by
  have hb := beta_pos h0
  rw [bHalf]
  split_ifs with h1 h2
  · norm_num
  · refine ⟨(Real.exp_pos _).le, Real.exp_le_one_iff.mpr ?_⟩
    push Not at h1
    nlinarith
  · have a := Real.exp_pos (beaulieuBeta α * f + -(beaulieuBeta α * ((1 + α) / 2)))
    have b : Real.exp (beaulieuBeta α * f + -(beaulieuBeta α * ((1 + α) / 2))) ≤ 1 := Real.exp_le_one_iff.mpr (by nlinarith)
    constructor <;> linarith

theorem bHalf_pieces {α : ℝ} (h0 : 0 < α) (h1 : α ≤ 1) (φ : ℝ → ℝ) (k : ℝ → ℝ) (hφ : Continuous φ) (hk : Continuous k) :
    IntervalIntegrable (fun f => φ (bHalf α f) * k f) volume 0 ((1 + α) / 2) ∧
    ∫ f in (0 : ℝ)..((1 + α) / 2), φ (bHalf α f) * k f = (∫ f in (0 : ℝ)..((1 - α) / 2), φ 1 * k f) +
      ((∫ f in ((1 - α) / 2)..(1 / 2), φ (Real.exp (-beaulieuBeta α * f + beaulieuBeta α * ((1 - α) / 2))) * k f) +
      ∫ f in (1 / 2)..((1 + α) / 2), φ (1 - Real.exp (beaulieuBeta α * f + -(beaulieuBeta α * ((1 + α) / 2)))) * k f) := by
  have c2 : Continuous fun f => φ (Real.exp (-beaulieuBeta α * f + beaulieuBeta α * ((1 - α) / 2))) * k f := by fun_prop
  have c3 : Continuous fun f => φ (1 - Real.exp (beaulieuBeta α * f + -(beaulieuBeta α * ((1 + α) / 2)))) * k f := by fun_prop
  have right := integral_pieces (fun f => φ (bHalf α f) * k f) _ _ (a := (1 - α) / 2) (b := 1 / 2) (c := (1 + α) / 2)
    (by linarith) (by linarith)
    (fun f hf => by rw [bHalf, if_neg (by linarith [hf.1]), if_pos hf.2])
    (fun f hf => by rw [bHalf, if_neg (by linarith [hf.1]), if_neg (by linarith [hf.1])])
    (c2.intervalIntegrable _ _) (c3.intervalIntegrable _ _)
  rw [← right.2]
  refine integral_pieces _ _ _ (by linarith) (by linarith) ?_ (fun _ _ => rfl) ?_ right.1
  · intro f hf
    rw [bHalf, if_pos hf.2]
  · exact (by fun_prop : Continuous fun f => φ 1 * k f).intervalIntegrable _ _

/-- The sinusoidal part common to waveform and autocorrelation. -/
theorem sinc_pair (α t : ℝ) : (1 - α) / 2 * npSinc ((1 - α) * t) + (1 + α) / 2 * npSinc ((1 + α) * t) = npSinc t * Real.cos (Real.pi * α * t) := by
  rcases eq_or_ne t 0 with rfl | ht
  · simp [npSinc_zero]; ring
  · have r1 := pi_mul_npSinc ((1 - α) * t)
    have r2 := pi_mul_npSinc ((1 + α) * t)
    have r3 := pi_mul_npSinc t
    rw [show Real.pi * ((1 - α) * t) = Real.pi * t - Real.pi * α * t by ring, Real.sin_sub] at r1
    rw [show Real.pi * ((1 + α) * t) = Real.pi * t + Real.pi * α * t by ring, Real.sin_add] at r2
    refine mul_left_cancel₀ (mul_ne_zero Real.pi_ne_zero ht) ?_
    linear_combination 1 / 2 * r1 + 1 / 2 * r2 - Real.cos (Real.pi * α * t) * r3

theorem b_low (α t : ℝ) : ∫ f in (0 : ℝ)..((1 - α) / 2), Real.cos (2 * Real.pi * t * f) = (1 - α) / 2 * npSinc ((1 - α) * t) := by
  rw [← rc_low]; congr 1; funext f; ring_nf

theorem b_high (α t : ℝ) : ∫ f in (1 / 2 : ℝ)..((1 + α) / 2), Real.cos (2 * Real.pi * t * f) =
    (1 + α) / 2 * npSinc ((1 + α) * t) - 1 / 2 * npSinc t := by
  have := integral_cos_between (1 / 2) ((1 + α) / 2) t
  rw [show 2 * ((1 + α) / 2) * t = (1 + α) * t by ring, show 2 * (1 / 2 : ℝ) * t = t by ring] at this
  rw [← this]; congr 1; funext f; ring_nf

theorem cos_f1 (α t : ℝ) : Real.cos (2 * Real.pi * t * ((1 - α) / 2)) =
    Real.cos (Real.pi * t) * Real.cos (Real.pi * α * t) + Real.sin (Real.pi * t) * Real.sin (Real.pi * α * t) := by
  rw [show 2 * Real.pi * t * ((1 - α) / 2) = Real.pi * t - Real.pi * α * t by ring, Real.cos_sub]
theorem cos_f2 (α t : ℝ) : Real.cos (2 * Real.pi * t * ((1 + α) / 2)) =
    Real.cos (Real.pi * t) * Real.cos (Real.pi * α * t) - Real.sin (Real.pi * t) * Real.sin (Real.pi * α * t) := by
  rw [show 2 * Real.pi * t * ((1 + α) / 2) = Real.pi * t + Real.pi * α * t by ring, Real.cos_add]
theorem sin_f1 (α t : ℝ) : Real.sin (2 * Real.pi * t * ((1 - α) / 2)) =
    Real.sin (Real.pi * t) * Real.cos (Real.pi * α * t) - Real.cos (Real.pi * t) * Real.sin (Real.pi * α * t) := by
  rw [show 2 * Real.pi * t * ((1 - α) / 2) = Real.pi * t - Real.pi * α * t by ring, Real.sin_sub]
theorem sin_f2 (α t : ℝ) : Real.sin (2 * Real.pi * t * ((1 + α) / 2)) =
    Real.sin (Real.pi * t) * Real.cos (Real.pi * α * t) + Real.cos (Real.pi * t) * Real.sin (Real.pi * α * t) := by
  rw [show 2 * Real.pi * t * ((1 + α) / 2) = Real.pi * t + Real.pi * α * t by ring, Real.sin_add]

theorem b_wave_integral {α : ℝ} (h0 : 0 < α) (h1 : α ≤ 1) (t : ℝ) :
    beaulieuWaveform α t = 2 * ∫ f in (0 : ℝ)..((1 + α) / 2), bHalf α f * Real.cos (2 * Real.pi * f * t) := by
  have hb := beta_pos h0
  have he := exp_half h0
  have hp := (bHalf_pieces h0 h1 (fun x => x) (fun f => Real.cos (2 * Real.pi * t * f)) continuous_id (by fun_prop)).2
  simp only [one_mul, sub_mul] at hp
  rw [intervalIntegral.integral_sub ((by fun_prop : Continuous fun f : ℝ => Real.cos (2 * Real.pi * t * f)).intervalIntegrable _ _)
    ((by fun_prop : Continuous fun f : ℝ => Real.exp (beaulieuBeta α * f + -(beaulieuBeta α * ((1 + α) / 2))) *
      Real.cos (2 * Real.pi * t * f)).intervalIntegrable _ _), b_low, b_high, integral_exp_cos _ _ _ _ _ (neg_ne_zero.mpr hb.ne'),
    integral_exp_cos _ _ _ _ _ hb.ne'] at hp
  rw [show -beaulieuBeta α * (1 / 2) + beaulieuBeta α * ((1 - α) / 2) = -(beaulieuBeta α * (α / 2)) by ring,
    show -beaulieuBeta α * ((1 - α) / 2) + beaulieuBeta α * ((1 - α) / 2) = 0 by ring,
    show beaulieuBeta α * ((1 + α) / 2) + -(beaulieuBeta α * ((1 + α) / 2)) = 0 by ring,
    show beaulieuBeta α * (1 / 2) + -(beaulieuBeta α * ((1 + α) / 2)) = -(beaulieuBeta α * (α / 2)) by ring,
    he, Real.exp_zero, cos_f1, cos_f2, sin_f1, sin_f2, show 2 * Real.pi * t * (1 / 2) = Real.pi * t by ring, neg_sq] at hp
  have e : ∀ f : ℝ, 2 * Real.pi * f * t = 2 * Real.pi * t * f := fun f => by ring
  simp only [e]
  rw [hp, beaulieuWaveform, if_neg h0.ne']
  have hq := sinc_pair α t
  have r3 := pi_mul_npSinc t
  have hD : beaulieuBeta α ^ 2 + (2 * Real.pi * t) ^ 2 ≠ 0 := by positivity
  rw [add_comm ((2 * Real.pi * t) ^ 2), div_eq_iff hD]
  set β := beaulieuBeta α
  set c := Real.cos (Real.pi * α * t)
  set s := Real.sin (Real.pi * α * t)
  have hcalc : ∀ X Y Z W D : ℝ, D ≠ 0 → 2 * (X + (Y / D + (Z - W / D))) * D = 2 * (X + Z) * D + 2 * (Y - W) := by
    intro X Y Z W D hD; field_simp; ring
  rw [hcalc _ _ _ _ _ hD]
  linear_combination (-2 * (β ^ 2 + (2 * Real.pi * t) ^ 2)) * hq + (2 * (2 * Real.pi * t) + 4 * β * s - 4 * (2 * Real.pi * t) * c) * r3

theorem b_auto_integral {α : ℝ} (h0 : 0 < α) (h1 : α ≤ 1) (t : ℝ) :
    beaulieuAutocorrelation α t = 2 * ∫ f in (0 : ℝ)..((1 + α) / 2), bHalf α f ^ 2 * Real.cos (2 * Real.pi * f * t) := by
  have hb := beta_pos h0
  have he := exp_half h0
  have he2 : Real.exp (-(2 * beaulieuBeta α * (α / 2))) = 1 / 4 := by
    rw [show -(2 * beaulieuBeta α * (α / 2)) = -(beaulieuBeta α * (α / 2)) + -(beaulieuBeta α * (α / 2)) by ring, Real.exp_add, he]
    norm_num
  have hp := (bHalf_pieces h0 h1 (fun x => x ^ 2) (fun f => Real.cos (2 * Real.pi * t * f)) (by fun_prop) (by fun_prop)).2
  have e2 : ∀ f : ℝ, Real.exp (-beaulieuBeta α * f + beaulieuBeta α * ((1 - α) / 2)) ^ 2 * Real.cos (2 * Real.pi * t * f) =
      Real.exp (-(2 * beaulieuBeta α) * f + 2 * beaulieuBeta α * ((1 - α) / 2)) * Real.cos (2 * Real.pi * t * f) := by
    intro f; rw [sq, ← Real.exp_add]; congr 2; ring
  have e3 : ∀ f : ℝ, (1 - Real.exp (beaulieuBeta α * f + -(beaulieuBeta α * ((1 + α) / 2)))) ^ 2 * Real.cos (2 * Real.pi * t * f) =
      Real.cos (2 * Real.pi * t * f) - (2 * (Real.exp (beaulieuBeta α * f + -(beaulieuBeta α * ((1 + α) / 2))) * Real.cos (2 * Real.pi * t * f)) -
      Real.exp (2 * beaulieuBeta α * f + -(2 * beaulieuBeta α * ((1 + α) / 2))) * Real.cos (2 * Real.pi * t * f)) := by
    intro f
    have : Real.exp (2 * beaulieuBeta α * f + -(2 * beaulieuBeta α * ((1 + α) / 2))) =
        Real.exp (beaulieuBeta α * f + -(beaulieuBeta α * ((1 + α) / 2))) ^ 2 := by
      rw [sq, ← Real.exp_add]; congr 1; ring
    rw [this]; ring
  simp only [one_mul, one_pow, e2, e3] at hp
  have i1 : ∀ a b : ℝ, IntervalIntegrable (fun f : ℝ => Real.cos (2 * Real.pi * t * f)) volume a b :=
    fun a b => (by fun_prop : Continuous fun f : ℝ => Real.cos (2 * Real.pi * t * f)).intervalIntegrable _ _
  have i2 : ∀ a b : ℝ, IntervalIntegrable (fun f : ℝ => 2 * (Real.exp (beaulieuBeta α * f + -(beaulieuBeta α * ((1 + α) / 2))) *
      Real.cos (2 * Real.pi * t * f))) volume a b :=
    fun a b => Continuous.intervalIntegrable (by fun_prop) _ _
  have i3 : ∀ a b : ℝ, IntervalIntegrable (fun f : ℝ => Real.exp (2 * beaulieuBeta α * f + -(2 * beaulieuBeta α * ((1 + α) / 2))) *
      Real.cos (2 * Real.pi * t * f)) volume a b :=
    fun a b => Continuous.intervalIntegrable (by fun_prop) _ _
  rw [intervalIntegral.integral_sub (i1 _ _) (by exact (i2 _ _).sub (i3 _ _)), intervalIntegral.integral_sub (i2 _ _) (i3 _ _),
    intervalIntegral.integral_const_mul, b_low, b_high,
    integral_exp_cos _ _ (-(2 * beaulieuBeta α)) _ _ (by simpa using hb.ne'), integral_exp_cos _ _ _ _ _ hb.ne',
    integral_exp_cos _ _ (2 * beaulieuBeta α) _ _ (by simpa using hb.ne')] at hp
  rw [show -(2 * beaulieuBeta α) * (1 / 2) + 2 * beaulieuBeta α * ((1 - α) / 2) = -(2 * beaulieuBeta α * (α / 2)) by ring,
    show -(2 * beaulieuBeta α) * ((1 - α) / 2) + 2 * beaulieuBeta α * ((1 - α) / 2) = 0 by ring,
    show beaulieuBeta α * ((1 + α) / 2) + -(beaulieuBeta α * ((1 + α) / 2)) = 0 by ring,
    show beaulieuBeta α * (1 / 2) + -(beaulieuBeta α * ((1 + α) / 2)) = -(beaulieuBeta α * (α / 2)) by ring,
    show 2 * beaulieuBeta α * ((1 + α) / 2) + -(2 * beaulieuBeta α * ((1 + α) / 2)) = 0 by ring,
    show 2 * beaulieuBeta α * (1 / 2) + -(2 * beaulieuBeta α * ((1 + α) / 2)) = -(2 * beaulieuBeta α * (α / 2)) by ring,
    he, he2, Real.exp_zero, show 2 * Real.pi * t * (1 / 2) = Real.pi * t by ring, neg_sq] at hp
  have e : ∀ f : ℝ, 2 * Real.pi * f * t = 2 * Real.pi * t * f := fun f => by ring
  simp only [e]
  rw [hp, beaulieuAutocorrelation, if_neg h0.ne']
  have hq := sinc_pair α t
  rw [show 2 * Real.pi * ((1 - α) / 2) * t = 2 * Real.pi * t * ((1 - α) / 2) by ring,
    show 2 * Real.pi * ((1 + α) / 2) * t = 2 * Real.pi * t * ((1 + α) / 2) by ring]
  have k4 : (2 * beaulieuBeta α) ^ 2 = 4 * beaulieuBeta α ^ 2 := by ring
  rw [k4]
  linear_combination (-2) * hq

theorem b_real {α : ℝ} (h0 : 0 ≤ α) (f : ℝ) : ∃ y : ℝ, beaulieuSpectrum α f = y ∧ 0 ≤ y ∧ y ≤ 1 := by
  rcases eq_or_lt_of_le h0 with e | h0
  · subst e
    rw [beaulieuSpectrum, if_pos rfl]
    refine ⟨_, rfl, ?_⟩
    rw [npRect]; split <;> norm_num
  · rcases lt_or_ge |f| ((1 + α) / 2) with h | h
    · exact ⟨_, bSpectrum_half h0 h, bHalf_mem h0 h⟩
    · exact ⟨0, by rw [bSpectrum_out h0 h]; simp, by norm_num⟩

theorem b_band (α : ℝ) (P : Pulse) (hP : beaulieuPulse α = some P) : P.Consistent ∧
    ∀ t : ℝ, (P.waveform t : ℂ) = ∫ f : ℝ, P.spectrum f * Complex.exp (2 * Real.pi * Complex.I * f * t) := by
  obtain ⟨⟨h0, h1⟩, rfl⟩ := beaulieu_some hP
  rcases eq_or_lt_of_le h0 with e | h0
  · subst e
    have : beaulieuOf 0 = sincPulse := by
      rw [beaulieuOf, sincPulse]
      congr 1
      · funext t; rw [beaulieuWaveform, if_pos rfl]
      · funext f; rw [beaulieuSpectrum, if_pos rfl]
      · norm_num
      · funext f; rw [beaulieuAutocorrelation, if_pos rfl]
      · funext f; rw [beaulieuSpectrum, if_pos rfl]; exact (npRect_sq f).symm
    rw [this]
    exact sinc_band
  · have hg := (bHalf_pieces h0 h1 (fun x => x) (fun _ => 1) continuous_id continuous_const).1
    have hg2 := (bHalf_pieces h0 h1 (fun x => x ^ 2) (fun _ => 1) (by fun_prop) continuous_const).1
    simp only [mul_one] at hg hg2
    refine band_consistent _ (bHalf α) ((1 + α) / 2) (by linarith) ?_ ?_ ?_ hg hg2 (b_wave_integral h0 h1)
      (b_auto_integral h0 h1) (fun _ => rfl) ?_ rfl
    · intro f hf0 hf1
      simp only [beaulieuOf]
      rw [bSpectrum_half h0 (by rwa [abs_of_pos hf0]), bSpectrum_half h0 (by rwa [abs_neg, abs_of_pos hf0]), abs_neg,
        abs_of_pos hf0]
      exact ⟨rfl, rfl⟩
    · intro f hf
      exact bSpectrum_out h0 hf.le
    · intro f
      obtain ⟨y, hy, hy0, hy1⟩ := b_real h0.le f
      simp only [beaulieuOf]
      rw [hy, Complex.norm_real, Real.norm_eq_abs, abs_of_nonneg hy0]
      exact hy1
    · simp only [beaulieuOf]
      have hl := Real.log_pos (by norm_num : (1 : ℝ) < 2)
      rw [beaulieuAutocorrelation, if_neg h0.ne', npSinc_zero]
      simp only [mul_zero, Real.cos_zero, Real.sin_zero, beaulieuBeta]
      field_simp
      ring

theorem C97_beaulieu (α : ℝ) (P : Pulse) (hP : beaulieuPulse α = some P) : P.Consistent := (b_band α P hP).1

/-- The waveform is the inverse Fourier integral of the spectrum, at every time. -/
theorem C97_inversion (α : ℝ) (P : Pulse) (hP : beaulieuPulse α = some P) (t : ℝ) :
    (P.waveform t : ℂ) = ∫ f : ℝ, P.spectrum f * Complex.exp (2 * Real.pi * Complex.I * f * t) := (b_band α P hP).2 t

theorem C97_nyquist (α : ℝ) (P : Pulse) (hP : beaulieuPulse α = some P) : P.IsNyquist := by
  obtain ⟨⟨h0, -⟩, rfl⟩ := beaulieu_some hP
  intro n
  simp only [beaulieuOf, beaulieuWaveform]
  rw [npSinc_int]
  rcases eq_or_lt_of_le h0 with e | h0
  · rw [if_pos e.symm]
  · rw [if_neg h0.ne']
    split
    · rename_i h
      subst h
      have := (beta_pos h0).ne'
      simp
      field_simp
      ring
    · rw [zero_mul, zero_div]

/-- The spectrum is a real number in `[0, 1]`, is 1 for `|f| < (1 - α) / 2` and 0 for `|f| > (1 + α) / 2`; and Nyquist's
criterion: the folded spectrum is flat. -/
theorem C97_folded (α : ℝ) (P : Pulse) (hP : beaulieuPulse α = some P) (f : ℝ) :
    (∃ y : ℝ, P.spectrum f = y ∧ 0 ≤ y ∧ y ≤ 1) ∧ (|f| < (1 - α) / 2 → P.spectrum f = 1) ∧ ((1 + α) / 2 < |f| → P.spectrum f = 0) ∧
    HasSum (fun k : Int => P.spectrum (f + k)) 1 := by
  obtain ⟨⟨h0, h1⟩, rfl⟩ := beaulieu_some hP
  refine ⟨b_real h0 f, ?_⟩
  simp only [beaulieuOf]
  rcases eq_or_lt_of_le h0 with e | h0
  · subst e
    simp only [beaulieuSpectrum, if_true]
    refine ⟨?_, ?_, rect_fold f⟩
    · intro h
      have := abs_lt.mp h
      rw [npRect, if_pos ⟨by linarith [this.1], by linarith [this.2]⟩]
      simp
    · intro h
      rw [npRect, if_neg]
      · simp
      · rintro ⟨a, b⟩
        have : |f| ≤ 1 / 2 := abs_le.mpr ⟨a, b.le⟩
        linarith
  · refine ⟨?_, fun h => bSpectrum_out h0 h.le, ?_⟩
    · intro h
      rw [bSpectrum_half h0 (by linarith), bHalf, if_pos h.le]
      simp
    · refine hasSum_fold (beaulieuSpectrum α) (fun f hf => bSpectrum_out h0 (by linarith)) ?_ ?_ f
      · intro f
        simp only [beaulieuSpectrum, abs_neg, if_neg h0.ne']
      · intro f hf0 hf1
        have hb : beaulieuSpectrum α f = (bHalf α f : ℂ) := by
          rw [bSpectrum_half h0 (by rw [abs_of_nonneg hf0]; linarith), abs_of_nonneg hf0]
        rcases le_or_gt f ((1 - α) / 2) with h | h
        · rw [hb, bSpectrum_out h0 (f := 1 - f) (by rw [abs_of_nonneg (by linarith)]; linarith), bHalf, if_pos h]
          simp
        · rw [hb, bSpectrum_half h0 (f := 1 - f) (by rw [abs_of_nonneg (by linarith)]; linarith), abs_of_nonneg (by linarith)]
          rw [bHalf, bHalf, if_neg (by linarith), if_pos hf1, if_neg (by linarith)]
          rcases eq_or_lt_of_le hf1 with g | g
          · subst g
            rw [if_pos (by norm_num), show -beaulieuBeta α * (1 - 1 / 2) + beaulieuBeta α * ((1 - α) / 2) = -(beaulieuBeta α * (α / 2)) by ring,
              show -beaulieuBeta α * (1 / 2) + beaulieuBeta α * ((1 - α) / 2) = -(beaulieuBeta α * (α / 2)) by ring, exp_half h0]
            norm_num
          · rw [if_neg (by linarith), show beaulieuBeta α * (1 - f) + -(beaulieuBeta α * ((1 + α) / 2)) =
              -beaulieuBeta α * f + beaulieuBeta α * ((1 - α) / 2) by ring]
            push_cast
            ring

/-! ### Square root -/

theorem C97_root_accepts (α : ℝ) : (rootBeaulieuPulse α).isSome ↔ 0 ≤ α ∧ α ≤ 1 := by
  rw [rootBeaulieuPulse, Option.isSome_map, C97_accepts]

theorem rootBeaulieu_some {α : ℝ} {P : Pulse} (hP : rootBeaulieuPulse α = some P) : (0 ≤ α ∧ α ≤ 1) ∧
    P = rootPulse (beaulieuOf α) (rootBeaulieuWaveform α) := by
  rw [rootBeaulieuPulse, Option.map_eq_some_iff] at hP
  obtain ⟨B, hB, rfl⟩ := hP
  obtain ⟨h, rfl⟩ := beaulieu_some hB
  exact ⟨h, rfl⟩

theorem rb_wave_integral {α : ℝ} (h0 : 0 < α) (h1 : α ≤ 1) (t : ℝ) :
    rootBeaulieuWaveform α t = 2 * ∫ f in (0 : ℝ)..((1 + α) / 2), Real.sqrt (bHalf α f) * Real.cos (2 * Real.pi * f * t) := by
  have hl : Real.log 2 / α ≠ 0 := by
    have := Real.log_pos (by norm_num : (1 : ℝ) < 2)
    positivity
  have hβ : beaulieuBeta α = 2 * (Real.log 2 / α) := by rw [beaulieuBeta]; ring
  have hp := (bHalf_pieces h0 h1 Real.sqrt (fun f => Real.cos (2 * Real.pi * t * f)) Real.continuous_sqrt (by fun_prop)).2
  have e2 : ∀ f : ℝ, Real.sqrt (Real.exp (-beaulieuBeta α * f + beaulieuBeta α * ((1 - α) / 2))) =
      Real.exp (-(Real.log 2 / α) * f + Real.log 2 / α * ((1 - α) / 2)) := by
    intro f
    rw [Real.sqrt_eq_iff_mul_self_eq (Real.exp_pos _).le (Real.exp_pos _).le, ← Real.exp_add, hβ]
    congr 1; ring
  simp only [Real.sqrt_one, one_mul, e2] at hp
  have hex : Real.exp (-(Real.log 2 / α * (α / 2))) = Real.sqrt 2 / 2 := by
    rw [show Real.log 2 / α * (α / 2) = Real.log 2 / 2 by field_simp, Real.exp_neg, ← Real.log_sqrt (by norm_num),
      Real.exp_log (by positivity)]
    have s2 : Real.sqrt 2 * Real.sqrt 2 = 2 := Real.mul_self_sqrt (by norm_num)
    rw [inv_eq_one_div, div_eq_iff (by positivity)]
    linear_combination (-1 / 2) * s2
  rw [b_low, integral_exp_cos _ _ _ _ _ (neg_ne_zero.mpr hl),
    show -(Real.log 2 / α) * (1 / 2) + Real.log 2 / α * ((1 - α) / 2) = -(Real.log 2 / α * (α / 2)) by ring,
    show -(Real.log 2 / α) * ((1 - α) / 2) + Real.log 2 / α * ((1 - α) / 2) = 0 by ring, hex, Real.exp_zero, neg_sq,
    show 2 * Real.pi * t * (1 / 2) = Real.pi * t by ring] at hp
  -- the substitution `f = f₂ - v²`
  have hsub := intervalIntegral.integral_comp_mul_deriv (a := 0) (b := Real.sqrt (α / 2)) (f := fun v => (1 + α) / 2 - v ^ 2)
    (f' := fun v => -(2 * v))
    (g := fun f => Real.sqrt (1 - Real.exp (beaulieuBeta α * f + -(beaulieuBeta α * ((1 + α) / 2)))) * Real.cos (2 * Real.pi * t * f))
    (fun v _ => by simpa using (hasDerivAt_pow 2 v).const_sub ((1 + α) / 2)) (by fun_prop) (by fun_prop)
  simp only [Real.sq_sqrt (by positivity : 0 ≤ α / 2)] at hsub
  rw [show (1 + α) / 2 - α / 2 = 1 / 2 by ring, show (1 + α) / 2 - (0 : ℝ) ^ 2 = (1 + α) / 2 by ring,
    intervalIntegral.integral_symm (1 / 2) ((1 + α) / 2)] at hsub
  have hthird : (∫ f in (1 / 2)..((1 + α) / 2), Real.sqrt (1 - Real.exp (beaulieuBeta α * f + -(beaulieuBeta α * ((1 + α) / 2)))) *
      Real.cos (2 * Real.pi * t * f)) = 1 / 2 * ∫ v in (0 : ℝ)..Real.sqrt (α / 2), 4 * v * Real.sqrt (1 - Real.exp (-2 * (Real.log 2 / α) * v ^ 2)) *
      Real.cos (2 * Real.pi * t * ((1 + α) / 2 - v ^ 2)) := by
    rw [← neg_eq_iff_eq_neg] at hsub
    rw [← hsub, ← intervalIntegral.integral_neg, ← intervalIntegral.integral_const_mul]
    congr 1
    funext v
    simp only [Function.comp]
    rw [hβ, show 2 * (Real.log 2 / α) * ((1 + α) / 2 - v ^ 2) + -(2 * (Real.log 2 / α) * ((1 + α) / 2)) = -2 * (Real.log 2 / α) * v ^ 2 by ring]
    ring
  rw [hthird] at hp
  have e : ∀ f : ℝ, 2 * Real.pi * f * t = 2 * Real.pi * t * f := fun f => by ring
  simp only [e]
  rw [hp, rootBeaulieuWaveform, if_neg h0.ne']
  rw [show 2 * Real.pi * ((1 - α) / 2) * t = 2 * Real.pi * t * ((1 - α) / 2) by ring]
  have i2 : Real.log 2 / α / Real.sqrt 2 = Real.log 2 / α * (Real.sqrt 2 / 2) := by
    have s2 : Real.sqrt 2 * Real.sqrt 2 = 2 := Real.mul_self_sqrt (by norm_num)
    rw [div_eq_iff (by positivity)]
    linear_combination (-(Real.log 2 / α) / 2) * s2
  rw [i2]
  ring

theorem rootBeaulieu_band (α : ℝ) (P : Pulse) (hP : rootBeaulieuPulse α = some P) : P.Consistent ∧
    ∀ t : ℝ, (P.waveform t : ℂ) = ∫ f : ℝ, P.spectrum f * Complex.exp (2 * Real.pi * Complex.I * f * t) := by
  obtain ⟨⟨h0, h1⟩, rfl⟩ := rootBeaulieu_some hP
  rcases eq_or_lt_of_le h0 with e | h0
  · subst e
    have hs : ∀ f : ℝ, beaulieuSpectrum 0 f ^ (1 / 2 : ℂ) = ((npRect f : ℝ) : ℂ) := by
      intro f
      rw [beaulieuSpectrum, if_pos rfl]
      refine cpow_half ?_ ?_ <;> rw [npRect] <;> split <;> norm_num
    have : rootPulse (beaulieuOf 0) (rootBeaulieuWaveform 0) = sincPulse := by
      rw [rootPulse, beaulieuOf, sincPulse]
      simp only [hs]
      congr 1
      · funext t; rw [rootBeaulieuWaveform, if_pos rfl]
      · rw [beaulieuWaveform, if_pos rfl, npSinc_zero]
      · funext t; rw [beaulieuWaveform, if_pos rfl]
      · funext f; exact (npRect_sq f).symm
    rw [this]
    exact sinc_band
  · have hspec : ∀ f : ℝ, |f| < (1 + α) / 2 → beaulieuSpectrum α f ^ (1 / 2 : ℂ) = (Real.sqrt (bHalf α |f|) : ℂ) := by
      intro f hf
      rw [bSpectrum_half h0 hf, sqrt_real (bHalf_mem h0 hf).1]
    have hsq : Set.EqOn (bHalf α) (fun f => Real.sqrt (bHalf α f) ^ 2) (Set.Ioo 0 ((1 + α) / 2)) :=
      fun f hf => (Real.sq_sqrt (bHalf_mem h0 hf.2).1).symm
    have hI : 0 ≤ (1 + α) / 2 := by linarith
    have hae : ∀ᵐ f ∂(volume.restrict (Set.Ioc 0 ((1 + α) / 2))), bHalf α f = Real.sqrt (bHalf α f) ^ 2 := by
      rw [← restrict_Ioo_eq_restrict_Ioc]
      exact (ae_restrict_mem measurableSet_Ioo).mono fun f hf => hsq hf
    have hg := (bHalf_pieces h0 h1 (fun x => x) (fun _ => 1) continuous_id continuous_const).1
    have hr := (bHalf_pieces h0 h1 Real.sqrt (fun _ => 1) Real.continuous_sqrt continuous_const).1
    simp only [mul_one] at hg hr
    refine band_consistent _ (fun f => Real.sqrt (bHalf α f)) ((1 + α) / 2) hI ?_ ?_ ?_ hr ?_ (rb_wave_integral h0 h1) ?_ (fun _ => rfl)
      rfl rfl
    · intro f hf0 hf1
      simp only [rootPulse, beaulieuOf]
      rw [hspec f (by rwa [abs_of_pos hf0]), hspec (-f) (by rwa [abs_neg, abs_of_pos hf0]), abs_neg, abs_of_pos hf0]
      exact ⟨rfl, rfl⟩
    · intro f hf
      simp only [rootPulse, beaulieuOf]
      rw [bSpectrum_out h0 hf.le]
      exact Complex.zero_cpow (by norm_num)
    · intro f
      simp only [rootPulse, beaulieuOf]
      obtain ⟨y, hy, hy0, hy1⟩ := b_real h0.le f
      rw [hy, sqrt_real hy0, Complex.norm_real, Real.norm_eq_abs, abs_of_nonneg (Real.sqrt_nonneg _)]
      exact Real.sqrt_le_one.mpr hy1
    · exact hg.congr_ae (by rw [Set.uIoc_of_le hI]; exact hae)
    · intro t
      simp only [rootPulse, beaulieuOf]
      rw [b_wave_integral h0 h1]
      congr 1
      refine intervalIntegral.integral_congr_ae_restrict ?_
      rw [Set.uIoc_of_le hI]
      exact hae.mono fun f hf => by simp only [← hf]

theorem C97_root (α : ℝ) (P : Pulse) (hP : rootBeaulieuPulse α = some P) : P.Consistent := (rootBeaulieu_band α P hP).1

/-- The waveform is the inverse Fourier integral of the spectrum, at every time. -/
theorem C97_root_inversion (α : ℝ) (P : Pulse) (hP : rootBeaulieuPulse α = some P) (t : ℝ) :
    (P.waveform t : ℂ) = ∫ f : ℝ, P.spectrum f * Complex.exp (2 * Real.pi * Complex.I * f * t) := (rootBeaulieu_band α P hP).2 t

/-- The spectrum of the root pulse is a nonnegative real number whose square is the spectrum of the Beaulieu pulse with the
same roll-off, its autocorrelation is the waveform of that pulse, and its energy is 1. -/
theorem C97_root_square (α : ℝ) (P Q : Pulse) (hP : beaulieuPulse α = some P) (hQ : rootBeaulieuPulse α = some Q) :
    (∀ f, Q.spectrum f ^ 2 = P.spectrum f ∧ ∃ y : ℝ, Q.spectrum f = y ∧ 0 ≤ y) ∧ (∀ τ, Q.autocorrelation τ = P.waveform τ) ∧
    Q.energy = 1 := by
  obtain ⟨⟨h0, h1⟩, rfl⟩ := rootBeaulieu_some hQ
  obtain ⟨-, rfl⟩ := beaulieu_some hP
  refine ⟨fun f => ?_, fun τ => rfl, ?_⟩
  · simp only [rootPulse, beaulieuOf]
    obtain ⟨y, hy, hy0, -⟩ := b_real h0 f
    rw [hy, sqrt_real hy0]
    refine ⟨?_, _, rfl, Real.sqrt_nonneg _⟩
    rw [← Complex.ofReal_pow, Real.sq_sqrt hy0]
  · have := C97_nyquist α _ hP 0
    show (beaulieuOf α).waveform 0 = 1
    simpa using this

/-- The translates of the root pulse by integers are orthonormal. -/
theorem C97_root_orthonormal (α : ℝ) (Q : Pulse) (hQ : rootBeaulieuPulse α = some Q) (n : Int) :
    ∫ t, Q.waveform t * Q.waveform (t + n) = if n = 0 then 1 else 0 := by
  obtain ⟨P, hP, -⟩ := Option.map_eq_some_iff.mp hQ
  rw [← (C97_root α Q hQ).autocorrelation, (C97_root_square α P Q hP hQ).2.1]
  exact C97_nyquist α P hP n

/-- The hypotheses are met. -/
example : ∃ P Q, beaulieuPulse (1 / 4) = some P ∧ rootBeaulieuPulse (1 / 4) = some Q := by
  have h1 := (C97_accepts (1 / 4)).mpr (by norm_num)
  have h2 := (C97_root_accepts (1 / 4)).mpr (by norm_num)
  exact ⟨_, _, Option.some_get h1 |>.symm, Option.some_get h2 |>.symm⟩

end Komm
