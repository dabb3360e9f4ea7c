import Verif.Lemmas.BandPulses
/-! C96: the sinc, raised-cosine and root-raised-cosine pulses. -/
namespace Komm
open MeasureTheory

/-! ### Sinc pulse -/

theorem npRect_sq (f : ℝ) : npRect f = ‖((npRect f : ℝ) : ℂ)‖ ^ 2 := by
  rw [Complex.norm_real, Real.norm_eq_abs, sq_abs, npRect]; split <;> norm_num

theorem sinc_band : sincPulse.Consistent ∧
    ∀ t : ℝ, (sincPulse.waveform t : ℂ) = ∫ f : ℝ, sincPulse.spectrum f * Complex.exp (2 * Real.pi * Complex.I * f * t) := by
  refine band_consistent sincPulse (fun _ => 1) (1 / 2) (by norm_num) ?_ ?_ ?_ (by simp) (by simp) ?_ ?_ npRect_sq ?_ rfl
  · intro f h0 h1
    simp only [sincPulse, npRect]
    rw [if_pos ⟨by linarith, h1⟩, if_pos ⟨by linarith, by linarith⟩]
    exact ⟨rfl, rfl⟩
  · intro f h
    simp only [sincPulse, npRect]
    rw [if_neg]
    · rfl
    · rintro ⟨h1, h2⟩
      exact absurd (abs_le.mpr ⟨by linarith, h2.le⟩) (not_le.mpr h)
  · intro f
    simp only [sincPulse, npRect]
    split <;> simp
  · intro t
    simp only [one_mul]
    rw [integral_low, sincPulse]
    simp only
    rw [show 2 * (1 / 2) * t = t by ring]
    ring
  · intro t
    simp only [one_mul, one_pow]
    rw [integral_low, sincPulse]
    simp only
    rw [show 2 * (1 / 2) * t = t by ring]
    ring
  · simp [sincPulse, npSinc_zero]

theorem C96_sinc : sincPulse.Consistent := sinc_band.1

/-- The waveform is the inverse Fourier integral of the spectrum, at every time. -/
theorem C96_sinc_inversion (t : ℝ) :
    (sincPulse.waveform t : ℂ) = ∫ f : ℝ, sincPulse.spectrum f * Complex.exp (2 * Real.pi * Complex.I * f * t) := sinc_band.2 t

theorem C96_sinc_nyquist : sincPulse.IsNyquist := fun n => npSinc_int n

theorem rect_fold (f : ℝ) : HasSum (fun k : Int => ((npRect (f + k) : ℝ) : ℂ)) 1 := by
  have h1 := Int.floor_le (f + 1 / 2)
  have h2 := Int.lt_floor_add_one (f + 1 / 2)
  set k0 : Int := ⌊f + 1 / 2⌋ with hk0
  have e : (1 : ℂ) = ((npRect (f + ((-k0 : Int) : ℝ)) : ℝ) : ℂ) := by
    rw [npRect, if_pos]
    · simp
    · push_cast; exact ⟨by linarith, by linarith⟩
  rw [e]
  refine hasSum_single (-k0) fun k hk => ?_
  rw [npRect, if_neg]
  · rfl
  · rintro ⟨h3, h4⟩
    apply hk
    have a : (k + k0 : ℝ) < 1 := by linarith
    have b : (-1 : ℝ) < (k + k0 : ℝ) := by linarith
    have a' : k + k0 < 1 := by exact_mod_cast a
    have b' : -1 < k + k0 := by exact_mod_cast b
    omega

/-- Nyquist's criterion: the folded spectrum is flat. -/
theorem C96_sinc_folded (f : ℝ) : HasSum (fun k : Int => sincPulse.spectrum (f + k)) 1 := rect_fold f

/-- The sinc pulse is its own square root: the square of the spectrum of `root()` is the spectrum of the pulse, and the
autocorrelation of `root()` is the waveform of the pulse. -/
theorem C96_sinc_root : (∀ f, rootSincPulse.spectrum f ^ 2 = sincPulse.spectrum f) ∧
    ∀ τ, rootSincPulse.autocorrelation τ = sincPulse.waveform τ := by
  refine ⟨fun f => ?_, fun _ => rfl⟩
  simp only [rootSincPulse, sincPulse, npRect]
  split <;> simp

/-! ### Raised-cosine pulse -/

theorem raisedCosine_zero_rolloff (t : ℝ) : raisedCosine t 0 = npSinc t := by
  rw [raisedCosine, zero_mul, zero_add, zero_sub, npSinc_neg, npSinc_half]
  have := Real.pi_ne_zero
  field_simp
  ring

/-- The half spectrum of the raised-cosine pulse. -/
noncomputable def rcHalf (α f : ℝ) : ℝ :=
  if f ≤ (1 - α) / 2 then 1 else 1 / 2 * (1 + Real.cos (Real.pi * (f - (1 - α) / 2) / α))

theorem rcSpectrum_half {α : ℝ} (h0 : 0 < α) (h1 : α ≤ 1) {f : ℝ} (hf : |f| < (1 + α) / 2) : rcSpectrum α f = (rcHalf α |f| : ℂ) := by
  rw [rcSpectrum, if_neg h0.ne', rcHalf]
  rcases lt_trichotomy |f| ((1 - α) / 2) with h | h | h
  · rw [if_pos h, if_pos h.le]; simp
  · rw [if_neg (by linarith), if_pos ⟨by linarith, hf⟩, if_pos h.le, h]; simp; norm_num
  · rw [if_neg (by linarith), if_pos ⟨h.le, hf⟩, if_neg (by linarith)]

theorem rcSpectrum_out {α : ℝ} (h0 : 0 < α) {f : ℝ} (hf : (1 + α) / 2 ≤ |f|) : rcSpectrum α f = 0 := by
  rw [rcSpectrum, if_neg h0.ne', if_neg (by linarith), if_neg]
  rintro ⟨-, h⟩
  linarith

theorem rcHalf_mem (α f : ℝ) : 0 ≤ rcHalf α f ∧ rcHalf α f ≤ 1 := by
  rw [rcHalf]
  split
  · norm_num
  · have h1 := Real.cos_le_one (Real.pi * (f - (1 - α) / 2) / α)
    have h2 := Real.neg_one_le_cos (Real.pi * (f - (1 - α) / 2) / α)
    constructor <;> linarith

/-- Integrals against the half spectrum. -/
theorem rcHalf_pieces {α : ℝ} (h0 : 0 < α) (h1 : α ≤ 1) (φ : ℝ → ℝ) (k : ℝ → ℝ) (hφ : Continuous φ) (hk : Continuous k) :
    IntervalIntegrable (fun f => φ (rcHalf α f) * k f) volume 0 ((1 + α) / 2) ∧
    ∫ f in (0 : ℝ)..((1 + α) / 2), φ (rcHalf α f) * k f = (∫ f in (0 : ℝ)..((1 - α) / 2), φ 1 * k f) +
      ∫ f in ((1 - α) / 2)..((1 + α) / 2), φ (1 / 2 * (1 + Real.cos (Real.pi * (f - (1 - α) / 2) / α))) * k f := by
  refine integral_pieces _ _ _ (by linarith) (by linarith) ?_ ?_ ?_ ?_
  · intro f hf
    rw [rcHalf, if_pos hf.2]
  · intro f hf
    rw [rcHalf, if_neg (by linarith [hf.1])]
  · exact (by fun_prop : Continuous fun f => φ 1 * k f).intervalIntegrable _ _
  · exact (by fun_prop : Continuous fun f => φ (1 / 2 * (1 + Real.cos (Real.pi * (f - (1 - α) / 2) / α))) * k f).intervalIntegrable _ _

theorem rc_low (α t : ℝ) : ∫ f in (0 : ℝ)..((1 - α) / 2), Real.cos (2 * Real.pi * f * t) = (1 - α) / 2 * npSinc ((1 - α) * t) := by
  rw [integral_low]; congr 2; ring

theorem rc_integral {α : ℝ} (h0 : 0 < α) (h1 : α ≤ 1) (t : ℝ) :
    raisedCosine t α = 2 * ∫ f in (0 : ℝ)..((1 + α) / 2), rcHalf α f * Real.cos (2 * Real.pi * f * t) := by
  have hp := (rcHalf_pieces h0 h1 (fun x => x) (fun f => Real.cos (2 * Real.pi * f * t)) continuous_id (by fun_prop)).2
  simp only [one_mul] at hp
  have hc : ∀ κ : ℝ, Continuous fun f : ℝ => Real.cos (κ * (Real.pi * (f - (1 - α) / 2) / α)) * Real.cos (2 * Real.pi * f * t) :=
    fun κ => by fun_prop
  have e : ∀ f : ℝ, 1 / 2 * (1 + Real.cos (Real.pi * (f - (1 - α) / 2) / α)) * Real.cos (2 * Real.pi * f * t) =
      1 / 2 * (Real.cos (0 * (Real.pi * (f - (1 - α) / 2) / α)) * Real.cos (2 * Real.pi * f * t)) +
      1 / 2 * (Real.cos (1 * (Real.pi * (f - (1 - α) / 2) / α)) * Real.cos (2 * Real.pi * f * t)) := by
    intro f; simp only [zero_mul, Real.cos_zero, one_mul]; ring
  simp only [e] at hp
  rw [hp, rc_low, intervalIntegral.integral_add (((hc 0).const_mul _).intervalIntegrable _ _) (((hc 1).const_mul _).intervalIntegrable _ _),
    intervalIntegral.integral_const_mul, intervalIntegral.integral_const_mul, integral_transition _ _ _ h0.ne',
    integral_transition _ _ _ h0.ne']
  have hpi := Real.pi_ne_zero
  have z1 : Real.pi * t + 0 * Real.pi / 2 = Real.pi * t := by ring
  have z2 : Real.pi * t - 0 * Real.pi / 2 = Real.pi * t := by ring
  have z3 : α * t + 0 / 2 = α * t := by ring
  have z4 : α * t - 0 / 2 = α * t := by ring
  have z5 : 1 * Real.pi / 2 = Real.pi / 2 := by ring
  rw [z1, z2, z3, z4, z5, Real.cos_add_pi_div_two, Real.cos_sub_pi_div_two, raisedCosine]
  rcases eq_or_ne t 0 with rfl | ht
  · simp only [mul_zero, zero_add, zero_sub, npSinc_zero, npSinc_neg, npSinc_half, Real.cos_zero, Real.sin_zero]
    field_simp
    ring
  · have r1 := pi_mul_npSinc ((1 - α) * t)
    have r2 := pi_mul_npSinc (α * t)
    have r3 := pi_mul_npSinc t
    have r4 := pi_mul_npSinc (α * t + 1 / 2)
    have r5 := pi_mul_npSinc (α * t - 1 / 2)
    rw [show Real.pi * ((1 - α) * t) = Real.pi * t - Real.pi * (α * t) by ring, Real.sin_sub] at r1
    rw [show Real.pi * (α * t + 1 / 2) = Real.pi * (α * t) + Real.pi / 2 by ring, Real.sin_add_pi_div_two] at r4
    rw [show Real.pi * (α * t - 1 / 2) = Real.pi * (α * t) - Real.pi / 2 by ring, Real.sin_sub_pi_div_two] at r5
    refine mul_left_cancel₀ (mul_ne_zero hpi ht) ?_
    linear_combination (-1) * r1 - Real.cos (Real.pi * t) * r2 - 1 / 2 * Real.sin (Real.pi * t) * (r5 - r4) +
      Real.pi / 4 * (npSinc (α * t + 1 / 2) + npSinc (α * t - 1 / 2)) * r3

theorem sinc_triple (a : ℝ) (h : |a| ≠ 1) :
    npSinc a / (1 - a ^ 2) = npSinc a + 1 / 2 * (npSinc (a + 1) + npSinc (a - 1)) := by
  have h1 : a ≠ 1 := fun e => h (by rw [e]; simp)
  have h2 : a ≠ -1 := fun e => h (by rw [e]; simp)
  have h3 : 1 - a ^ 2 ≠ 0 := by
    intro e
    have : (1 - a) * (1 + a) = 0 := by linear_combination e
    rcases mul_eq_zero.mp this with h | h
    · exact h1 (by linarith)
    · exact h2 (by linarith)
  have hpi := Real.pi_ne_zero
  have s1 : Real.sin (Real.pi * (a + 1)) = -Real.sin (Real.pi * a) := by
    rw [show Real.pi * (a + 1) = Real.pi * a + Real.pi by ring, Real.sin_add_pi]
  have s2 : Real.sin (Real.pi * (a - 1)) = -Real.sin (Real.pi * a) := by
    rw [show Real.pi * (a - 1) = Real.pi * a - Real.pi by ring, Real.sin_sub_pi]
  have h5 : a + 1 ≠ 0 := fun e => h2 (by linarith)
  have h6 : a - 1 ≠ 0 := fun e => h1 (by linarith)
  rcases eq_or_ne a 0 with rfl | h4
  · rw [npSinc_of_ne h5, npSinc_of_ne h6, s1, s2, npSinc_zero]
    simp
  · rw [npSinc_of_ne h5, npSinc_of_ne h6, npSinc_of_ne h4, s1, s2, div_eq_iff h3]
    field_simp
    ring

theorem rc_auto_integral {α : ℝ} (h0 : 0 < α) (h1 : α ≤ 1) (t : ℝ) :
    rcAutocorrelation α t = 2 * ∫ f in (0 : ℝ)..((1 + α) / 2), rcHalf α f ^ 2 * Real.cos (2 * Real.pi * f * t) := by
  have hp := (rcHalf_pieces h0 h1 (fun x => x ^ 2) (fun f => Real.cos (2 * Real.pi * f * t)) (by fun_prop) (by fun_prop)).2
  have hq := (rcHalf_pieces h0 h1 (fun x => x) (fun f => Real.cos (2 * Real.pi * f * t)) continuous_id (by fun_prop)).2
  simp only [one_mul, one_pow] at hp hq
  have hc : ∀ κ : ℝ, Continuous fun f : ℝ => Real.cos (κ * (Real.pi * (f - (1 - α) / 2) / α)) * Real.cos (2 * Real.pi * f * t) :=
    fun κ => by fun_prop
  have hd : ∀ κ : ℝ, IntervalIntegrable (fun f : ℝ => 1 / 8 * (Real.cos (κ * (Real.pi * (f - (1 - α) / 2) / α)) *
      Real.cos (2 * Real.pi * f * t))) volume ((1 - α) / 2) ((1 + α) / 2) := fun κ => ((hc κ).const_mul _).intervalIntegrable _ _
  have hc1 : Continuous fun f : ℝ => 1 / 2 * (1 + Real.cos (Real.pi * (f - (1 - α) / 2) / α)) * Real.cos (2 * Real.pi * f * t) := by fun_prop
  have e : ∀ f : ℝ, (1 / 2 * (1 + Real.cos (Real.pi * (f - (1 - α) / 2) / α))) ^ 2 * Real.cos (2 * Real.pi * f * t) =
      1 / 2 * (1 + Real.cos (Real.pi * (f - (1 - α) / 2) / α)) * Real.cos (2 * Real.pi * f * t) -
      (1 / 8 * (Real.cos (0 * (Real.pi * (f - (1 - α) / 2) / α)) * Real.cos (2 * Real.pi * f * t)) -
      1 / 8 * (Real.cos (2 * (Real.pi * (f - (1 - α) / 2) / α)) * Real.cos (2 * Real.pi * f * t))) := by
    intro f; rw [zero_mul, Real.cos_zero, Real.cos_two_mul]; ring
  simp only [e] at hp
  rw [intervalIntegral.integral_sub (hc1.intervalIntegrable _ _) (by exact (hd 0).sub (hd 2)),
    intervalIntegral.integral_sub (hd 0) (hd 2),
    intervalIntegral.integral_const_mul, intervalIntegral.integral_const_mul, integral_transition _ _ _ h0.ne',
    integral_transition _ _ _ h0.ne'] at hp
  have hr := rc_integral h0 h1 t
  rw [hq] at hr
  rw [hp, rcAutocorrelation, if_neg h0.ne', hr]
  have z1 : Real.pi * t + 0 * Real.pi / 2 = Real.pi * t := by ring
  have z2 : Real.pi * t - 0 * Real.pi / 2 = Real.pi * t := by ring
  have z3 : α * t + 0 / 2 = α * t := by ring
  have z4 : α * t - 0 / 2 = α * t := by ring
  have z5 : 2 * Real.pi / 2 = Real.pi := by ring
  have z6 : (2 : ℝ) / 2 = 1 := by norm_num
  rw [z1, z2, z3, z4, z5, z6, Real.cos_add_pi, Real.cos_sub_pi]
  have key : (if |t| = 1 / α then Real.cos (Real.pi / α) / 2 else npSinc (α * t) * Real.cos (Real.pi * t) / (1 - (α * t) ^ 2)) =
      Real.cos (Real.pi * t) * (npSinc (α * t) + 1 / 2 * (npSinc (α * t + 1) + npSinc (α * t - 1))) := by
    split
    · rename_i h
      have hs1 : npSinc 1 = 0 := by simpa using npSinc_int 1
      have hs2 : npSinc 2 = 0 := by simpa using npSinc_int 2
      rcases abs_eq (by positivity : (0 : ℝ) ≤ 1 / α) |>.mp h with e | e
      · have ha : α * t = 1 := by rw [e]; field_simp
        rw [ha, e, hs1, show (1 : ℝ) + 1 = 2 by norm_num, hs2, sub_self, npSinc_zero, show Real.pi * (1 / α) = Real.pi / α by ring]
        ring
      · have ha : α * t = -1 := by rw [e]; field_simp
        rw [ha, e, npSinc_neg, hs1, show (-1 : ℝ) - 1 = -2 by norm_num, npSinc_neg, hs2, neg_add_cancel, npSinc_zero,
          show Real.pi * -(1 / α) = -(Real.pi / α) by ring, Real.cos_neg]
        ring
    · rename_i h
      rw [← sinc_triple]
      · ring
      · intro e
        apply h
        rw [abs_mul, abs_of_pos h0] at e
        field_simp
        linarith
  rw [key]
  ring

/-- Which roll-off factors are accepted. -/
theorem C96_raised_cosine_accepts (α : ℝ) : (raisedCosinePulse α).isSome ↔ 0 ≤ α ∧ α ≤ 1 := by
  rw [raisedCosinePulse]
  split <;> simp_all

/-- The object that an accepted roll-off factor yields. -/
noncomputable def rcPulseOf (α : ℝ) : Pulse where
  waveform t := raisedCosine t α
  spectrum := rcSpectrum α
  energy := 1 - α / 4
  autocorrelation := rcAutocorrelation α
  energySpectralDensity f := ‖rcSpectrum α f‖ ^ 2
  support := (⊥, ⊤)

theorem raisedCosine_some {α : ℝ} {P : Pulse} (hP : raisedCosinePulse α = some P) : (0 ≤ α ∧ α ≤ 1) ∧
    P = rcPulseOf α := by
  rw [raisedCosinePulse] at hP
  split at hP
  · simp at hP
  · rename_i h
    rw [not_not] at h
    exact ⟨h, (Option.some.inj hP).symm⟩

theorem rc_norm_le {α : ℝ} (h0 : 0 < α) (h1 : α ≤ 1) (f : ℝ) : ‖rcSpectrum α f‖ ≤ 1 := by
  rcases lt_or_ge |f| ((1 + α) / 2) with h | h
  · rw [rcSpectrum_half h0 h1 h, Complex.norm_real, Real.norm_eq_abs, abs_of_nonneg (rcHalf_mem _ _).1]
    exact (rcHalf_mem _ _).2
  · rw [rcSpectrum_out h0 h]; simp

theorem rc_band (α : ℝ) (P : Pulse) (hP : raisedCosinePulse α = some P) : P.Consistent ∧
    ∀ t : ℝ, (P.waveform t : ℂ) = ∫ f : ℝ, P.spectrum f * Complex.exp (2 * Real.pi * Complex.I * f * t) := by
  obtain ⟨⟨h0, h1⟩, rfl⟩ := raisedCosine_some hP
  rcases eq_or_lt_of_le h0 with e | h0
  · subst e
    have : rcPulseOf 0 = sincPulse := by
      rw [rcPulseOf, sincPulse]
      congr 1
      · funext t; exact raisedCosine_zero_rolloff t
      · funext f; rw [rcSpectrum, if_pos rfl]
      · norm_num
      · funext f; rw [rcAutocorrelation, if_pos rfl]
      · funext f; rw [rcSpectrum, if_pos rfl]; exact (npRect_sq f).symm
    rw [this]
    exact sinc_band
  · have hg := (rcHalf_pieces h0 h1 (fun x => x) (fun _ => 1) continuous_id continuous_const).1
    have hg2 := (rcHalf_pieces h0 h1 (fun x => x ^ 2) (fun _ => 1) (by fun_prop) continuous_const).1
    simp only [mul_one] at hg hg2
    refine band_consistent _ (rcHalf α) ((1 + α) / 2) (by linarith) ?_ ?_ (rc_norm_le h0 h1) hg hg2 (rc_integral h0 h1)
      (rc_auto_integral h0 h1) (fun _ => rfl) ?_ rfl
    · intro f hf0 hf1
      simp only [rcPulseOf]
      rw [rcSpectrum_half h0 h1 (by rwa [abs_of_pos hf0]), rcSpectrum_half h0 h1 (by rwa [abs_neg, abs_of_pos hf0]), abs_neg,
        abs_of_pos hf0]
      exact ⟨rfl, rfl⟩
    · intro f hf
      exact rcSpectrum_out h0 hf.le
    · simp only [rcPulseOf]
      have hpi := Real.pi_ne_zero
      rw [rcAutocorrelation, if_neg h0.ne', if_neg (by rw [abs_zero]; positivity), raisedCosine]
      simp only [mul_zero, zero_add, zero_sub, npSinc_neg, npSinc_half, npSinc_zero, Real.cos_zero]
      field_simp
      ring

theorem C96_raised_cosine (α : ℝ) (P : Pulse) (hP : raisedCosinePulse α = some P) : P.Consistent := (rc_band α P hP).1

/-- The waveform is the inverse Fourier integral of the spectrum, at every time. -/
theorem C96_raised_cosine_inversion (α : ℝ) (P : Pulse) (hP : raisedCosinePulse α = some P) (t : ℝ) :
    (P.waveform t : ℂ) = ∫ f : ℝ, P.spectrum f * Complex.exp (2 * Real.pi * Complex.I * f * t) := (rc_band α P hP).2 t

theorem C96_raised_cosine_nyquist (α : ℝ) (P : Pulse) (hP : raisedCosinePulse α = some P) : P.IsNyquist := by
  obtain ⟨-, rfl⟩ := raisedCosine_some hP
  intro n
  simp only [rcPulseOf, raisedCosine]
  rw [npSinc_int]
  split
  · rename_i h
    subst h
    rw [Int.cast_zero, mul_zero, zero_add, zero_sub, npSinc_neg, npSinc_half]
    have := Real.pi_ne_zero
    field_simp
    norm_num
  · ring

/-- The spectrum is a real number in `[0, 1]`, is 1 for `|f| ≤ (1 - α) / 2` and 0 for `|f| > (1 + α) / 2`; and Nyquist's
criterion: the folded spectrum is flat. -/
theorem C96_raised_cosine_folded (α : ℝ) (P : Pulse) (hP : raisedCosinePulse α = some P) (f : ℝ) :
    (∃ y : ℝ, P.spectrum f = y ∧ 0 ≤ y ∧ y ≤ 1) ∧ (|f| < (1 - α) / 2 → P.spectrum f = 1) ∧ ((1 + α) / 2 < |f| → P.spectrum f = 0) ∧
    HasSum (fun k : Int => P.spectrum (f + k)) 1 := by
  obtain ⟨⟨h0, h1⟩, rfl⟩ := raisedCosine_some hP
  simp only [rcPulseOf]
  rcases eq_or_lt_of_le h0 with e | h0
  · subst e
    simp only [rcSpectrum, if_true]
    refine ⟨⟨npRect f, rfl, ?_⟩, ?_, ?_, rect_fold f⟩
    · rw [npRect]; split <;> norm_num
    · intro h
      have := abs_lt.mp h
      rw [npRect, if_pos ⟨by linarith [this.1], by linarith [this.2]⟩]
      simp
    · intro h
      rw [npRect, if_neg]
      · simp
      · rintro ⟨a, b⟩
        have : |f| ≤ 1 / 2 := abs_le.mpr ⟨a, b.le⟩
        linarith
  · refine ⟨?_, ?_, fun h => rcSpectrum_out h0 h.le, ?_⟩
    · rcases lt_or_ge |f| ((1 + α) / 2) with h | h
      · exact ⟨_, rcSpectrum_half h0 h1 h, rcHalf_mem _ _⟩
      · exact ⟨0, by rw [rcSpectrum_out h0 h]; simp, by norm_num⟩
    · intro h
      rw [rcSpectrum, if_neg h0.ne', if_pos h]
    · refine hasSum_fold (rcSpectrum α) (fun f hf => rcSpectrum_out h0 (by linarith)) ?_ ?_ f
      · intro f
        simp only [rcSpectrum, abs_neg, if_neg h0.ne']
      · intro f hf0 hf1
        have hb : rcSpectrum α f = (rcHalf α f : ℂ) := by
          rw [rcSpectrum_half h0 h1 (by rw [abs_of_nonneg hf0]; linarith), abs_of_nonneg hf0]
        rcases lt_trichotomy f ((1 - α) / 2) with h | h | h
        · rw [hb, rcSpectrum_out h0 (f := 1 - f) (by rw [abs_of_nonneg (by linarith)]; linarith), rcHalf, if_pos h.le]
          simp
        · rw [hb, rcSpectrum_out h0 (f := 1 - f) (by rw [abs_of_nonneg (by linarith)]; linarith), rcHalf, if_pos h.le]
          simp
        · rw [hb, rcSpectrum_half h0 h1 (f := 1 - f) (by rw [abs_of_nonneg (by linarith)]; linarith), abs_of_nonneg (by linarith),
            rcHalf, rcHalf, if_neg (by linarith), if_neg (by linarith)]
          have : Real.pi * (1 - f - (1 - α) / 2) / α = Real.pi - Real.pi * (f - (1 - α) / 2) / α := by field_simp; ring
          rw [this, Real.cos_pi_sub]
          push_cast
          ring

/-! ### Root-raised-cosine pulse -/

/-- The half spectrum of the root-raised-cosine pulse. -/
noncomputable def rrcHalf (α f : ℝ) : ℝ :=
  if f ≤ (1 - α) / 2 then 1 else Real.cos (1 / 2 * (Real.pi * (f - (1 - α) / 2) / α))

theorem cpow_half {x y : ℝ} (hy : 0 ≤ y) (h : x = y ^ 2) : (x : ℂ) ^ (1 / 2 : ℂ) = (y : ℂ) := by
  rw [show (1 / 2 : ℂ) = ((1 / 2 : ℝ) : ℂ) by push_cast; ring, ← Complex.ofReal_cpow (by rw [h]; positivity), ← Real.sqrt_eq_rpow, h,
    Real.sqrt_sq hy]

theorem rrcHalf_sq {α : ℝ} (h0 : 0 < α) {f : ℝ} (hf : f < (1 + α) / 2) : 0 ≤ rrcHalf α f ∧ rcHalf α f = rrcHalf α f ^ 2 := by
  rw [rcHalf, rrcHalf]
  split
  · norm_num
  · rename_i h
    push Not at h
    have hpi := Real.pi_pos
    constructor
    · apply Real.cos_nonneg_of_mem_Icc
      have a : 0 ≤ Real.pi * (f - (1 - α) / 2) / α := by
        have : 0 ≤ f - (1 - α) / 2 := by linarith
        positivity
      have b : Real.pi * (f - (1 - α) / 2) / α ≤ Real.pi := by
        rw [div_le_iff₀ h0]
        exact mul_le_mul_of_nonneg_left (by linarith) hpi.le
      constructor <;> linarith
    · rw [Real.cos_sq]
      ring_nf

theorem rrc_integral {α : ℝ} (h0 : 0 < α) (h1 : α ≤ 1) (t : ℝ) :
    rrcWaveform α t = 2 * ∫ f in (0 : ℝ)..((1 + α) / 2), rrcHalf α f * Real.cos (2 * Real.pi * f * t) := by
  have hpi := Real.pi_ne_zero
  have hp : ∫ f in (0 : ℝ)..((1 + α) / 2), rrcHalf α f * Real.cos (2 * Real.pi * f * t) =
      (∫ f in (0 : ℝ)..((1 - α) / 2), Real.cos (2 * Real.pi * f * t)) +
      ∫ f in ((1 - α) / 2)..((1 + α) / 2), Real.cos (1 / 2 * (Real.pi * (f - (1 - α) / 2) / α)) * Real.cos (2 * Real.pi * f * t) := by
    refine (integral_pieces _ _ _ (by linarith) (by linarith) ?_ ?_ ?_ ?_).2
    · intro f hf
      rw [rrcHalf, if_pos hf.2, one_mul]
    · intro f hf
      rw [rrcHalf, if_neg (by linarith [hf.1])]
    · exact (by fun_prop : Continuous fun f : ℝ => Real.cos (2 * Real.pi * f * t)).intervalIntegrable _ _
    · exact (by fun_prop : Continuous fun f : ℝ => Real.cos (1 / 2 * (Real.pi * (f - (1 - α) / 2) / α)) *
        Real.cos (2 * Real.pi * f * t)).intervalIntegrable _ _
  rw [hp, rc_low, integral_transition _ _ _ h0.ne']
  have z1 : 1 / 2 * Real.pi / 2 = Real.pi / 4 := by ring
  have z2 : (1 : ℝ) / 2 / 2 = 1 / 4 := by norm_num
  rw [z1, z2, rrcWaveform, if_neg h0.ne']
  have s2 : Real.sqrt 2 * Real.sqrt 2 = 2 := Real.mul_self_sqrt (by norm_num)
  have s2' : Real.sqrt 2 ≠ 0 := by positivity
  have i2 : ∀ x : ℝ, x / Real.sqrt 2 = x * (Real.sqrt 2 / 2) := fun x => by
    rw [div_eq_iff s2']; linear_combination (-x / 2) * s2
  have sq4 : npSinc (1 / 4) = 2 * Real.sqrt 2 / Real.pi := by
    rw [npSinc_of_ne (by norm_num), show Real.pi * (1 / 4) = Real.pi / 4 by ring, Real.sin_pi_div_four]
    field_simp
    norm_num
  -- the value at positive time, from which negative time follows by symmetry
  have r1 := pi_mul_npSinc ((1 - α) * t)
  have r4 := pi_mul_npSinc (α * t + 1 / 4)
  have r5 := pi_mul_npSinc (α * t - 1 / 4)
  rw [show Real.pi * ((1 - α) * t) = Real.pi * t - Real.pi * (α * t) by ring, Real.sin_sub] at r1
  rw [show Real.pi * (α * t + 1 / 4) = Real.pi * (α * t) + Real.pi / 4 by ring, Real.sin_add, Real.sin_pi_div_four,
    Real.cos_pi_div_four] at r4
  rw [show Real.pi * (α * t - 1 / 4) = Real.pi * (α * t) - Real.pi / 4 by ring, Real.sin_sub, Real.sin_pi_div_four,
    Real.cos_pi_div_four] at r5
  rw [Real.cos_add, Real.cos_sub, Real.sin_pi_div_four, Real.cos_pi_div_four]
  split_ifs with hs ht
  · -- |t| = 1 / (4 α)
    have hA : ∀ τ : ℝ, τ = 1 / (4 * α) → (1 - α) * npSinc ((1 - α) * τ) =
        4 * α / Real.pi * (Real.sin (Real.pi * τ) - Real.cos (Real.pi * τ)) / Real.sqrt 2 := by
      intro τ hτ
      have r := pi_mul_npSinc ((1 - α) * τ)
      have e : Real.pi * ((1 - α) * τ) = Real.pi * τ - Real.pi / 4 := by rw [hτ]; field_simp
      rw [e, Real.sin_sub, Real.sin_pi_div_four, Real.cos_pi_div_four] at r
      have hτ0 : τ ≠ 0 := by rw [hτ]; positivity
      have hατ : 4 * α * τ = 1 := by rw [hτ]; field_simp
      rw [eq_div_iff s2', ← sub_eq_zero]
      have : (Real.pi * τ) * ((1 - α) * npSinc ((1 - α) * τ) * Real.sqrt 2 -
          4 * α / Real.pi * (Real.sin (Real.pi * τ) - Real.cos (Real.pi * τ))) = 0 := by
        have e2 : (Real.pi * τ) * (4 * α / Real.pi * (Real.sin (Real.pi * τ) - Real.cos (Real.pi * τ))) =
            (4 * α * τ) * (Real.sin (Real.pi * τ) - Real.cos (Real.pi * τ)) := by field_simp
        rw [mul_sub, e2, hατ]
        linear_combination Real.sqrt 2 * r + (Real.sin (Real.pi * τ) - Real.cos (Real.pi * τ)) / 2 * s2 -
          Real.pi * npSinc ((1 - α) * τ) * Real.sqrt 2 / 4 * hατ
      exact (mul_eq_zero.mp this).resolve_left (mul_ne_zero hpi hτ0)
    have hhalf : npSinc (1 / 4 + 1 / 4) = 2 / Real.pi := by rw [show (1 / 4 + 1 / 4 : ℝ) = 1 / 2 by norm_num, npSinc_half]
    rcases abs_eq (by positivity : (0 : ℝ) ≤ 1 / (4 * α)) |>.mp hs with e | e
    · have ha : α * t = 1 / 4 := by rw [e]; field_simp
      have hA' := hA t e
      rw [show Real.pi / (4 * α) = Real.pi * t by rw [e]; field_simp, ha, hhalf, sub_self, npSinc_zero]
      rw [i2] at hA' ⊢
      linear_combination (-1) * hA'
    · have ha : α * t = -(1 / 4) := by rw [e]; field_simp
      have e' : -t = 1 / (4 * α) := by linarith
      have hA' := hA (-t) e'
      rw [show Real.pi / (4 * α) = Real.pi * (-t) by rw [e']; field_simp, ha, show -(1 / 4) + 1 / 4 = (0 : ℝ) by norm_num,
        show -(1 / 4 : ℝ) - 1 / 4 = -(1 / 4 + 1 / 4) by norm_num, npSinc_neg, hhalf, npSinc_zero]
      have e5 : (1 - α) * npSinc ((1 - α) * t) = (1 - α) * npSinc ((1 - α) * -t) := by
        rw [mul_neg, npSinc_neg]
      rw [i2, mul_neg Real.pi, Real.sin_neg, Real.cos_neg] at hA'
      rw [i2, mul_neg Real.pi, Real.sin_neg, Real.cos_neg]
      linear_combination (-1) * hA' - e5
  · subst ht
    simp only [mul_zero, zero_add, zero_sub, npSinc_neg, npSinc_zero, sq4, Real.cos_zero, Real.sin_zero]
    field_simp
    rw [show Real.sqrt 2 ^ 2 = 2 by rw [sq, s2]]
    ring
  · have hd : 1 - (4 * α * t) ^ 2 ≠ 0 := by
      intro h
      have h2 : (1 - 4 * (α * t)) * (1 + 4 * (α * t)) = 0 := by linear_combination h
      rcases mul_eq_zero.mp h2 with h3 | h3
      · apply hs
        have : t = 1 / (4 * α) := by field_simp; linarith
        rw [this, abs_of_pos (by positivity)]
      · apply hs
        have : t = -(1 / (4 * α)) := by field_simp; linarith
        rw [this, abs_neg, abs_of_pos (by positivity)]
    rw [div_eq_iff (mul_ne_zero (mul_ne_zero hpi ht) hd)]
    rw [show 2 * Real.pi * ((1 - α) / 2) * t = Real.pi * t - Real.pi * (α * t) by ring,
      show 2 * Real.pi * ((1 + α) / 2) * t = Real.pi * t + Real.pi * (α * t) by ring, Real.sin_sub, Real.cos_add]
    set S := Real.sin (Real.pi * t)
    set C := Real.cos (Real.pi * t)
    set s := Real.sin (Real.pi * (α * t))
    set c := Real.cos (Real.pi * (α * t))
    -- multiply out: (1 - 16 a²) = -16 (a + 1/4) (a - 1/4)
    linear_combination (-(1 - (4 * α * t) ^ 2)) * r1 +
      (16 * α * t * (α * t - 1 / 4)) * (C * (Real.sqrt 2 / 2) - S * (Real.sqrt 2 / 2)) * r4 +
      (16 * α * t * (α * t + 1 / 4)) * (C * (Real.sqrt 2 / 2) + S * (Real.sqrt 2 / 2)) * r5 +
      (-(8 * S * c * (α * t) ^ 2 - 2 * S * s * (α * t) + 2 * c * C * (α * t) - 8 * C * s * (α * t) ^ 2)) * s2

theorem rrcHalf_pieces {α : ℝ} (h0 : 0 < α) (h1 : α ≤ 1) : IntervalIntegrable (rrcHalf α) volume 0 ((1 + α) / 2) := by
  refine (integral_pieces _ (fun _ => 1) (fun f => Real.cos (1 / 2 * (Real.pi * (f - (1 - α) / 2) / α))) (b := (1 - α) / 2)
    (by linarith) (by linarith) ?_ ?_ (by simp) ?_).1
  · intro f hf
    rw [rrcHalf, if_pos hf.2]
  · intro f hf
    rw [rrcHalf, if_neg (by linarith [hf.1])]
  · exact (by fun_prop : Continuous fun f : ℝ => Real.cos (1 / 2 * (Real.pi * (f - (1 - α) / 2) / α))).intervalIntegrable _ _

/-- Which roll-off factors are accepted. -/
theorem C96_root_accepts (α : ℝ) : (rootRaisedCosinePulse α).isSome ↔ 0 ≤ α ∧ α ≤ 1 := by
  rw [rootRaisedCosinePulse, Option.isSome_map, C96_raised_cosine_accepts]

theorem root_some {α : ℝ} {P : Pulse} (hP : rootRaisedCosinePulse α = some P) : (0 ≤ α ∧ α ≤ 1) ∧
    P = rootPulse (rcPulseOf α) (rrcWaveform α) := by
  rw [rootRaisedCosinePulse, Option.map_eq_some_iff] at hP
  obtain ⟨B, hB, rfl⟩ := hP
  obtain ⟨h, rfl⟩ := raisedCosine_some hB
  exact ⟨h, rfl⟩

theorem sqrt_real {x : ℝ} (hx : 0 ≤ x) : (x : ℂ) ^ (1 / 2 : ℂ) = (Real.sqrt x : ℂ) :=
  cpow_half (Real.sqrt_nonneg x) (Real.sq_sqrt hx).symm

theorem rc_real {α : ℝ} (h0 : 0 ≤ α) (h1 : α ≤ 1) (f : ℝ) : ∃ y : ℝ, rcSpectrum α f = y ∧ 0 ≤ y ∧ y ≤ 1 := by
  rcases eq_or_lt_of_le h0 with e | h0
  · subst e
    rw [rcSpectrum, if_pos rfl]
    refine ⟨_, rfl, ?_⟩
    rw [npRect]; split <;> norm_num
  · rcases lt_or_ge |f| ((1 + α) / 2) with h | h
    · exact ⟨_, rcSpectrum_half h0 h1 h, rcHalf_mem _ _⟩
    · exact ⟨0, by rw [rcSpectrum_out h0 h]; simp, by norm_num⟩

theorem root_band (α : ℝ) (P : Pulse) (hP : rootRaisedCosinePulse α = some P) : P.Consistent ∧
    ∀ t : ℝ, (P.waveform t : ℂ) = ∫ f : ℝ, P.spectrum f * Complex.exp (2 * Real.pi * Complex.I * f * t) := by
  obtain ⟨⟨h0, h1⟩, rfl⟩ := root_some hP
  rcases eq_or_lt_of_le h0 with e | h0
  · subst e
    have hs : ∀ f : ℝ, rcSpectrum 0 f ^ (1 / 2 : ℂ) = ((npRect f : ℝ) : ℂ) := by
      intro f
      rw [rcSpectrum, if_pos rfl]
      refine cpow_half ?_ ?_ <;> rw [npRect] <;> split <;> norm_num
    have : rootPulse (rcPulseOf 0) (rrcWaveform 0) = sincPulse := by
      rw [rootPulse, rcPulseOf, sincPulse]
      simp only [hs]
      congr 1
      · funext t; rw [rrcWaveform, if_pos rfl]
      · rw [raisedCosine_zero_rolloff, npSinc_zero]
      · funext t; rw [raisedCosine_zero_rolloff]
      · funext f; exact (npRect_sq f).symm
    rw [this]
    exact sinc_band
  · have hspec : ∀ f : ℝ, |f| < (1 + α) / 2 → rcSpectrum α f ^ (1 / 2 : ℂ) = (rrcHalf α |f| : ℂ) := by
      intro f hf
      rw [rcSpectrum_half h0 h1 hf]
      exact cpow_half (rrcHalf_sq h0 hf).1 (rrcHalf_sq h0 hf).2
    have hout : ∀ f : ℝ, (1 + α) / 2 ≤ |f| → rcSpectrum α f ^ (1 / 2 : ℂ) = 0 := by
      intro f hf
      rw [rcSpectrum_out h0 hf]
      exact Complex.zero_cpow (by norm_num)
    have hsq : Set.EqOn (rcHalf α) (fun f => rrcHalf α f ^ 2) (Set.Ioo 0 ((1 + α) / 2)) := fun f hf => (rrcHalf_sq h0 hf.2).2
    have hI : 0 ≤ (1 + α) / 2 := by linarith
    have hae : ∀ᵐ f ∂(volume.restrict (Set.Ioc 0 ((1 + α) / 2))), rcHalf α f = rrcHalf α f ^ 2 := by
      rw [← restrict_Ioo_eq_restrict_Ioc]
      exact (ae_restrict_mem measurableSet_Ioo).mono fun f hf => hsq hf
    refine band_consistent _ (rrcHalf α) ((1 + α) / 2) hI ?_ ?_ ?_ (rrcHalf_pieces h0 h1) ?_ (rrc_integral h0 h1) ?_ (fun _ => rfl)
      rfl rfl
    · intro f hf0 hf1
      simp only [rootPulse, rcPulseOf]
      rw [hspec f (by rwa [abs_of_pos hf0]), hspec (-f) (by rwa [abs_neg, abs_of_pos hf0]), abs_neg, abs_of_pos hf0]
      exact ⟨rfl, rfl⟩
    · intro f hf
      exact hout f hf.le
    · intro f
      simp only [rootPulse, rcPulseOf]
      obtain ⟨y, hy, hy0, hy1⟩ := rc_real h0.le h1 f
      rw [hy, sqrt_real hy0, Complex.norm_real, Real.norm_eq_abs, abs_of_nonneg (Real.sqrt_nonneg _)]
      exact Real.sqrt_le_one.mpr hy1
    · have hg := (rcHalf_pieces h0 h1 (fun x => x) (fun _ => 1) continuous_id continuous_const).1
      simp only [mul_one] at hg
      exact hg.congr_ae (by rw [Set.uIoc_of_le hI]; exact hae)
    · intro t
      simp only [rootPulse, rcPulseOf]
      rw [rc_integral h0 h1]
      congr 1
      refine intervalIntegral.integral_congr_ae_restrict ?_
      rw [Set.uIoc_of_le hI]
      exact hae.mono fun f hf => by simp only [hf]

theorem C96_root (α : ℝ) (P : Pulse) (hP : rootRaisedCosinePulse α = some P) : P.Consistent := (root_band α P hP).1

/-- The waveform is the inverse Fourier integral of the spectrum, at every time. -/
theorem C96_root_inversion (α : ℝ) (P : Pulse) (hP : rootRaisedCosinePulse α = some P) (t : ℝ) :
    (P.waveform t : ℂ) = ∫ f : ℝ, P.spectrum f * Complex.exp (2 * Real.pi * Complex.I * f * t) := (root_band α P hP).2 t

/-- The root pulse is matched to itself: its spectrum is a nonnegative real number whose square is the spectrum of the
raised-cosine pulse with the same roll-off, its autocorrelation is the waveform of that pulse, and its energy is 1. -/
theorem C96_root_square (α : ℝ) (P Q : Pulse) (hP : raisedCosinePulse α = some P) (hQ : rootRaisedCosinePulse α = some Q) :
    (∀ f, Q.spectrum f ^ 2 = P.spectrum f ∧ ∃ y : ℝ, Q.spectrum f = y ∧ 0 ≤ y) ∧ (∀ τ, Q.autocorrelation τ = P.waveform τ) ∧
    Q.energy = 1 := by
  obtain ⟨⟨h0, h1⟩, rfl⟩ := root_some hQ
  obtain ⟨-, rfl⟩ := raisedCosine_some hP
  refine ⟨fun f => ?_, fun τ => rfl, ?_⟩
  · simp only [rootPulse, rcPulseOf]
    obtain ⟨y, hy, hy0, -⟩ := rc_real h0 h1 f
    rw [hy, sqrt_real hy0]
    refine ⟨?_, _, rfl, Real.sqrt_nonneg _⟩
    rw [← Complex.ofReal_pow, Real.sq_sqrt hy0]
  · have := C96_raised_cosine_nyquist α _ hP 0
    show (rcPulseOf α).waveform 0 = 1
    simpa using this

/-- The translates of the root pulse by integers are orthonormal: matched filtering gives no intersymbol interference. -/
theorem C96_root_orthonormal (α : ℝ) (Q : Pulse) (hQ : rootRaisedCosinePulse α = some Q) (n : Int) :
    ∫ t, Q.waveform t * Q.waveform (t + n) = if n = 0 then 1 else 0 := by
  obtain ⟨P, hP, -⟩ := Option.map_eq_some_iff.mp hQ
  rw [← (C96_root α Q hQ).autocorrelation, (C96_root_square α P Q hP hQ).2.1]
  exact C96_raised_cosine_nyquist α P hP n

/-- The hypotheses are met. -/
example : ∃ P Q, raisedCosinePulse (1 / 4) = some P ∧ rootRaisedCosinePulse (1 / 4) = some Q := by
  have h1 := (C96_raised_cosine_accepts (1 / 4)).mpr (by norm_num)
  have h2 := (C96_root_accepts (1 / 4)).mpr (by norm_num)
  exact ⟨_, _, Option.some_get h1 |>.symm, Option.some_get h2 |>.symm⟩

end Komm
