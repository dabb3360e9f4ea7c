import Verif.Lemmas.PulseIntegrals
/-! Lemmas for the band-limited pulses. -/
namespace Komm
open MeasureTheory

theorem npSinc_two_mul (x : ℝ) : npSinc (2 * x) = npSinc x * Real.cos (Real.pi * x) := by
  rcases eq_or_ne x 0 with rfl | h
  · simp [npSinc_zero]
  · have := Real.pi_ne_zero
    rw [npSinc_of_ne h, npSinc_of_ne (by simpa using h), show Real.pi * (2 * x) = 2 * (Real.pi * x) by ring, Real.sin_two_mul]
    field_simp

theorem npSinc_half : npSinc (1 / 2) = 2 / Real.pi := by
  rw [npSinc_of_ne (by norm_num), show Real.pi * (1 / 2) = Real.pi / 2 by ring, Real.sin_pi_div_two]
  have := Real.pi_ne_zero
  field_simp

/-- `∫_0^x cos(2π f t) df`. -/
theorem integral_low (x t : ℝ) : ∫ f in (0 : ℝ)..x, Real.cos (2 * Real.pi * f * t) = x * npSinc (2 * x * t) := by
  have h := integral_cos_affine 0 x (2 * Real.pi * t) 0
  have e : ∀ f : ℝ, 2 * Real.pi * t * f + 0 = 2 * Real.pi * f * t := fun f => by ring
  simp only [e] at h
  rw [h, show 2 * x * t = 2 * (x * t) by ring, npSinc_two_mul]
  have hpi := Real.pi_ne_zero
  rw [show 2 * Real.pi * t * (x - 0) / (2 * Real.pi) = x * t by field_simp; ring,
    show 2 * Real.pi * t * (0 + x) / 2 + 0 = Real.pi * (x * t) by ring]
  ring

theorem integral_cos_between (a b t : ℝ) :
    ∫ f in a..b, Real.cos (2 * Real.pi * f * t) = b * npSinc (2 * b * t) - a * npSinc (2 * a * t) := by
  rw [← integral_low, ← integral_low, intervalIntegral.integral_interval_sub_left]
  · exact (by fun_prop : Continuous fun f : ℝ => Real.cos (2 * Real.pi * f * t)).intervalIntegrable _ _
  · exact (by fun_prop : Continuous fun f : ℝ => Real.cos (2 * Real.pi * f * t)).intervalIntegrable _ _

/-- The transition band of the raised cosine family. -/
theorem integral_transition (α t κ : ℝ) (hα : α ≠ 0) :
    ∫ f in ((1 - α) / 2)..((1 + α) / 2), Real.cos (κ * (Real.pi * (f - (1 - α) / 2) / α)) * Real.cos (2 * Real.pi * f * t) =
      α / 2 * (Real.cos (Real.pi * t + κ * Real.pi / 2) * npSinc (α * t + κ / 2) +
        Real.cos (Real.pi * t - κ * Real.pi / 2) * npSinc (α * t - κ / 2)) := by
  have hpi := Real.pi_ne_zero
  have e : ∀ f : ℝ, Real.cos (κ * (Real.pi * (f - (1 - α) / 2) / α)) * Real.cos (2 * Real.pi * f * t) =
      1 / 2 * Real.cos ((2 * Real.pi * t + κ * Real.pi / α) * f + -(κ * Real.pi * ((1 - α) / 2) / α)) +
      1 / 2 * Real.cos ((2 * Real.pi * t - κ * Real.pi / α) * f + κ * Real.pi * ((1 - α) / 2) / α) := by
    intro f
    have h1 : (2 * Real.pi * t + κ * Real.pi / α) * f + -(κ * Real.pi * ((1 - α) / 2) / α) =
        2 * Real.pi * f * t + κ * (Real.pi * (f - (1 - α) / 2) / α) := by field_simp; ring
    have h2 : (2 * Real.pi * t - κ * Real.pi / α) * f + κ * Real.pi * ((1 - α) / 2) / α =
        2 * Real.pi * f * t - κ * (Real.pi * (f - (1 - α) / 2) / α) := by field_simp; ring
    rw [h1, h2, Real.cos_add, Real.cos_sub]
    ring
  simp only [e]
  rw [intervalIntegral.integral_add ((by fun_prop : Continuous _).intervalIntegrable _ _) ((by fun_prop : Continuous _).intervalIntegrable _ _),
    intervalIntegral.integral_const_mul, intervalIntegral.integral_const_mul, integral_cos_affine, integral_cos_affine]
  rw [show (2 * Real.pi * t + κ * Real.pi / α) * ((1 - α) / 2 + (1 + α) / 2) / 2 + -(κ * Real.pi * ((1 - α) / 2) / α) =
      Real.pi * t + κ * Real.pi / 2 by field_simp; ring,
    show (2 * Real.pi * t - κ * Real.pi / α) * ((1 - α) / 2 + (1 + α) / 2) / 2 + κ * Real.pi * ((1 - α) / 2) / α =
      Real.pi * t - κ * Real.pi / 2 by field_simp; ring,
    show (2 * Real.pi * t + κ * Real.pi / α) * ((1 + α) / 2 - (1 - α) / 2) / (2 * Real.pi) = α * t + κ / 2 by field_simp; ring,
    show (2 * Real.pi * t - κ * Real.pi / α) * ((1 + α) / 2 - (1 - α) / 2) / (2 * Real.pi) = α * t - κ / 2 by field_simp; ring]
  ring

/-- All clauses of consistency from the integrals over the positive frequencies. -/
theorem band_consistent (P : Pulse) (g : ℝ → ℝ) (F : ℝ) (hF : 0 ≤ F)
    (hpos : ∀ f, 0 < f → f < F → P.spectrum f = (g f : ℂ) ∧ P.spectrum (-f) = (g f : ℂ)) (hz : ∀ f, F < |f| → P.spectrum f = 0)
    (hb : ∀ f, ‖P.spectrum f‖ ≤ 1)
    (hg : IntervalIntegrable g volume 0 F) (hg2 : IntervalIntegrable (fun f => g f ^ 2) volume 0 F)
    (hw : ∀ t, P.waveform t = 2 * ∫ f in (0 : ℝ)..F, g f * Real.cos (2 * Real.pi * f * t))
    (hR : ∀ t, P.autocorrelation t = 2 * ∫ f in (0 : ℝ)..F, g f ^ 2 * Real.cos (2 * Real.pi * f * t))
    (hd : ∀ f, P.energySpectralDensity f = ‖P.spectrum f‖ ^ 2)
    (hE : P.energy = P.autocorrelation 0) (hs : P.support = (⊥, ⊤)) :
    P.Consistent ∧ ∀ t : ℝ, (P.waveform t : ℂ) = ∫ f : ℝ, P.spectrum f * Complex.exp (2 * Real.pi * Complex.I * f * t) := by
  obtain ⟨hint, hfour⟩ := band_integral P.spectrum g F hF hpos hz hg
  have hw' : ∀ t : ℝ, (P.waveform t : ℂ) = ∫ f : ℝ, P.spectrum f * cis f t := fun t => by rw [hfour, hw]
  refine ⟨consistent_of_band P hint (memLp_two_of_bounded _ hint hb) hw' hd ?_ hE hs, hw'⟩
  intro τ
  have k1 : ∀ f, 0 < f → f < F → (P.energySpectralDensity f : ℂ) = ((g f ^ 2 : ℝ) : ℂ) ∧
      (P.energySpectralDensity (-f) : ℂ) = ((g f ^ 2 : ℝ) : ℂ) := by
    intro f h0 h1
    obtain ⟨e1, e2⟩ := hpos f h0 h1
    rw [hd, hd, e1, e2, Complex.norm_real, Real.norm_eq_abs, sq_abs]
    exact ⟨rfl, rfl⟩
  have k2 : ∀ f, F < |f| → (P.energySpectralDensity f : ℂ) = 0 := by
    intro f h
    rw [hd, hz f h]
    simp
  obtain ⟨-, h⟩ := band_integral (fun f => (P.energySpectralDensity f : ℂ)) (fun f => g f ^ 2) F hF k1 k2 hg2
  rw [h, hR]

/-- The folded spectrum of a vestigially symmetric band-limited spectrum. -/
theorem hasSum_fold (S : ℝ → ℂ) (hz : ∀ f, 1 ≤ |f| → S f = 0) (heven : ∀ f, S (-f) = S f)
    (hsym : ∀ f, 0 ≤ f → f ≤ 1 / 2 → S f + S (1 - f) = 1) (f : ℝ) : HasSum (fun k : Int => S (f + k)) 1 := by
  -- the translate of `f` in `[-1/2, 1/2)`
  set k0 : Int := ⌊f + 1 / 2⌋ with hk0
  have h1 := Int.floor_le (f + 1 / 2)
  have h2 := Int.lt_floor_add_one (f + 1 / 2)
  rw [← hk0] at h1 h2
  set x : ℝ := f - k0 with hx
  have hx1 : -(1 / 2) ≤ x := by linarith
  have hx2 : x < 1 / 2 := by linarith
  have hshift : (fun k : Int => S (f + k)) = (fun k : Int => S (x + k)) ∘ (Equiv.addRight k0) := by
    funext k
    simp only [Function.comp, Equiv.coe_addRight, hx]
    congr 1
    push_cast
    ring
  rw [hshift, Equiv.hasSum_iff]
  rcases le_total 0 x with h0 | h0
  · have : (1 : ℂ) = ∑ k ∈ ({0, -1} : Finset Int), S (x + k) := by
      rw [Finset.sum_pair (by decide)]
      have := hsym x h0 hx2.le
      rw [← this, Int.cast_zero, add_zero]
      congr 1
      rw [← heven]
      congr 1
      push_cast
      ring
    rw [this]
    refine hasSum_sum_of_ne_finset_zero fun k hk => hz _ ?_
    simp only [Finset.mem_insert, Finset.mem_singleton, not_or] at hk
    rcases lt_or_ge k 0 with h | h
    · have : (k : ℝ) ≤ -2 := by exact_mod_cast (by omega : k ≤ -2)
      rw [abs_of_nonpos (by linarith)]
      linarith
    · have : (1 : ℝ) ≤ k := by exact_mod_cast (by omega : 1 ≤ k)
      rw [abs_of_nonneg (by linarith)]
      linarith
  · have : (1 : ℂ) = ∑ k ∈ ({0, 1} : Finset Int), S (x + k) := by
      rw [Finset.sum_pair (by decide)]
      have := hsym (-x) (by linarith) (by linarith)
      rw [← this, Int.cast_zero, add_zero, heven]
      congr 2
      push_cast
      ring
    rw [this]
    refine hasSum_sum_of_ne_finset_zero fun k hk => hz _ ?_
    simp only [Finset.mem_insert, Finset.mem_singleton, not_or] at hk
    rcases lt_or_ge k 0 with h | h
    · have : (k : ℝ) ≤ -1 := by exact_mod_cast (by omega : k ≤ -1)
      rw [abs_of_nonpos (by linarith)]
      linarith
    · have : (2 : ℝ) ≤ k := by exact_mod_cast (by omega : 2 ≤ k)
      rw [abs_of_nonneg (by linarith)]
      linarith

end Komm
