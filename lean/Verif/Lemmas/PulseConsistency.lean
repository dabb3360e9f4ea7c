import Verif.Spec.Pulses
import Verif.Lemmas.Plancherel
/-! From one Fourier integral to all the clauses of `Pulse.Consistent`. -/
namespace Komm
open MeasureTheory FourierTransform Complex

/-- `e^{2πi f τ}` -/
noncomputable def cis (f τ : ℝ) : ℂ := Complex.exp (2 * Real.pi * Complex.I * f * τ)

theorem norm_cis (f τ : ℝ) : ‖cis f τ‖ = 1 := by
  rw [cis, show 2 * (Real.pi : ℂ) * I * f * τ = ((2 * Real.pi * f * τ : ℝ) : ℂ) * I by push_cast; ring, norm_exp_ofReal_mul_I]

theorem continuous_cis (τ : ℝ) : Continuous fun f => cis f τ := by unfold cis; fun_prop

theorem cis_add (f t τ : ℝ) : cis f (t + τ) = cis f t * cis f τ := by
  rw [cis, cis, cis, ← Complex.exp_add]; congr 1; push_cast; ring

theorem cis_zero (f : ℝ) : cis f 0 = 1 := by simp [cis]

theorem cis_neg (f t : ℝ) : cis f (-t) = (starRingEnd ℂ) (cis f t) := by
  rw [cis, cis, ← Complex.exp_conj]
  congr 1
  simp [Complex.conj_ofReal, Complex.conj_ofNat]

theorem integrable_mul_cis {S : ℝ → ℂ} (h : Integrable S) (τ : ℝ) : Integrable fun f => S f * cis f τ :=
  h.mul_bdd (c := 1) (continuous_cis τ).aestronglyMeasurable (Filter.Eventually.of_forall fun f => (norm_cis f τ).le)

theorem memLp_mul_cis {S : ℝ → ℂ} (h : MemLp S 2) (τ : ℝ) : MemLp (fun f => S f * cis f τ) 2 := by
  refine h.mono (h.aestronglyMeasurable.mul (continuous_cis τ).aestronglyMeasurable) (Filter.Eventually.of_forall fun f => ?_)
  rw [norm_mul, norm_cis, mul_one]

theorem fourierInv_eq_cis (S : ℝ → ℂ) (t : ℝ) : 𝓕⁻ S t = ∫ f, S f * cis f t := by
  rw [Real.fourierInv_eq']
  refine integral_congr_ae (Filter.Eventually.of_forall fun f => ?_)
  simp only [smul_eq_mul, cis]
  rw [mul_comm]
  congr 2
  simp
  ring

theorem fourier_eq_cis (p : ℝ → ℂ) (f : ℝ) : 𝓕 p f = ∫ t, p t * cis (-f) t := by
  rw [Real.fourier_eq']
  refine integral_congr_ae (Filter.Eventually.of_forall fun t => ?_)
  simp only [smul_eq_mul, cis]
  rw [mul_comm]
  congr 2
  simp
  ring

theorem mul_conj_norm (z : ℂ) : z * (starRingEnd ℂ) z = ((‖z‖ ^ 2 : ℝ) : ℂ) := by
  rw [Complex.mul_conj, Complex.normSq_eq_norm_sq]

/-- The integral of a product of real functions, computed in ℂ. -/
theorem integral_mul_real (p q : ℝ → ℝ) : ((∫ t, p t * q t : ℝ) : ℂ) = ∫ t, (q t : ℂ) * (starRingEnd ℂ) (p t : ℂ) := by
  rw [← integral_complex_ofReal]
  refine integral_congr_ae (Filter.Eventually.of_forall fun t => ?_)
  simp only [Complex.conj_ofReal]
  push_cast
  ring

theorem consistent_of_band (P : Pulse) (h1 : Integrable P.spectrum) (h2 : MemLp P.spectrum 2)
    (hw : ∀ t : ℝ, (P.waveform t : ℂ) = ∫ f : ℝ, P.spectrum f * cis f t)
    (hd : ∀ f, P.energySpectralDensity f = ‖P.spectrum f‖ ^ 2)
    (hR : ∀ τ : ℝ, (P.autocorrelation τ : ℂ) = ∫ f : ℝ, (P.energySpectralDensity f : ℂ) * cis f τ)
    (hE : P.energy = P.autocorrelation 0) (hs : P.support = (⊥, ⊤)) : P.Consistent := by
  have hpt : (fun t => (P.waveform t : ℂ)) = 𝓕⁻ P.spectrum := by
    funext t; rw [hw, fourierInv_eq_cis]
  have htime : MemLp (fun t => (P.waveform t : ℂ)) 2 := by rw [hpt]; exact Fourier.memLp_inv _ h1 h2
  have hauto : ∀ τ, P.autocorrelation τ = ∫ t, P.waveform t * P.waveform (t + τ) := by
    intro τ
    have hshift : (fun t => ((P.waveform (t + τ) : ℝ) : ℂ)) = 𝓕⁻ fun f => P.spectrum f * cis f τ := by
      funext t
      rw [hw, fourierInv_eq_cis]
      refine integral_congr_ae (Filter.Eventually.of_forall fun f => ?_)
      simp only [cis_add]
      ring
    have hpars := Fourier.parseval_inv P.spectrum (fun f => P.spectrum f * cis f τ) h1 h2 (integrable_mul_cis h1 τ) (memLp_mul_cis h2 τ)
    rw [← hshift, ← hpt] at hpars
    apply Complex.ofReal_injective
    rw [integral_mul_real, hpars, hR]
    refine integral_congr_ae (Filter.Eventually.of_forall fun f => ?_)
    simp only
    rw [hd, ← mul_conj_norm]
    ring
  refine ⟨⟨htime, h2, ?_⟩, ?_, hauto, hd, ?_, hR, ?_⟩
  · have : (𝓕⁻ (h2.toLp P.spectrum) : Lp ℂ 2 (volume : Measure ℝ)) = htime.toLp _ := by
      refine Lp.ext ?_
      filter_upwards [Fourier.ae_eq_inv _ h1 h2, htime.coeFn_toLp] with x e1 e2
      rw [e1, e2, ← hpt]
    rw [← this, fourier_fourierInv_eq]
  · rw [hE, hauto 0]
    simp [sq]
  · apply Complex.ofReal_injective
    rw [hE, hR 0, ← integral_complex_ofReal]
    simp [cis_zero]
  · intro t _
    rw [hs]
    simp

theorem consistent_of_time (P : Pulse) (h1 : Integrable P.waveform) (h2 : MemLp P.waveform 2)
    (hw : ∀ f : ℝ, P.spectrum f = ∫ t : ℝ, (P.waveform t : ℂ) * cis (-f) t)
    (hd : ∀ f, P.energySpectralDensity f = ‖P.spectrum f‖ ^ 2)
    (hR : ∀ τ : ℝ, P.autocorrelation τ = ∫ t, P.waveform t * P.waveform (t + τ))
    (hE : P.energy = P.autocorrelation 0)
    (hs : ∀ t : ℝ, P.waveform t ≠ 0 → P.support.1 ≤ (t : EReal) ∧ (t : EReal) ≤ P.support.2) : P.Consistent := by
  have h1' : Integrable fun t => (P.waveform t : ℂ) := h1.ofReal
  have h2' : MemLp (fun t => (P.waveform t : ℂ)) 2 := h2.ofReal
  have hpt : P.spectrum = 𝓕 fun t => (P.waveform t : ℂ) := by
    funext f; rw [hw, fourier_eq_cis]
  have hfreq : MemLp P.spectrum 2 := by rw [hpt]; exact Fourier.memLp _ h1' h2'
  have hwk : ∀ τ : ℝ, (P.autocorrelation τ : ℂ) = ∫ f : ℝ, (P.energySpectralDensity f : ℂ) * cis f τ := by
    intro τ
    have hs1 : Integrable fun t => ((P.waveform (t + τ) : ℝ) : ℂ) := h1'.comp_add_right τ
    have hs2 : MemLp (fun t => ((P.waveform (t + τ) : ℝ) : ℂ)) 2 :=
      h2'.comp_measurePreserving (measurePreserving_add_right volume τ)
    have hshift : (fun f => P.spectrum f * cis f τ) = 𝓕 fun t => ((P.waveform (t + τ) : ℝ) : ℂ) := by
      funext f
      rw [hw, fourier_eq_cis, ← integral_add_right_eq_self _ τ, ← integral_mul_const]
      refine integral_congr_ae (Filter.Eventually.of_forall fun t => ?_)
      simp only [cis_add]
      have : cis (-f) τ * cis f τ = 1 := by
        rw [cis, cis, ← Complex.exp_add]
        convert Complex.exp_zero using 2
        push_cast; ring
      linear_combination ((P.waveform (t + τ) : ℂ) * cis (-f) t) * this
    have hpars := Fourier.parseval (fun t => (P.waveform t : ℂ)) (fun t => ((P.waveform (t + τ) : ℝ) : ℂ)) h1' h2' hs1 hs2
    rw [← hshift, ← hpt] at hpars
    rw [hR, integral_mul_real, ← hpars]
    refine integral_congr_ae (Filter.Eventually.of_forall fun f => ?_)
    simp only
    rw [hd, ← mul_conj_norm]
    ring
  refine ⟨⟨h2', hfreq, ?_⟩, ?_, hR, hd, ?_, hwk, hs⟩
  · refine Lp.ext ?_
    filter_upwards [Fourier.ae_eq _ h1' h2', hfreq.coeFn_toLp] with x e1 e2
    rw [e1, e2, ← hpt]
  · rw [hE, hR 0]
    simp [sq]
  · apply Complex.ofReal_injective
    rw [hE, hwk 0, ← integral_complex_ofReal]
    simp [cis_zero]

end Komm
