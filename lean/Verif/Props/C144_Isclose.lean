import Verif.Model.PulsesIsclose
import Verif.Props.C96_RaisedCosine

/-! C144: the tolerance of `np.isclose` in the raised-cosine pulses. -/
namespace Komm
open MeasureTheory

/-- A band-limited function with a spectrum of at most `C` on `[0, b]`, `b ≤ 1`, is Lipschitz. -/
theorem band_lipschitz {g : ℝ → ℝ} {b C : ℝ} (hb0 : 0 < b) (hb1 : b ≤ 1) (hg : IntervalIntegrable g volume 0 b) (hC : ∀ f, 0 < f → f < b → |g f| ≤ C) (t s : ℝ) :
    |(2 * ∫ f in (0 : ℝ)..b, g f * Real.cos (2 * Real.pi * f * t)) - 2 * ∫ f in (0 : ℝ)..b, g f * Real.cos (2 * Real.pi * f * s)| ≤ 4 * Real.pi * C * |t - s| := by
  have hi : ∀ u : ℝ, IntervalIntegrable (fun f => g f * Real.cos (2 * Real.pi * f * u)) volume 0 b :=
    fun u => hg.mul_continuousOn (by fun_prop)
  rw [← mul_sub, ← intervalIntegral.integral_sub (hi t) (hi s), abs_mul, abs_of_pos (by norm_num : (0 : ℝ) < 2)]
  have hpi := Real.pi_pos
  have hC0 : 0 ≤ C := (abs_nonneg _).trans (hC (b / 2) (by linarith) (by linarith))
  have hae : ∀ᵐ f : ℝ, f ∈ Set.uIoc 0 b → ‖g f * Real.cos (2 * Real.pi * f * t) - g f * Real.cos (2 * Real.pi * f * s)‖ ≤ C * (2 * Real.pi * |t - s|) := by
    have hne : ∀ᵐ f : ℝ, f ≠ b := by simp [ae_iff]
    filter_upwards [hne] with f hfb hf
    rw [Set.uIoc_of_le hb0.le] at hf
    have hlt : f < b := lt_of_le_of_ne hf.2 hfb
    rw [← mul_sub, Real.norm_eq_abs, abs_mul]
    refine mul_le_mul (hC f hf.1 hlt) ?_ (abs_nonneg _) hC0
    refine (Real.abs_cos_sub_cos_le _ _).trans ?_
    rw [← mul_sub, abs_mul, abs_of_pos (by have := hf.1; positivity : (0 : ℝ) < 2 * Real.pi * f)]
    apply mul_le_mul_of_nonneg_right _ (abs_nonneg _)
    have := mul_le_mul_of_nonneg_left (hlt.le.trans hb1) (by positivity : (0 : ℝ) ≤ 2 * Real.pi)
    linarith
  have := intervalIntegral.norm_integral_le_of_norm_le_const_ae hae
  rw [Real.norm_eq_abs, sub_zero, abs_of_pos hb0] at this
  have h2 : C * (2 * Real.pi * |t - s|) * b ≤ C * (2 * Real.pi * |t - s|) * 1 := mul_le_mul_of_nonneg_left hb1 (by positivity)
  linarith

theorem cos_abs_arg (f t : ℝ) : Real.cos (2 * Real.pi * f * |t|) = Real.cos (2 * Real.pi * f * t) := by
  rcases abs_choice t with h | h <;> rw [h]
  rw [mul_neg, Real.cos_neg]

theorem rrc_lipschitz {α : ℝ} (h0 : 0 < α) (h1 : α ≤ 1) (t s : ℝ) : |rrcWaveform α t - rrcWaveform α s| ≤ 4 * Real.pi * abs (|t| - |s|) := by
  rw [rrc_integral h0 h1, rrc_integral h0 h1]
  have := band_lipschitz (g := rrcHalf α) (b := (1 + α) / 2) (C := 1) (by linarith) (by linarith) (rrcHalf_pieces h0 h1) (by
    intro f _ hf
    obtain ⟨p, q⟩ := rrcHalf_sq h0 hf
    have := (rcHalf_mem α f).2
    rw [abs_of_nonneg p]
    nlinarith) |t| |s|
  simp only [cos_abs_arg, mul_one] at this
  exact this

/-- The waveform of the root raised-cosine pulse with the tolerance of `np.isclose`: never further from the exact waveform than `4π` times the tolerance, for every roll-off factor and
time. -/
theorem C144_root_waveform {α : ℝ} (h0 : 0 ≤ α) (h1 : α ≤ 1) (t : ℝ) : |rrcWaveformTol α t - rrcWaveform α t| ≤ 4 * Real.pi * (1 / 10 ^ 8 + 1 / 10 ^ 5 * (1 / (4 * α))) := by
  have hpi := Real.pi_pos
  have hb : 0 ≤ 4 * Real.pi * (1 / 10 ^ 8 + 1 / 10 ^ 5 * (1 / (4 * α))) := by positivity
  rcases eq_or_lt_of_le h0 with rfl | h0
  · rw [rrcWaveformTol, rrcWaveform, if_pos rfl, if_pos rfl, sub_self, abs_zero]
    exact hb
  have hq : 0 < 1 / (4 * α) := by positivity
  rw [rrcWaveformTol, if_neg h0.ne']
  simp only
  by_cases c1 : isCloseTo |t| (1 / (4 * α))
  · rw [if_pos c1]
    have e : rrcWaveform α (1 / (4 * α)) =
        α / Real.sqrt 2 * ((1 + 2 / Real.pi) * Real.sin (Real.pi / (4 * α)) + (1 - 2 / Real.pi) * Real.cos (Real.pi / (4 * α))) := by
      rw [rrcWaveform, if_neg h0.ne', if_pos (abs_of_pos hq)]
    rw [← e]
    refine (rrc_lipschitz h0 h1 _ _).trans ?_
    apply mul_le_mul_of_nonneg_left _ (by positivity)
    rw [abs_sub_comm, abs_of_pos hq]
    unfold isCloseTo at c1
    rwa [abs_of_pos hq] at c1
  · rw [if_neg c1]
    have hne : |t| ≠ 1 / (4 * α) := by
      intro h
      apply c1
      rw [h, isCloseTo, sub_self, abs_zero]
      positivity
    by_cases c0 : isCloseTo t 0
    · rw [if_pos c0]
      have e : rrcWaveform α 0 = 1 + α * (4 / Real.pi - 1) := by
        rw [rrcWaveform, if_neg h0.ne', if_neg (by rw [abs_zero]; exact hq.ne), if_pos rfl]
      rw [← e]
      refine (rrc_lipschitz h0 h1 _ _).trans ?_
      apply mul_le_mul_of_nonneg_left _ (by positivity)
      unfold isCloseTo at c0
      rw [sub_zero, abs_zero, mul_zero, add_zero] at c0
      rw [abs_zero, zero_sub, abs_neg, abs_abs]
      have : 0 ≤ 1 / 10 ^ 5 * (1 / (4 * α)) := by positivity
      linarith
    · rw [if_neg c0, rrcWaveform, if_neg h0.ne', if_neg hne, if_neg, sub_self, abs_zero]
      · exact hb
      · rintro rfl
        apply c0
        rw [isCloseTo, sub_self, abs_zero, mul_zero, add_zero]
        positivity

/-- Away from the tolerance the values are those of the formula: `taps` is exact unless a sample time is within the tolerance of 0 (other than 0 itself) or of `±1/(4α)`. -/
theorem C144_root_exact {α : ℝ} (h0 : 0 < α) (t : ℝ) (h4 : ¬ isCloseTo |t| (1 / (4 * α))) (h5 : t = 0 ∨ 1 / 10 ^ 8 < |t|) : rrcWaveformTol α t = rrcWaveform α t := by
  have hq : 0 < 1 / (4 * α) := by positivity
  rw [rrcWaveformTol, if_neg h0.ne', rrcWaveform, if_neg h0.ne']
  simp only
  have hne : |t| ≠ 1 / (4 * α) := by
    intro h
    apply h4
    rw [h, isCloseTo, sub_self, abs_zero]
    positivity
  rw [if_neg h4, if_neg hne]
  rcases h5 with rfl | h5
  · rw [if_pos rfl, if_pos]
    rw [isCloseTo, sub_self, abs_zero, mul_zero, add_zero]
    positivity
  · rw [if_neg, if_neg]
    · rintro rfl; rw [abs_zero] at h5; have : (0 : ℝ) < 1 / 10 ^ 8 := by positivity
      linarith
    · rw [isCloseTo, sub_zero, abs_zero, mul_zero, add_zero, not_le]
      exact h5

/-- The autocorrelation of the raised-cosine pulse with the tolerance. -/
theorem C144_autocorrelation {α : ℝ} (h0 : 0 ≤ α) (h1 : α ≤ 1) (τ : ℝ) : |rcAutocorrelationTol α τ - rcAutocorrelation α τ| ≤ Real.pi * (1 / 10 ^ 8 + 1 / 10 ^ 5 * (1 / α)) := by
  have hpi := Real.pi_pos
  have hb : 0 ≤ Real.pi * (1 / 10 ^ 8 + 1 / 10 ^ 5 * (1 / α)) := by positivity
  rcases eq_or_lt_of_le h0 with rfl | h0
  · rw [rcAutocorrelationTol, rcAutocorrelation, if_pos rfl, if_pos rfl, sub_self, abs_zero]
    exact hb
  have hq : 0 < 1 / α := by positivity
  by_cases c1 : isCloseTo |τ| (1 / α)
  · -- the difference of the pulse and its autocorrelation is band-limited
    have hint : ∀ u : ℝ, raisedCosine u α - rcAutocorrelation α u = 2 * ∫ f in (0 : ℝ)..((1 + α) / 2), (rcHalf α f - rcHalf α f ^ 2) * Real.cos (2 * Real.pi * f * u) := by
      intro u
      rw [rc_integral h0 h1, rc_auto_integral h0 h1, ← mul_sub, ← intervalIntegral.integral_sub]
      · simp only [sub_mul]
      · exact (rcHalf_pieces h0 h1 (fun x => x) (fun f => Real.cos (2 * Real.pi * f * u)) continuous_id (by fun_prop)).1
      · exact (rcHalf_pieces h0 h1 (fun x => x ^ 2) (fun f => Real.cos (2 * Real.pi * f * u)) (by fun_prop) (by fun_prop)).1
    have hgi : IntervalIntegrable (fun f => rcHalf α f - rcHalf α f ^ 2) volume 0 ((1 + α) / 2) := by
      have := (rcHalf_pieces h0 h1 (fun x => x - x ^ 2) (fun _ => 1) (by fun_prop) (by fun_prop)).1
      simpa using this
    have hl := band_lipschitz (g := fun f => rcHalf α f - rcHalf α f ^ 2) (b := (1 + α) / 2) (C := 1 / 4) (by linarith) (by linarith) hgi (by
      intro f _ _
      have := rcHalf_mem α f
      rw [abs_le]
      constructor <;> nlinarith [sq_nonneg (rcHalf α f - 1 / 2)]) |τ| (1 / α)
    simp only [cos_abs_arg] at hl
    rw [← hint, ← hint] at hl
    have e1 : raisedCosine (1 / α) α - rcAutocorrelation α (1 / α) = α / 4 * (Real.cos (Real.pi / α) / 2) := by
      rw [rcAutocorrelation, if_neg h0.ne', if_pos (abs_of_pos hq)]
      ring
    have e2 : rcAutocorrelationTol α τ = raisedCosine τ α - α / 4 * (Real.cos (Real.pi / α) / 2) := by
      rw [rcAutocorrelationTol, if_neg h0.ne']
      simp only
      rw [if_pos c1]
    rw [e2, ← e1, show raisedCosine τ α - (raisedCosine (1 / α) α - rcAutocorrelation α (1 / α)) - rcAutocorrelation α τ =
      (raisedCosine τ α - rcAutocorrelation α τ) - (raisedCosine (1 / α) α - rcAutocorrelation α (1 / α)) by ring]
    refine hl.trans ?_
    unfold isCloseTo at c1
    rw [abs_of_pos hq] at c1
    have := mul_le_mul_of_nonneg_left c1 hpi.le
    linarith
  · have hne : |τ| ≠ 1 / α := by
      intro h
      apply c1
      rw [h, isCloseTo, sub_self, abs_zero]
      positivity
    rw [rcAutocorrelationTol, rcAutocorrelation, if_neg h0.ne', if_neg h0.ne']
    simp only
    rw [if_neg c1, if_neg hne, sub_self, abs_zero]
    exact hb

/-- The pulse objects: the other methods are those of C96, and `taps` of the root pulse differ by at most the bound. -/
theorem C144_objects (α : ℝ) :
    (∀ P, rootRaisedCosinePulseTol α = some P → ∃ Q, rootRaisedCosinePulse α = some Q ∧ P.spectrum = Q.spectrum ∧ P.energy = Q.energy ∧ P.autocorrelation = Q.autocorrelation ∧
      P.energySpectralDensity = Q.energySpectralDensity ∧ P.support = Q.support ∧
      ∀ t, |P.waveform t - Q.waveform t| ≤ 4 * Real.pi * (1 / 10 ^ 8 + 1 / 10 ^ 5 * (1 / (4 * α)))) ∧
    (∀ P, raisedCosinePulseTol α = some P → ∃ Q, raisedCosinePulse α = some Q ∧ P.spectrum = Q.spectrum ∧ P.energy = Q.energy ∧ P.waveform = Q.waveform ∧
      P.energySpectralDensity = Q.energySpectralDensity ∧ P.support = Q.support ∧
      ∀ τ, |P.autocorrelation τ - Q.autocorrelation τ| ≤ Real.pi * (1 / 10 ^ 8 + 1 / 10 ^ 5 * (1 / α))) := by
  constructor
  · intro P hP
    obtain ⟨B, hB, rfl⟩ := Option.map_eq_some_iff.mp hP
    refine ⟨rootPulse B (rrcWaveform α), by rw [rootRaisedCosinePulse, hB]; rfl, rfl, rfl, rfl, rfl, rfl, fun t => ?_⟩
    obtain ⟨⟨h0, h1⟩, _⟩ := raisedCosine_some hB
    exact C144_root_waveform h0 h1 t
  · intro P hP
    obtain ⟨B, hB, rfl⟩ := Option.map_eq_some_iff.mp hP
    obtain ⟨⟨h0, h1⟩, rfl⟩ := raisedCosine_some hB
    exact ⟨_, hB, rfl, rfl, rfl, rfl, rfl, fun τ => C144_autocorrelation h0 h1 τ⟩

/-- FINDING: the tolerance is relative, so that with a small roll-off factor the plateau is wide: all sample times within `10⁻⁵/(4α)` of `1/(4α)` get the same value. -/
theorem C144_plateau {α : ℝ} (h0 : 0 < α) (t : ℝ) (ht : abs (|t| - 1 / (4 * α)) ≤ 1 / 10 ^ 5 * (1 / (4 * α))) : rrcWaveformTol α t = rrcWaveform α (1 / (4 * α)) := by
  have hq : 0 < 1 / (4 * α) := by positivity
  rw [rrcWaveformTol, if_neg h0.ne', rrcWaveform, if_neg h0.ne']
  simp only
  rw [if_pos (abs_of_pos hq), if_pos]
  unfold isCloseTo
  rw [abs_of_pos hq]
  have : (0 : ℝ) < 1 / 10 ^ 8 := by positivity
  linarith

example : ∃ P, rootRaisedCosinePulseTol (1 / 4) = some P := by
  have : (rootRaisedCosinePulse (1 / 4)).isSome := (C96_root_accepts _).mpr (by norm_num)
  rw [rootRaisedCosinePulse, Option.isSome_map] at this
  obtain ⟨B, hB⟩ := Option.isSome_iff_exists.mp this
  exact ⟨_, by rw [rootRaisedCosinePulseTol, hB]; rfl⟩
example : ¬ isCloseTo |(2 : ℝ)| (1 / (4 * (1 / 4))) ∧ isCloseTo |(1000001 / 1000000 : ℝ)| (1 / (4 * (1 / 4))) := by
  constructor <;> norm_num [isCloseTo, abs_of_pos]

end Komm
