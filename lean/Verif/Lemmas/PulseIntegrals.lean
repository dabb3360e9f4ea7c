import Verif.Lemmas.PulseConsistency
import Mathlib.Analysis.SpecialFunctions.Integrals.Basic
import Mathlib.Tactic.LinearCombination
/-! Integrals needed for the pulses. -/
namespace Komm
open MeasureTheory intervalIntegral

theorem npSinc_zero : npSinc 0 = 1 := if_pos rfl

theorem pi_mul_npSinc (x : ℝ) : Real.pi * x * npSinc x = Real.sin (Real.pi * x) := by
  rw [npSinc]
  split
  · rename_i h; subst h; simp
  · rename_i h
    have := Real.pi_ne_zero
    field_simp

theorem npSinc_of_ne {x : ℝ} (h : x ≠ 0) : npSinc x = Real.sin (Real.pi * x) / (Real.pi * x) := if_neg h

theorem npSinc_neg (x : ℝ) : npSinc (-x) = npSinc x := by
  rcases eq_or_ne x 0 with rfl | h
  · simp
  · rw [npSinc_of_ne h, npSinc_of_ne (neg_ne_zero.mpr h), mul_neg, Real.sin_neg, neg_div_neg_eq]

theorem npSinc_int (n : Int) : npSinc n = if n = 0 then 1 else 0 := by
  split
  · rename_i h; subst h; simp [npSinc]
  · rename_i h
    rw [npSinc_of_ne (by exact_mod_cast h), mul_comm, Real.sin_int_mul_pi, zero_div]

/-- The integral of a sinusoid, without exception at frequency zero. -/
theorem integral_cos_affine (a b w c : ℝ) :
    ∫ x in a..b, Real.cos (w * x + c) = (b - a) * Real.cos (w * (a + b) / 2 + c) * npSinc (w * (b - a) / (2 * Real.pi)) := by
  have hpi := Real.pi_ne_zero
  rcases eq_or_ne w 0 with rfl | hw
  · simp [npSinc_zero]
  · rw [intervalIntegral.integral_comp_mul_add (fun x => Real.cos x) hw, integral_cos]
    rcases eq_or_ne (b - a) 0 with h | h
    · rw [sub_eq_zero] at h
      subst h
      simp
    · rw [npSinc_of_ne (by positivity), show Real.pi * (w * (b - a) / (2 * Real.pi)) = w * (b - a) / 2 by field_simp]
      have e1 : w * b + c = (w * (a + b) / 2 + c) + w * (b - a) / 2 := by ring
      have e2 : w * a + c = (w * (a + b) / 2 + c) - w * (b - a) / 2 := by ring
      rw [e1, e2, Real.sin_add, Real.sin_sub, smul_eq_mul]
      field_simp
      ring

/-- The integral of a damped cosine. -/
theorem integral_exp_cos (a b β c w : ℝ) (hβ : β ≠ 0) :
    ∫ x in a..b, Real.exp (β * x + c) * Real.cos (w * x) =
      (Real.exp (β * b + c) * (β * Real.cos (w * b) + w * Real.sin (w * b)) -
        Real.exp (β * a + c) * (β * Real.cos (w * a) + w * Real.sin (w * a))) / (β ^ 2 + w ^ 2) := by
  have hpos : β ^ 2 + w ^ 2 ≠ 0 := by positivity
  rw [intervalIntegral.integral_eq_sub_of_hasDerivAt
    (f := fun x => Real.exp (β * x + c) * (β * Real.cos (w * x) + w * Real.sin (w * x)) / (β ^ 2 + w ^ 2))]
  · ring
  · intro x _
    have h1 : HasDerivAt (fun x : ℝ => β * x + c) β x := by simpa using ((hasDerivAt_id x).const_mul β).add_const c
    have h2 : HasDerivAt (fun x : ℝ => w * x) w x := by simpa using (hasDerivAt_id x).const_mul w
    have h := ((h1.exp.mul ((h2.cos.const_mul β).add (h2.sin.const_mul w))).div_const (β ^ 2 + w ^ 2))
    refine h.congr_deriv ?_
    simp only [Pi.add_apply]
    field_simp
    ring
  · apply Continuous.intervalIntegrable
    fun_prop

/-- Gluing two pieces of an integral. -/
theorem integral_pieces (G g1 g2 : ℝ → ℝ) {a b c : ℝ} (hab : a ≤ b) (hbc : b ≤ c)
    (h1 : ∀ x ∈ Set.Ioc a b, G x = g1 x) (h2 : ∀ x ∈ Set.Ioc b c, G x = g2 x)
    (i1 : IntervalIntegrable g1 volume a b) (i2 : IntervalIntegrable g2 volume b c) :
    IntervalIntegrable G volume a c ∧ ∫ x in a..c, G x = (∫ x in a..b, g1 x) + ∫ x in b..c, g2 x := by
  have j1 : IntervalIntegrable G volume a b := i1.congr (fun x hx => (h1 x (by rwa [Set.uIoc_of_le hab] at hx)).symm)
  have j2 : IntervalIntegrable G volume b c := i2.congr (fun x hx => (h2 x (by rwa [Set.uIoc_of_le hbc] at hx)).symm)
  refine ⟨j1.trans j2, ?_⟩
  rw [← intervalIntegral.integral_add_adjacent_intervals j1 j2]
  congr 1
  · refine intervalIntegral.integral_congr_ae (Filter.Eventually.of_forall fun x hx => h1 x (by rwa [Set.uIoc_of_le hab] at hx))
  · refine intervalIntegral.integral_congr_ae (Filter.Eventually.of_forall fun x hx => h2 x (by rwa [Set.uIoc_of_le hbc] at hx))

theorem cis_add_cis_neg (f t : ℝ) : cis f t + cis (-f) t = ((2 * Real.cos (2 * Real.pi * f * t) : ℝ) : ℂ) := by
  rw [cis, cis]
  push_cast
  rw [Complex.two_cos]
  congr 1 <;> congr 1 <;> push_cast <;> ring

/-- Fourier integral of a function that is even and vanishes outside `[-F, F]`, up to its values at `0` and `±F`. -/
theorem band_integral (S : ℝ → ℂ) (g : ℝ → ℝ) (F : ℝ) (hF : 0 ≤ F)
    (hpos : ∀ f, 0 < f → f < F → S f = (g f : ℂ) ∧ S (-f) = (g f : ℂ)) (hz : ∀ f, F < |f| → S f = 0)
    (hg : IntervalIntegrable g volume 0 F) :
    Integrable S ∧ ∀ t, ∫ f, S f * cis f t = ((2 * ∫ f in (0 : ℝ)..F, g f * Real.cos (2 * Real.pi * f * t) : ℝ) : ℂ) := by
  have hgC : IntervalIntegrable (fun f => (g f : ℂ)) volume 0 F := ⟨hg.1.ofReal, hg.2.ofReal⟩
  have hR : IntervalIntegrable S volume 0 F := by
    refine hgC.congr_ae ?_
    rw [Set.uIoc_of_le hF]
    have : ∀ᵐ f ∂(volume.restrict (Set.Ioc 0 F)), f ∈ Set.Ioc 0 F := ae_restrict_mem measurableSet_Ioc
    have h2 : ∀ᵐ f ∂(volume.restrict (Set.Ioc 0 F)), f ≠ F := ae_restrict_of_ae (Measure.ae_ne volume F)
    filter_upwards [this, h2] with f h3 h4
    exact (hpos f h3.1 (lt_of_le_of_ne h3.2 h4)).1.symm
  have hL : IntervalIntegrable (fun f => S (-f)) volume 0 F := by
    refine hgC.congr_ae ?_
    rw [Set.uIoc_of_le hF]
    have : ∀ᵐ f ∂(volume.restrict (Set.Ioc 0 F)), f ∈ Set.Ioc 0 F := ae_restrict_mem measurableSet_Ioc
    have h2 : ∀ᵐ f ∂(volume.restrict (Set.Ioc 0 F)), f ≠ F := ae_restrict_of_ae (Measure.ae_ne volume F)
    filter_upwards [this, h2] with f h3 h4
    exact (hpos f h3.1 (lt_of_le_of_ne h3.2 h4)).2.symm
  have hL' : IntervalIntegrable S volume (-F) 0 := by
    have := (IntervalIntegrable.iff_comp_neg (f := fun f => S (-f)) (by simp) (a := 0) (b := F)).mp hL
    simp only [neg_neg, neg_zero] at this
    exact this.symm
  have hall : IntervalIntegrable S volume (-F) F := hL'.trans hR
  have hsupp : Function.support S ⊆ Set.Icc (-F) F := by
    intro f hf
    by_contra h
    refine hf (hz f ?_)
    rw [Set.mem_Icc, ← abs_le] at h
    exact not_le.mp h
  have hint : Integrable S := by
    have := (intervalIntegrable_iff_integrableOn_Icc_of_le (by linarith : -F ≤ F)).mp hall
    exact (integrableOn_iff_integrable_of_support_subset hsupp).mp this
  refine ⟨hint, fun t => ?_⟩
  have e1 : ∫ f, S f * cis f t = ∫ f in (-F)..F, S f * cis f t := by
    have hs' : Function.support (fun f => S f * cis f t) ⊆ Set.Icc (-F) F := fun f hf => hsupp fun h => hf (by simp [h])
    rw [intervalIntegral.integral_of_le (by linarith), ← integral_Icc_eq_integral_Ioc, setIntegral_eq_integral_of_forall_compl_eq_zero]
    intro f hf
    by_contra h
    exact hf (hs' h)
  have iL : IntervalIntegrable (fun f => S f * cis f t) volume (-F) 0 := hL'.mul_continuousOn (continuous_cis t).continuousOn
  have iR : IntervalIntegrable (fun f => S f * cis f t) volume 0 F := hR.mul_continuousOn (continuous_cis t).continuousOn
  have hcn : Continuous fun f => cis (-f) t := (continuous_cis t).comp continuous_neg
  have iL2 : IntervalIntegrable (fun f => S (-f) * cis (-f) t) volume 0 F := hL.mul_continuousOn hcn.continuousOn
  rw [e1, ← intervalIntegral.integral_add_adjacent_intervals iL iR]
  have e2 : ∫ f in (-F)..0, S f * cis f t = ∫ f in (0 : ℝ)..F, S (-f) * cis (-f) t := by
    rw [intervalIntegral.integral_comp_neg (fun f => S f * cis f t), neg_zero]
  rw [e2, ← intervalIntegral.integral_add iL2 iR, Complex.ofReal_mul, ← intervalIntegral.integral_ofReal,
    ← intervalIntegral.integral_const_mul]
  refine intervalIntegral.integral_congr_ae ?_
  filter_upwards [Measure.ae_ne volume F] with f hf hmem
  rw [Set.uIoc_of_le hF] at hmem
  obtain ⟨p1, p2⟩ := hpos f hmem.1 (lt_of_le_of_ne hmem.2 hf)
  rw [p1, p2]
  have := cis_add_cis_neg f t
  push_cast at this ⊢
  linear_combination (g f : ℂ) * this

theorem memLp_two_of_bounded (S : ℝ → ℂ) (h : Integrable S) (hb : ∀ f, ‖S f‖ ≤ 1) : MemLp S 2 := by
  rw [memLp_two_iff_integrable_sq_norm h.aestronglyMeasurable]
  refine h.norm.mono' (h.aestronglyMeasurable.norm.pow 2) (Filter.Eventually.of_forall fun f => ?_)
  rw [Real.norm_of_nonneg (by positivity)]
  have := norm_nonneg (S f)
  nlinarith [hb f]

end Komm
