import Mathlib.Analysis.Fourier.LpSpace
import Mathlib.Analysis.Fourier.RiemannLebesgueLemma
/-! The Fourier integral of a function in L¹ ∩ L² is its L² Fourier transform; Parseval's identity for Fourier integrals. -/
namespace Komm.Fourier
open MeasureTheory FourierTransform Complex
open scoped SchwartzMap ENNReal ContDiff ComplexInnerProductSpace

theorem ae_eq (S : ℝ → ℂ) (h1 : Integrable S) (h2 : MemLp S 2) :
    (𝓕 (h2.toLp S) : Lp ℂ 2 (volume : Measure ℝ)) =ᵐ[volume] 𝓕 S := by
  have hcont : Continuous (𝓕 S) := VectorFourier.fourierIntegral_continuous Real.continuous_fourierChar continuous_inner h1
  refine ae_eq_of_integral_contDiff_smul_eq ((Lp.memLp _).locallyIntegrable (by norm_num)) hcont.locallyIntegrable ?_
  intro g g_smooth g_cpt
  have hg₁ : HasCompactSupport (Complex.ofRealCLM ∘ g) := g_cpt.comp_left rfl
  have hg₂ : ContDiff ℝ ∞ (Complex.ofRealCLM ∘ g) := by fun_prop
  set φ : 𝓢(ℝ, ℂ) := hg₁.toSchwartzMap hg₂ with hφ
  have hφx : ∀ x, φ x = (g x : ℂ) := fun x => rfl
  have e1 : ∫ x, g x • (𝓕 (h2.toLp S) : Lp ℂ 2 (volume : Measure ℝ)) x = ((𝓕 (h2.toLp S) : Lp ℂ 2 (volume : Measure ℝ)) : 𝓢'(ℝ, ℂ)) φ := by
    rw [Lp.toTemperedDistribution_apply]
    refine integral_congr_ae (Filter.Eventually.of_forall fun x => ?_)
    simp [hφx]
  rw [e1, ← Lp.fourier_toTemperedDistribution_eq, TemperedDistribution.fourier_apply, Lp.toTemperedDistribution_apply]
  have e2 : ∫ x, (𝓕 φ) x • (h2.toLp S : Lp ℂ 2 (volume : Measure ℝ)) x = ∫ x, (𝓕 φ) x • S x := by
    refine integral_congr_ae ?_
    filter_upwards [h2.coeFn_toLp] with x hx
    rw [hx]
  rw [e2]
  have := VectorFourier.integral_fourierIntegral_smul_eq_flip (L := innerₗ ℝ) (μ := volume) (ν := volume)
      Real.continuous_fourierChar continuous_inner φ.integrable h1
  rw [SchwartzMap.fourier_coe]
  refine this.trans ?_
  refine integral_congr_ae (Filter.Eventually.of_forall fun x => ?_)
  simp only [hφx, Real.fourier_eq, flip_innerₗ]
  rfl

theorem memLp (S : ℝ → ℂ) (h1 : Integrable S) (h2 : MemLp S 2) : MemLp (𝓕 S) 2 :=
  (memLp_congr_ae (ae_eq S h1 h2)).mp (Lp.memLp _)

/-- Parseval's identity for functions in L¹ ∩ L². -/
theorem parseval (S T : ℝ → ℂ) (hS1 : Integrable S) (hS2 : MemLp S 2) (hT1 : Integrable T) (hT2 : MemLp T 2) :
    ∫ t, (𝓕 T) t * (starRingEnd ℂ) ((𝓕 S) t) = ∫ f, T f * (starRingEnd ℂ) (S f) := by
  have h := Lp.inner_fourier_eq (hS2.toLp S) (hT2.toLp T)
  rw [L2.inner_def, L2.inner_def] at h
  have e1 : ∫ a, inner ℂ ((𝓕 (hS2.toLp S) : Lp ℂ 2 (volume : Measure ℝ)) a) ((𝓕 (hT2.toLp T) : Lp ℂ 2 (volume : Measure ℝ)) a) = ∫ t, (𝓕 T) t * (starRingEnd ℂ) ((𝓕 S) t) := by
    refine integral_congr_ae ?_
    filter_upwards [ae_eq S hS1 hS2, ae_eq T hT1 hT2] with x h1 h2
    rw [h1, h2]
    rfl
  have e2 : ∫ a, inner ℂ ((hS2.toLp S : Lp ℂ 2 (volume : Measure ℝ)) a) ((hT2.toLp T : Lp ℂ 2 (volume : Measure ℝ)) a) = ∫ f, T f * (starRingEnd ℂ) (S f) := by
    refine integral_congr_ae ?_
    filter_upwards [hS2.coeFn_toLp, hT2.coeFn_toLp] with x h1 h2
    rw [h1, h2]
    rfl
  rw [← e1, ← e2, h]

theorem ae_eq_inv (S : ℝ → ℂ) (h1 : Integrable S) (h2 : MemLp S 2) :
    (𝓕⁻ (h2.toLp S) : Lp ℂ 2 (volume : Measure ℝ)) =ᵐ[volume] 𝓕⁻ S := by
  have hcL : Continuous fun p : ℝ × ℝ => (-innerₗ ℝ) p.1 p.2 := (continuous_inner (𝕜 := ℝ) (E := ℝ)).neg
  have hcont : Continuous (𝓕⁻ S) := VectorFourier.fourierIntegral_continuous Real.continuous_fourierChar hcL h1
  refine ae_eq_of_integral_contDiff_smul_eq ((Lp.memLp _).locallyIntegrable (by norm_num)) hcont.locallyIntegrable ?_
  intro g g_smooth g_cpt
  have hg₁ : HasCompactSupport (Complex.ofRealCLM ∘ g) := g_cpt.comp_left rfl
  have hg₂ : ContDiff ℝ ∞ (Complex.ofRealCLM ∘ g) := by fun_prop
  set φ : 𝓢(ℝ, ℂ) := hg₁.toSchwartzMap hg₂ with hφ
  have hφx : ∀ x, φ x = (g x : ℂ) := fun x => rfl
  have e1 : ∫ x, g x • (𝓕⁻ (h2.toLp S) : Lp ℂ 2 (volume : Measure ℝ)) x = ((𝓕⁻ (h2.toLp S) : Lp ℂ 2 (volume : Measure ℝ)) : 𝓢'(ℝ, ℂ)) φ := by
    rw [Lp.toTemperedDistribution_apply]
    refine integral_congr_ae (Filter.Eventually.of_forall fun x => ?_)
    simp [hφx]
  rw [e1, ← Lp.fourierInv_toTemperedDistribution_eq, TemperedDistribution.fourierInv_apply, Lp.toTemperedDistribution_apply]
  have e2 : ∫ x, (𝓕⁻ φ) x • (h2.toLp S : Lp ℂ 2 (volume : Measure ℝ)) x = ∫ x, (𝓕⁻ φ) x • S x := by
    refine integral_congr_ae ?_
    filter_upwards [h2.coeFn_toLp] with x hx
    rw [hx]
  rw [e2]
  have := VectorFourier.integral_fourierIntegral_smul_eq_flip (L := -innerₗ ℝ) (μ := volume) (ν := volume)
      Real.continuous_fourierChar hcL φ.integrable h1
  rw [SchwartzMap.fourierInv_coe]
  refine this.trans ?_
  refine integral_congr_ae (Filter.Eventually.of_forall fun x => ?_)
  have hflip : (-innerₗ ℝ : ℝ →ₗ[ℝ] ℝ →ₗ[ℝ] ℝ).flip = -innerₗ ℝ := by
    ext; simp
  simp only [hφx, hflip]
  rfl

theorem memLp_inv (S : ℝ → ℂ) (h1 : Integrable S) (h2 : MemLp S 2) : MemLp (𝓕⁻ S) 2 :=
  (memLp_congr_ae (ae_eq_inv S h1 h2)).mp (Lp.memLp _)

/-- Parseval's identity for inverse Fourier integrals. -/
theorem parseval_inv (S T : ℝ → ℂ) (hS1 : Integrable S) (hS2 : MemLp S 2) (hT1 : Integrable T) (hT2 : MemLp T 2) :
    ∫ t, (𝓕⁻ T) t * (starRingEnd ℂ) ((𝓕⁻ S) t) = ∫ f, T f * (starRingEnd ℂ) (S f) := by
  have h := Lp.inner_fourier_eq (𝓕⁻ (hS2.toLp S)) (𝓕⁻ (hT2.toLp T))
  rw [fourier_fourierInv_eq, fourier_fourierInv_eq, L2.inner_def, L2.inner_def] at h
  have e1 : ∫ a, inner ℂ ((𝓕⁻ (hS2.toLp S) : Lp ℂ 2 (volume : Measure ℝ)) a) ((𝓕⁻ (hT2.toLp T) : Lp ℂ 2 (volume : Measure ℝ)) a) =
      ∫ t, (𝓕⁻ T) t * (starRingEnd ℂ) ((𝓕⁻ S) t) := by
    refine integral_congr_ae ?_
    filter_upwards [ae_eq_inv S hS1 hS2, ae_eq_inv T hT1 hT2] with x h1 h2
    rw [h1, h2]
    rfl
  have e2 : ∫ a, inner ℂ ((hS2.toLp S : Lp ℂ 2 (volume : Measure ℝ)) a) ((hT2.toLp T : Lp ℂ 2 (volume : Measure ℝ)) a) =
      ∫ f, T f * (starRingEnd ℂ) (S f) := by
    refine integral_congr_ae ?_
    filter_upwards [hS2.coeFn_toLp, hT2.coeFn_toLp] with x h1 h2
    rw [h1, h2]
    rfl
  rw [← e1, ← e2, h]

end Komm.Fourier
