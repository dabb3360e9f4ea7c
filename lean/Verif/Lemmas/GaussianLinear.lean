import Verif.Props.C104_GaussianQ
import Mathlib.Probability.Distributions.Gaussian.Multivariate
import Mathlib.MeasureTheory.Integral.Pi
/-! Linear combinations of independent standard normal samples. -/
namespace Komm
open MeasureTheory ProbabilityTheory GaussianChannel Constellation Set

theorem lin_law {ι : Type} [Fintype ι] (c : ι → ℝ) :
    (stdNormals ι).map (fun z => ∑ i, c i * z i) = gaussianReal 0 (∑ i, (c i).nnabs ^ 2 : NNReal) := by
  have hm : Measurable fun z : ι → ℝ => ∑ i, c i * z i := by fun_prop
  haveI := Measure.isProbabilityMeasure_map (μ := stdNormals ι) hm.aemeasurable
  apply Measure.ext_of_charFun
  ext t
  rw [charFun_gaussianReal, charFun_apply_real, integral_map hm.aemeasurable (by fun_prop)]
  have e : ∀ z : ι → ℝ, Complex.exp (t * ((∑ i, c i * z i : ℝ) : ℂ) * Complex.I) = ∏ i, Complex.exp ((t * c i : ℝ) * (z i : ℂ) * Complex.I) := by
    intro z
    rw [← Complex.exp_sum]
    congr 1
    push_cast
    rw [Finset.mul_sum, Finset.sum_mul]
    refine Finset.sum_congr rfl fun i _ => by ring
  simp only [e]
  rw [integral_fintype_prod_eq_prod (fun i (x : ℝ) => Complex.exp ((t * c i : ℝ) * (x : ℂ) * Complex.I))]
  have : ∀ i, ∫ x, Complex.exp ((t * c i : ℝ) * (x : ℂ) * Complex.I) ∂(gaussianReal 0 1) = Complex.exp (-((t * c i : ℝ) : ℂ) ^ 2 / 2) := by
    intro i
    rw [← charFun_apply_real, charFun_gaussianReal]
    congr 1
    push_cast; ring
  simp only [this]
  rw [← Complex.exp_sum]
  congr 1
  push_cast
  rw [Finset.sum_mul, Finset.sum_div, mul_zero, zero_mul, zero_sub, ← Finset.sum_neg_distrib]
  refine Finset.sum_congr rfl fun i _ => ?_
  have h : ((|c i| : ℝ) : ℂ) ^ 2 = (c i : ℂ) ^ 2 := by rw [← Complex.ofReal_pow, sq_abs, Complex.ofReal_pow]
  rw [h]
  ring

theorem lin_law_pairs {ι κ : Type} [Fintype ι] [Fintype κ] (c : ι → κ → ℝ) :
    (Measure.pi fun _ : ι => stdNormals κ).map (fun z => ∑ i, ∑ j, c i j * z i j) = gaussianReal 0 (∑ i, ∑ j, (c i j).nnabs ^ 2 : NNReal) := by
  have hm : Measurable fun z : ι → κ → ℝ => ∑ i, ∑ j, c i j * z i j := by fun_prop
  haveI := Measure.isProbabilityMeasure_map (μ := Measure.pi fun _ : ι => stdNormals κ) hm.aemeasurable
  apply Measure.ext_of_charFun
  ext t
  rw [charFun_gaussianReal, charFun_apply_real, integral_map hm.aemeasurable (by fun_prop)]
  have e : ∀ z : ι → κ → ℝ, Complex.exp (t * ((∑ i, ∑ j, c i j * z i j : ℝ) : ℂ) * Complex.I) =
      ∏ i, (fun y : κ → ℝ => Complex.exp (t * ((∑ j, c i j * y j : ℝ) : ℂ) * Complex.I)) (z i) := by
    intro z
    rw [← Complex.exp_sum]
    congr 1
    push_cast
    rw [Finset.mul_sum, Finset.sum_mul]
  simp only [e]
  rw [integral_fintype_prod_eq_prod (fun i (y : κ → ℝ) => Complex.exp (t * ((∑ j, c i j * y j : ℝ) : ℂ) * Complex.I))]
  have hi : ∀ i, ∫ y, Complex.exp (t * ((∑ j, c i j * y j : ℝ) : ℂ) * Complex.I) ∂(stdNormals κ) =
      Complex.exp (t * (0 : ℝ) * Complex.I - ((∑ j, (c i j).nnabs ^ 2 : NNReal) : ℝ) * t ^ 2 / 2) := by
    intro i
    have hmi : Measurable fun y : κ → ℝ => ∑ j, c i j * y j := by fun_prop
    rw [← charFun_gaussianReal, ← lin_law (c i), charFun_apply_real, integral_map hmi.aemeasurable (by fun_prop)]
  simp only [hi]
  rw [← Complex.exp_sum]
  congr 1
  push_cast
  rw [Finset.sum_mul, Finset.sum_div, mul_zero, zero_mul, zero_sub, ← Finset.sum_neg_distrib]
  refine Finset.sum_congr rfl fun i _ => ?_
  ring

/-- The tail of a normal variable of mean zero. -/
theorem gaussian_tail (v : NNReal) (hv : v ≠ 0) (t : ℝ) : (gaussianReal 0 v).real (Ici t) = gaussianQ (t / √v) ∧
    (gaussianReal 0 v).real (Ioi t) = gaussianQ (t / √v) := by
  have hs : 0 < √(v : ℝ) := Real.sqrt_pos.mpr (by exact_mod_cast pos_iff_ne_zero.mpr hv)
  have h2 : (gaussianReal 0 v).real (Ioi t) = gaussianQ (t / √v) := by
    have hl : (gaussianReal 0 1).map (fun z => √(v : ℝ) * z) = gaussianReal 0 v := by
      rw [gaussianReal_map_const_mul]
      congr 1
      · simp
      · ext; simp
    rw [← hl, map_measureReal_apply (by fun_prop) measurableSet_Ioi, C104_tail, normalTail]
    congr 1
    ext z
    simp only [mem_preimage, mem_Ioi, div_lt_iff₀ hs, mul_comm]
  haveI := nullSingletonClass_gaussianReal (μ := 0) hv
  refine ⟨?_, h2⟩
  rw [← h2, measureReal_def, measureReal_def, measure_congr Ioi_ae_eq_Ici]

end Komm
