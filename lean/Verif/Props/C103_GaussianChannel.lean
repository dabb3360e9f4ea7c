import Verif.Model.GaussianChannel
import Verif.Lemmas.Bayes
import Verif.Props.C88_Posteriors
import Mathlib.Probability.Independence.Basic
import Mathlib.MeasureTheory.Measure.Lebesgue.Complex
/-! C103: the law of the output of `GaussianChannel`, and what it means for `Constellation.posteriors` and `closest_indices`. -/
namespace Komm
open MeasureTheory ProbabilityTheory GaussianChannel Constellation

/-- Independent standard normal samples, one for each index. -/
noncomputable abbrev stdNormals (ι : Type) [Fintype ι] : Measure (ι → ℝ) := Measure.pi fun _ => gaussianReal 0 1

/-- Independent standard normal samples, two for each index. -/
noncomputable abbrev stdNormalPairs (ι : Type) [Fintype ι] : Measure (ι → Fin 2 → ℝ) := Measure.pi fun _ => stdNormals (Fin 2)

/-- The constructor raises exactly for a negative noise power. -/
theorem C103_raises_iff (N : ℝ) : (construct N = none ↔ N < 0) ∧ (0 ≤ N → construct N = some N) := by
  unfold construct
  by_cases h : N ≥ 0
  · simp [h]
  · simp [h]; exact not_le.mp h

/-- Without noise power the output is the input, whatever the samples. -/
theorem C103_noiseless {ι : Type} (x z : ι → ℝ) (x' : ι → ℂ) (z' : ι → Fin 2 → ℝ) : transmitReal 0 x z = x ∧ transmitComplex 0 x' z' = x' := by
  constructor <;> funext i <;> simp [transmitReal, transmitComplex, normal]

theorem scale_law (N : NNReal) (x : ℝ) : (gaussianReal 0 1).map (fun z => x + (0 + √(N : ℝ) * z)) = gaussianReal x N := by
  have e : (fun z : ℝ => x + (0 + √(N : ℝ) * z)) = (fun y => x + y) ∘ fun z => √(N : ℝ) * z := by funext z; simp
  rw [e, ← Measure.map_map (by fun_prop) (by fun_prop), gaussianReal_map_const_mul, gaussianReal_map_const_add]
  congr 1
  · ring
  · ext; simp

theorem measurable_scale (N x : ℝ) : Measurable fun z : ℝ => x + (0 + √N * z) := by fun_prop

/-- Real input: the outputs are independent, normal, with mean the input and variance the noise power. -/
theorem C103_real_law {ι : Type} [Fintype ι] (N : NNReal) (x : ι → ℝ) :
    (stdNormals ι).map (transmitReal N x) = Measure.pi fun i => gaussianReal (x i) N := by
  have h : ∀ i, AEMeasurable (fun z : ℝ => x i + (0 + √(N : ℝ) * z)) (gaussianReal 0 1) := fun i => (measurable_scale _ _).aemeasurable
  haveI : ∀ i, SigmaFinite ((gaussianReal 0 1).map (fun z : ℝ => x i + (0 + √(N : ℝ) * z))) := fun i => by rw [scale_law]; infer_instance
  have := Measure.pi_map_pi (X := fun _ : ι => ℝ) (Y := fun _ : ι => ℝ) (μ := fun _ : ι => gaussianReal 0 1) h
  rw [show (fun i => gaussianReal (x i) N) = fun i => (gaussianReal 0 1).map (fun z : ℝ => x i + (0 + √(N : ℝ) * z)) from funext fun i => (scale_law N (x i)).symm, ← this]
  rfl

/-- Circularly symmetric complex normal variable of mean `x` and power `N`: independent real and imaginary parts of variance `N / 2`. -/
noncomputable def complexGaussian (x : ℂ) (N : NNReal) : Measure ℂ :=
  ((gaussianReal x.re (N / 2)).prod (gaussianReal x.im (N / 2))).map fun p => (p.1 : ℂ) + p.2 * Complex.I

theorem measurable_mk : Measurable fun p : ℝ × ℝ => (p.1 : ℂ) + p.2 * Complex.I := by fun_prop

instance (x : ℂ) (N : NNReal) : IsProbabilityMeasure (complexGaussian x N) := Measure.isProbabilityMeasure_map measurable_mk.aemeasurable

theorem cscale_law (N : NNReal) (x : ℂ) :
    (stdNormals (Fin 2)).map (fun z : Fin 2 → ℝ => x + (((0 + √((N : ℝ) / 2) * z 0 : ℝ) : ℂ) + Complex.I * ((0 + √((N : ℝ) / 2) * z 1 : ℝ) : ℂ))) = complexGaussian x N := by
  have e : (fun z : Fin 2 → ℝ => x + (((0 + √((N : ℝ) / 2) * z 0 : ℝ) : ℂ) + Complex.I * ((0 + √((N : ℝ) / 2) * z 1 : ℝ) : ℂ)))
      = (fun p : ℝ × ℝ => (p.1 : ℂ) + p.2 * Complex.I) ∘ (Prod.map (fun z : ℝ => x.re + (0 + √((N / 2 : NNReal) : ℝ) * z)) (fun z : ℝ => x.im + (0 + √((N / 2 : NNReal) : ℝ) * z)))
        ∘ MeasurableEquiv.finTwoArrow := by
    funext z
    apply Complex.ext <;> simp [Function.comp]
  rw [e, ← Measure.map_map measurable_mk (((measurable_scale _ _).prodMap (measurable_scale _ _)).comp (MeasurableEquiv.measurable _)),
    ← Measure.map_map ((measurable_scale _ _).prodMap (measurable_scale _ _)) (MeasurableEquiv.measurable _),
    (measurePreserving_finTwoArrow (gaussianReal 0 1)).map_eq, ← Measure.map_prod_map _ _ (measurable_scale _ _) (measurable_scale _ _), scale_law, scale_law]
  rfl

/-- Complex input: the outputs are independent, circularly symmetric complex normal, with mean the input and power the noise power. -/
theorem C103_complex_law {ι : Type} [Fintype ι] (N : NNReal) (x : ι → ℂ) :
    (stdNormalPairs ι).map (transmitComplex N x) = Measure.pi fun i => complexGaussian (x i) N := by
  set g : ∀ i : ι, (Fin 2 → ℝ) → ℂ := fun i z => x i + (((0 + √((N : ℝ) / 2) * z 0 : ℝ) : ℂ) + Complex.I * ((0 + √((N : ℝ) / 2) * z 1 : ℝ) : ℂ)) with hg
  have hgm : ∀ i, Measurable (g i) := fun i => by simp only [hg]; fun_prop
  haveI : ∀ i, SigmaFinite ((stdNormals (Fin 2)).map (g i)) := fun i => by simp only [hg, cscale_law]; infer_instance
  have := Measure.pi_map_pi (X := fun _ : ι => Fin 2 → ℝ) (Y := fun _ : ι => ℂ) (μ := fun _ : ι => stdNormals (Fin 2)) (f := g) fun i => (hgm i).aemeasurable
  rw [show (fun i => complexGaussian (x i) N) = fun i => (stdNormals (Fin 2)).map (g i) from funext fun i => (cscale_law N (x i)).symm, ← this]
  rfl

theorem measurable_transmitReal {ι : Type} (N : ℝ) (x : ι → ℝ) : Measurable (transmitReal N x) := by
  unfold transmitReal normal; fun_prop

theorem measurable_transmitComplex {ι : Type} (N : ℝ) (x : ι → ℂ) : Measurable (transmitComplex N x) := by
  unfold transmitComplex normal; fun_prop

/-- `realLikelihood` of `C88` is the density of the output of the channel. -/
theorem C103_real_density {n : Nat} (N : NNReal) (hN : N ≠ 0) (x : Fin n → ℝ) :
    (stdNormals (Fin n)).map (transmitReal N x) = volume.withDensity fun r => ENNReal.ofReal (realLikelihood N x r) := by
  rw [C103_real_law]
  have e : ∀ i, gaussianReal (x i) N = volume.withDensity fun y => ENNReal.ofReal (gaussianPDFReal (x i) N y) := fun i => gaussianReal_of_var_ne_zero _ hN
  haveI : ∀ i, SigmaFinite ((volume : Measure ℝ).withDensity fun y => ENNReal.ofReal (gaussianPDFReal (x i) N y)) := fun i => by rw [← e]; infer_instance
  rw [show (fun i => gaussianReal (x i) N) = _ from funext e,
    pi_withDensity (fun _ => volume) (fun i => gaussianPDFReal (x i) N) (fun i y => gaussianPDFReal_nonneg _ _ y) (fun i => integrable_gaussianPDFReal _ _)]
  rfl

theorem complexGaussian_density (N : NNReal) (hN : N ≠ 0) (x : ℂ) : complexGaussian x N = volume.withDensity fun y : ℂ =>
    ENNReal.ofReal (gaussianPDFReal x.re (N / 2) y.re * gaussianPDFReal x.im (N / 2) y.im) := by
  have h2 : N / 2 ≠ 0 := div_ne_zero hN two_ne_zero
  have e : (fun p : ℝ × ℝ => (p.1 : ℂ) + p.2 * Complex.I) = Complex.measurableEquivRealProd.symm := by
    funext p; apply Complex.ext <;> simp
  rw [complexGaussian, e, gaussianReal_of_var_ne_zero _ h2, gaussianReal_of_var_ne_zero _ h2, prod_withDensity (measurable_gaussianPDF _ _) (measurable_gaussianPDF _ _)]
  ext s hs
  rw [MeasurableEquiv.map_apply, withDensity_apply _ (Complex.measurableEquivRealProd.symm.measurable hs), withDensity_apply _ hs,
    ← (Complex.volume_preserving_equiv_real_prod.symm).setLIntegral_comp_preimage hs]
  · refine setLIntegral_congr_fun (Complex.measurableEquivRealProd.symm.measurable hs) fun p _ => ?_
    simp only [gaussianPDF, Complex.measurableEquivRealProd_symm_apply]
    rw [ENNReal.ofReal_mul (gaussianPDFReal_nonneg _ _ _)]
  · have := measurable_gaussianPDFReal x.re (N / 2)
    have := measurable_gaussianPDFReal x.im (N / 2)
    exact ENNReal.measurable_ofReal.comp (((measurable_gaussianPDFReal _ _).comp Complex.measurable_re).mul ((measurable_gaussianPDFReal _ _).comp Complex.measurable_im))

/-- `complexLikelihood` of `C88` is the density of the output of the channel. -/
theorem C103_complex_density {n : Nat} (N : NNReal) (hN : N ≠ 0) (x : Fin n → ℂ) :
    (stdNormalPairs (Fin n)).map (transmitComplex N x) = volume.withDensity fun r => ENNReal.ofReal (complexLikelihood N x r) := by
  rw [C103_complex_law]
  have e := fun i => complexGaussian_density N hN (x i)
  have hm : ∀ i, Measurable fun y : ℂ => gaussianPDFReal (x i).re (N / 2) y.re * gaussianPDFReal (x i).im (N / 2) y.im := fun i =>
    ((measurable_gaussianPDFReal _ _).comp Complex.measurable_re).mul ((measurable_gaussianPDFReal _ _).comp Complex.measurable_im)
  have h0 : ∀ i (y : ℂ), 0 ≤ gaussianPDFReal (x i).re (N / 2) y.re * gaussianPDFReal (x i).im (N / 2) y.im := fun i y =>
    mul_nonneg (gaussianPDFReal_nonneg _ _ _) (gaussianPDFReal_nonneg _ _ _)
  haveI : ∀ i, SigmaFinite ((volume : Measure ℂ).withDensity fun y => ENNReal.ofReal (gaussianPDFReal (x i).re (N / 2) y.re * gaussianPDFReal (x i).im (N / 2) y.im)) :=
    fun i => by rw [← e]; infer_instance
  rw [show (fun i => complexGaussian (x i) N) = _ from funext e, pi_withDensity _ _ h0
    (fun i => density_integrable volume (fun i => complexGaussian (x i) N) (fun i y => gaussianPDFReal (x i).re (N / 2) y.re * gaussianPDFReal (x i).im (N / 2) y.im) i (hm i) (h0 i) (e i))]
  rfl

theorem std_sq : ∫ z, z ^ 2 ∂(gaussianReal 0 1) = 1 := by
  have h := variance_fun_id_gaussianReal (μ := 0) (v := 1)
  rw [variance_eq_integral aemeasurable_id'] at h
  simpa using h

theorem std_eval {ι : Type} [Fintype ι] (i : ι) : (stdNormals ι).map (fun z => z i) = gaussianReal 0 1 :=
  (measurePreserving_eval (fun _ : ι => gaussianReal 0 1) i).map_eq

theorem std_pi_sq {ι : Type} [Fintype ι] (i : ι) : ∫ z, z i ^ 2 ∂(stdNormals ι) = 1 := by
  rw [← std_sq, ← std_eval i, integral_map (measurable_pi_apply i).aemeasurable (by fun_prop)]

theorem std_integrable_sq {ι : Type} [Fintype ι] (i : ι) : Integrable (fun z : ι → ℝ => z i ^ 2) (stdNormals ι) := by
  by_contra h
  have := std_pi_sq i
  rw [integral_undef h] at this
  norm_num at this

/-- The mean power of the noise added to each real sample is the noise power. -/
theorem C103_power_real {ι : Type} [Fintype ι] (N : ℝ) (hN : 0 ≤ N) (x : ι → ℝ) (i : ι) :
    ∫ z, (transmitReal N x z i - x i) ^ 2 ∂(stdNormals ι) = N := by
  have : ∀ z : ι → ℝ, (transmitReal N x z i - x i) ^ 2 = N * z i ^ 2 := fun z => by
    simp only [transmitReal, normal, zero_add, add_sub_cancel_left, mul_pow, Real.sq_sqrt hN]
  simp only [this]
  rw [integral_const_mul, std_pi_sq, mul_one]

/-- The mean power of the noise added to each complex sample is the noise power, half of it in the real part and half in the imaginary part. -/
theorem C103_power_complex {ι : Type} [Fintype ι] (N : ℝ) (hN : 0 ≤ N) (x : ι → ℂ) (i : ι) :
    ∫ z, ‖transmitComplex N x z i - x i‖ ^ 2 ∂(stdNormalPairs ι) = N ∧
    ∫ z, ((transmitComplex N x z i).re - (x i).re) ^ 2 ∂(stdNormalPairs ι) = N / 2 ∧
    ∫ z, ((transmitComplex N x z i).im - (x i).im) ^ 2 ∂(stdNormalPairs ι) = N / 2 := by
  have hN2 : 0 ≤ N / 2 := by positivity
  have hr : ∀ z : ι → Fin 2 → ℝ, ((transmitComplex N x z i).re - (x i).re) ^ 2 = N / 2 * z i 0 ^ 2 := fun z => by
    simp [transmitComplex, normal, mul_pow, Real.sq_sqrt hN2, -Nat.ofNat_nonneg, -Real.sqrt_div']
  have hi : ∀ z : ι → Fin 2 → ℝ, ((transmitComplex N x z i).im - (x i).im) ^ 2 = N / 2 * z i 1 ^ 2 := fun z => by
    simp [transmitComplex, normal, mul_pow, Real.sq_sqrt hN2, -Nat.ofNat_nonneg, -Real.sqrt_div']
  have hn : ∀ z : ι → Fin 2 → ℝ, ‖transmitComplex N x z i - x i‖ ^ 2 = N / 2 * z i 0 ^ 2 + N / 2 * z i 1 ^ 2 := fun z => by
    rw [← hr, ← hi, Complex.sq_norm, Complex.normSq_apply, Complex.sub_re, Complex.sub_im]; ring
  have ev : (stdNormalPairs ι).map (fun z => z i) = stdNormals (Fin 2) := (measurePreserving_eval (fun _ : ι => stdNormals (Fin 2)) i).map_eq
  have hv : ∀ k, ∫ z, z i k ^ 2 ∂(stdNormalPairs ι) = 1 := fun k => by
    rw [← std_pi_sq k, ← ev, integral_map (measurable_pi_apply i).aemeasurable ((measurable_pi_apply k).pow_const 2).aestronglyMeasurable]
  have hint : ∀ k, Integrable (fun z : ι → Fin 2 → ℝ => z i k ^ 2) (stdNormalPairs ι) := fun k => by
    by_contra h
    have := hv k
    rw [integral_undef h] at this
    norm_num at this
  simp only [hr, hi, hn]
  refine ⟨?_, ?_, ?_⟩
  · rw [integral_add ((hint 0).const_mul _) ((hint 1).const_mul _), integral_const_mul, integral_const_mul, hv, hv]; ring
  · rw [integral_const_mul, hv, mul_one]
  · rw [integral_const_mul, hv, mul_one]

theorem realLikelihood_nonneg {n : Nat} (v : NNReal) (s r : Fin n → ℝ) : 0 ≤ realLikelihood v s r :=
  Finset.prod_nonneg fun _ _ => gaussianPDFReal_nonneg _ _ _

theorem complexLikelihood_nonneg {n : Nat} (v : NNReal) (s r : Fin n → ℂ) : 0 ≤ complexLikelihood v s r :=
  Finset.prod_nonneg fun _ _ => mul_nonneg (gaussianPDFReal_nonneg _ _ _) (gaussianPDFReal_nonneg _ _ _)

theorem measurable_realLikelihood {n : Nat} (v : NNReal) (s : Fin n → ℝ) : Measurable (realLikelihood v s) :=
  Finset.measurable_prod _ fun j _ => (measurable_gaussianPDFReal _ _).comp (measurable_pi_apply j)

theorem measurable_complexLikelihood {n : Nat} (v : NNReal) (s : Fin n → ℂ) : Measurable (complexLikelihood v s) :=
  Finset.measurable_prod _ fun j _ => (((measurable_gaussianPDFReal _ _).comp Complex.measurable_re).mul
    ((measurable_gaussianPDFReal _ _).comp Complex.measurable_im)).comp (measurable_pi_apply j)

/-- A point `m k` is drawn with probability `q k` and sent through the channel with samples `z`.  For every event `A` of the received block, the
probability of `A` and "point `i` was sent" is the mean of the computed posterior of `i` over `A`: `posteriors` is the conditional probability
of each point given the received block. -/
theorem C103_posteriors_real {M n : Nat} (m : Fin M → Fin n → ℝ) (N : NNReal) (hN : N ≠ 0) (q : Fin M → ℝ) (hq : ∀ k, 0 ≤ q k) (i : Fin M)
    (A : Set (Fin n → ℝ)) (hA : MeasurableSet A) :
    ∑ k, q k * ∫ z in transmitReal N (m k) ⁻¹' A, posteriors false m (transmitReal N (m k) z) N q i ∂(stdNormals (Fin n))
      = q i * (stdNormals (Fin n)).real (transmitReal N (m i) ⁻¹' A) := by
  haveI : ∀ k, IsProbabilityMeasure ((stdNormals (Fin n)).map (transmitReal N (m k))) := fun k => Measure.isProbabilityMeasure_map (measurable_transmitReal _ _).aemeasurable
  have h := bayes_gen volume (fun k => (stdNormals (Fin n)).map (transmitReal N (m k))) (fun k => realLikelihood N (m k))
    (fun k => measurable_realLikelihood _ _) (fun k r => realLikelihood_nonneg _ _ _) (fun k => C103_real_density N hN (m k)) q hq i A hA
  rw [map_measureReal_apply (measurable_transmitReal _ _) hA] at h
  rw [← h]
  refine Finset.sum_congr rfl fun k _ => ?_
  have hmp : Measurable fun r => q i * realLikelihood N (m i) r / (∑ k, q k * realLikelihood N (m k) r) :=
    ((measurable_realLikelihood _ _).const_mul _).div (Finset.measurable_sum _ fun k _ => (measurable_realLikelihood _ _).const_mul _)
  rw [setIntegral_map hA hmp.aestronglyMeasurable (measurable_transmitReal _ _).aemeasurable]
  simp only [C88_bayes_real m _ N hN q hq i]

/-- The same for complex constellations. -/
theorem C103_posteriors_complex {M n : Nat} (m : Fin M → Fin n → ℂ) (N : NNReal) (hN : N ≠ 0) (q : Fin M → ℝ) (hq : ∀ k, 0 ≤ q k) (i : Fin M)
    (A : Set (Fin n → ℂ)) (hA : MeasurableSet A) :
    ∑ k, q k * ∫ z in transmitComplex N (m k) ⁻¹' A, posteriors true m (transmitComplex N (m k) z) N q i ∂(stdNormalPairs (Fin n))
      = q i * (stdNormalPairs (Fin n)).real (transmitComplex N (m i) ⁻¹' A) := by
  haveI : ∀ k, IsProbabilityMeasure ((stdNormalPairs (Fin n)).map (transmitComplex N (m k))) := fun k => Measure.isProbabilityMeasure_map (measurable_transmitComplex _ _).aemeasurable
  have h := bayes_gen volume (fun k => (stdNormalPairs (Fin n)).map (transmitComplex N (m k))) (fun k => complexLikelihood N (m k))
    (fun k => measurable_complexLikelihood _ _) (fun k r => complexLikelihood_nonneg _ _ _) (fun k => C103_complex_density N hN (m k)) q hq i A hA
  rw [map_measureReal_apply (measurable_transmitComplex _ _) hA] at h
  rw [← h]
  refine Finset.sum_congr rfl fun k _ => ?_
  have hmp : Measurable fun r => q i * complexLikelihood N (m i) r / (∑ k, q k * complexLikelihood N (m k) r) :=
    ((measurable_complexLikelihood _ _).const_mul _).div (Finset.measurable_sum _ fun k _ => (measurable_complexLikelihood _ _).const_mul _)
  rw [setIntegral_map hA hmp.aestronglyMeasurable (measurable_transmitComplex _ _).aemeasurable]
  simp only [C88_bayes_complex m _ N hN q hq i]

theorem measurable_sqDist {𝕜 : Type} [RCLike 𝕜] [MeasurableSpace 𝕜] [BorelSpace 𝕜] {M n : Nat} (m : Fin M → Fin n → 𝕜) (i : Fin M) :
    Measurable fun r : Fin n → 𝕜 => sqDist m r i := by
  unfold sqDist; fun_prop

theorem closest_measurable {𝕜 : Type} [RCLike 𝕜] [MeasurableSpace 𝕜] [BorelSpace 𝕜] {M n : Nat} (m : Fin M → Fin n → 𝕜) (hM : 0 < M) (i : Fin M) :
    MeasurableSet {r : Fin n → 𝕜 | closest m r = some i} := by
  have e : {r : Fin n → 𝕜 | closest m r = some i} = (⋂ k, {r | sqDist m r i ≤ sqDist m r k}) ∩ ⋂ l, ⋂ _ : l < i, {r | ∀ k, sqDist m r l ≤ sqDist m r k}ᶜ := by
    ext r
    obtain ⟨j, h1, h2, h3⟩ := C75_generic hM m r
    simp only [Set.mem_setOf_eq, Set.mem_inter_iff, Set.mem_iInter, Set.mem_compl_iff]
    rw [h1, Option.some_inj]
    constructor
    · rintro rfl
      exact ⟨h2, fun l hl hc => absurd (h3 l hc) (not_le.mpr hl)⟩
    · rintro ⟨g1, g2⟩
      rcases lt_or_eq_of_le (h3 i g1) with hlt | he
      · exact absurd h2 (g2 j hlt)
      · exact he
  rw [e]
  refine (MeasurableSet.iInter fun k => measurableSet_le (measurable_sqDist m i) (measurable_sqDist m k)).inter ?_
  refine MeasurableSet.iInter fun l => MeasurableSet.iInter fun _ => MeasurableSet.compl ?_
  simp only [Set.setOf_forall]
  exact MeasurableSet.iInter fun k => measurableSet_le (measurable_sqDist m l) (measurable_sqDist m k)

theorem uniform_ge {𝕜 : Type} [RCLike 𝕜] {M n : Nat} (c : Bool) (m : Fin M → Fin n → 𝕜) (r : Fin n → 𝕜) (σ : ℝ) (hσ : 0 < σ) (l : Fin M → ℝ) (hl : ∀ k, 0 < l k)
    (hp : ∀ i, posteriors c m r σ (uniformPriors (Fin M)) i = uniformPriors (Fin M) i * l i / ∑ k, uniformPriors (Fin M) k * l k)
    (i : Fin M) (hi : Nearest m r i) (k : Fin M) : uniformPriors (Fin M) k * l k ≤ uniformPriors (Fin M) i * l i := by
  have h := (C88_uniform_map c m r σ hσ i).mpr hi k
  rw [hp, hp] at h
  have hM : 0 < M := i.pos
  have hM' : (0 : ℝ) < M := by exact_mod_cast hM
  have hu : ∀ k : Fin M, 0 < uniformPriors (Fin M) k := fun k => by rw [uniformPriors, Fintype.card_fin]; positivity
  exact (div_le_div_iff_of_pos_right (Finset.sum_pos (fun k _ => mul_pos (hu k) (hl k)) ⟨i, Finset.mem_univ i⟩)).mp h

/-- Equally likely points of a real constellation sent through the channel: no decision rule `d` finds the transmitted point more often than
`closest_indices` does. -/
theorem C103_closest_optimal_real {M n : Nat} (hM : 0 < M) (m : Fin M → Fin n → ℝ) (N : NNReal) (hN : N ≠ 0)
    (d : (Fin n → ℝ) → Fin M) (hd : ∀ i, MeasurableSet {r | d r = i}) :
    ∑ i, 1 / (M : ℝ) * (stdNormals (Fin n)).real {z | d (transmitReal N (m i) z) = i} ≤
      ∑ i, 1 / (M : ℝ) * (stdNormals (Fin n)).real {z | closest m (transmitReal N (m i) z) = some i} := by
  haveI : ∀ k, IsProbabilityMeasure ((stdNormals (Fin n)).map (transmitReal N (m k))) := fun k => Measure.isProbabilityMeasure_map (measurable_transmitReal _ _).aemeasurable
  choose c hc1 hc2 hc3 using C75_generic hM m
  have hcm : ∀ i, MeasurableSet {r | c r = i} := fun i => by
    have := closest_measurable m hM i
    simpa only [hc1, Option.some_inj] using this
  have h := map_optimal volume (fun k => (stdNormals (Fin n)).map (transmitReal N (m k))) (fun k => realLikelihood N (m k))
    (fun k => measurable_realLikelihood _ _) (fun k r => realLikelihood_nonneg _ _ _) (fun k => C103_real_density N hN (m k))
    (uniformPriors (Fin M)) c d hcm hd (fun r k => uniform_ge false m r N (by positivity) (fun k => realLikelihood N (m k) r)
      (fun k => Finset.prod_pos fun j _ => gaussianPDFReal_pos _ _ _ hN)
      (fun i => C88_bayes_real m r N hN _ (fun k => by rw [uniformPriors]; positivity) i) _ (hc2 r) k)
  simp only [map_measureReal_apply (measurable_transmitReal _ _) (hd _), map_measureReal_apply (measurable_transmitReal _ _) (hcm _), uniformPriors, Fintype.card_fin] at h
  simp only [hc1, Option.some_inj]
  exact h

/-- The same for complex constellations. -/
theorem C103_closest_optimal_complex {M n : Nat} (hM : 0 < M) (m : Fin M → Fin n → ℂ) (N : NNReal) (hN : N ≠ 0)
    (d : (Fin n → ℂ) → Fin M) (hd : ∀ i, MeasurableSet {r | d r = i}) :
    ∑ i, 1 / (M : ℝ) * (stdNormalPairs (Fin n)).real {z | d (transmitComplex N (m i) z) = i} ≤
      ∑ i, 1 / (M : ℝ) * (stdNormalPairs (Fin n)).real {z | closest m (transmitComplex N (m i) z) = some i} := by
  haveI : ∀ k, IsProbabilityMeasure ((stdNormalPairs (Fin n)).map (transmitComplex N (m k))) := fun k => Measure.isProbabilityMeasure_map (measurable_transmitComplex _ _).aemeasurable
  have h2 : N / 2 ≠ 0 := div_ne_zero hN two_ne_zero
  choose c hc1 hc2 hc3 using C75_generic hM m
  have hcm : ∀ i, MeasurableSet {r | c r = i} := fun i => by
    have := closest_measurable m hM i
    simpa only [hc1, Option.some_inj] using this
  have h := map_optimal volume (fun k => (stdNormalPairs (Fin n)).map (transmitComplex N (m k))) (fun k => complexLikelihood N (m k))
    (fun k => measurable_complexLikelihood _ _) (fun k r => complexLikelihood_nonneg _ _ _) (fun k => C103_complex_density N hN (m k))
    (uniformPriors (Fin M)) c d hcm hd (fun r k => uniform_ge true m r N (by positivity) (fun k => complexLikelihood N (m k) r)
      (fun k => Finset.prod_pos fun j _ => mul_pos (gaussianPDFReal_pos _ _ _ h2) (gaussianPDFReal_pos _ _ _ h2))
      (fun i => C88_bayes_complex m r N hN _ (fun k => by rw [uniformPriors]; positivity) i) _ (hc2 r) k)
  simp only [map_measureReal_apply (measurable_transmitComplex _ _) (hd _), map_measureReal_apply (measurable_transmitComplex _ _) (hcm _), uniformPriors, Fintype.card_fin] at h
  simp only [hc1, Option.some_inj]
  exact h

/-- The hypotheses can be met: four-level PAM, noise power one half, and a rule that always answers the first point. -/
example : (0 < 4) ∧ ((1 / 2 : NNReal) ≠ 0) ∧ ∀ i, MeasurableSet {r : Fin 1 → ℝ | (fun _ => (0 : Fin 4)) r = i} := by
  refine ⟨by norm_num, by norm_num, fun i => ?_⟩
  by_cases h : (0 : Fin 4) = i <;> simp [h]
end Komm
