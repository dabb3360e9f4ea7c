import Mathlib.MeasureTheory.Integral.Pi
import Mathlib.MeasureTheory.Measure.WithDensity
import Mathlib.MeasureTheory.Integral.Bochner.ContinuousLinearMap
import Mathlib.MeasureTheory.Integral.Bochner.Set
/-! Densities of product measures, and Bayes' rule for a finite family of densities. -/
namespace Komm
open MeasureTheory

theorem pi_withDensity {ι : Type} [Fintype ι] {α : ι → Type} [∀ i, MeasurableSpace (α i)] (μ : ∀ i, Measure (α i)) [∀ i, SigmaFinite (μ i)]
    (g : ∀ i, α i → ℝ) (hg : ∀ i x, 0 ≤ g i x) (hi : ∀ i, Integrable (g i) (μ i)) [∀ i, SigmaFinite ((μ i).withDensity fun x => ENNReal.ofReal (g i x))] :
    Measure.pi (fun i => (μ i).withDensity fun x => ENNReal.ofReal (g i x)) = (Measure.pi μ).withDensity fun x => ENNReal.ofReal (∏ i, g i (x i)) := by
  refine Measure.pi_eq fun s hs => ?_
  rw [withDensity_apply _ (MeasurableSet.univ_pi hs), Measure.restrict_pi_pi, ← ofReal_integral_eq_lintegral_ofReal,
    integral_fintype_prod_eq_prod, ENNReal.ofReal_prod_of_nonneg]
  · refine Finset.prod_congr rfl fun i _ => ?_
    rw [withDensity_apply _ (hs i), ofReal_integral_eq_lintegral_ofReal]
    · exact (hi i).restrict
    · exact Filter.Eventually.of_forall (hg i)
  · exact fun i _ => integral_nonneg (hg i)
  · exact Integrable.fintype_prod_dep fun i => (hi i).restrict
  · exact Filter.Eventually.of_forall fun x => Finset.prod_nonneg fun i _ => hg i _

section
variable {R : Type} [MeasurableSpace R] {M : Nat} (μ : Measure R) (P : Fin M → Measure R) [∀ k, IsProbabilityMeasure (P k)] (l : Fin M → R → ℝ)

theorem density_integrable (k : Fin M) (hm : Measurable (l k)) (h0 : ∀ r, 0 ≤ l k r) (hP : P k = μ.withDensity fun r => ENNReal.ofReal (l k r)) :
    Integrable (l k) μ := by
  refine ⟨hm.aestronglyMeasurable, ?_⟩
  rw [hasFiniteIntegral_iff_ofReal (Filter.Eventually.of_forall h0)]
  have : P k Set.univ = ∫⁻ r, ENNReal.ofReal (l k r) ∂μ := by rw [hP, withDensity_apply _ MeasurableSet.univ, Measure.restrict_univ]
  rw [← this, measure_univ]; exact ENNReal.one_lt_top

theorem density_real (k : Fin M) (hm : Measurable (l k)) (h0 : ∀ r, 0 ≤ l k r) (hP : P k = μ.withDensity fun r => ENNReal.ofReal (l k r)) (A : Set R) (hA : MeasurableSet A) :
    (P k).real A = ∫ r in A, l k r ∂μ := by
  rw [measureReal_def, hP, withDensity_apply _ hA, ← ofReal_integral_eq_lintegral_ofReal, ENNReal.toReal_ofReal]
  · exact integral_nonneg h0
  · exact (density_integrable μ P l k hm h0 hP).restrict
  · exact Filter.Eventually.of_forall h0

theorem density_integral (k : Fin M) (hm : Measurable (l k)) (h0 : ∀ r, 0 ≤ l k r) (hP : P k = μ.withDensity fun r => ENNReal.ofReal (l k r)) (A : Set R) (hA : MeasurableSet A)
    (g : R → ℝ) : ∫ r in A, g r ∂P k = ∫ r in A, l k r * g r ∂μ := by
  rw [hP, setIntegral_withDensity_eq_setIntegral_toReal_smul₀ hm.ennreal_ofReal.aemeasurable]
  · refine integral_congr_ae (Filter.Eventually.of_forall fun r => ?_)
    simp only [smul_eq_mul, ENNReal.toReal_ofReal (h0 r)]
  · exact Filter.Eventually.of_forall fun r => ENNReal.ofReal_lt_top
  · exact hA

/-- Bayes' rule: `q i l i / ∑ q k l k` is the conditional probability of `i` given the observation. -/
theorem bayes_gen (hm : ∀ k, Measurable (l k)) (h0 : ∀ k r, 0 ≤ l k r) (hP : ∀ k, P k = μ.withDensity fun r => ENNReal.ofReal (l k r))
    (q : Fin M → ℝ) (hq : ∀ k, 0 ≤ q k) (i : Fin M) (A : Set R) (hA : MeasurableSet A) :
    ∑ k, q k * ∫ r in A, q i * l i r / (∑ k, q k * l k r) ∂P k = q i * (P i).real A := by
  have hn : ∀ r k, 0 ≤ q k * l k r := fun r k => mul_nonneg (hq k) (h0 k r)
  have hS : ∀ r, 0 ≤ ∑ k, q k * l k r := fun r => Finset.sum_nonneg fun k _ => hn r k
  have hle : ∀ r k, q k * l k r ≤ ∑ k, q k * l k r := fun r k => Finset.single_le_sum (f := fun k => q k * l k r) (fun k _ => hn r k) (Finset.mem_univ k)
  have hpost : ∀ r, 0 ≤ q i * l i r / (∑ k, q k * l k r) ∧ q i * l i r / (∑ k, q k * l k r) ≤ 1 := fun r =>
    ⟨div_nonneg (hn r i) (hS r), div_le_one_of_le₀ (hle r i) (hS r)⟩
  have hmp : Measurable fun r => q i * l i r / (∑ k, q k * l k r) :=
    ((hm i).const_mul _).div (Finset.measurable_sum _ fun k _ => (hm k).const_mul _)
  have hint : ∀ k, Integrable (fun r => q k * (l k r * (q i * l i r / (∑ k, q k * l k r)))) (μ.restrict A) := by
    intro k
    refine Integrable.const_mul ?_ _
    refine Integrable.mono' ((density_integrable μ P l k (hm k) (h0 k) (hP k)).restrict) ((hm k).mul hmp).aestronglyMeasurable ?_
    refine Filter.Eventually.of_forall fun r => ?_
    rw [Real.norm_of_nonneg (mul_nonneg (h0 k r) (hpost r).1)]
    exact mul_le_of_le_one_right (h0 k r) (hpost r).2
  have h1 : ∀ k, q k * ∫ r in A, q i * l i r / (∑ k, q k * l k r) ∂P k = ∫ r in A, q k * (l k r * (q i * l i r / (∑ k, q k * l k r))) ∂μ := by
    intro k
    rw [density_integral μ P l k (hm k) (h0 k) (hP k) A hA, integral_const_mul]
  simp only [h1]
  rw [← integral_finset_sum _ (fun k _ => hint k), density_real μ P l i (hm i) (h0 i) (hP i) A hA, ← integral_const_mul]
  refine integral_congr_ae (Filter.Eventually.of_forall fun r => ?_)
  have e : ∑ k, q k * (l k r * (q i * l i r / (∑ k, q k * l k r))) = (∑ k, q k * l k r) * (q i * l i r / (∑ k, q k * l k r)) := by
    rw [Finset.sum_mul]; exact Finset.sum_congr rfl fun k _ => by ring
  simp only [e]
  by_cases hz : (∑ k, q k * l k r) = 0
  · rw [hz, zero_mul]
    have := hle r i
    rw [hz] at this
    exact le_antisymm (hn r i) this
  · field_simp

/-- The probability that the decision rule `d` finds the transmitted index is an integral of `q (d r) l (d r) r`. -/
theorem correct_eq (hm : ∀ k, Measurable (l k)) (h0 : ∀ k r, 0 ≤ l k r) (hP : ∀ k, P k = μ.withDensity fun r => ENNReal.ofReal (l k r))
    (q : Fin M → ℝ) (d : R → Fin M) (hd : ∀ i, MeasurableSet {r | d r = i}) :
    Integrable (fun r => q (d r) * l (d r) r) μ ∧ ∑ i, q i * (P i).real {r | d r = i} = ∫ r, q (d r) * l (d r) r ∂μ := by
  have hf : (fun r => q (d r) * l (d r) r) = fun r => ∑ i, Set.indicator {r | d r = i} (fun r => q i * l i r) r := by
    funext r
    rw [Finset.sum_eq_single (d r)]
    · simp
    · intro i _ hi; exact Set.indicator_of_notMem (by simpa using fun h => hi h.symm) _
    · simp
  have hi : ∀ i, Integrable (Set.indicator {r | d r = i} (fun r => q i * l i r)) μ := fun i =>
    ((density_integrable μ P l i (hm i) (h0 i) (hP i)).const_mul _).indicator (hd i)
  refine ⟨hf ▸ integrable_finset_sum _ fun i _ => hi i, ?_⟩
  rw [hf, integral_finset_sum _ fun i _ => hi i]
  refine Finset.sum_congr rfl fun i _ => ?_
  rw [integral_indicator (hd i), integral_const_mul, density_real μ P l i (hm i) (h0 i) (hP i) _ (hd i)]

/-- A maximum a posteriori rule has the greatest probability of a correct decision among all rules. -/
theorem map_optimal (hm : ∀ k, Measurable (l k)) (h0 : ∀ k r, 0 ≤ l k r) (hP : ∀ k, P k = μ.withDensity fun r => ENNReal.ofReal (l k r))
    (q : Fin M → ℝ) (d d' : R → Fin M) (hd : ∀ i, MeasurableSet {r | d r = i}) (hd' : ∀ i, MeasurableSet {r | d' r = i})
    (h : ∀ r k, q k * l k r ≤ q (d r) * l (d r) r) :
    ∑ i, q i * (P i).real {r | d' r = i} ≤ ∑ i, q i * (P i).real {r | d r = i} := by
  obtain ⟨i1, e1⟩ := correct_eq μ P l hm h0 hP q d hd
  obtain ⟨i2, e2⟩ := correct_eq μ P l hm h0 hP q d' hd'
  rw [e1, e2]
  exact integral_mono i2 i1 fun r => h r _
end
end Komm
