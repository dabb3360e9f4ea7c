import Verif.Props.C81_LloydMax
import Verif.Model.QuantizerError
import Mathlib.Algebra.BigOperators.Ring.Finset
import Mathlib.Algebra.Order.BigOperators.Group.Finset
import Mathlib.MeasureTheory.Integral.IntervalIntegral.Basic
import Mathlib.Topology.UniformSpace.HeineCantor
import Mathlib.Analysis.SpecialFunctions.Integrals.Basic
/-! The trapezoidal rule of `np.trapezoid` on `np.linspace` grids. -/
namespace Komm
section
variable {K : Type} [Field K] [LinearOrder K] [IsStrictOrderedRing K]

theorem map_getD_linspace (a b : K) (pts : Nat) (f : K → K) (i : Nat) (hi : i < pts) :
    ((linspace a b pts).map f).getD i 0 = f ((linspace a b pts).getD i 0) := by
  have hl : i < (linspace a b pts).length := by rw [linspace_length]; exact hi
  rw [List.getD_eq_getElem?_getD, List.getElem?_map, List.getD_eq_getElem?_getD, List.getElem?_eq_getElem hl]; rfl

/-- The rule as a functional of the integrand. -/
def trapF (a b : K) (pts : Nat) (f : K → K) : K := trapezoid ((linspace a b pts).map f) (linspace a b pts)

theorem trapF_eq (a b : K) (pts : Nat) (f : K → K) :
    trapF a b pts f = ∑ i ∈ Finset.range (pts - 1), ((linspace a b pts).getD (i + 1) 0 - (linspace a b pts).getD i 0) *
      (f ((linspace a b pts).getD (i + 1) 0) + f ((linspace a b pts).getD i 0)) / 2 := by
  rw [trapF, trapezoid, linspace_length, Finset.sum_range, ← List.sum_ofFn, List.ofFn_eq_map, ← List.map_coe_finRange_eq_range,
    List.map_map]
  congr 1
  apply List.map_congr_left
  intro i _
  have := i.2
  simp only [Function.comp]
  rw [map_getD_linspace _ _ _ _ _ (by omega), map_getD_linspace _ _ _ _ _ (by omega)]

theorem trapF_add (a b : K) (pts : Nat) (f g : K → K) : trapF a b pts (fun v => f v + g v) = trapF a b pts f + trapF a b pts g := by
  simp only [trapF_eq]
  rw [← Finset.sum_add_distrib]
  exact Finset.sum_congr rfl fun i _ => by ring

theorem trapF_smul (a b : K) (pts : Nat) (c : K) (f : K → K) : trapF a b pts (fun v => c * f v) = c * trapF a b pts f := by
  simp only [trapF_eq]
  rw [Finset.mul_sum]
  exact Finset.sum_congr rfl fun i _ => by ring

theorem trapF_mono {a b : K} (hab : a ≤ b) (pts : Nat) {f g : K → K} (h : ∀ v, a ≤ v → v ≤ b → f v ≤ g v) :
    trapF a b pts f ≤ trapF a b pts g := by
  simp only [trapF_eq]
  refine Finset.sum_le_sum fun i hi => ?_
  rw [Finset.mem_range] at hi
  have hs := linspace_step a b hab pts i (by omega)
  have m1 := linspace_mem a b hab pts i (by omega)
  have m2 := linspace_mem a b hab pts (i + 1) (by omega)
  have h1 := h _ m1.1 m1.2
  have h2 := h _ m2.1 m2.2
  have := mul_le_mul_of_nonneg_left (add_le_add h2 h1) (sub_nonneg.mpr hs)
  linarith

theorem trapF_zero (a b : K) (pts : Nat) : trapF a b pts (fun _ => 0) = 0 := by
  rw [trapF_eq]; simp

theorem trapF_sq (a b : K) (pts : Nat) (y : K) (p : K → K) :
    trapF a b pts (fun v => (y - v) ^ 2 * p v) =
      y ^ 2 * trapF a b pts p - 2 * y * trapF a b pts (fun v => v * p v) + trapF a b pts (fun v => v ^ 2 * p v) := by
  rw [← trapF_smul, sub_eq_add_neg, ← neg_mul, ← trapF_smul, ← trapF_add, ← trapF_add]
  congr 1; funext v; ring

/-- The centroid computed by the rule minimises the squared error computed by the rule. -/
theorem lloydLevel_min (pdf : K → K) (hpdf : ∀ x, 0 ≤ pdf x) (pts : Nat) {a b : K} (hab : a ≤ b) (old y : K) :
    trapF a b pts (fun v => (lloydLevel pdf pts a b old - v) ^ 2 * pdf v) ≤ trapF a b pts (fun v => (y - v) ^ 2 * pdf v) := by
  have h0 : 0 ≤ trapF a b pts pdf := by rw [← trapF_zero a b pts]; exact trapF_mono hab pts fun v _ _ => hpdf v
  have hlo : a * trapF a b pts pdf ≤ trapF a b pts (fun v => v * pdf v) := by
    rw [← trapF_smul]; exact trapF_mono hab pts fun v h _ => mul_le_mul_of_nonneg_right h (hpdf v)
  have hhi : trapF a b pts (fun v => v * pdf v) ≤ b * trapF a b pts pdf := by
    rw [← trapF_smul]; exact trapF_mono hab pts fun v _ h => mul_le_mul_of_nonneg_right h (hpdf v)
  rw [trapF_sq, trapF_sq]
  have hc : lloydLevel pdf pts a b old = if trapF a b pts pdf ≠ 0 then trapF a b pts (fun v => v * pdf v) / trapF a b pts pdf else old := rfl
  rcases h0.eq_or_lt with h | h
  · rw [← h] at hlo hhi ⊢
    have : trapF a b pts (fun v => v * pdf v) = 0 := le_antisymm (by linarith) (by linarith)
    rw [this]; linarith
  · rw [hc, if_pos h.ne']
    generalize trapF a b pts (fun v => v * pdf v) = m at *
    generalize trapF a b pts pdf = T at *
    have e : y ^ 2 * T - 2 * y * m - ((m / T) ^ 2 * T - 2 * (m / T) * m) = T * (y - m / T) ^ 2 := by field_simp; ring
    have := mul_nonneg h.le (sq_nonneg (y - m / T))
    linarith

theorem mse_eq (levels thresholds : List K) (pdf : K → K) (xmin xmax : K) (pts : Nat) :
    meanSquaredError levels thresholds pdf xmin xmax pts = ∑ i ∈ Finset.range levels.length,
      trapF ((xmin :: thresholds ++ [xmax]).getD i 0) ((xmin :: thresholds ++ [xmax]).getD (i + 1) 0) pts
        fun v => (levels.getD i 0 - v) ^ 2 * pdf v := by
  rw [meanSquaredError, Finset.sum_range, ← List.sum_ofFn, List.ofFn_eq_map, ← List.map_coe_finRange_eq_range, List.map_map]
  rfl

end

open MeasureTheory Filter Topology

/-- On a uniform grid of `n + 2` points. -/
theorem trapF_uniform (a b : ℝ) (n : Nat) (f : ℝ → ℝ) :
    trapF a b (n + 2) f = ∑ i ∈ Finset.range (n + 1), ((b - a) / (n + 1)) *
      (f (a + ((i + 1 : Nat) : ℝ) * ((b - a) / (n + 1))) + f (a + (i : ℝ) * ((b - a) / (n + 1)))) / 2 := by
  rw [trapF_eq]
  refine Finset.sum_congr rfl fun i hi => ?_
  rw [Finset.mem_range] at hi
  have e : ((n + 2 : Nat) : ℝ) - 1 = n + 1 := by push_cast; ring
  rw [linspace_getD _ _ _ _ (by omega), linspace_getD _ _ _ _ (by omega), if_neg (by omega), if_neg (by omega), e]
  push_cast
  ring

/-- The rule converges for continuous integrands. -/
theorem trapF_tendsto {a b : ℝ} (hab : a ≤ b) (f : ℝ → ℝ) (hf : ContinuousOn f (Set.Icc a b)) :
    Tendsto (fun pts => trapF a b pts f) atTop (𝓝 (∫ x in a..b, f x)) := by
  have huc := isCompact_Icc.uniformContinuousOn_of_continuous hf
  rw [Metric.uniformContinuousOn_iff] at huc
  rw [Metric.tendsto_atTop]
  intro ε hε
  have hba : 0 ≤ b - a := by linarith
  obtain ⟨δ, hδ, hclose⟩ := huc (ε / (b - a + 1)) (by positivity)
  obtain ⟨N, hN⟩ := exists_nat_gt ((b - a) / δ)
  refine ⟨N + 2, fun pts hpts => ?_⟩
  obtain ⟨n, rfl⟩ : ∃ n, pts = n + 2 := ⟨pts - 2, by omega⟩
  have hnN : (N : ℝ) ≤ n := by exact_mod_cast (by omega : N ≤ n)
  set h := (b - a) / (n + 1 : ℝ) with hh
  have hn1 : (0 : ℝ) < n + 1 := by positivity
  have hh0 : 0 ≤ h := by positivity
  have hhδ : h < δ := by
    rw [hh, div_lt_iff₀ hn1]
    rw [div_lt_iff₀ hδ] at hN
    nlinarith
  have hend : ((n + 1 : Nat) : ℝ) * h = b - a := by rw [hh]; push_cast; field_simp
  have hmem : ∀ i : Nat, i ≤ n + 1 → a + (i : ℝ) * h ∈ Set.Icc a b := by
    intro i hi
    have : (i : ℝ) * h ≤ ((n + 1 : Nat) : ℝ) * h := mul_le_mul_of_nonneg_right (by exact_mod_cast hi) hh0
    have h2 : 0 ≤ (i : ℝ) * h := by positivity
    exact ⟨by linarith, by linarith⟩
  have hsub : ∀ i : Nat, i < n + 1 → Set.uIcc (a + (i : ℝ) * h) (a + ((i + 1 : Nat) : ℝ) * h) ⊆ Set.Icc a b := by
    intro i hi
    rw [Set.uIcc_of_le (by push_cast; nlinarith)]
    exact Set.Icc_subset_Icc (hmem i (by omega)).1 (hmem (i + 1) (by omega)).2
  have hint : ∀ i : Nat, i < n + 1 → IntervalIntegrable f volume (a + (i : ℝ) * h) (a + ((i + 1 : Nat) : ℝ) * h) := fun i hi =>
    (hf.mono (hsub i hi)).intervalIntegrable
  have hsum := intervalIntegral.sum_integral_adjacent_intervals (a := fun i : Nat => a + (i : ℝ) * h) (n := n + 1) (f := f) (μ := volume)
    hint
  rw [hend, Nat.cast_zero, zero_mul, add_zero, add_sub_cancel] at hsum
  rw [trapF_uniform, ← hsum, Real.dist_eq, ← Finset.sum_sub_distrib]
  have hbound : ∀ i ∈ Finset.range (n + 1), |h * (f (a + ((i + 1 : Nat) : ℝ) * h) + f (a + (i : ℝ) * h)) / 2 -
      ∫ x in (a + (i : ℝ) * h)..(a + ((i + 1 : Nat) : ℝ) * h), f x| ≤ ε / (b - a + 1) * h := by
    intro i hi
    rw [Finset.mem_range] at hi
    set m := (f (a + ((i + 1 : Nat) : ℝ) * h) + f (a + (i : ℝ) * h)) / 2 with hm
    have e1 : h * (f (a + ((i + 1 : Nat) : ℝ) * h) + f (a + (i : ℝ) * h)) / 2 =
        ∫ _ in (a + (i : ℝ) * h)..(a + ((i + 1 : Nat) : ℝ) * h), m := by
      rw [intervalIntegral.integral_const, smul_eq_mul, hm]; push_cast; ring
    rw [e1, ← intervalIntegral.integral_sub (by simp) (hint i hi)]
    have := intervalIntegral.norm_integral_le_of_norm_le_const (a := a + (i : ℝ) * h) (b := a + ((i + 1 : Nat) : ℝ) * h)
      (f := fun x => m - f x) (C := ε / (b - a + 1)) (by
        intro x hx
        have hx' := hsub i hi (Set.uIoc_subset_uIcc hx)
        rw [Set.uIoc_of_le (by push_cast; nlinarith)] at hx
        have hst : ((i + 1 : Nat) : ℝ) * h = (i : ℝ) * h + h := by push_cast; ring
        have d1 := hclose _ (hmem (i + 1) (by omega)) x hx' (by
          rw [Real.dist_eq, abs_of_nonneg (by linarith [hx.2])]; linarith [hx.1])
        have d2 := hclose _ (hmem i (by omega)) x hx' (by
          rw [Real.dist_eq, abs_of_nonpos (by linarith [hx.1])]; linarith [hx.2])
        rw [Real.dist_eq] at d1 d2
        rw [Real.norm_eq_abs, hm]
        rw [abs_lt] at d1 d2
        rw [abs_le]
        constructor <;> linarith [d1.1, d1.2, d2.1, d2.2])
    rw [Real.norm_eq_abs] at this
    refine this.trans (le_of_eq ?_)
    rw [abs_of_nonneg] <;> push_cast <;> [ring; nlinarith]
  refine lt_of_le_of_lt ((Finset.abs_sum_le_sum_abs _ _).trans (Finset.sum_le_sum hbound)) ?_
  rw [Finset.sum_const, Finset.card_range, nsmul_eq_mul]
  have : ((n + 1 : Nat) : ℝ) * (ε / (b - a + 1) * h) = ε / (b - a + 1) * (b - a) := by rw [← hend]; ring
  rw [this, div_mul_eq_mul_div, div_lt_iff₀ (by positivity)]
  nlinarith

end Komm
