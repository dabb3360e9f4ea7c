import Mathlib.Analysis.SpecialFunctions.Exp
import Mathlib.Analysis.SpecialFunctions.Exponential
import Mathlib.Analysis.SpecialFunctions.ExpDeriv
import Mathlib.MeasureTheory.Integral.IntegralEqImproper
import Mathlib.MeasureTheory.Integral.DominatedConvergence
import Mathlib.Topology.Algebra.InfiniteSum.Real
/-! The Marcum Q-function as an integral, as a mixture of Poisson tails and as the series that the code sums. -/
namespace Komm
open MeasureTheory Set Filter Topology

/-- Poisson probabilities. -/
noncomputable def pois (b : ℝ) (j : ℕ) : ℝ := Real.exp (-b) * b ^ j / j.factorial

theorem pois_nonneg {b : ℝ} (hb : 0 ≤ b) (j : ℕ) : 0 ≤ pois b j := by unfold pois; positivity

theorem hasSum_exp' (b : ℝ) : HasSum (fun j : ℕ => b ^ j / (j.factorial : ℝ)) (Real.exp b) := by
  rw [Real.exp_eq_exp_ℝ]; exact NormedSpace.expSeries_div_hasSum_exp b

theorem hasSum_pois (b : ℝ) : HasSum (pois b) 1 := by
  have h := (hasSum_exp' b).mul_left (Real.exp (-b))
  rw [← Real.exp_add, neg_add_cancel, Real.exp_zero] at h
  have e : pois b = fun j => Real.exp (-b) * (b ^ j / j.factorial) := by funext j; rw [pois, mul_div_assoc]
  rwa [e]

/-- Modified Bessel function of the first kind of integer order. -/
noncomputable def besselI (n : ℕ) (t : ℝ) : ℝ := ∑' k : ℕ, (t / 2) ^ (2 * k + n) / (k.factorial * (k + n).factorial)

/-- The documented integral (`a > 0`). -/
noncomputable def marcumIntegral (m : ℕ) (a x : ℝ) : ℝ :=
  1 / a ^ (m - 1) * ∫ u in Ioi x, u ^ m * Real.exp (-(u ^ 2 + a ^ 2) / 2) * besselI (m - 1) (a * u)

/-- Poisson mixture of Poisson tails. -/
noncomputable def marcumMix (m : ℕ) (l b : ℝ) : ℝ := ∑' k, pois l k * ∑ j ∈ Finset.range (k + m), pois b j

theorem erlang_deriv (n : ℕ) (u : ℝ) :
    HasDerivAt (fun u : ℝ => -∑ j ∈ Finset.range (n + 1), pois (u ^ 2 / 2) j) (u * pois (u ^ 2 / 2) n) u := by
  have hv : HasDerivAt (fun u : ℝ => u ^ 2 / 2) u u := by
    have := (hasDerivAt_pow 2 u).div_const 2
    simpa using this
  have hp : ∀ j : ℕ, HasDerivAt (fun u : ℝ => pois (u ^ 2 / 2) j)
      (u * ((if j = 0 then 0 else pois (u ^ 2 / 2) (j - 1)) - pois (u ^ 2 / 2) j)) u := by
    intro j
    have he : HasDerivAt (fun u : ℝ => Real.exp (-(u ^ 2 / 2))) (Real.exp (-(u ^ 2 / 2)) * -u) u := hv.neg.exp
    have := (he.mul (hv.pow j)).div_const (j.factorial : ℝ)
    refine this.congr_deriv ?_
    cases j with
    | zero => simp [pois]; ring
    | succ j =>
      simp only [pois, Nat.factorial_succ, Nat.add_sub_cancel, Nat.succ_ne_zero, if_false]
      push_cast
      have : (j.factorial : ℝ) ≠ 0 := by positivity
      have : (j : ℝ) + 1 ≠ 0 := by positivity
      simp only [Pi.pow_apply]
      field_simp
      ring
  have hs := (HasDerivAt.fun_sum (u := Finset.range (n + 1)) fun j _ => hp j).neg
  refine hs.congr_deriv ?_
  rw [← Finset.mul_sum, ← mul_neg]
  congr 1
  clear hs
  induction n with
  | zero => simp
  | succ n ih => rw [Finset.sum_range_succ, neg_add, ih]; simp

theorem pois_tendsto (j : ℕ) : Tendsto (fun u : ℝ => pois (u ^ 2 / 2) j) atTop (𝓝 0) := by
  have h2 : Tendsto (fun u : ℝ => u ^ 2 / 2) atTop atTop := (tendsto_pow_atTop two_ne_zero).atTop_div_const (by norm_num)
  have := ((Real.tendsto_pow_mul_exp_neg_atTop_nhds_zero j).comp h2).div_const (j.factorial : ℝ)
  rw [zero_div] at this
  refine this.congr fun u => ?_
  simp only [pois, Function.comp]
  ring

theorem erlang_tendsto (n : ℕ) : Tendsto (fun u : ℝ => -∑ j ∈ Finset.range (n + 1), pois (u ^ 2 / 2) j) atTop (𝓝 0) := by
  have := (tendsto_finset_sum (Finset.range (n + 1)) fun j _ => pois_tendsto j).neg
  simpa using this

theorem erlang_integrable (n : ℕ) (x : ℝ) (hx : 0 ≤ x) : IntegrableOn (fun u => u * pois (u ^ 2 / 2) n) (Ioi x) :=
  integrableOn_Ioi_deriv_of_nonneg' (fun u _ => erlang_deriv n u) (fun u hu => mul_nonneg (hx.trans (le_of_lt hu)) (pois_nonneg (by positivity) _)) (erlang_tendsto n)

theorem erlang_integral (n : ℕ) (x : ℝ) (hx : 0 ≤ x) : ∫ u in Ioi x, u * pois (u ^ 2 / 2) n = ∑ j ∈ Finset.range (n + 1), pois (x ^ 2 / 2) j := by
  rw [integral_Ioi_of_hasDerivAt_of_nonneg' (fun u _ => erlang_deriv n u) (fun u hu => mul_nonneg (hx.trans (le_of_lt hu)) (pois_nonneg (by positivity) _)) (erlang_tendsto n)]
  ring

theorem sum_pois_le {b : ℝ} (hb : 0 ≤ b) (s : Finset ℕ) : ∑ j ∈ s, pois b j ≤ 1 := by
  have := (hasSum_pois b).summable.sum_le_tsum s (fun j _ => pois_nonneg hb j)
  rwa [(hasSum_pois b).tsum_eq] at this

theorem mix_summable (m : ℕ) {l b : ℝ} (hl : 0 ≤ l) (hb : 0 ≤ b) : Summable fun k => pois l k * ∑ j ∈ Finset.range (k + m), pois b j := by
  refine Summable.of_nonneg_of_le (fun k => mul_nonneg (pois_nonneg hl k) (Finset.sum_nonneg fun j _ => pois_nonneg hb j)) (fun k => ?_) (hasSum_pois l).summable
  exact mul_le_of_le_one_right (pois_nonneg hl k) (sum_pois_le hb _)

theorem marcum_integral_eq (m : ℕ) (hm : 0 < m) (a x : ℝ) (ha : 0 < a) (hx : 0 ≤ x) : marcumIntegral m a x = marcumMix m (a ^ 2 / 2) (x ^ 2 / 2) := by
  obtain ⟨n, rfl⟩ : ∃ n, m = n + 1 := ⟨m - 1, by omega⟩
  rw [marcumIntegral, Nat.add_sub_cancel, ← integral_const_mul]
  set F : ℕ → ℝ → ℝ := fun k u => pois (a ^ 2 / 2) k * (u * pois (u ^ 2 / 2) (k + n)) with hF
  have hl : 0 ≤ a ^ 2 / 2 := by positivity
  have hb : 0 ≤ x ^ 2 / 2 := by positivity
  have hpt : ∀ u : ℝ, 1 / a ^ n * (u ^ (n + 1) * Real.exp (-(u ^ 2 + a ^ 2) / 2) * besselI n (a * u)) = ∑' k, F k u := by
    intro u
    rw [besselI, ← tsum_mul_left, ← tsum_mul_left]
    refine tsum_congr fun k => ?_
    simp only [hF, pois]
    rw [show -(u ^ 2 + a ^ 2) / 2 = -(a ^ 2 / 2) + -(u ^ 2 / 2) by ring, Real.exp_add]
    have h1 : (k.factorial : ℝ) ≠ 0 := by positivity
    have h2 : ((k + n).factorial : ℝ) ≠ 0 := by positivity
    have h3 : a ≠ 0 := ha.ne'
    rw [div_pow, div_pow, div_pow, mul_pow, ← pow_mul, ← pow_mul]
    field_simp
    ring
  simp only [hpt]
  have hi : ∀ k, Integrable (F k) (volume.restrict (Ioi x)) := fun k => (erlang_integrable (k + n) x hx).const_mul _
  have hval : ∀ k, ∫ u in Ioi x, F k u = pois (a ^ 2 / 2) k * ∑ j ∈ Finset.range (k + (n + 1)), pois (x ^ 2 / 2) j := fun k => by
    simp only [hF]
    rw [integral_const_mul, erlang_integral _ x hx]
    rfl
  have hnorm : ∀ k, ∫ u in Ioi x, ‖F k u‖ = ∫ u in Ioi x, F k u := fun k => by
    refine setIntegral_congr_fun measurableSet_Ioi fun u hu => ?_
    simp only [Real.norm_eq_abs, hF]
    exact abs_of_nonneg (mul_nonneg (pois_nonneg hl k) (mul_nonneg (hx.trans (le_of_lt hu)) (pois_nonneg (by positivity) _)))
  have := (hasSum_integral_of_summable_integral_norm hi (by simp only [hnorm, hval]; exact mix_summable (n + 1) hl hb)).tsum_eq
  rw [← this, marcumMix]
  exact tsum_congr hval

/-- The summand of the code, written with Poisson probabilities; for `i < m` the factor is one. -/
noncomputable def marcumTerm (m : ℕ) (l b : ℝ) (i : ℕ) : ℝ := pois b i * (1 - ∑ k ∈ Finset.range (i + 1 - m), pois l k)

theorem marcumTerm_nonneg (m : ℕ) {l b : ℝ} (hl : 0 ≤ l) (hb : 0 ≤ b) (i : ℕ) : 0 ≤ marcumTerm m l b i :=
  mul_nonneg (pois_nonneg hb i) (sub_nonneg.mpr (sum_pois_le hl _))

theorem marcumTerm_le (m : ℕ) {l b : ℝ} (hl : 0 ≤ l) (hb : 0 ≤ b) (i : ℕ) : marcumTerm m l b i ≤ pois b i :=
  mul_le_of_le_one_right (pois_nonneg hb i) (sub_le_self _ (Finset.sum_nonneg fun k _ => pois_nonneg hl k))

theorem tail_pois (l : ℝ) (c : ℕ) : ∑' k, (if k < c then 0 else pois l k) = 1 - ∑ k ∈ Finset.range c, pois l k := by
  have h := (hasSum_pois l).summable
  have e : ∀ k, (if k < c then 0 else pois l k) = pois l k - (if k < c then pois l k else 0) := fun k => by split <;> simp
  have hs : HasSum (fun k => if k < c then pois l k else 0) (∑ k ∈ Finset.range c, pois l k) := by
    have := hasSum_sum_of_ne_finset_zero (f := fun k => if k < c then pois l k else 0) (s := Finset.range c) (L := SummationFilter.unconditional ℕ) (fun k hk => if_neg (by simpa using hk))
    convert! this using 1
    exact Finset.sum_congr rfl fun k hk => (if_pos (Finset.mem_range.mp hk)).symm
  simp only [e]
  exact ((hasSum_pois l).sub hs).tsum_eq

theorem marcum_series (m : ℕ) {l b : ℝ} (hl : 0 ≤ l) (hb : 0 ≤ b) : HasSum (marcumTerm m l b) (marcumMix m l b) := by
  set F : ℕ → ℕ → ℝ := fun k j => if j < k + m then pois l k * pois b j else 0 with hF
  have h0 : Summable (Function.uncurry fun k j => pois l k * pois b j) :=
    (hasSum_pois l).summable.mul_of_nonneg (hasSum_pois b).summable (pois_nonneg hl) (pois_nonneg hb)
  have hsum : Summable (Function.uncurry F) := by
    refine Summable.of_nonneg_of_le (fun p => ?_) (fun p => ?_) h0
    · simp only [hF, Function.uncurry]; split
      · exact mul_nonneg (pois_nonneg hl _) (pois_nonneg hb _)
      · exact le_rfl
    · simp only [hF, Function.uncurry]; split
      · exact le_rfl
      · exact mul_nonneg (pois_nonneg hl _) (pois_nonneg hb _)
  have hk : ∀ k, ∑' j, F k j = pois l k * ∑ j ∈ Finset.range (k + m), pois b j := by
    intro k
    rw [tsum_eq_sum (s := Finset.range (k + m)) (fun j hj => if_neg (by simpa using hj)), Finset.mul_sum]
    exact Finset.sum_congr rfl fun j hj => if_pos (Finset.mem_range.mp hj)
  have hj : ∀ j, ∑' k, F k j = marcumTerm m l b j := by
    intro j
    have e : ∀ k, F k j = pois b j * (if k < j + 1 - m then 0 else pois l k) := fun k => by
      simp only [hF]
      by_cases h : j < k + m
      · rw [if_pos h, if_neg (by omega), mul_comm]
      · rw [if_neg h, if_pos (by omega), mul_zero]
    simp only [e]
    rw [tsum_mul_left, tail_pois, marcumTerm]
  have hs : Summable (marcumTerm m l b) :=
    Summable.of_nonneg_of_le (marcumTerm_nonneg m hl hb) (marcumTerm_le m hl hb) (hasSum_pois b).summable
  have hc := Summable.tsum_comm hsum
  rw [marcumMix]
  simp only [← hk]
  rw [← hc]
  simp only [hj]
  exact hs.hasSum

/-- Chernoff bound. -/
theorem marcumMix_ge (m : ℕ) {l b : ℝ} (hl : 0 ≤ l) (hb : 0 ≤ b) : 1 - Real.exp (b - l / 2) ≤ marcumMix m l b := by
  have h1 : ∀ k, pois l k * (1 - ∑ j ∈ Finset.range (k + m), pois b j) ≤ pois l k * ((1 / 2) ^ k * Real.exp b) := by
    intro k
    refine mul_le_mul_of_nonneg_left ?_ (pois_nonneg hl k)
    rw [← tail_pois]
    have hs : HasSum (fun j => (1 / 2 : ℝ) ^ k * (2 ^ j * pois b j)) ((1 / 2) ^ k * Real.exp b) := by
      refine HasSum.mul_left _ ?_
      have := (hasSum_exp' (2 * b)).mul_left (Real.exp (-b))
      rw [← Real.exp_add, show -b + 2 * b = b by ring] at this
      refine this.congr_fun ?_ |> fun h => h
      intro j
      rw [pois, mul_pow]; ring
    rw [← hs.tsum_eq]
    refine Summable.tsum_le_tsum (fun j => ?_) ?_ hs.summable
    · have hj := pois_nonneg hb j
      split
      · positivity
      · rename_i h
        have : (1 : ℝ) ≤ (1 / 2) ^ k * 2 ^ j := by
          rw [one_div, inv_pow, ← div_eq_inv_mul, le_div_iff₀ (by positivity), one_mul]
          exact pow_le_pow_right₀ (by norm_num) (by omega)
        calc pois b j = 1 * pois b j := (one_mul _).symm
          _ ≤ (1 / 2) ^ k * 2 ^ j * pois b j := mul_le_mul_of_nonneg_right this hj
          _ = _ := by ring
    · refine Summable.of_nonneg_of_le (fun j => ?_) (fun j => ?_) (hasSum_pois b).summable
      · split
        · exact le_rfl
        · exact pois_nonneg hb j
      · split
        · exact pois_nonneg hb j
        · exact le_rfl
  have hm := mix_summable m hl hb
  have hR : HasSum (fun k => pois l k * ((1 / 2) ^ k * Real.exp b)) (Real.exp (b - l / 2)) := by
    have := (hasSum_exp' (l / 2)).mul_left (Real.exp (-l) * Real.exp b)
    rw [← Real.exp_add, ← Real.exp_add, show -l + b + l / 2 = b - l / 2 by ring] at this
    refine this.congr_fun ?_ |> fun h => h
    intro k
    rw [pois, Real.exp_add, div_pow, div_pow]; ring
  have hL : HasSum (fun k => pois l k * (1 - ∑ j ∈ Finset.range (k + m), pois b j)) (1 - marcumMix m l b) := by
    have := (hasSum_pois l).sub hm.hasSum
    simp only [mul_sub, mul_one]; exact this
  have := hasSum_le h1 hL hR
  linarith
end Komm
