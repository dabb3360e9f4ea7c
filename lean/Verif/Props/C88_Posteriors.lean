import Verif.Props.C75_Decisions
import Mathlib.Probability.Distributions.Gaussian.Real
/-! C88: `posteriors` computes Bayes' rule for the additive white Gaussian noise channel. -/
namespace Komm
open Real Constellation ProbabilityTheory

/-- The density of the received block `r` given that point `s` was sent, when every real coordinate has independent noise of variance `v`. -/
noncomputable def realLikelihood {N : Nat} (v : NNReal) (s r : Fin N → ℝ) : ℝ := ∏ j, gaussianPDFReal (s j) v (r j)

/-- Circularly symmetric complex noise of power `v`: variance `v / 2` in the real part and in the imaginary part, independent. -/
noncomputable def complexLikelihood {N : Nat} (v : NNReal) (s r : Fin N → ℂ) : ℝ :=
  ∏ j, gaussianPDFReal (s j).re (v / 2) (r j).re * gaussianPDFReal (s j).im (v / 2) (r j).im

section
variable {𝕜 : Type} [RCLike 𝕜] {M N : Nat}

/-- The model before normalisation. -/
theorem posteriors_eq (c : Bool) (m : Fin M → Fin N → 𝕜) (r : Fin N → 𝕜) (σ : ℝ) (q : Fin M → ℝ) (hq : ∀ i, 0 ≤ q i) (i : Fin M) :
    posteriors c m r σ q i = q i * exp (- sqDist m r i / (if c then σ else 2 * σ)) / ∑ k, q k * exp (- sqDist m r k / (if c then σ else 2 * σ)) := by
  classical
  unfold posteriors
  set var := if c = true then σ else 2 * σ with hvar
  set L : Fin M → WithBot ℝ := fun i => if q i = 0 then ⊥ else ((- sqDist m r i / var + log (q i) : ℝ) : WithBot ℝ) with hL
  set T : ℝ := (Finset.univ.sup L).unbotD 0 with hT
  have key : ∀ k, @WithBot.recBotCoe ℝ (fun _ => ℝ) 0 (fun x : ℝ => exp (x - T)) (L k) = (q k * exp (- sqDist m r k / var)) * exp (-T) := by
    intro k
    rw [hL]
    by_cases h : q k = 0
    · simp [h]
    · have hp : 0 < q k := lt_of_le_of_ne (hq k) (Ne.symm h)
      simp only [h, if_false, WithBot.recBotCoe_coe]
      rw [sub_eq_add_neg, exp_add, exp_add, exp_log hp]; ring
  have hT0 : exp (-T) ≠ 0 := (exp_pos _).ne'
  simp only [key, ← Finset.sum_mul]
  rw [mul_div_mul_right _ _ hT0]

/-- The returned values form a probability mass function. -/
theorem C88_pmf (c : Bool) (m : Fin M → Fin N → 𝕜) (r : Fin N → 𝕜) (σ : ℝ) (q : Fin M → ℝ) (hq : ∀ i, 0 ≤ q i) (h1 : ∃ i, q i ≠ 0) :
    (∀ i, 0 ≤ posteriors c m r σ q i) ∧ ∑ i, posteriors c m r σ q i = 1 ∧ ∀ i, posteriors c m r σ q i = 0 ↔ q i = 0 := by
  have hpos : 0 < ∑ k, q k * exp (- sqDist m r k / (if c then σ else 2 * σ)) := by
    obtain ⟨i, hi⟩ := h1
    refine Finset.sum_pos' (fun k _ => mul_nonneg (hq k) (exp_pos _).le) ⟨i, Finset.mem_univ _, mul_pos (lt_of_le_of_ne (hq i) hi.symm) (exp_pos _)⟩
  refine ⟨fun i => ?_, ?_, fun i => ?_⟩
  · rw [posteriors_eq _ _ _ _ _ hq]; exact div_nonneg (mul_nonneg (hq i) (exp_pos _).le) hpos.le
  · simp only [posteriors_eq _ _ _ _ _ hq, ← Finset.sum_div]
    exact div_self hpos.ne'
  · rw [posteriors_eq _ _ _ _ _ hq, div_eq_zero_iff, or_iff_left hpos.ne', mul_eq_zero, or_iff_left (exp_pos _).ne']

theorem bayes_cancel (q w l : Fin M → ℝ) (C : ℝ) (hC : C ≠ 0) (h : ∀ i, l i = C * w i) (i : Fin M) :
    q i * w i / ∑ k, q k * w k = q i * l i / ∑ k, q k * l k := by
  have e : ∀ k, q k * l k = C * (q k * w k) := fun k => by rw [h]; ring
  simp only [e, ← Finset.mul_sum]
  rw [mul_div_mul_left _ _ hC]

end

/-- Real constellations: Bayes' rule with the Gaussian density of variance `noise_power` in each coordinate. -/
theorem C88_bayes_real {M N : Nat} (m : Fin M → Fin N → ℝ) (r : Fin N → ℝ) (σ : NNReal) (hσ : σ ≠ 0) (q : Fin M → ℝ) (hq : ∀ i, 0 ≤ q i) (i : Fin M) :
    posteriors false m r σ q i = q i * realLikelihood σ (m i) r / ∑ k, q k * realLikelihood σ (m k) r := by
  rw [posteriors_eq _ _ _ _ _ hq]
  have hσ' : (0 : ℝ) < σ := by exact_mod_cast pos_iff_ne_zero.mpr hσ
  refine bayes_cancel q (fun k => exp (- sqDist m r k / (2 * σ))) (fun k => realLikelihood σ (m k) r) ((√(2 * π * σ))⁻¹ ^ N) (by positivity) (fun k => ?_) i
  simp only [realLikelihood, gaussianPDFReal, Finset.prod_mul_distrib, Finset.prod_const, Finset.card_univ, Fintype.card_fin, ← exp_sum]
  congr 2
  rw [sqDist, neg_div, Finset.sum_div, ← Finset.sum_neg_distrib]
  refine Finset.sum_congr rfl fun j _ => ?_
  rw [Real.norm_eq_abs, sq_abs, neg_div]

/-- Complex constellations: Bayes' rule with circularly symmetric Gaussian noise of power `noise_power`. -/
theorem C88_bayes_complex {M N : Nat} (m : Fin M → Fin N → ℂ) (r : Fin N → ℂ) (σ : NNReal) (hσ : σ ≠ 0) (q : Fin M → ℝ) (hq : ∀ i, 0 ≤ q i) (i : Fin M) :
    posteriors true m r σ q i = q i * complexLikelihood σ (m i) r / ∑ k, q k * complexLikelihood σ (m k) r := by
  rw [posteriors_eq _ _ _ _ _ hq]
  have hσ' : (0 : ℝ) < σ := by exact_mod_cast pos_iff_ne_zero.mpr hσ
  have hh : ((σ / 2 : NNReal) : ℝ) = σ / 2 := by push_cast; rfl
  refine bayes_cancel q (fun k => exp (- sqDist m r k / σ)) (fun k => complexLikelihood σ (m k) r) (((√(2 * π * (σ / 2 : NNReal)))⁻¹ * (√(2 * π * (σ / 2 : NNReal)))⁻¹) ^ N)
    (by rw [hh]; positivity) (fun k => ?_) i
  have e : ∀ j, gaussianPDFReal (m k j).re (σ / 2) (r j).re * gaussianPDFReal (m k j).im (σ / 2) (r j).im =
      ((√(2 * π * (σ / 2 : NNReal)))⁻¹ * (√(2 * π * (σ / 2 : NNReal)))⁻¹) * exp (- ‖r j - m k j‖ ^ 2 / σ) := by
    intro j
    rw [gaussianPDFReal, gaussianPDFReal, mul_mul_mul_comm, ← exp_add]
    congr 2
    rw [← Complex.normSq_eq_norm_sq, Complex.normSq_apply, hh]
    simp only [Complex.sub_re, Complex.sub_im]
    field_simp; ring
  simp only [complexLikelihood, e, Finset.prod_mul_distrib, Finset.prod_const, Finset.card_univ, Fintype.card_fin, ← exp_sum, mul_pow]
  congr 2
  rw [sqDist, neg_div, Finset.sum_div, ← Finset.sum_neg_distrib]
  refine Finset.sum_congr rfl fun j _ => ?_
  rw [neg_div]

/-- With uniform priors a point is more likely exactly when it is closer: the maximum a posteriori decision is the nearest-neighbour decision. -/
theorem C88_uniform_map {𝕜 : Type} [RCLike 𝕜] {M N : Nat} (c : Bool) (m : Fin M → Fin N → 𝕜) (r : Fin N → 𝕜) (σ : ℝ) (hσ : 0 < σ) (i : Fin M) :
    (∀ k, posteriors c m r σ (uniformPriors (Fin M)) k ≤ posteriors c m r σ (uniformPriors (Fin M)) i) ↔ Nearest m r i := by
  have hM : 0 < M := i.pos
  have hM' : (0 : ℝ) < M := by exact_mod_cast hM
  have hq : ∀ k : Fin M, 0 < uniformPriors (Fin M) k := fun k => by rw [uniformPriors, Fintype.card_fin]; positivity
  have hv : 0 < (if c then σ else 2 * σ) := by split <;> linarith
  have hpos : 0 < ∑ k, uniformPriors (Fin M) k * exp (- sqDist m r k / (if c then σ else 2 * σ)) :=
    Finset.sum_pos (fun k _ => mul_pos (hq k) (exp_pos _)) ⟨i, Finset.mem_univ _⟩
  rw [Nearest]
  refine forall_congr' fun k => ?_
  rw [posteriors_eq _ _ _ _ _ fun k => (hq k).le, posteriors_eq _ _ _ _ _ fun k => (hq k).le, div_le_div_iff_of_pos_right hpos]
  show uniformPriors (Fin M) i * _ ≤ uniformPriors (Fin M) i * _ ↔ _
  rw [mul_le_mul_iff_right₀ (hq i), exp_le_exp, div_le_div_iff_of_pos_right hv, neg_le_neg_iff]
  rfl

/-- A conformance case: BPSK-like antipodal points at equal distance from `r` with priors 1/4, 3/4 keep their priors. -/
example : posteriors false (fun i _ => if i = 0 then -1 else 1 : Fin 2 → Fin 1 → ℝ) (fun _ => 0) 1 (![1 / 4, 3 / 4]) 1 = 3 / 4 := by
  rw [posteriors_eq _ _ _ _ _ (by intro i; fin_cases i <;> norm_num)]
  simp [sqDist, Fin.sum_univ_two]
  rw [← add_mul]
  have := exp_pos (-(1 : ℝ) / 2)
  field_simp
  norm_num

end Komm
