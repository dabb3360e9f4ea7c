import Verif.Model.SpecialFunctions
import Verif.Props.C103_GaussianChannel
import Mathlib.MeasureTheory.Integral.IntegralEqImproper
import Mathlib.Topology.Order.IntermediateValue
/-! C104: `gaussian_q` is the tail of the standard normal law, `gaussian_q_inv` is its inverse, and both give the symbol error rate of PAM. -/
namespace Komm
open MeasureTheory ProbabilityTheory GaussianChannel Constellation Set Filter Topology

/-- The tail `P(Z > x)` of a standard normal variable. -/
noncomputable def normalTail (x : ℝ) : ℝ := (gaussianReal 0 1).real (Ioi x)

theorem normalTail_integral (x : ℝ) : normalTail x = ∫ t in Ioi x, gaussianPDFReal 0 1 t := by
  rw [normalTail, measureReal_def, gaussianReal_apply_eq_integral 0 one_ne_zero, ENNReal.toReal_ofReal]
  exact integral_nonneg fun t => gaussianPDFReal_nonneg _ _ t

/-- `gaussian_q(x)` is `P(Z > x)`. -/
theorem C104_tail (x : ℝ) : gaussianQ x = normalTail x := by
  rw [normalTail_integral, gaussianQ, erfc]
  have h2 : (0 : ℝ) < (√2)⁻¹ := by positivity
  have h := integral_comp_mul_left_Ioi (fun t : ℝ => Real.exp (-t ^ 2)) x h2
  have e : x / √2 = (√2)⁻¹ * x := by field_simp
  have hg : ∀ t, gaussianPDFReal 0 1 t = (√(2 * Real.pi))⁻¹ * Real.exp (-((√2)⁻¹ * t) ^ 2) := by
    intro t
    simp only [gaussianPDFReal, NNReal.coe_one, mul_one, sub_zero, mul_pow, inv_pow, Real.sq_sqrt (show (0 : ℝ) ≤ 2 by norm_num)]
    congr 2; ring
  simp only [hg]
  rw [integral_const_mul, h, e, inv_inv, smul_eq_mul, Real.sqrt_mul (by norm_num)]
  have : √2 ≠ 0 := by positivity
  have : √Real.pi ≠ 0 := by positivity
  field_simp
  norm_num

/-- The integral in the documentation. -/
theorem C104_integral (x : ℝ) : gaussianQ x = 1 / √(2 * Real.pi) * ∫ u in Ioi x, Real.exp (-u ^ 2 / 2) := by
  rw [C104_tail, normalTail_integral, ← integral_const_mul]
  refine integral_congr_ae (Eventually.of_forall fun t => ?_)
  simp [gaussianPDFReal]

theorem tail_cdf (x : ℝ) : normalTail x = 1 - cdf (gaussianReal 0 1) x := by
  rw [cdf_eq_real, normalTail, ← compl_Iic, probReal_compl_eq_one_sub measurableSet_Iic]

theorem pdf_integrableOn (s : Set ℝ) : IntegrableOn (gaussianPDFReal 0 1) s := (integrable_gaussianPDFReal 0 1).integrableOn

theorem tail_sub (x y : ℝ) : normalTail x - normalTail y = ∫ t in x..y, gaussianPDFReal 0 1 t := by
  rw [normalTail_integral, normalTail_integral, intervalIntegral.integral_Ioi_sub_Ioi' (pdf_integrableOn _) (pdf_integrableOn _)]

/-- `Q` decreases strictly. -/
theorem C104_strictAnti : StrictAnti gaussianQ := by
  intro x y hxy
  rw [C104_tail, C104_tail, ← sub_pos, tail_sub]
  exact intervalIntegral.intervalIntegral_pos_of_pos (integrable_gaussianPDFReal 0 1).intervalIntegrable (fun t => gaussianPDFReal_pos 0 1 t one_ne_zero) hxy

theorem continuous_tail : Continuous normalTail := by
  have : normalTail = fun x => normalTail 0 - ∫ t in (0 : ℝ)..x, gaussianPDFReal 0 1 t := by
    funext x; rw [← tail_sub]; ring
  rw [this]
  exact continuous_const.sub (intervalIntegral.continuous_primitive (fun a b => (integrable_gaussianPDFReal 0 1).intervalIntegrable) 0)

theorem C104_continuous : Continuous gaussianQ := by
  rw [show gaussianQ = normalTail from funext C104_tail]; exact continuous_tail

/-- `Q` tends to zero at plus infinity and to one at minus infinity. -/
theorem C104_limits : Tendsto gaussianQ atTop (𝓝 0) ∧ Tendsto gaussianQ atBot (𝓝 1) := by
  have : gaussianQ = fun x => 1 - cdf (gaussianReal 0 1) x := funext fun x => (C104_tail x).trans (tail_cdf x)
  rw [this]
  constructor
  · simpa using (tendsto_cdf_atTop (gaussianReal 0 1)).const_sub 1
  · simpa using (tendsto_cdf_atBot (gaussianReal 0 1)).const_sub 1

theorem tail_symm (x : ℝ) : normalTail (-x) = 1 - normalTail x := by
  haveI := nullSingletonClass_gaussianReal (μ := 0) (v := 1) one_ne_zero
  have h := gaussianReal_map_neg (μ := 0) (v := 1)
  rw [neg_zero] at h
  have e : normalTail (-x) = (gaussianReal 0 1).real (Iio x) := by
    rw [normalTail, ← h, map_measureReal_apply measurable_neg measurableSet_Ioi, h]
    congr 1; ext t; simp
  rw [e, normalTail, ← compl_Iic, probReal_compl_eq_one_sub measurableSet_Iic, sub_sub_cancel, measureReal_def, measureReal_def, measure_congr Iio_ae_eq_Iic]

/-- `Q(-x) = 1 - Q(x)`. -/
theorem C104_symmetry (x : ℝ) : gaussianQ (-x) = 1 - gaussianQ x := by rw [C104_tail, C104_tail, tail_symm]

/-- `Q(0) = 1/2`. -/
theorem C104_zero : gaussianQ 0 = 1 / 2 := by
  have := C104_symmetry 0
  rw [neg_zero] at this
  linarith

/-- `Q` takes values strictly between zero and one. -/
theorem C104_range (x : ℝ) : 0 < gaussianQ x ∧ gaussianQ x < 1 := by
  have h : ∀ x, 0 < gaussianQ x := fun x => by
    have h1 := C104_strictAnti (lt_add_one x)
    have h2 : 0 ≤ gaussianQ (x + 1) := by rw [C104_tail]; exact measureReal_nonneg
    linarith
  refine ⟨h x, ?_⟩
  have := h (-x)
  rw [C104_symmetry] at this
  linarith

/-- Upper bound of the tail. -/
theorem C104_chernoff (x : ℝ) (hx : 0 ≤ x) : gaussianQ x ≤ 1 / 2 * Real.exp (-x ^ 2 / 2) := by
  have h0 := C104_zero
  rw [C104_integral] at h0 ⊢
  have hs : ∫ u in Ioi x, Real.exp (-u ^ 2 / 2) = ∫ u in Ioi (0 : ℝ), Real.exp (-(u + x) ^ 2 / 2) := by
    have := (measurePreserving_add_right volume x).setIntegral_preimage_emb (measurableEmbedding_addRight x) (fun u => Real.exp (-u ^ 2 / 2)) (Ioi x)
    rw [← this]
    congr 2; ext t; simp
  have hgi : Integrable fun u : ℝ => Real.exp (-u ^ 2 / 2) := by
    have := integrable_exp_neg_mul_sq (b := 1 / 2) (by norm_num)
    refine this.congr (Eventually.of_forall fun u => ?_)
    simp only; congr 1; ring
  have hgs : Integrable fun u : ℝ => Real.exp (-(u + x) ^ 2 / 2) := hgi.comp_add_right x
  rw [hs]
  have hle : ∫ u in Ioi (0 : ℝ), Real.exp (-(u + x) ^ 2 / 2) ≤ ∫ u in Ioi (0 : ℝ), Real.exp (-x ^ 2 / 2) * Real.exp (-u ^ 2 / 2) := by
    refine setIntegral_mono_on hgs.integrableOn (hgi.const_mul _).integrableOn measurableSet_Ioi fun u hu => ?_
    rw [← Real.exp_add]
    refine Real.exp_le_exp.mpr ?_
    have : 0 ≤ u * x := mul_nonneg (le_of_lt hu) hx
    nlinarith
  rw [integral_const_mul] at hle
  calc _ ≤ 1 / √(2 * Real.pi) * (Real.exp (-x ^ 2 / 2) * ∫ u in Ioi (0 : ℝ), Real.exp (-u ^ 2 / 2)) := by gcongr
    _ = (1 / √(2 * Real.pi) * ∫ u in Ioi (0 : ℝ), Real.exp (-u ^ 2 / 2)) * Real.exp (-x ^ 2 / 2) := by ring
    _ = _ := by rw [h0]

theorem sInf_cdf (y x : ℝ) (h : gaussianQ x = 1 - y) : sInf {t | y ≤ cdf (gaussianReal 0 1) t} = x := by
  have : {t | y ≤ cdf (gaussianReal 0 1) t} = Ici x := by
    ext t
    have e : cdf (gaussianReal 0 1) t = 1 - gaussianQ t := by rw [C104_tail, tail_cdf]; ring
    simp only [mem_setOf_eq, mem_Ici, e]
    have hx : x ≤ t ↔ gaussianQ t ≤ gaussianQ x := C104_strictAnti.le_iff_ge.symm
    rw [hx, h]
    constructor <;> intro <;> linarith
  rw [this, csInf_Ici]

/-- `gaussian_q_inv(gaussian_q(x)) = x`. -/
theorem C104_inv_left (x : ℝ) : gaussianQInv (gaussianQ x) = some (x : EReal) := by
  obtain ⟨h0, h1⟩ := C104_range x
  unfold gaussianQInv normInvCdf
  rw [if_neg h0.ne', if_neg h1.ne, if_neg (by push Not; exact ⟨h0, h1⟩), sInf_cdf (gaussianQ x) (-x) (C104_symmetry x)]
  simp

/-- For `0 < y < 1`, `gaussian_q_inv(y)` is a real number, and `gaussian_q` of it is `y`. -/
theorem C104_inv_right (y : ℝ) (h0 : 0 < y) (h1 : y < 1) : ∃ x : ℝ, gaussianQInv y = some (x : EReal) ∧ gaussianQ x = y := by
  obtain ⟨a, ha⟩ := ((C104_limits.1).eventually (gt_mem_nhds h0)).exists
  obtain ⟨b, hb⟩ := ((C104_limits.2).eventually (lt_mem_nhds h1)).exists
  obtain ⟨x, hx⟩ := mem_range_of_exists_le_of_exists_ge C104_continuous ⟨a, ha.le⟩ ⟨b, hb.le⟩
  exact ⟨x, hx ▸ C104_inv_left x, hx⟩

/-- The ends, and the arguments for which `gaussian_q_inv` raises. -/
theorem C104_inv_ends : gaussianQInv 0 = some ⊤ ∧ gaussianQInv 1 = some ⊥ ∧ ∀ y, gaussianQInv y = none ↔ y < 0 ∨ 1 < y := by
  refine ⟨by simp [gaussianQInv], by simp [gaussianQInv], fun y => ?_⟩
  unfold gaussianQInv normInvCdf
  by_cases h0 : y = 0
  · subst h0; simp
  by_cases h1 : y = 1
  · subst h1; simp
  rw [if_neg h0, if_neg h1]
  by_cases h : y ≤ 0 ∨ 1 ≤ y
  · rw [if_pos h]
    simp only [Option.map_none, true_iff]
    rcases h with h | h
    · exact Or.inl (lt_of_le_of_ne h h0)
    · exact Or.inr (lt_of_le_of_ne h (Ne.symm h1))
  · rw [if_neg h]
    simp only [Option.map_some, reduceCtorEq, false_iff]
    push Not at h ⊢
    exact ⟨h.1.le, h.2.le⟩

/-- A sample exceeds a threshold after the Gaussian channel with probability `Q((t - x) / sqrt(noise_power))`. -/
theorem C104_channel {ι : Type} [Fintype ι] (N : ℝ) (hN : 0 < N) (x : ι → ℝ) (i : ι) (t : ℝ) :
    (stdNormals ι).real {z | t < transmitReal N x z i} = gaussianQ ((t - x i) / √N) := by
  have hs : 0 < √N := Real.sqrt_pos.mpr hN
  rw [C104_tail, normalTail, ← std_eval i, map_measureReal_apply (measurable_pi_apply i) measurableSet_Ioi]
  congr 1
  ext z
  simp only [mem_setOf_eq, mem_preimage, mem_Ioi, transmitReal, normal, zero_add, div_lt_iff₀ hs]
  constructor <;> intro <;> linarith

theorem npRound_eq_of_abs {x : ℝ} {k : ℤ} (h : |x - k| < 1 / 2) : npRound x = k := by
  have h1 := npRound_spec x
  have h2 : |((npRound x - k : ℤ) : ℝ)| < 1 := by
    push_cast
    calc |(npRound x : ℝ) - k| ≤ |(npRound x : ℝ) - x| + |x - k| := abs_sub_le _ _ _
      _ < 1 := by rw [abs_sub_comm (npRound x : ℝ)]; linarith
  have : |npRound x - k| < 1 := by exact_mod_cast h2
  rw [Int.abs_lt_one_iff] at this; omega

theorem npRound_ge {x : ℝ} {k : ℤ} (h : (k : ℝ) - 1 / 2 < x) : k ≤ npRound x := by
  have h1 := (abs_le.mp (npRound_spec x)).2
  have : ((k - 1 : ℤ) : ℝ) < npRound x := by push_cast; linarith
  have : k - 1 < npRound x := by exact_mod_cast this
  omega

theorem npRound_le {x : ℝ} {k : ℤ} (h : x < (k : ℝ) + 1 / 2) : npRound x ≤ k := by
  have h1 := (abs_le.mp (npRound_spec x)).1
  have : (npRound x : ℝ) < ((k + 1 : ℤ) : ℝ) := by push_cast; linarith
  have : npRound x < k + 1 := by exact_mod_cast this
  omega

/-- What `pamClosest` answers when the noise is `w`: away from the two ties, the index of the sent point exactly when the noise does not cross a threshold
that exists. -/
theorem pamClosest_noise (M : Nat) (δ : ℝ) (hδ : 0 < δ) (i : Fin M) (w : ℝ) (h1 : w ≠ δ / 2) (h2 : w ≠ -(δ / 2)) :
    pamClosest M δ (pam M δ i 0 + w) = i.val ↔ (w < δ / 2 ∨ i.val + 1 = M) ∧ (-(δ / 2) < w ∨ i.val = 0) := by
  have e : (pam M δ i 0 + w) / δ + ((M : ℝ) - 1) / 2 = ((i.val : ℤ) : ℝ) + w / δ := by
    rw [pam, pamPoint_eq M δ i i.isLt]; push_cast; field_simp; ring
  have hi := i.isLt
  rw [pamClosest, e]
  have b1 : w < δ / 2 ↔ w / δ < 1 / 2 := by rw [div_lt_iff₀ hδ]; constructor <;> intro <;> linarith
  have b2 : -(δ / 2) < w ↔ -(1 / 2) < w / δ := by rw [lt_div_iff₀ hδ]; constructor <;> intro <;> linarith
  have b1' : δ / 2 < w ↔ 1 / 2 < w / δ := by rw [lt_div_iff₀ hδ]; constructor <;> intro <;> linarith
  have b2' : w < -(δ / 2) ↔ w / δ < -(1 / 2) := by rw [div_lt_iff₀ hδ]; constructor <;> intro <;> linarith
  rcases lt_or_gt_of_ne h1 with g1 | g1
  · rcases lt_or_gt_of_ne h2 with g2 | g2
    · have := b2'.mp g2
      have hr : npRound (((i.val : ℤ) : ℝ) + w / δ) ≤ i.val - 1 := npRound_le (by push_cast; linarith)
      rw [npClip]
      simp only [g1, true_or, true_and, not_lt.mpr g2.le, false_or]
      omega
    · have hr : npRound (((i.val : ℤ) : ℝ) + w / δ) = i.val := npRound_eq_of_abs (by rw [add_sub_cancel_left, abs_lt]; exact ⟨b2.mp g2, b1.mp g1⟩)
      rw [hr, npClip]
      simp only [g1, g2, true_or, true_and, iff_true]
      omega
  · have g2 : -(δ / 2) < w := by linarith
    have := b1'.mp g1
    have hr : (i.val : ℤ) + 1 ≤ npRound (((i.val : ℤ) : ℝ) + w / δ) := npRound_ge (by push_cast; linarith)
    rw [npClip]
    simp only [g2, true_or, and_true, not_lt.mpr g1.le, false_or]
    omega

/-- The probability that the decision on one PAM point is wrong after the Gaussian channel. -/
theorem C104_pam_point (M : Nat) (δ : ℝ) (hδ : 0 < δ) (N : ℝ) (hN : 0 < N) (i : Fin M) :
    (stdNormals (Fin 1)).real {z | pamClosest M δ (transmitReal N (pam M δ i) z 0) ≠ i.val} =
      ((if i.val + 1 = M then 0 else 1) + (if i.val = 0 then 0 else 1)) * gaussianQ (δ / 2 / √N) := by
  have hs : 0 < √N := Real.sqrt_pos.mpr hN
  haveI := nullSingletonClass_gaussianReal (μ := 0) (v := 1) one_ne_zero
  set P := gaussianReal 0 1 with hP
  set a := δ / 2 / √N with ha
  have ha0 : 0 < a := by positivity
  have hlaw : (stdNormals (Fin 1)).real {z | pamClosest M δ (transmitReal N (pam M δ i) z 0) ≠ i.val} =
      P.real {u : ℝ | pamClosest M δ (pam M δ i 0 + √N * u) ≠ i.val} := by
    have hev : MeasurePreserving (fun z : Fin 1 → ℝ => z 0) (stdNormals (Fin 1)) P := measurePreserving_eval (fun _ : Fin 1 => gaussianReal 0 1) 0
    have hms : NullMeasurableSet {u : ℝ | pamClosest M δ (pam M δ i 0 + √N * u) ≠ i.val} P := by
      have hae : {u : ℝ | pamClosest M δ (pam M δ i 0 + √N * u) ≠ i.val} =ᵐ[P] {u : ℝ | ¬ ((√N * u < δ / 2 ∨ i.val + 1 = M) ∧ (-(δ / 2) < √N * u ∨ i.val = 0))} := by
        have hne : ∀ᵐ u ∂P, u ≠ a ∧ u ≠ -a := by
          rw [Filter.eventually_and]
          exact ⟨by simp [ae_iff], by simp [ae_iff]⟩
        filter_upwards [hne] with u hu
        have := pamClosest_noise M δ hδ i (√N * u) (fun h => hu.1 (by rw [ha, ← h]; field_simp)) (fun h => hu.2 (by rw [ha, show δ / 2 = -(√N * u) by linarith]; field_simp))
        exact propext (not_congr this)
      refine NullMeasurableSet.congr (MeasurableSet.nullMeasurableSet ?_) hae.symm
      refine MeasurableSet.compl (MeasurableSet.inter (MeasurableSet.union ?_ (MeasurableSet.const _)) (MeasurableSet.union ?_ (MeasurableSet.const _)))
      · exact measurableSet_lt (f := fun u : ℝ => √N * u) (g := fun _ => δ / 2) (by fun_prop) (by fun_prop)
      · exact measurableSet_lt (f := fun _ : ℝ => -(δ / 2)) (g := fun u => √N * u) (by fun_prop) (by fun_prop)
    rw [measureReal_def, measureReal_def, ← hev.measure_preimage hms]
    congr 2
    ext z
    simp [transmitReal, normal]
  have hae : {u : ℝ | pamClosest M δ (pam M δ i 0 + √N * u) ≠ i.val} =ᵐ[P]
      ((if i.val + 1 = M then ∅ else Ioi a) ∪ (if i.val = 0 then ∅ else Iio (-a)) : Set ℝ) := by
    have hne : ∀ᵐ u ∂P, u ≠ a ∧ u ≠ -a := by
      rw [Filter.eventually_and]
      exact ⟨by simp [ae_iff], by simp [ae_iff]⟩
    filter_upwards [hne] with u hu
    have h := pamClosest_noise M δ hδ i (√N * u) (fun h => hu.1 (by rw [ha, ← h]; field_simp)) (fun h => hu.2 (by rw [ha, show δ / 2 = -(√N * u) by linarith]; field_simp))
    have e1 : √N * u < δ / 2 ↔ u < a := by rw [ha, lt_div_iff₀ hs, mul_comm]
    have e2 : -(δ / 2) < √N * u ↔ -a < u := by rw [ha, show -(δ / 2 / √N) = -(δ / 2) / √N by ring, div_lt_iff₀ hs, mul_comm u]
    rw [e1, e2] at h
    refine propext ((not_congr h).trans ?_)
    have t1 : ¬ u < a ↔ a < u := ⟨fun h => lt_of_le_of_ne (not_lt.mp h) hu.1.symm, fun h => not_lt.mpr h.le⟩
    have t2 : ¬ -a < u ↔ u < -a := ⟨fun h => lt_of_le_of_ne (not_lt.mp h) hu.2, fun h => not_lt.mpr h.le⟩
    change _ ↔ u ∈ ((if i.val + 1 = M then ∅ else Ioi a) ∪ (if i.val = 0 then ∅ else Iio (-a)) : Set ℝ)
    rw [mem_union]
    rw [not_and_or, not_or, not_or, t1, t2]
    have n1 : ∀ (p : Prop) [Decidable p] (A : Set ℝ), u ∈ (if p then ∅ else A) ↔ u ∈ A ∧ ¬ p := fun p _ A => by
      by_cases hp : p <;> simp [hp]
    rw [n1, n1, mem_Ioi, mem_Iio]
  rw [hlaw, measureReal_congr hae]
  have q1 : P.real (Ioi a) = gaussianQ a := (C104_tail a).symm
  have q2 : P.real (Iio (-a)) = gaussianQ a := by
    have h := tail_symm (-a)
    rw [neg_neg] at h
    rw [C104_tail, h, normalTail, ← compl_Iic, probReal_compl_eq_one_sub measurableSet_Iic, sub_sub_cancel, measureReal_def, measureReal_def, measure_congr Iio_ae_eq_Iic]
  by_cases c1 : i.val + 1 = M <;> by_cases c2 : i.val = 0
  · rw [if_pos c1, if_pos c2, if_pos c1, if_pos c2, union_empty, measureReal_empty]; ring
  · rw [if_pos c1, if_neg c2, if_pos c1, if_neg c2, empty_union, q2]; ring
  · rw [if_neg c1, if_pos c2, if_neg c1, if_pos c2, union_empty, q1]; ring
  · rw [if_neg c1, if_neg c2, if_neg c1, if_neg c2]
    rw [measureReal_union _ measurableSet_Iio, q1, q2]
    · ring
    · rw [Set.disjoint_left]
      intro u h1 h2
      simp only [mem_Ioi, mem_Iio] at h1 h2
      linarith

/-- The symbol error rate of `M`-ary PAM (equally likely points) over the Gaussian channel is `2 (M - 1) / M * Q(delta / (2 sqrt(noise_power)))`. -/
theorem C104_pam_error (M : Nat) (hM : 0 < M) (δ : ℝ) (hδ : 0 < δ) (N : ℝ) (hN : 0 < N) :
    ∑ i : Fin M, 1 / (M : ℝ) * (stdNormals (Fin 1)).real {z | pamClosest M δ (transmitReal N (pam M δ i) z 0) ≠ i.val} =
      2 * ((M : ℝ) - 1) / M * gaussianQ (δ / (2 * √N)) := by
  simp only [C104_pam_point M δ hδ N hN]
  rw [← Finset.mul_sum, ← Finset.sum_mul, Finset.sum_add_distrib, div_div]
  obtain ⟨m, rfl⟩ : ∃ m, M = m + 1 := ⟨M - 1, by omega⟩
  have s1 : ∑ i : Fin (m + 1), (if i.val + 1 = m + 1 then (0 : ℝ) else 1) = m := by
    rw [Fin.sum_univ_castSucc]
    simp [Fin.val_last]
    rw [Finset.sum_congr rfl (g := fun _ => (1 : ℝ)) fun i _ => if_neg (by have := i.isLt; omega)]
    simp
  have s2 : ∑ i : Fin (m + 1), (if i.val = 0 then (0 : ℝ) else 1) = m := by
    rw [Fin.sum_univ_succ]; simp
  rw [s1, s2]
  push_cast
  field_simp
  ring

/-- Non-trivial instance: 4-PAM with spacing 2 and noise power 1 has symbol error rate `3/2 Q(1)`, a number strictly between 0 and 3/4. -/
example : 2 * ((4 : ℝ) - 1) / 4 * gaussianQ (2 / (2 * √1)) = 3 / 2 * gaussianQ 1 ∧ 0 < 3 / 2 * gaussianQ 1 ∧ 3 / 2 * gaussianQ 1 < 3 / 4 := by
  have h := C104_range 1
  have h' := C104_strictAnti (show (0 : ℝ) < 1 by norm_num)
  rw [C104_zero] at h'
  refine ⟨by norm_num, by linarith, by linarith⟩
end Komm
