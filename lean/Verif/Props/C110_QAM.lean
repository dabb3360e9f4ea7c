import Verif.Props.C110_ErrorRates
import Verif.Props.C76_Formulas
import Mathlib.Analysis.Complex.Isometry
import Mathlib.MeasureTheory.Function.Floor
/-! C110, QAM: the exact symbol error rate. -/
namespace Komm
open MeasureTheory ProbabilityTheory GaussianChannel Constellation Set

theorem measurable_npRound : Measurable (npRound : ℝ → ℤ) := by
  unfold npRound
  dsimp only
  have hf : Measurable fun x : ℝ => x - (⌊x⌋ : ℝ) := measurable_fract
  have hfl : Measurable fun x : ℝ => ⌊x⌋ := Int.measurable_floor
  have hfl1 : Measurable fun x : ℝ => ⌊x⌋ + 1 := (Measurable.of_discrete (f := fun n : ℤ => n + 1)).comp hfl
  refine Measurable.ite (measurableSet_lt hf measurable_const) hfl ?_
  refine Measurable.ite (measurableSet_lt measurable_const hf) hfl1 ?_
  refine Measurable.ite ?_ hfl hfl1
  exact hfl (MeasurableSet.of_discrete (s := {n : ℤ | n % 2 = 0}))

theorem measurable_pamClosest (M : Nat) (δ : ℝ) : Measurable (pamClosest M δ) := by
  unfold pamClosest
  exact (Measurable.of_discrete (f := fun n : ℤ => npClip n ((M : ℤ) - 1))).comp (measurable_npRound.comp (by fun_prop))

theorem qamClosest_eq (Mi Mq : Nat) (δi δq φ : ℝ) (r : ℂ) :
    qamClosest Mi Mq δi δq φ r = Mq * pamClosest Mi δi (r * phase (-φ)).re + pamClosest Mq δq (r * phase (-φ)).im := by
  unfold qamClosest pamClosest
  have e : ∀ (x δ : ℝ) (M : Nat), (x / (δ / 2) + M - 1) / 2 = x / δ + ((M : ℝ) - 1) / 2 := fun x δ M => by
    rw [show x / (δ / 2) = 2 * (x / δ) by rw [div_div_eq_mul_div]; ring]; ring
  simp only [e]

theorem phase_mul_neg (φ : ℝ) : phase φ * phase (-φ) = 1 := by
  rw [phase, phase, ← Complex.exp_add]
  simp

/-- Rotating the complex noise does not change its law. -/
theorem rotate_law (θ : ℝ) : (stdNormals (Fin 2)).map (fun z : Fin 2 → ℝ => ((z 0 : ℂ) + z 1 * Complex.I) * Complex.exp (θ * Complex.I)) =
    (stdNormals (Fin 2)).map (fun z : Fin 2 → ℝ => (z 0 : ℂ) + z 1 * Complex.I) := by
  have h1 := stdGaussian_eq_map_pi_orthonormalBasis Complex.orthonormalBasisOneI
  have h2 := stdGaussian_eq_map_pi_orthonormalBasis (Complex.orthonormalBasisOneI.map (rotation (Circle.exp θ)))
  rw [h1] at h2
  have e1 : (fun x : Fin 2 → ℝ => ∑ i, x i • Complex.orthonormalBasisOneI i) = fun z => (z 0 : ℂ) + z 1 * Complex.I := by
    funext z
    simp [Fin.sum_univ_two]
  have e2 : (fun x : Fin 2 → ℝ => ∑ i, x i • (Complex.orthonormalBasisOneI.map (rotation (Circle.exp θ))) i) =
      fun z => ((z 0 : ℂ) + z 1 * Complex.I) * Complex.exp (θ * Complex.I) := by
    funext z
    simp [Fin.sum_univ_two, rotation_apply, Circle.coe_exp]
    ring
  rw [e1, e2] at h2
  exact h2.symm

theorem phase_eq (φ : ℝ) : phase φ = Complex.exp (((2 * Real.pi * φ : ℝ) : ℂ) * Complex.I) := by
  rw [phase]; push_cast; rfl

/-- The probability that `pamClosest` is right, given one standard normal sample. -/
noncomputable def pamRight (M : Nat) (δ : ℝ) (N : ℝ) (i : Nat) : ℝ := (gaussianReal 0 1).real {u : ℝ | pamClosest M δ (pamPoint M δ i + √N * u) = i}

theorem pamRight_eq (M : Nat) (δ : ℝ) (hδ : 0 < δ) (N : ℝ) (hN : 0 < N) (i : Fin M) :
    pamRight M δ N i = 1 - ((if i.val + 1 = M then 0 else 1) + (if i.val = 0 then 0 else 1)) * gaussianQ (δ / 2 / √N) := by
  have hms : MeasurableSet {u : ℝ | pamClosest M δ (pamPoint M δ i + √N * u) = i} :=
    ((measurable_pamClosest M δ).comp (by fun_prop : Measurable fun u : ℝ => pamPoint M δ i + √N * u)) (MeasurableSet.of_discrete (s := {(i.val : ℤ)}))
  have hev : MeasurePreserving (fun z : Fin 1 → ℝ => z 0) (stdNormals (Fin 1)) (gaussianReal 0 1) := measurePreserving_eval (fun _ : Fin 1 => gaussianReal 0 1) 0
  rw [← C104_pam_point M δ hδ N hN i, pamRight, ← probReal_compl_eq_one_sub, measureReal_def, measureReal_def, ← hev.measure_preimage hms.nullMeasurableSet]
  · congr 2
    ext z
    simp [transmitReal, normal, pam]
  · have : Measurable fun z : Fin 1 → ℝ => pamClosest M δ (transmitReal N (pam M δ i) z 0) :=
      (measurable_pamClosest M δ).comp ((measurable_pi_apply 0).comp (measurable_transmitReal N _))
    exact (this (MeasurableSet.of_discrete (s := {(i.val : ℤ)}))).compl

/-- The decision on a QAM point is right exactly when both PAM decisions are: the probabilities multiply. -/
theorem qam_right (Mi Mq : Nat) (δi δq φ : ℝ) (N : ℝ) (k : Fin (Mi * Mq)) :
    (stdNormalPairs (Fin 1)).real {z | qamClosest Mi Mq δi δq φ (transmitComplex N (qam Mi Mq δi δq φ k) z 0) = k.val} =
      pamRight Mi δi (N / 2) (k.val / Mq) * pamRight Mq δq (N / 2) (k.val % Mq) := by
  have hq : 0 < Mq := Nat.pos_of_ne_zero fun h => by have := k.isLt; simp [h] at this
  set a : ℝ := pamPoint Mi δi (k.val / Mq) with ha
  set b : ℝ := pamPoint Mq δq (k.val % Mq) with hb
  set S : Set ℂ := {w | Mq * pamClosest Mi δi (a + √(N / 2) * w.re) + pamClosest Mq δq (b + √(N / 2) * w.im) = k.val} with hS
  have hSm : MeasurableSet S := by
    have m1 : Measurable fun w : ℂ => pamClosest Mi δi (a + √(N / 2) * w.re) := (measurable_pamClosest Mi δi).comp (by fun_prop)
    have m2 : Measurable fun w : ℂ => pamClosest Mq δq (b + √(N / 2) * w.im) := (measurable_pamClosest Mq δq).comp (by fun_prop)
    have : Measurable fun w : ℂ => Mq * pamClosest Mi δi (a + √(N / 2) * w.re) + pamClosest Mq δq (b + √(N / 2) * w.im) :=
      (Measurable.of_discrete (f := fun p : ℤ × ℤ => Mq * p.1 + p.2)).comp (m1.prodMk m2)
    exact this (MeasurableSet.of_discrete (s := {(k.val : ℤ)}))
  have hev : MeasurePreserving (fun z : Fin 1 → Fin 2 → ℝ => z 0) (stdNormalPairs (Fin 1)) (stdNormals (Fin 2)) :=
    measurePreserving_eval (fun _ : Fin 1 => stdNormals (Fin 2)) 0
  have hm1 : Measurable fun z : Fin 2 → ℝ => ((z 0 : ℂ) + z 1 * Complex.I) * Complex.exp (((2 * Real.pi * (-φ) : ℝ) : ℂ) * Complex.I) := by fun_prop
  have hm2 : Measurable fun z : Fin 2 → ℝ => (z 0 : ℂ) + z 1 * Complex.I := by fun_prop
  have hstep : {z | qamClosest Mi Mq δi δq φ (transmitComplex N (qam Mi Mq δi δq φ k) z 0) = k.val} =
      (fun z : Fin 1 → Fin 2 → ℝ => z 0) ⁻¹' ((fun z : Fin 2 → ℝ => ((z 0 : ℂ) + z 1 * Complex.I) * Complex.exp (((2 * Real.pi * (-φ) : ℝ) : ℂ) * Complex.I)) ⁻¹' S) := by
    ext z
    simp only [mem_setOf_eq, mem_preimage, qamClosest_eq, hS]
    have e : transmitComplex N (qam Mi Mq δi δq φ k) z 0 * phase (-φ) =
        ((a : ℂ) + Complex.I * b) + (√(N / 2) : ℝ) * (((z 0 0 : ℂ) + z 0 1 * Complex.I) * Complex.exp (((2 * Real.pi * (-φ) : ℝ) : ℂ) * Complex.I)) := by
      simp only [transmitComplex, normal, qam, ← ha, ← hb, ← phase_eq, zero_add]
      rw [add_mul, mul_assoc, phase_mul_neg, mul_one]
      push_cast
      ring
    rw [e]
    simp only [Complex.add_re, Complex.add_im, Complex.re_ofReal_mul, Complex.im_ofReal_mul, Complex.ofReal_re, Complex.ofReal_im, Complex.mul_re, Complex.mul_im,
      Complex.I_re, Complex.I_im, zero_mul, one_mul, mul_zero, sub_zero, add_zero, zero_add]
  have hbox : (fun z : Fin 2 → ℝ => (z 0 : ℂ) + z 1 * Complex.I) ⁻¹' S =
      Set.pi univ (fun l : Fin 2 => (![{u : ℝ | pamClosest Mi δi (a + √(N / 2) * u) = (k.val / Mq : Nat)}, {u : ℝ | pamClosest Mq δq (b + √(N / 2) * u) = (k.val % Mq : Nat)}] : Fin 2 → Set ℝ) l) := by
    ext z
    simp only [mem_preimage, hS, mem_setOf_eq, Set.mem_univ_pi, Fin.forall_fin_two, Matrix.cons_val_zero, Matrix.cons_val_one]
    have er : ((z 0 : ℂ) + z 1 * Complex.I).re = z 0 := by simp
    have ei : ((z 0 : ℂ) + z 1 * Complex.I).im = z 1 := by simp
    rw [er, ei]
    have hr := npClip_range (npRound ((b + √(N / 2) * z 1) / δq + ((Mq : ℝ) - 1) / 2)) hq
    have hr' : 0 ≤ pamClosest Mq δq (b + √(N / 2) * z 1) ∧ pamClosest Mq δq (b + √(N / 2) * z 1) < Mq := hr
    set P := pamClosest Mi δi (a + √(N / 2) * z 0)
    set Q := pamClosest Mq δq (b + √(N / 2) * z 1)
    have hk : (k.val : ℤ) = Mq * ((k.val / Mq : Nat) : ℤ) + ((k.val % Mq : Nat) : ℤ) := by exact_mod_cast (Nat.div_add_mod k.val Mq).symm
    have hk2 : ((k.val % Mq : Nat) : ℤ) < Mq := by exact_mod_cast Nat.mod_lt _ hq
    constructor
    · intro h
      rw [hk] at h
      have hmod : Q = ((k.val % Mq : Nat) : ℤ) := by
        have := congrArg (fun x : ℤ => x % Mq) h
        simp only [Int.mul_add_emod_self_left] at this
        rwa [Int.emod_eq_of_lt hr'.1 hr'.2, Int.emod_eq_of_lt (by omega) hk2] at this
      rw [hmod] at h
      have : (Mq : ℤ) * P = Mq * ((k.val / Mq : Nat) : ℤ) := by linarith
      exact ⟨mul_left_cancel₀ (by exact_mod_cast hq.ne') this, hmod⟩
    · rintro ⟨h1, h2⟩
      rw [h1, h2, hk]
  rw [hstep, measureReal_def, hev.measure_preimage (hm1 hSm).nullMeasurableSet, ← Measure.map_apply hm1 hSm, rotate_law, Measure.map_apply hm2 hSm, hbox,
    Measure.pi_pi, Fin.prod_univ_two, ENNReal.toReal_mul]
  rfl

/-- The probability of a wrong decision on one QAM point: each coordinate errs with probability `Q(δ / sqrt(2 N))` towards each neighbour it has. -/
theorem C110_qam_point (Mi Mq : Nat) (δi δq φ : ℝ) (hδi : 0 < δi) (hδq : 0 < δq) (N : ℝ) (hN : 0 < N) (k : Fin (Mi * Mq)) :
    (stdNormalPairs (Fin 1)).real {z | qamClosest Mi Mq δi δq φ (transmitComplex N (qam Mi Mq δi δq φ k) z 0) ≠ k.val} =
      1 - (1 - ((if k.val / Mq + 1 = Mi then 0 else 1) + (if k.val / Mq = 0 then 0 else 1)) * gaussianQ (δi / √(2 * N))) *
        (1 - ((if k.val % Mq + 1 = Mq then 0 else 1) + (if k.val % Mq = 0 then 0 else 1)) * gaussianQ (δq / √(2 * N))) := by
  have hq : 0 < Mq := Nat.pos_of_ne_zero fun h => by have := k.isLt; simp [h] at this
  have hi : k.val / Mq < Mi := Nat.div_lt_of_lt_mul (lt_of_lt_of_eq k.isLt (Nat.mul_comm _ _))
  have hs2 : √(2 * N) = 2 * √(N / 2) := by
    rw [show 2 * N = 2 ^ 2 * (N / 2) by ring, Real.sqrt_mul (by norm_num), Real.sqrt_sq (by norm_num)]
  have e : ∀ δ : ℝ, δ / 2 / √(N / 2) = δ / √(2 * N) := fun δ => by rw [hs2, div_div]
  have h := qam_right Mi Mq δi δq φ N k
  rw [pamRight_eq Mi δi hδi (N / 2) (by positivity) ⟨_, hi⟩, pamRight_eq Mq δq hδq (N / 2) (by positivity) ⟨_, Nat.mod_lt _ hq⟩, e, e] at h
  rw [← h, ← probReal_compl_eq_one_sub]
  · rfl
  · have m0 : Measurable fun z : Fin 1 → Fin 2 → ℝ => transmitComplex N (qam Mi Mq δi δq φ k) z 0 * phase (-φ) :=
      ((measurable_pi_apply 0).comp (measurable_transmitComplex N _)).mul_const _
    have m1 : Measurable fun z : Fin 1 → Fin 2 → ℝ => pamClosest Mi δi (transmitComplex N (qam Mi Mq δi δq φ k) z 0 * phase (-φ)).re :=
      (measurable_pamClosest Mi δi).comp (Complex.measurable_re.comp m0)
    have m2 : Measurable fun z : Fin 1 → Fin 2 → ℝ => pamClosest Mq δq (transmitComplex N (qam Mi Mq δi δq φ k) z 0 * phase (-φ)).im :=
      (measurable_pamClosest Mq δq).comp (Complex.measurable_im.comp m0)
    have := (Measurable.of_discrete (f := fun p : ℤ × ℤ => Mq * p.1 + p.2)).comp (m1.prodMk m2)
    simp only [qamClosest_eq]
    exact this (MeasurableSet.of_discrete (s := {(k.val : ℤ)}))

theorem edge_sum (M : Nat) (hM : 0 < M) (q : ℝ) : ∑ i : Fin M, (1 - ((if i.val + 1 = M then 0 else 1) + (if i.val = 0 then 0 else 1)) * q) = M - 2 * ((M : ℝ) - 1) * q := by
  rw [Finset.sum_sub_distrib, ← Finset.sum_mul, Finset.sum_add_distrib]
  obtain ⟨m, rfl⟩ : ∃ m, M = m + 1 := ⟨M - 1, by omega⟩
  have s1 : ∑ i : Fin (m + 1), (if i.val + 1 = m + 1 then (0 : ℝ) else 1) = m := by
    rw [Fin.sum_univ_castSucc]
    simp [Fin.val_last]
    rw [Finset.sum_congr rfl (g := fun _ => (1 : ℝ)) fun i _ => if_neg (by have := i.isLt; omega)]
    simp
  have s2 : ∑ i : Fin (m + 1), (if i.val = 0 then (0 : ℝ) else 1) = m := by
    rw [Fin.sum_univ_succ]; simp
  rw [s1, s2, Finset.sum_const, Finset.card_univ, Fintype.card_fin, nsmul_eq_mul]
  push_cast
  ring

/-- The symbol error rate of QAM with equally likely points: `1 - (1 - p_i) (1 - p_q)` with the error rates of the two PAM components,
`p = 2 (M - 1) / M * Q(δ / sqrt(2 N))`, whatever the phase offset. -/
theorem C110_qam (Mi Mq : Nat) (hi : 0 < Mi) (hq : 0 < Mq) (δi δq φ : ℝ) (hδi : 0 < δi) (hδq : 0 < δq) (N : ℝ) (hN : 0 < N) :
    ∑ k : Fin (Mi * Mq), 1 / ((Mi * Mq : Nat) : ℝ) *
      (stdNormalPairs (Fin 1)).real {z | qamClosest Mi Mq δi δq φ (transmitComplex N (qam Mi Mq δi δq φ k) z 0) ≠ k.val} =
    1 - (1 - 2 * ((Mi : ℝ) - 1) / Mi * gaussianQ (δi / √(2 * N))) * (1 - 2 * ((Mq : ℝ) - 1) / Mq * gaussianQ (δq / √(2 * N))) := by
  simp only [C110_qam_point Mi Mq δi δq φ hδi hδq N hN]
  have hi' : (Mi : ℝ) ≠ 0 := by exact_mod_cast hi.ne'
  have hq' : (Mq : ℝ) ≠ 0 := by exact_mod_cast hq.ne'
  set q1 := gaussianQ (δi / √(2 * N))
  set q2 := gaussianQ (δq / √(2 * N))
  have hf := sum_flat Mi Mq fun i q => 1 / ((Mi * Mq : Nat) : ℝ) * (1 - (1 - ((if i + 1 = Mi then 0 else 1) + (if i = 0 then 0 else 1)) * q1) *
        (1 - ((if q + 1 = Mq then 0 else 1) + (if q = 0 then 0 else 1)) * q2))
  rw [hf]
  have e : ∀ i : Fin Mi, ∑ q : Fin Mq, 1 / ((Mi * Mq : Nat) : ℝ) * (1 - (1 - ((if i.val + 1 = Mi then 0 else 1) + (if i.val = 0 then 0 else 1)) * q1) *
        (1 - ((if q.val + 1 = Mq then 0 else 1) + (if q.val = 0 then 0 else 1)) * q2)) =
      1 / ((Mi * Mq : Nat) : ℝ) * (Mq - (1 - ((if i.val + 1 = Mi then 0 else 1) + (if i.val = 0 then 0 else 1)) * q1) * (Mq - 2 * ((Mq : ℝ) - 1) * q2)) := by
    intro i
    rw [← Finset.mul_sum, Finset.sum_sub_distrib, ← Finset.mul_sum, edge_sum Mq hq q2]
    simp
  simp only [e]
  rw [← Finset.mul_sum, Finset.sum_sub_distrib, ← Finset.sum_mul, edge_sum Mi hi q1]
  simp only [Finset.sum_const, Finset.card_univ, Fintype.card_fin, nsmul_eq_mul]
  push_cast
  field_simp

/-- QPSK as 4-QAM: `1 - (1 - Q(δ / sqrt(2 N)))²`. -/
example (N : ℝ) (hN : 0 < N) : ∑ k : Fin (2 * 2), 1 / ((2 * 2 : Nat) : ℝ) *
      (stdNormalPairs (Fin 1)).real {z | qamClosest 2 2 1 1 0 (transmitComplex N (qam 2 2 1 1 0 k) z 0) ≠ k.val} = 1 - (1 - gaussianQ (1 / √(2 * N))) ^ 2 := by
  rw [C110_qam 2 2 (by norm_num) (by norm_num) 1 1 0 one_pos one_pos N hN]
  norm_num
  ring

end Komm
