import Verif.Props.C75_PSK
import Mathlib.Algebra.BigOperators.Field
import Mathlib.Logic.Equiv.Fin.Basic
/-! C76: the closed formulas for mean, mean energy and minimum distance. -/
namespace Komm
open Real Constellation

theorem minimumDistance_eq {𝕜 ι : Type} [RCLike 𝕜] [Fintype ι] [DecidableEq ι] {N : Nat} (m : ι → Fin N → 𝕜) (d : ℝ)
    (h1 : ∀ i k, i ≠ k → d ^ 2 ≤ ∑ j, ‖m i j - m k j‖ ^ 2) (h2 : ∃ i k, i ≠ k ∧ ∑ j, ‖m i j - m k j‖ ^ 2 = d ^ 2) (hd : 0 ≤ d) :
    minimumDistance m = (d : WithTop ℝ) := by
  rw [minimumDistance]
  refine le_antisymm ?_ ?_
  · obtain ⟨i, k, hik, h⟩ := h2
    refine (Finset.inf_le (Finset.mem_univ i)).trans ((Finset.inf_le (Finset.mem_univ k)).trans ?_)
    rw [if_neg hik, h, sqrt_sq hd]
  · refine Finset.le_inf fun i _ => Finset.le_inf fun k _ => ?_
    split
    · exact le_top
    · next h => exact WithTop.coe_le_coe.mpr (Real.le_sqrt_of_sq_le (h1 i k h))

theorem sum_id (M : Nat) : ∑ i : Fin M, (i.val : ℝ) = (M : ℝ) * ((M : ℝ) - 1) / 2 := by
  rw [Fin.sum_univ_eq_sum_range fun i : Nat => (i : ℝ)]
  induction M with
  | zero => simp
  | succ M ih => rw [Finset.sum_range_succ, ih]; push_cast; ring

theorem sum_sq (M : Nat) : ∑ i : Fin M, (i.val : ℝ) ^ 2 = (M : ℝ) * ((M : ℝ) - 1) * (2 * (M : ℝ) - 1) / 6 := by
  rw [Fin.sum_univ_eq_sum_range fun i : Nat => (i : ℝ) ^ 2]
  induction M with
  | zero => simp
  | succ M ih => rw [Finset.sum_range_succ, ih]; push_cast; ring

theorem pam_sum (M : Nat) (δ : ℝ) : ∑ i : Fin M, pamPoint M δ i = 0 := by
  rw [Finset.sum_congr rfl fun i _ => pamPoint_eq M δ i.val i.isLt, ← Finset.mul_sum, Finset.sum_sub_distrib, sum_id]
  simp; right; ring

theorem pam_sum_sq (M : Nat) (δ : ℝ) : ∑ i : Fin M, pamPoint M δ i ^ 2 = M * (δ ^ 2 * ((M : ℝ) ^ 2 - 1) / 12) := by
  have : ∀ i : Fin M, pamPoint M δ i ^ 2 = δ ^ 2 * (i.val : ℝ) ^ 2 - δ ^ 2 * ((M : ℝ) - 1) * i.val + δ ^ 2 * ((M : ℝ) - 1) ^ 2 / 4 := by
    intro i; rw [pamPoint_eq M δ i.val i.isLt]; ring
  rw [Finset.sum_congr rfl fun i _ => this i, Finset.sum_add_distrib, Finset.sum_sub_distrib, ← Finset.mul_sum, ← Finset.mul_sum, sum_id, sum_sq]
  simp; ring

/-- PAM: mean 0, mean energy `δ² (M² - 1) / 12`, minimum distance `δ`. -/
theorem C76_pam (M : Nat) (hM : 0 < M) (δ : ℝ) :
    mean (pam M δ) (uniformPriors (Fin M)) = 0 ∧ meanEnergy (pam M δ) (uniformPriors (Fin M)) = pamMeanEnergy M δ ∧
    (2 ≤ M → 0 ≤ δ → minimumDistance (pam M δ) = (δ : WithTop ℝ)) := by
  have hM' : (M : ℝ) ≠ 0 := by exact_mod_cast hM.ne'
  refine ⟨?_, ?_, fun h2 hδ => ?_⟩
  · funext j
    simp only [mean, uniformPriors, pam, ← Finset.mul_sum]
    rw [pam_sum, mul_zero]; rfl
  · simp only [meanEnergy, uniformPriors, pam, ← Finset.mul_sum, Finset.univ_unique, Finset.sum_singleton, Real.norm_eq_abs, sq_abs]
    rw [pam_sum_sq, pamMeanEnergy, Fintype.card_fin]; field_simp
  · refine minimumDistance_eq _ δ (fun i k hik => ?_) ⟨⟨0, by omega⟩, ⟨1, by omega⟩, by simp, ?_⟩ hδ
    · simp only [pam, Finset.univ_unique, Finset.sum_singleton, Real.norm_eq_abs, sq_abs]
      rw [pamPoint_eq M δ i i.isLt, pamPoint_eq M δ k k.isLt]
      have : (1 : ℝ) ≤ ((i.val : ℝ) - k.val) ^ 2 := by
        have h3 : ((i.val : ℤ) - k.val) ≠ 0 := sub_ne_zero.mpr fun h => hik (Fin.ext (by exact_mod_cast h))
        have h4 : (1 : ℤ) ≤ ((i.val : ℤ) - k.val) ^ 2 := Int.one_le_abs (pow_ne_zero 2 h3) |>.trans (abs_of_nonneg (sq_nonneg _)).le
        exact_mod_cast h4
      nlinarith [sq_nonneg δ]
    · simp only [pam, Finset.univ_unique, Finset.sum_singleton, Real.norm_eq_abs, sq_abs]
      rw [pamPoint_eq M δ 0 (by omega), pamPoint_eq M δ 1 (by omega)]
      push_cast; ring

theorem norm_mul_phase (z : ℂ) (φ : ℝ) : ‖z * phase φ‖ = ‖z‖ := by rw [norm_mul, norm_phase, mul_one]

/-- ASK: mean, mean energy and minimum distance. -/
theorem C76_ask (M : Nat) (hM : 0 < M) (A φ : ℝ) :
    mean (ask M A φ) (uniformPriors (Fin M)) = (fun _ => askMean M A φ) ∧ meanEnergy (ask M A φ) (uniformPriors (Fin M)) = askMeanEnergy M A ∧
    (2 ≤ M → 0 ≤ A → minimumDistance (ask M A φ) = (A : WithTop ℝ)) := by
  have hM' : (M : ℝ) ≠ 0 := by exact_mod_cast hM.ne'
  have hnorm : ∀ i k : Fin M, ‖ask M A φ i 0 - ask M A φ k 0‖ ^ 2 = A ^ 2 * ((i.val : ℝ) - k.val) ^ 2 := by
    intro i k
    rw [ask, ask, ← sub_mul, norm_mul_phase, ← mul_sub, norm_mul, Complex.norm_real, mul_pow, Real.norm_eq_abs, sq_abs,
      show (i.val : ℂ) - (k.val : ℂ) = (((i.val : ℝ) - k.val : ℝ) : ℂ) by push_cast; rfl, Complex.norm_real, Real.norm_eq_abs, sq_abs]
  refine ⟨?_, ?_, fun h2 hA => ?_⟩
  · funext j
    simp only [mean, uniformPriors, ask, ← Finset.mul_sum, ← Finset.sum_mul, Fintype.card_fin, askMean]
    have : ∑ i : Fin M, (i.val : ℂ) = ((M * ((M : ℝ) - 1) / 2 : ℝ) : ℂ) := by rw [← sum_id]; push_cast; rfl
    have hMc : (M : ℂ) ≠ 0 := by exact_mod_cast hM.ne'
    rw [this]
    simp only [RCLike.ofReal_div, RCLike.ofReal_one, RCLike.ofReal_natCast]
    push_cast
    field_simp
  · simp only [meanEnergy, uniformPriors, ask, ← Finset.mul_sum, Finset.univ_unique, Finset.sum_singleton, norm_mul_phase, norm_mul,
      Complex.norm_real, Real.norm_eq_abs, mul_pow, sq_abs, Complex.norm_natCast, norm_phase, one_pow, mul_one]
    rw [sum_sq, askMeanEnergy, Fintype.card_fin]
    field_simp
  · refine minimumDistance_eq _ A (fun i k hik => ?_) ⟨⟨0, by omega⟩, ⟨1, by omega⟩, by simp, ?_⟩ hA
    · rw [Finset.univ_unique, Finset.sum_singleton]
      show _ ≤ ‖ask M A φ i 0 - ask M A φ k 0‖ ^ 2
      rw [hnorm]
      have : (1 : ℝ) ≤ ((i.val : ℝ) - k.val) ^ 2 := by
        have h3 : ((i.val : ℤ) - k.val) ≠ 0 := sub_ne_zero.mpr fun h => hik (Fin.ext (by exact_mod_cast h))
        have h4 : (1 : ℤ) ≤ ((i.val : ℤ) - k.val) ^ 2 := Int.one_le_abs (pow_ne_zero 2 h3) |>.trans (abs_of_nonneg (sq_nonneg _)).le
        exact_mod_cast h4
      nlinarith [sq_nonneg A]
    · rw [Finset.univ_unique, Finset.sum_singleton]
      show ‖ask M A φ ⟨0, _⟩ 0 - ask M A φ ⟨1, _⟩ 0‖ ^ 2 = _
      rw [hnorm]; simp

/-- Sums over the flattened index of a QAM constellation. -/
theorem sum_flat {α : Type} [AddCommMonoid α] (Mi Mq : Nat) (f : Nat → Nat → α) :
    ∑ k : Fin (Mi * Mq), f (k.val / Mq) (k.val % Mq) = ∑ a : Fin Mi, ∑ b : Fin Mq, f a b := by
  rw [← Fintype.sum_prod_type', ← finProdFinEquiv.sum_comp]
  refine Finset.sum_congr rfl fun x _ => ?_
  have hq : 0 < Mq := x.2.pos
  have h : (finProdFinEquiv x).val = x.2.val + Mq * x.1.val := rfl
  rw [h, Nat.add_mul_div_left _ _ hq, Nat.add_mul_mod_self_left, Nat.div_eq_of_lt x.2.isLt, Nat.mod_eq_of_lt x.2.isLt, Nat.zero_add]

theorem qam_normSq (Mi Mq : Nat) (δi δq φ : ℝ) (k : Fin (Mi * Mq)) (j : Fin 1) :
    ‖qam Mi Mq δi δq φ k j‖ ^ 2 = pamPoint Mi δi (k.val / Mq) ^ 2 + pamPoint Mq δq (k.val % Mq) ^ 2 := by
  rw [qam, norm_mul_phase]
  have := normSq_sub 0 (pamPoint Mi δi (k.val / Mq)) (pamPoint Mq δq (k.val % Mq))
  rw [zero_sub, norm_neg] at this
  rw [this]; simp

theorem qam_dist (Mi Mq : Nat) (δi δq φ : ℝ) (k l : Fin (Mi * Mq)) (j : Fin 1) :
    ‖qam Mi Mq δi δq φ k j - qam Mi Mq δi δq φ l j‖ ^ 2 =
      δi ^ 2 * (((k.val / Mq : Nat) : ℝ) - ((l.val / Mq : Nat) : ℝ)) ^ 2 + δq ^ 2 * (((k.val % Mq : Nat) : ℝ) - ((l.val % Mq : Nat) : ℝ)) ^ 2 := by
  have hq : 0 < Mq := Nat.pos_of_ne_zero fun h => by have := k.isLt; simp [h] at this
  have d : ∀ k : Fin (Mi * Mq), k.val / Mq < Mi := fun k => Nat.div_lt_of_lt_mul (k.isLt.trans_eq (Nat.mul_comm _ _))
  have m : ∀ k : Fin (Mi * Mq), k.val % Mq < Mq := fun k => Nat.mod_lt _ hq
  rw [qam, qam, ← sub_mul, norm_mul_phase, normSq_sub]
  simp only [Complex.add_re, Complex.ofReal_re, Complex.mul_re, Complex.I_re, Complex.I_im, Complex.ofReal_im, Complex.add_im, Complex.mul_im]
  rw [pamPoint_eq Mi δi _ (d k), pamPoint_eq Mq δq _ (m k), pamPoint_eq Mi δi _ (d l), pamPoint_eq Mq δq _ (m l)]
  ring

theorem one_le_sq_sub (a b : Nat) (h : a ≠ b) : (1 : ℝ) ≤ ((a : ℝ) - b) ^ 2 := by
  have h3 : ((a : ℤ) - b) ≠ 0 := sub_ne_zero.mpr (by exact_mod_cast h)
  have h4 : (1 : ℤ) ≤ ((a : ℤ) - b) ^ 2 := Int.one_le_abs (pow_ne_zero 2 h3) |>.trans (abs_of_nonneg (sq_nonneg _)).le
  exact_mod_cast h4

/-- QAM: mean 0, mean energy, minimum distance `min(δi, δq)` when both orders are at least 2. -/
theorem C76_qam (Mi Mq : Nat) (hi : 0 < Mi) (hq : 0 < Mq) (δi δq φ : ℝ) :
    mean (qam Mi Mq δi δq φ) (uniformPriors (Fin (Mi * Mq))) = 0 ∧
    meanEnergy (qam Mi Mq δi δq φ) (uniformPriors (Fin (Mi * Mq))) = qamMeanEnergy Mi Mq δi δq ∧
    (2 ≤ Mi → 2 ≤ Mq → 0 ≤ δi → 0 ≤ δq → minimumDistance (qam Mi Mq δi δq φ) = ((min δi δq : ℝ) : WithTop ℝ)) := by
  have hMi : (Mi : ℝ) ≠ 0 := by exact_mod_cast hi.ne'
  have hMq : (Mq : ℝ) ≠ 0 := by exact_mod_cast hq.ne'
  refine ⟨?_, ?_, fun h2 h3 hδi hδq => ?_⟩
  · funext j
    simp only [mean, uniformPriors, qam, ← Finset.mul_sum, ← Finset.sum_mul]
    have := sum_flat Mi Mq fun a b => ((pamPoint Mi δi a : ℝ) : ℂ) + Complex.I * ((pamPoint Mq δq b : ℝ) : ℂ)
    rw [this]
    simp only [Finset.sum_add_distrib, ← Finset.mul_sum, Finset.sum_const, ← Complex.ofReal_sum, pam_sum, Finset.smul_sum.symm]
    simp
  · simp only [meanEnergy, uniformPriors, ← Finset.mul_sum, Finset.univ_unique, Finset.sum_singleton, qam_normSq]
    rw [sum_flat Mi Mq fun a b => pamPoint Mi δi a ^ 2 + pamPoint Mq δq b ^ 2]
    simp only [Finset.sum_add_distrib, Finset.sum_const, pam_sum_sq, ← Finset.smul_sum, Finset.card_univ, Fintype.card_fin, qamMeanEnergy, nsmul_eq_mul]
    rw [← Finset.mul_sum, pam_sum_sq]
    push_cast
    field_simp
  · have hmin0 : 0 ≤ min δi δq := le_min hδi hδq
    have hmi : min δi δq ^ 2 ≤ δi ^ 2 := by have := min_le_left δi δq; gcongr
    have hmq : min δi δq ^ 2 ≤ δq ^ 2 := by have := min_le_right δi δq; gcongr
    refine minimumDistance_eq _ _ (fun k l hkl => ?_) ?_ hmin0
    · rw [Finset.univ_unique, Finset.sum_singleton, qam_dist]
      by_cases h : k.val / Mq = l.val / Mq
      · have h' : k.val % Mq ≠ l.val % Mq := fun h' => hkl (Fin.ext (by rw [← Nat.div_add_mod k.val Mq, ← Nat.div_add_mod l.val Mq, h, h']))
        have := one_le_sq_sub _ _ h'
        nlinarith [sq_nonneg δq, sq_nonneg δi, sq_nonneg (((k.val / Mq : Nat) : ℝ) - ((l.val / Mq : Nat) : ℝ)), mul_nonneg (sq_nonneg δi) (sq_nonneg (((k.val / Mq : Nat) : ℝ) - ((l.val / Mq : Nat) : ℝ)))]
      · have := one_le_sq_sub _ _ h
        nlinarith [sq_nonneg δq, sq_nonneg δi, mul_nonneg (sq_nonneg δq) (sq_nonneg (((k.val % Mq : Nat) : ℝ) - ((l.val % Mq : Nat) : ℝ)))]
    · have hb : Mq * 2 ≤ Mi * Mq := by rw [Nat.mul_comm Mi]; exact Nat.mul_le_mul_left _ h2
      rcases le_total δi δq with h | h
      · refine ⟨⟨0, by omega⟩, ⟨Mq, by omega⟩, by simp; omega, ?_⟩
        rw [Finset.univ_unique, Finset.sum_singleton, qam_dist, min_eq_left h]
        simp [Nat.div_self hq]
      · refine ⟨⟨0, by omega⟩, ⟨1, by omega⟩, by simp, ?_⟩
        rw [Finset.univ_unique, Finset.sum_singleton, qam_dist, min_eq_right h]
        simp [Nat.div_eq_of_lt (show 1 < Mq by omega), Nat.mod_eq_of_lt (show 1 < Mq by omega)]

/-- With one order equal to 1 the formula `min(deltas)` is wrong: for orders `(1, 2)` and spacings `(1, 2)` the two points are 2 apart. -/
theorem C76_qam_degenerate (φ : ℝ) : minimumDistance (qam 1 2 1 2 φ) = ((2 : ℝ) : WithTop ℝ) ∧ min (1 : ℝ) 2 = 1 := by
  refine ⟨minimumDistance_eq _ 2 (fun k l hkl => ?_) ⟨⟨0, by omega⟩, ⟨1, by omega⟩, by simp, ?_⟩ (by norm_num), by norm_num⟩
  · rw [Finset.univ_unique, Finset.sum_singleton, qam_dist]
    have h : k.val % 2 ≠ l.val % 2 := fun h => hkl (Fin.ext (by omega))
    have := one_le_sq_sub _ _ h
    have h0 : k.val / 2 = 0 := by omega
    have h1 : l.val / 2 = 0 := by omega
    rw [h0, h1]; nlinarith
  · rw [Finset.univ_unique, Finset.sum_singleton, qam_dist]
    simp

/-! ### PSK -/

theorem psk_dist (M : Nat) (A φ : ℝ) (i k : Fin M) (j : Fin 1) :
    ‖psk M A φ i j - psk M A φ k j‖ ^ 2 = 2 * A ^ 2 * (1 - cos (2 * π * ((0 + ((i.val : ℤ) - k.val : ℤ)) / M))) := by
  rw [psk_eq, psk_eq, ← sub_mul, norm_mul_phase, ← mul_sub, norm_mul, Complex.norm_real, mul_pow, Real.norm_eq_abs, sq_abs,
    Complex.exp_mul_I, Complex.exp_mul_I]
  have e : ∀ α β : ℝ, ‖Complex.cos (α : ℂ) + Complex.sin (α : ℂ) * Complex.I - (Complex.cos (β : ℂ) + Complex.sin (β : ℂ) * Complex.I)‖ ^ 2 = 2 * (1 - cos (α - β)) := by
    intro α β
    rw [← Complex.ofReal_cos, ← Complex.ofReal_sin, ← Complex.ofReal_cos, ← Complex.ofReal_sin, mul_comm (((sin β : ℝ) : ℂ)), normSq_sub, cos_sub]
    simp only [Complex.add_re, Complex.ofReal_re, Complex.mul_re, Complex.I_re, Complex.I_im, Complex.ofReal_im, Complex.add_im, Complex.mul_im]
    nlinarith [sin_sq_add_cos_sq α, sin_sq_add_cos_sq β]
  rw [e]
  push_cast
  have : 2 * π * ((i.val : ℝ) / M) - 2 * π * ((k.val : ℝ) / M) = 2 * π * ((0 + ((i.val : ℝ) - k.val)) / M) := by ring
  rw [this]; ring

theorem cos_gap (M : Nat) (hM : 2 ≤ M) (j : ℤ) (hj : ¬ (M : ℤ) ∣ j) : cos (2 * π * ((0 + j) / M)) ≤ cos (2 * π / M) := by
  have hM' : (0 : ℝ) < M := by exact_mod_cast (by omega : 0 < M)
  have hM2 : (2 : ℝ) ≤ M := by exact_mod_cast hM
  set R := npRound ((0 + (j : ℝ)) / M) with hR
  set y := (0 + (j : ℝ)) / M - R with hy
  have hy2 : |y| ≤ 1 / 2 := npRound_spec _
  have e1 : cos (2 * π * ((0 + j) / M)) = cos |2 * π * y| := by
    rw [cos_abs, hy, show 2 * π * ((0 + (j : ℝ)) / M - R) = 2 * π * ((0 + j) / M) - R * (2 * π) by ring, cos_sub_int_mul_two_pi]
  rw [e1]
  have hpi := pi_pos
  refine cos_le_cos_of_nonneg_of_le_pi (by positivity) ?_ ?_
  · rw [abs_mul, abs_of_pos (by positivity : 0 < 2 * π)]
    nlinarith
  · rw [abs_mul, abs_of_pos (by positivity : 0 < 2 * π), ← mul_one_div (2 * π) (M : ℝ)]
    refine mul_le_mul_of_nonneg_left ?_ (by positivity : (0 : ℝ) ≤ 2 * π)
    have hyM : y = ((j - M * R : ℤ) : ℝ) / M := by rw [hy]; push_cast; field_simp; ring
    rw [hyM, abs_div, abs_of_pos hM']
    refine div_le_div_of_nonneg_right ?_ hM'.le
    have h0 : (j - (M : ℤ) * (R : ℤ) : ℤ) ≠ (0 : ℤ) := fun h => hj ⟨R, by omega⟩
    have h1 : (1 : ℤ) ≤ |j - (M : ℤ) * R| := Int.one_le_abs h0
    rw [← Int.cast_abs]; exact_mod_cast h1

theorem psk_sum (M : Nat) (hM : 2 ≤ M) (A φ : ℝ) (j : Fin 1) : ∑ i, psk M A φ i j = 0 := by
  have e : ∀ i : Fin M, psk M A φ i j = (A : ℂ) * Complex.exp (2 * π * Complex.I / M) ^ i.val * phase φ := by
    intro i
    rw [psk, ← Complex.exp_nat_mul]
    congr 3; ring
  simp only [e, ← Finset.mul_sum, ← Finset.sum_mul]
  rw [Fin.sum_univ_eq_sum_range fun i => Complex.exp (2 * π * Complex.I / M) ^ i,
    (Complex.isPrimitiveRoot_exp M (by omega)).geom_sum_eq_zero (by omega)]
  simp

theorem psk_norm (M : Nat) (A φ : ℝ) (i : Fin M) (j : Fin 1) : ‖psk M A φ i j‖ ^ 2 = A ^ 2 := by
  rw [psk_eq, norm_mul_phase, norm_mul, Complex.norm_exp_ofReal_mul_I, mul_one, Complex.norm_real, Real.norm_eq_abs, sq_abs]

/-- PSK with at least two points: mean 0, mean energy `A²`, minimum distance `2 A sin(π / M)`. -/
theorem C76_psk (M : Nat) (hM : 2 ≤ M) (A φ : ℝ) :
    mean (psk M A φ) (uniformPriors (Fin M)) = 0 ∧ meanEnergy (psk M A φ) (uniformPriors (Fin M)) = A ^ 2 ∧
    (0 ≤ A → minimumDistance (psk M A φ) = (pskMinimumDistance M A : WithTop ℝ)) := by
  have hM' : (0 : ℝ) < M := by exact_mod_cast (by omega : 0 < M)
  refine ⟨?_, ?_, fun hA => ?_⟩
  · funext j
    simp only [mean, uniformPriors, ← Finset.mul_sum, psk_sum M hM, mul_zero]; rfl
  · simp only [meanEnergy, uniformPriors, psk_norm, Finset.univ_unique, Finset.sum_singleton, Finset.sum_const, Finset.card_univ, Fintype.card_fin, nsmul_eq_mul]
    simp only [Finset.card_singleton, Nat.cast_one, one_mul]
    field_simp
  · have hsin : 0 ≤ sin (π / M) := sin_nonneg_of_nonneg_of_le_pi (by positivity) (div_le_self pi_pos.le (by exact_mod_cast (by omega : 1 ≤ M)))
    have hval : pskMinimumDistance M A ^ 2 = 2 * A ^ 2 * (1 - cos (2 * π / M)) := by
      rw [pskMinimumDistance, mul_div_assoc, cos_two_mul, mul_pow, sin_sq]; ring
    refine minimumDistance_eq _ _ (fun i k hik => ?_) ⟨⟨1, by omega⟩, ⟨0, by omega⟩, by simp, ?_⟩ (by rw [pskMinimumDistance]; positivity)
    · rw [Finset.univ_unique, Finset.sum_singleton, psk_dist, hval]
      have hdvd : ¬ (M : ℤ) ∣ ((i.val : ℤ) - k.val) := by
        intro h
        have h2 : |(i.val : ℤ) - k.val| < M := by rw [abs_lt]; omega
        have := Int.eq_zero_of_abs_lt_dvd h h2
        exact hik (Fin.ext (by omega))
      have := cos_gap M hM _ hdvd
      have h2 : (0 : ℝ) ≤ 2 * A ^ 2 := by positivity
      nlinarith
    · rw [Finset.univ_unique, Finset.sum_singleton, psk_dist, hval]
      have : 2 * π * ((0 + (((1 : ℕ) : ℤ) - ((0 : ℕ) : ℤ) : ℤ)) / (M : ℝ)) = 2 * π / M := by push_cast; ring
      rw [this]

/-- For a single point (an order the constructor accepts) the mean is not zero. -/
theorem C76_psk_one : mean (psk 1 1 0) (uniformPriors (Fin 1)) = fun _ => 1 := by
  funext j
  simp [mean, uniformPriors, psk, phase]

/-- APSK with at least two points in every ring: mean 0 and mean energy. -/
theorem C76_apsk {R : Nat} (orders : Fin R → Nat) (amplitudes phases : Fin R → ℝ) (h2 : ∀ k, 2 ≤ orders k) :
    mean (apsk orders amplitudes phases) (uniformPriors _) = 0 ∧ Fintype.card ((k : Fin R) × Fin (orders k)) = ∑ k, orders k := by
  refine ⟨?_, by simp⟩
  funext j
  simp only [mean, uniformPriors, ← Finset.mul_sum, apsk, Fintype.sum_sigma, psk_sum _ (h2 _)]
  simp

theorem C76_apsk_energy {R : Nat} (orders : Fin R → Nat) (amplitudes phases : Fin R → ℝ) :
    meanEnergy (apsk orders amplitudes phases) (uniformPriors _) = apskMeanEnergy orders amplitudes := by
  simp only [meanEnergy, uniformPriors, ← Finset.mul_sum, apsk, Fintype.sum_sigma, psk_norm, Finset.univ_unique, Finset.sum_singleton, Finset.sum_const,
    Finset.card_univ, Fintype.card_fin, nsmul_eq_mul, apskMeanEnergy, Fintype.card_sigma]
  simp only [Finset.card_singleton, Nat.cast_one, one_mul]
  rw [one_div, inv_mul_eq_div]

/-! ### Orthogonal, biorthogonal, simplex -/

theorem sum_eye_diff {M : Nat} (A : ℝ) (i k : Fin M) (h : i ≠ k) :
    ∑ j, (A * (if i = j then 1 else 0) - A * (if k = j then 1 else 0)) ^ 2 = 2 * A ^ 2 := by
  have : ∀ j, (A * (if i = j then 1 else 0) - A * (if k = j then 1 else 0)) ^ 2 = (if i = j then A ^ 2 else 0) + if k = j then A ^ 2 else 0 := by
    intro j
    by_cases h1 : i = j
    · have : k ≠ j := fun h2 => h (h1.trans h2.symm)
      simp [h1, this]
    · by_cases h2 : k = j <;> simp [h1, h2]
  simp only [this, Finset.sum_add_distrib, Finset.sum_ite_eq, Finset.mem_univ, if_true]; ring

theorem C76_orthogonal (M : Nat) (hM : 0 < M) (A : ℝ) :
    mean (orthogonal M A) (uniformPriors (Fin M)) = (fun _ => A / M) ∧ meanEnergy (orthogonal M A) (uniformPriors (Fin M)) = A ^ 2 ∧
    (2 ≤ M → 0 ≤ A → minimumDistance (orthogonal M A) = ((A * √2 : ℝ) : WithTop ℝ)) := by
  have hM' : (M : ℝ) ≠ 0 := by exact_mod_cast hM.ne'
  have hs : (A * √2) ^ 2 = 2 * A ^ 2 := by rw [mul_pow, sq_sqrt (by norm_num)]; ring
  refine ⟨?_, ?_, fun h2 hA => ?_⟩
  · funext j
    simp only [mean, uniformPriors, orthogonal, ← Finset.mul_sum, Finset.sum_ite_eq', Finset.mem_univ, if_true, Fintype.card_fin]
    simp; ring
  · simp only [meanEnergy, uniformPriors, orthogonal, Real.norm_eq_abs, sq_abs, mul_pow, ite_pow, one_pow, ne_eq, OfNat.ofNat_ne_zero, not_false_eq_true,
      zero_pow, ← Finset.mul_sum, Finset.sum_ite_eq, Finset.mem_univ, if_true, Finset.sum_const, Finset.card_univ, Fintype.card_fin, nsmul_eq_mul]
    field_simp
  · refine minimumDistance_eq _ _ (fun i k hik => ?_) ⟨⟨0, by omega⟩, ⟨1, by omega⟩, by simp, ?_⟩ (by positivity) <;>
    · simp only [orthogonal, Real.norm_eq_abs, sq_abs]
      rw [sum_eye_diff A _ _ (by first | exact hik | simp), hs]

theorem C76_simplex (M : Nat) (hM : 0 < M) (A : ℝ) :
    mean (simplex M A) (uniformPriors (Fin M)) = 0 ∧ meanEnergy (simplex M A) (uniformPriors (Fin M)) = A ^ 2 * ((M : ℝ) - 1) / M ∧
    (2 ≤ M → 0 ≤ A → minimumDistance (simplex M A) = ((A * √2 : ℝ) : WithTop ℝ)) := by
  have hM' : (M : ℝ) ≠ 0 := by exact_mod_cast hM.ne'
  have hs : (A * √2) ^ 2 = 2 * A ^ 2 := by rw [mul_pow, sq_sqrt (by norm_num)]; ring
  refine ⟨?_, ?_, fun h2 hA => ?_⟩
  · funext j
    simp only [mean, uniformPriors, simplex, ← Finset.mul_sum, Finset.sum_sub_distrib, Finset.sum_ite_eq', Finset.mem_univ, if_true, Finset.sum_const,
      Finset.card_univ, Fintype.card_fin, nsmul_eq_mul]
    have : (1 : ℝ) - M * (1 / M) = 0 := by field_simp; ring
    rw [this]; simp
  · have h1 : ∀ i : Fin M, ∑ j, ‖simplex M A i j‖ ^ 2 = A ^ 2 * ((M : ℝ) - 1) / M := by
      intro i
      have := sum_eye_sq (fun _ : Fin M => (0 : ℝ)) A (1 / M) i
      simp only [zero_sub, norm_neg] at this
      simp only [simplex, this, zero_add, Finset.sum_const, Finset.card_univ, Fintype.card_fin, nsmul_eq_mul]
      field_simp; ring
    simp only [meanEnergy, uniformPriors, h1, ← Finset.sum_mul, Finset.sum_const, Finset.card_univ, Fintype.card_fin, nsmul_eq_mul]
    field_simp
  · refine minimumDistance_eq _ _ (fun i k hik => ?_) ⟨⟨0, by omega⟩, ⟨1, by omega⟩, by simp, ?_⟩ (by positivity) <;>
    · simp only [simplex, Real.norm_eq_abs, sq_abs]
      rw [hs, ← sum_eye_diff A _ _ (by first | exact hik | exact (by simp : (⟨0, by omega⟩ : Fin M) ≠ ⟨1, by omega⟩))]
      first
        | (refine le_of_eq (Finset.sum_congr rfl fun j _ => ?_); ring)
        | (refine Finset.sum_congr rfl fun j _ => ?_; ring)

theorem C76_biorthogonal (N : Nat) (hN : 0 < N) (A : ℝ) :
    mean (biorthogonal N A) (uniformPriors (Fin (N + N))) = 0 ∧ meanEnergy (biorthogonal N A) (uniformPriors (Fin (N + N))) = A ^ 2 ∧
    (0 ≤ A → minimumDistance (biorthogonal N A) = (biorthogonalMinimumDistance N A : WithTop ℝ)) := by
  have hN' : (N : ℝ) ≠ 0 := by exact_mod_cast hN.ne'
  refine ⟨?_, ?_, fun hA => ?_⟩
  · funext j
    simp only [mean, uniformPriors, ← Finset.mul_sum, Fin.sum_univ_add, biorthogonal, Fin.append_left, Fin.append_right, Finset.sum_ite_eq', Finset.mem_univ,
      if_true]
    simp
  · have h1 : ∀ i : Fin (N + N), ∑ j, ‖biorthogonal N A i j‖ ^ 2 = A ^ 2 := by
      intro i
      induction i using Fin.addCases with
      | left i => simp only [biorthogonal, Fin.append_left, Real.norm_eq_abs, sq_abs, mul_pow, ite_pow]; simp
      | right i => simp only [biorthogonal, Fin.append_right, Real.norm_eq_abs, sq_abs, mul_pow, ite_pow]; simp
    simp only [meanEnergy, uniformPriors, h1, ← Finset.sum_mul, Finset.sum_const, Finset.card_univ, Fintype.card_fin, nsmul_eq_mul]
    push_cast
    field_simp
  · have hop : ∀ i : Fin N, ∑ j, (A * (if i = j then 1 else 0) - -A * (if i = j then 1 else 0)) ^ 2 = (2 * A) ^ 2 := by
      intro i
      have : ∀ j, (A * (if i = j then 1 else 0) - -A * (if i = j then 1 else 0)) ^ 2 = if i = j then (2 * A) ^ 2 else 0 := by
        intro j; split <;> ring
      simp only [this, Finset.sum_ite_eq, Finset.mem_univ, if_true]
    have hcross : ∀ i k : Fin N, i ≠ k → ∑ j, (A * (if i = j then 1 else 0) - -A * (if k = j then 1 else 0)) ^ 2 = 2 * A ^ 2 := by
      intro i k h
      rw [← sum_eye_diff A i k h]
      refine Finset.sum_congr rfl fun j _ => ?_
      by_cases h1 : i = j
      · have : k ≠ j := fun h2 => h (h1.trans h2.symm)
        simp [this]
      · simp [h1]
    have hdist : ∀ i k : Fin (N + N), i ≠ k → ∑ j, ‖biorthogonal N A i j - biorthogonal N A k j‖ ^ 2 = (2 * A) ^ 2 ∨
        (2 ≤ N ∧ ∑ j, ‖biorthogonal N A i j - biorthogonal N A k j‖ ^ 2 = 2 * A ^ 2) := by
      have two : ∀ i k : Fin N, i ≠ k → 2 ≤ N := fun i k h => by
        have h1 := i.isLt; have h2 := k.isLt
        have : i.val ≠ k.val := fun h' => h (Fin.ext h')
        omega
      intro i k hik
      induction i using Fin.addCases with
      | left i =>
        induction k using Fin.addCases with
        | left k =>
          have h : i ≠ k := fun h => hik (by rw [h])
          right; refine ⟨two i k h, ?_⟩
          simp only [biorthogonal, Fin.append_left, Real.norm_eq_abs, sq_abs]
          exact sum_eye_diff A i k h
        | right k =>
          simp only [biorthogonal, Fin.append_left, Fin.append_right, Real.norm_eq_abs, sq_abs]
          by_cases h : i = k
          · left; rw [h]; exact hop k
          · right; exact ⟨two i k h, hcross i k h⟩
      | right i =>
        induction k using Fin.addCases with
        | left k =>
          simp only [biorthogonal, Fin.append_left, Fin.append_right, Real.norm_eq_abs, sq_abs]
          have e : ∀ j, (-A * (if i = j then (1 : ℝ) else 0) - A * (if k = j then 1 else 0)) ^ 2 = (A * (if k = j then 1 else 0) - -A * (if i = j then 1 else 0)) ^ 2 := fun j => by ring
          simp only [e]
          by_cases h : k = i
          · left; rw [h]; exact hop i
          · right; exact ⟨two k i h, hcross k i h⟩
        | right k =>
          have h : i ≠ k := fun h => hik (by rw [h])
          right; refine ⟨two i k h, ?_⟩
          simp only [biorthogonal, Fin.append_right, Real.norm_eq_abs, sq_abs]
          rw [sum_eye_diff (-A) i k h]; ring
    have hs : (A * √2) ^ 2 = 2 * A ^ 2 := by rw [mul_pow, sq_sqrt (by norm_num)]; ring
    rw [biorthogonalMinimumDistance]
    split
    · next h =>
      have hN1 : N = 1 := by omega
      refine minimumDistance_eq _ _ (fun i k hik => ?_) ⟨Fin.castAdd N ⟨0, hN⟩, Fin.natAdd N ⟨0, hN⟩, ?_, ?_⟩ (by positivity)
      · rcases hdist i k hik with h1 | ⟨h1, -⟩
        · exact h1.ge
        · omega
      · intro h'
        have := congrArg Fin.val h'
        simp at this; omega
      · simp only [biorthogonal, Fin.append_left, Fin.append_right, Real.norm_eq_abs, sq_abs]
        exact hop _
    · next h =>
      have hN2 : 2 ≤ N := by omega
      refine minimumDistance_eq _ _ (fun i k hik => ?_) ⟨Fin.castAdd N ⟨0, hN⟩, Fin.castAdd N ⟨1, by omega⟩, ?_, ?_⟩ (by positivity)
      · rw [hs]
        rcases hdist i k hik with h1 | ⟨-, h1⟩
        · rw [h1]; nlinarith [sq_nonneg A]
        · exact h1.ge
      · intro h'
        have := congrArg Fin.val h'
        simp at this
      · simp only [biorthogonal, Fin.append_left, Real.norm_eq_abs, sq_abs]
        rw [sum_eye_diff A _ _ (by simp), hs]

end Komm
