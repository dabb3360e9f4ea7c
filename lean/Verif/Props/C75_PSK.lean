import Verif.Props.C75_Decisions
import Mathlib.RingTheory.RootsOfUnity.Complex
/-! C75, PSK constellations. -/
namespace Komm
open Real Constellation

theorem dist_polar (z : ℂ) (A α : ℝ) : ‖z - A * Complex.exp (α * Complex.I)‖ ^ 2 = ‖z‖ ^ 2 + A ^ 2 - 2 * A * ‖z‖ * cos (z.arg - α) := by
  have hre : z.re = ‖z‖ * cos z.arg := (Complex.norm_mul_cos_arg z).symm
  have him : z.im = ‖z‖ * sin z.arg := (Complex.norm_mul_sin_arg z).symm
  have e : (A : ℂ) * Complex.exp (α * Complex.I) = ((A * cos α : ℝ) : ℂ) + Complex.I * ((A * sin α : ℝ) : ℂ) := by
    rw [Complex.exp_mul_I]
    push_cast
    ring
  rw [e, normSq_sub, hre, him, cos_sub]
  have h1 := sin_sq_add_cos_sq z.arg
  have h2 := sin_sq_add_cos_sq α
  nlinarith [h1, h2]

theorem cos_round (M : Nat) (hM : 0 < M) (ε : ℝ) (hε : |ε| ≤ 1 / 2) (j : ℤ) : cos (2 * π * ((ε + j) / M)) ≤ cos (2 * π * (ε / M)) := by
  have hM' : (0 : ℝ) < M := by exact_mod_cast hM
  set R := npRound ((ε + j) / M) with hR
  set y := (ε + j) / M - R with hy
  have hy2 : |y| ≤ 1 / 2 := npRound_spec _
  have e1 : cos (2 * π * ((ε + j) / M)) = cos |2 * π * y| := by
    rw [cos_abs, hy, show 2 * π * ((ε + j) / M - R) = 2 * π * ((ε + j) / M) - R * (2 * π) by ring, cos_sub_int_mul_two_pi]
  have e2 : cos (2 * π * (ε / M)) = cos |2 * π * (ε / M)| := (cos_abs _).symm
  rw [e1, e2]
  have hpi := pi_pos
  refine cos_le_cos_of_nonneg_of_le_pi (abs_nonneg _) ?_ ?_
  · rw [abs_mul, abs_of_pos (by positivity : 0 < 2 * π)]
    nlinarith
  · rw [abs_mul, abs_mul (2 * π) y]
    refine mul_le_mul_of_nonneg_left ?_ (abs_nonneg _)
    have hyM : y = (ε + ((j - M * R : ℤ) : ℝ)) / M := by rw [hy]; push_cast; field_simp; ring
    rw [hyM, abs_div, abs_div]
    refine div_le_div_of_nonneg_right ?_ (abs_nonneg _)
    rcases eq_or_ne (j - M * R) 0 with h0 | h0
    · rw [h0]; simp
    · have h1 : (1 : ℝ) ≤ |((j - M * R : ℤ) : ℝ)| := by
        rw [← Int.cast_abs]; exact_mod_cast Int.one_le_abs h0
      have h2 := abs_sub_abs_le_abs_sub (((j - M * R : ℤ) : ℝ)) (-ε)
      rw [abs_neg, sub_neg_eq_add, add_comm _ ε] at h2
      linarith

theorem psk_eq (M : Nat) (A φ : ℝ) (i : Fin M) (j : Fin 1) :
    psk M A φ i j = (A : ℂ) * Complex.exp (((2 * π * (i.val / M) : ℝ) : ℂ) * Complex.I) * phase φ := by
  rw [psk]
  congr 3
  push_cast; ring

/-- PSK, non-negative amplitude. -/
theorem C75_psk (M : Nat) (hM : 0 < M) (A φ : ℝ) (hA : 0 ≤ A) (r : ℂ) :
    ∃ i : Fin M, pskClosest M φ r = i.val ∧ Nearest (psk M A φ) (fun _ => r) i := by
  have hM' : (0 : ℝ) < M := by exact_mod_cast hM
  have hMz : (M : ℤ) ≠ 0 := by exact_mod_cast hM.ne'
  have hpi := pi_pos
  set z := r * phase (-φ) with hz
  set t : ℝ := M * (z.arg / (2 * π)) with ht
  obtain ⟨i, hi⟩ := toFin (pskClosest M φ r) (M := M) (by
    rw [pskClosest]; exact ⟨Int.emod_nonneg _ hMz, Int.emod_lt_of_pos _ (by exact_mod_cast hM)⟩)
  refine ⟨i, hi, fun k => ?_⟩
  have hval : pskClosest M φ r = npRound t % M := by rw [pskClosest, ← hz]
  have key : ∀ k : Fin M, ∑ j : Fin 1, ‖r - psk M A φ k j‖ ^ 2 = ‖z‖ ^ 2 + A ^ 2 - 2 * A * ‖z‖ * cos (2 * π * ((t - k.val) / M)) := by
    intro k
    rw [Finset.univ_unique, Finset.sum_singleton, psk_eq, norm_rotate, ← hz, dist_polar]
    congr 3
    rw [ht]; field_simp
  rw [key, key]
  have hε := npRound_spec t
  set n := npRound t
  have hn : (n : ℝ) = i.val + M * (n / M : ℤ) := by
    have h1 : n % M = i.val := by rw [← hval, hi]
    have h2 := Int.emod_add_mul_ediv n M
    rw [h1] at h2
    exact_mod_cast h2.symm
  have hcos1 : cos (2 * π * ((t - i.val) / M)) = cos (2 * π * ((t - n) / M)) := by
    have : 2 * π * ((t - i.val) / M) = 2 * π * ((t - n) / M) + ((n / M : ℤ) : ℝ) * (2 * π) := by
      rw [hn]; field_simp; ring
    rw [this, cos_add_int_mul_two_pi]
  have hcos2 : cos (2 * π * ((t - k.val) / M)) ≤ cos (2 * π * ((t - n) / M)) := by
    have := cos_round M hM (t - n) hε (n - k.val)
    push_cast at this
    rw [show t - (n : ℝ) + (n - (k.val : ℝ)) = t - k.val by ring] at this
    exact this
  rw [hcos1]
  have : 0 ≤ 2 * A * ‖z‖ := by positivity
  have := mul_le_mul_of_nonneg_left hcos2 this
  linarith

theorem psk_injective (M : Nat) (A φ : ℝ) (hA : A ≠ 0) (i k : Fin M) (h : psk M A φ i 0 = psk M A φ k 0) : i = k := by
  have hM : M ≠ 0 := i.pos.ne'
  have hph : phase φ ≠ 0 := fun h => by have := norm_phase φ; rw [h] at this; simp at this
  have e : ∀ i : Fin M, psk M A φ i 0 = (A : ℂ) * Complex.exp (2 * π * Complex.I / M) ^ i.val * phase φ := by
    intro i
    rw [psk, ← Complex.exp_nat_mul]
    congr 3; ring
  rw [e, e] at h
  have h := mul_left_cancel₀ (by exact_mod_cast hA) (mul_right_cancel₀ hph h)
  exact Fin.ext ((Complex.isPrimitiveRoot_exp M hM).pow_inj i.isLt k.isLt h)

/-- PSK without noise. -/
theorem C75_psk_noiseless (M : Nat) (A φ : ℝ) (hA : 0 < A) (i : Fin M) : pskClosest M φ (psk M A φ i 0) = i.val := by
  obtain ⟨k, hk, hnear⟩ := C75_psk M i.pos A φ hA.le (psk M A φ i 0)
  have h := hnear i
  rw [Finset.univ_unique, Finset.sum_singleton, Finset.sum_singleton] at h
  have h0 : psk M A φ i 0 - psk M A φ k 0 = 0 := by
    rw [← norm_eq_zero, ← sq_eq_zero_iff]
    refine le_antisymm ?_ (sq_nonneg _)
    simpa using h
  rw [hk, psk_injective M A φ hA.ne' i k (sub_eq_zero.mp h0)]

end Komm
