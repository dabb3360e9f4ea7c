import Verif.Lemmas.Constellations
import Mathlib.Data.Fin.Tuple.Basic
/-! C75: the decisions of `closest_indices` are nearest-neighbour decisions. -/
namespace Komm
open Real Constellation

/-- `i` is the index of a point of the constellation `m` at least Euclidean distance from `r`. -/
def Nearest {𝕜 : Type} [RCLike 𝕜] {M N : Nat} (m : Fin M → Fin N → 𝕜) (r : Fin N → 𝕜) (i : Fin M) : Prop :=
  ∀ k, ∑ j, ‖r j - m i j‖ ^ 2 ≤ ∑ j, ‖r j - m k j‖ ^ 2

/-- The generic decision (used by `Constellation`, `APSKConstellation`, `CrossQAMConstellation`). -/
theorem C75_generic {𝕜 : Type} [RCLike 𝕜] {M N : Nat} (hM : 0 < M) (m : Fin M → Fin N → 𝕜) (r : Fin N → 𝕜) :
    ∃ i, closest m r = some i ∧ Nearest m r i ∧ ∀ k, Nearest m r k → i ≤ k := by
  obtain ⟨i, h1, h2, h3⟩ := argminFin_spec hM (sqDist m r)
  refine ⟨i, h1, h2, fun k hk => ?_⟩
  by_contra hc
  obtain ⟨l, hl⟩ := h3 k (not_le.mp hc)
  exact absurd (hk l) (not_le.mpr hl)

theorem toFin (x : ℤ) {M : Nat} (h : 0 ≤ x ∧ x < M) : ∃ i : Fin M, x = i.val :=
  ⟨⟨x.toNat, by omega⟩, by simp; omega⟩

/-- PAM. -/
theorem C75_pam (M : Nat) (hM : 0 < M) (δ : ℝ) (hδ : δ ≠ 0) (r : ℝ) :
    ∃ i : Fin M, pamClosest M δ r = i.val ∧ Nearest (pam M δ) (fun _ => r) i := by
  obtain ⟨i, hi⟩ := toFin (pamClosest M δ r) (npClip_range _ hM)
  refine ⟨i, hi, fun k => ?_⟩
  have key : ∀ k : Fin M, ∑ j : Fin 1, ‖r - pam M δ k j‖ ^ 2 = (|δ| * |(r / δ + ((M : ℝ) - 1) / 2) - (k.val : ℤ)|) ^ 2 := by
    intro k
    rw [Finset.univ_unique, Finset.sum_singleton, pam, pamPoint_eq M δ k k.isLt, ← abs_mul, Real.norm_eq_abs]
    congr 2
    push_cast
    field_simp
    ring
  rw [key, key, ← hi, pamClosest]
  have := clip_round_nearest (r / δ + ((M : ℝ) - 1) / 2) ((M : ℤ) - 1) k.val (by omega) (by omega)
  gcongr

/-- PAM without noise: every symbol is decided correctly. -/
theorem C75_pam_noiseless (M : Nat) (δ : ℝ) (hδ : δ ≠ 0) (i : Fin M) : pamClosest M δ (pam M δ i 0) = i.val := by
  rw [pamClosest, pam, pamPoint_eq M δ i i.isLt]
  have : δ * ((i.val : ℝ) - ((M : ℝ) - 1) / 2) / δ + ((M : ℝ) - 1) / 2 = ((i.val : ℤ) : ℝ) := by push_cast; field_simp; ring
  rw [this, npRound_int, npClip_id _ _ (by omega) (by omega)]

/-- ASK. -/
theorem C75_ask (M : Nat) (hM : 0 < M) (A φ : ℝ) (hA : A ≠ 0) (r : ℂ) :
    ∃ i : Fin M, askClosest M A φ r = i.val ∧ Nearest (ask M A φ) (fun _ => r) i := by
  obtain ⟨i, hi⟩ := toFin (askClosest M A φ r) (npClip_range _ hM)
  refine ⟨i, hi, fun k => ?_⟩
  set z := r * phase (-φ) with hz
  have key : ∀ k : Fin M, ∑ j : Fin 1, ‖r - ask M A φ k j‖ ^ 2 = (|A| * |z.re / A - (k.val : ℤ)|) ^ 2 + z.im ^ 2 := by
    intro k
    rw [Finset.univ_unique, Finset.sum_singleton, ask, norm_rotate, ← hz,
      show (A : ℂ) * (k.val : ℂ) = ((A * k.val : ℝ) : ℂ) by push_cast; rfl, normSq_sub_real, ← abs_mul, sq_abs]
    congr 2
    push_cast
    field_simp
  rw [key, key, ← hi, askClosest, ← hz]
  have := clip_round_nearest (z.re / A) ((M : ℤ) - 1) k.val (by omega) (by omega)
  gcongr

theorem C75_ask_noiseless (M : Nat) (A φ : ℝ) (hA : A ≠ 0) (i : Fin M) : askClosest M A φ (ask M A φ i 0) = i.val := by
  rw [askClosest, ask, mul_assoc, mul_comm (phase φ), phase_neg, mul_one]
  have : ((A : ℂ) * (i.val : ℂ)).re / A = ((i.val : ℤ) : ℝ) := by
    rw [show (A : ℂ) * (i.val : ℂ) = ((A * i.val : ℝ) : ℂ) by push_cast; rfl, Complex.ofReal_re]
    push_cast; field_simp
  rw [this, npRound_int, npClip_id _ _ (by omega) (by omega)]

/-- QAM (any two orders, any two spacings, any rotation). -/
theorem C75_qam (Mi Mq : Nat) (hi : 0 < Mi) (hq : 0 < Mq) (δi δq φ : ℝ) (hδi : δi ≠ 0) (hδq : δq ≠ 0) (r : ℂ) :
    ∃ i : Fin (Mi * Mq), qamClosest Mi Mq δi δq φ r = i.val ∧ Nearest (qam Mi Mq δi δq φ) (fun _ => r) i := by
  set z := r * phase (-φ) with hz
  set x : ℝ := z.re / δi + ((Mi : ℝ) - 1) / 2 with hx
  set y : ℝ := z.im / δq + ((Mq : ℝ) - 1) / 2 with hy
  obtain ⟨a, ha⟩ := toFin (npClip (npRound x) ((Mi : ℤ) - 1)) (npClip_range _ hi)
  obtain ⟨b, hb⟩ := toFin (npClip (npRound y) ((Mq : ℤ) - 1)) (npClip_range _ hq)
  have hlt : Mq * a.val + b.val < Mi * Mq := by
    calc Mq * a.val + b.val < Mq * a.val + Mq := by have := b.isLt; omega
      _ = Mq * (a.val + 1) := by ring
      _ ≤ Mq * Mi := Nat.mul_le_mul_left _ a.isLt
      _ = Mi * Mq := Nat.mul_comm _ _
  have hval : qamClosest Mi Mq δi δq φ r = ((Mq * a.val + b.val : Nat) : ℤ) := by
    rw [qamClosest]
    have e1 : ((z.re / (δi / 2)) + Mi - 1) / 2 = x := by rw [hx]; field_simp; ring
    have e2 : ((z.im / (δq / 2)) + Mq - 1) / 2 = y := by rw [hy]; field_simp; ring
    simp only [← hz, e1, e2, ha, hb]
    push_cast; rfl
  refine ⟨⟨_, hlt⟩, hval, fun k => ?_⟩
  have key : ∀ k : Fin (Mi * Mq), ∑ j : Fin 1, ‖r - qam Mi Mq δi δq φ k j‖ ^ 2 =
      (|δi| * |x - ((k.val / Mq : Nat) : ℤ)|) ^ 2 + (|δq| * |y - ((k.val % Mq : Nat) : ℤ)|) ^ 2 := by
    intro k
    have h1 : k.val / Mq < Mi := Nat.div_lt_of_lt_mul (k.isLt.trans_eq (Nat.mul_comm _ _))
    have h2 : k.val % Mq < Mq := Nat.mod_lt _ hq
    rw [Finset.univ_unique, Finset.sum_singleton, qam, norm_rotate, ← hz, normSq_sub, pamPoint_eq Mi δi _ h1, pamPoint_eq Mq δq _ h2,
      ← abs_mul, ← abs_mul, sq_abs, sq_abs, hx, hy]
    congr 2
    · rw [Int.cast_natCast]; field_simp; ring
    · rw [Int.cast_natCast]; field_simp; ring
  rw [key, key]
  have d1 : (Mq * a.val + b.val) / Mq = a.val := by rw [Nat.mul_add_div hq, Nat.div_eq_of_lt b.isLt, Nat.add_zero]
  have d2 : (Mq * a.val + b.val) % Mq = b.val := by rw [Nat.mul_add_mod, Nat.mod_eq_of_lt b.isLt]
  simp only [d1, d2, ← ha, ← hb]
  have h1 : k.val / Mq < Mi := Nat.div_lt_of_lt_mul (k.isLt.trans_eq (Nat.mul_comm _ _))
  have h2 : k.val % Mq < Mq := Nat.mod_lt _ hq
  have c1 := clip_round_nearest x ((Mi : ℤ) - 1) ((k.val / Mq : Nat) : ℤ) (Int.natCast_nonneg _) (Int.le_sub_one_of_lt (by exact_mod_cast h1))
  have c2 := clip_round_nearest y ((Mq : ℤ) - 1) ((k.val % Mq : Nat) : ℤ) (Int.natCast_nonneg _) (Int.le_sub_one_of_lt (by exact_mod_cast h2))
  gcongr

theorem C75_qam_noiseless (Mi Mq : Nat) (δi δq φ : ℝ) (hδi : δi ≠ 0) (hδq : δq ≠ 0) (k : Fin (Mi * Mq)) :
    qamClosest Mi Mq δi δq φ (qam Mi Mq δi δq φ k 0) = k.val := by
  have hq : 0 < Mq := Nat.pos_of_ne_zero fun h => by have := k.isLt; simp [h] at this
  have h1 : k.val / Mq < Mi := Nat.div_lt_of_lt_mul (k.isLt.trans_eq (Nat.mul_comm _ _))
  have h2 : k.val % Mq < Mq := Nat.mod_lt _ hq
  rw [qamClosest, qam, mul_assoc, mul_comm (phase φ), phase_neg, mul_one, pamPoint_eq Mi δi _ h1, pamPoint_eq Mq δq _ h2]
  have e1 : ((((δi * (((k.val / Mq : Nat) : ℝ) - ((Mi : ℝ) - 1) / 2) : ℝ) : ℂ) +
      Complex.I * ((δq * (((k.val % Mq : Nat) : ℝ) - ((Mq : ℝ) - 1) / 2) : ℝ) : ℂ)).re / (δi / 2) + Mi - 1) / 2 = (((k.val / Mq : Nat) : ℤ) : ℝ) := by
    simp only [Complex.add_re, Complex.ofReal_re, Complex.mul_re, Complex.I_re, Complex.I_im, Complex.ofReal_im, Int.cast_natCast]
    field_simp; ring
  have e2 : ((((δi * (((k.val / Mq : Nat) : ℝ) - ((Mi : ℝ) - 1) / 2) : ℝ) : ℂ) +
      Complex.I * ((δq * (((k.val % Mq : Nat) : ℝ) - ((Mq : ℝ) - 1) / 2) : ℝ) : ℂ)).im / (δq / 2) + Mq - 1) / 2 = (((k.val % Mq : Nat) : ℤ) : ℝ) := by
    simp only [Complex.add_im, Complex.ofReal_im, Complex.mul_im, Complex.I_re, Complex.I_im, Complex.ofReal_re, Int.cast_natCast]
    field_simp; ring
  have g1 : ((k.val / Mq : Nat) : ℤ) < Mi := by exact_mod_cast h1
  have g2 : ((k.val % Mq : Nat) : ℤ) < Mq := by exact_mod_cast h2
  rw [e1, e2, npRound_int, npRound_int, npClip_id _ _ (Int.natCast_nonneg _) (by omega), npClip_id _ _ (Int.natCast_nonneg _) (by omega)]
  exact_mod_cast Nat.div_add_mod k.val Mq

theorem sum_eye_sq {M : Nat} (r : Fin M → ℝ) (A c : ℝ) (i : Fin M) :
    ∑ j, ‖r j - A * ((if i = j then 1 else 0) - c)‖ ^ 2 = ∑ j, (r j + A * c) ^ 2 - 2 * A * (r i + A * c) + A ^ 2 := by
  have : ∀ j, ‖r j - A * ((if i = j then 1 else 0) - c)‖ ^ 2 = (r j + A * c) ^ 2 + if i = j then - 2 * A * (r j + A * c) + A ^ 2 else 0 := by
    intro j
    rw [Real.norm_eq_abs, sq_abs]
    split <;> ring
  simp only [this, Finset.sum_add_distrib]
  rw [Finset.sum_ite_eq Finset.univ i]
  simp; ring

/-- Orthogonal constellations, non-negative amplitude. -/
theorem C75_orthogonal (M : Nat) (hM : 0 < M) (A : ℝ) (hA : 0 ≤ A) (r : Fin M → ℝ) :
    ∃ i, orthogonalClosest r = some i ∧ Nearest (orthogonal M A) r i := by
  obtain ⟨i, h1, h2, -⟩ := argminFin_spec hM fun i => - r i
  refine ⟨i, h1, fun k => ?_⟩
  have := fun i => sum_eye_sq r A 0 i
  simp only [sub_zero, mul_zero, add_zero] at this
  simp only [orthogonal, this]
  have := mul_le_mul_of_nonneg_left (neg_le_neg_iff.mp (h2 k)) hA
  linarith

/-- Simplex constellations, non-negative amplitude. -/
theorem C75_simplex (M : Nat) (hM : 0 < M) (A : ℝ) (hA : 0 ≤ A) (r : Fin M → ℝ) :
    ∃ i, orthogonalClosest r = some i ∧ Nearest (simplex M A) r i := by
  obtain ⟨i, h1, h2, -⟩ := argminFin_spec hM fun i => - r i
  refine ⟨i, h1, fun k => ?_⟩
  simp only [simplex, sum_eye_sq r A (1 / (M : ℝ))]
  have := mul_le_mul_of_nonneg_left (neg_le_neg_iff.mp (h2 k)) hA
  linarith

/-- Biorthogonal constellations, non-negative amplitude. -/
theorem C75_biorthogonal (N : Nat) (hN : 0 < N) (A : ℝ) (hA : 0 ≤ A) (r : Fin N → ℝ) :
    ∃ i, biorthogonalClosest r = some i ∧ Nearest (biorthogonal N A) r i := by
  obtain ⟨i, h1, h2, -⟩ := argminFin_spec (show 0 < N + N by omega) fun i => - (Fin.append r (fun j => - r j) : Fin (N + N) → ℝ) i
  refine ⟨i, h1, fun k => ?_⟩
  have key : ∀ k : Fin (N + N), ∑ j, ‖r j - biorthogonal N A k j‖ ^ 2 =
      ∑ j, r j ^ 2 - 2 * A * (Fin.append r (fun j => - r j) : Fin (N + N) → ℝ) k + A ^ 2 := by
    intro k
    induction k using Fin.addCases with
    | left k =>
      have := sum_eye_sq r A 0 k
      simp only [sub_zero, mul_zero, add_zero] at this
      simp only [biorthogonal, Fin.append_left, this]
    | right k =>
      have := sum_eye_sq r (-A) 0 k
      simp only [sub_zero, mul_zero, add_zero] at this
      simp only [biorthogonal, Fin.append_right, this]
      ring
  rw [key, key]
  have := mul_le_mul_of_nonneg_left (neg_le_neg_iff.mp (h2 k)) hA
  linarith

/-- For a negative amplitude (accepted by the constructors) the decision of the orthogonal constellation is not nearest-neighbour. -/
theorem C75_negative_amplitude : orthogonalClosest (![0, -1] : Fin 2 → ℝ) = some 0 ∧ ¬ Nearest (orthogonal 2 (-1)) (![0, -1] : Fin 2 → ℝ) 0 := by
  constructor
  · obtain ⟨i, h1, h2, -⟩ := argminFin_spec (show 0 < 2 by omega) fun i => - (![0, -1] : Fin 2 → ℝ) i
    have h3 : i = 0 := by
      fin_cases i
      · rfl
      · have := h2 0; simp at this; linarith
    rw [orthogonalClosest, argmaxFin, h1, h3]
  · intro h
    have := h 1
    simp only [orthogonal, Fin.sum_univ_two] at this
    norm_num at this

end Komm
