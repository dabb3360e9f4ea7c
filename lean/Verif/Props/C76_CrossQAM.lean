import Verif.Props.C76_Formulas
/-! C76 for the cross-shaped QAM constellation. -/
namespace Komm
open Real Constellation

/-- `CrossQAMConstellation(order)` is accepted for the odd powers of two from 32 on, and only for these. -/
theorem C76_cross_orders (order : Nat) : crossQamAccepts order = true ↔ ∃ t, order = 2 ^ (2 * t + 5) := by
  rw [crossQamAccepts]
  simp only [Bool.not_eq_true', Bool.or_eq_false_iff, decide_eq_false_iff_not, not_lt, ne_eq, not_not]
  constructor
  · rintro ⟨⟨h1, h2⟩, h3⟩
    obtain ⟨k, rfl⟩ := (Nat.and_sub_one_eq_zero_iff_isPowerOfTwo (by omega : order ≠ 0)).mp h2
    rw [Nat.size_pow] at h3
    have h5 : 5 ≤ k := (Nat.pow_le_pow_iff_right (by norm_num : 1 < 2)).mp (by simpa using h1)
    exact ⟨(k - 5) / 2, by congr 1; omega⟩
  · rintro ⟨t, rfl⟩
    refine ⟨⟨?_, (Nat.and_sub_one_eq_zero_iff_isPowerOfTwo (by positivity)).mpr ⟨_, rfl⟩⟩, ?_⟩
    · calc 32 = 2 ^ 5 := by norm_num
        _ ≤ _ := Nat.pow_le_pow_right (by norm_num) (by omega)
    · rw [Nat.size_pow]; omega

/-- Coordinate `a` of `6 u` lies in the outer sixth on either side. -/
def Outer (u a : Nat) : Prop := a < u ∨ 5 * u ≤ a

instance (u a : Nat) : Decidable (Outer u a) := inferInstanceAs (Decidable (_ ∨ _))

theorem crossSide_eq (t : Nat) : crossSide (2 ^ (2 * t + 5)) = 6 * 2 ^ t := by
  rw [crossSide, Nat.size_pow, show (2 * t + 5 + 1 - 1 - 3) / 2 = t + 1 by omega, pow_succ]; ring

theorem crossThreshold_eq (t : Nat) (δ : ℝ) : crossThreshold (2 ^ (2 * t + 5)) δ = 2 * ((2 ^ t : Nat) : ℝ) * δ := by
  rw [crossThreshold, Nat.size_pow, show (2 * t + 5 + 1 - 1 - 1) / 2 = t + 2 by omega, pow_add]; push_cast; ring

theorem outer_iff (u a L : Nat) (δ : ℝ) (hδ : 0 < δ) (hL : L = 6 * u) (ha : a < L) : 2 * (u : ℝ) * δ < |pamPoint L δ a| ↔ Outer u a := by
  rw [pamPoint_eq L δ a ha, abs_mul, abs_of_pos hδ, mul_comm, mul_lt_mul_iff_right₀ hδ, lt_abs, hL]
  push_cast
  have e1 : 2 * (u : ℝ) < (a : ℝ) - (6 * u - 1) / 2 ↔ 5 * u ≤ a := by
    constructor
    · intro h
      have : (10 * u : ℝ) < 2 * a + 1 := by linarith
      have : 10 * u < 2 * a + 1 := by exact_mod_cast this
      omega
    · intro h
      have : (5 * u : ℝ) ≤ a := by exact_mod_cast h
      linarith
  have e2 : 2 * (u : ℝ) < -((a : ℝ) - (6 * u - 1) / 2) ↔ a < u := by
    constructor
    · intro h
      have : (2 * a + 1 : ℝ) < 2 * u := by linarith
      have : 2 * a + 1 < 2 * u := by exact_mod_cast this
      omega
    · intro h
      have : (a + 1 : ℝ) ≤ u := by exact_mod_cast h
      linarith
  rw [e1, e2, Outer, or_comm]

theorem phase_zero : phase 0 = 1 := by simp [phase]

theorem corner_iff (t : Nat) (δ : ℝ) (hδ : 0 < δ) (k : Fin (crossSide (2 ^ (2 * t + 5)) * crossSide (2 ^ (2 * t + 5)))) :
    IsCorner (2 ^ (2 * t + 5)) δ k ↔ Outer (2 ^ t) (k.val / crossSide (2 ^ (2 * t + 5))) ∧ Outer (2 ^ t) (k.val % crossSide (2 ^ (2 * t + 5))) := by
  have hL := crossSide_eq t
  have hT := crossThreshold_eq t δ
  rw [IsCorner, hT, qam, phase_zero, mul_one]
  generalize crossSide (2 ^ (2 * t + 5)) = L at *
  have hp : 0 < L := by have : 0 < 2 ^ t := by positivity
                        omega
  have d : k.val / L < L := Nat.div_lt_of_lt_mul k.isLt
  have m : k.val % L < L := Nat.mod_lt _ hp
  simp only [Complex.add_re, Complex.ofReal_re, Complex.mul_re, Complex.I_re, Complex.I_im, Complex.ofReal_im, Complex.add_im, Complex.mul_im,
    zero_mul, mul_zero, sub_zero, add_zero, one_mul, zero_add, gt_iff_lt]
  rw [outer_iff _ _ L δ hδ hL d, outer_iff _ _ L δ hδ hL m]

/-- Sums over the outer coordinates. -/
theorem sum_outer (u : Nat) (f : Nat → ℝ) :
    ∑ a : Fin (6 * u), (if Outer u a then f a else 0) = (∑ a : Fin u, f a) + ∑ a : Fin u, f (5 * u + a) := by
  rw [Fin.sum_univ_eq_sum_range fun a => if Outer u a then f a else 0, Fin.sum_univ_eq_sum_range f, Fin.sum_univ_eq_sum_range fun a => f (5 * u + a),
    show 6 * u = u + 4 * u + u by ring, Finset.sum_range_add, Finset.sum_range_add]
  have e1 : ∀ x ∈ Finset.range u, (if Outer u x then f x else 0) = f x := fun x hx => if_pos (Or.inl (Finset.mem_range.mp hx))
  have e2 : ∀ x ∈ Finset.range (4 * u), (if Outer u (u + x) then f (u + x) else 0) = 0 := by
    intro x hx
    refine if_neg ?_
    have := Finset.mem_range.mp hx
    rw [Outer]; omega
  have e3 : ∀ x ∈ Finset.range u, (if Outer u (u + 4 * u + x) then f (u + 4 * u + x) else 0) = f (5 * u + x) := by
    intro x hx
    rw [if_pos (by rw [Outer]; omega), show u + 4 * u + x = 5 * u + x by ring]
  rw [Finset.sum_congr rfl e1, Finset.sum_congr rfl e2, Finset.sum_congr rfl e3, Finset.sum_const_zero, add_zero]

theorem outer_count (u : Nat) : ∑ a : Fin (6 * u), (if Outer u a then (1 : ℝ) else 0) = 2 * u := by
  rw [sum_outer u fun _ => 1]; simp; ring

theorem outer_sum (u : Nat) (δ : ℝ) : ∑ a : Fin (6 * u), (if Outer u a then pamPoint (6 * u) δ a else 0) = 0 := by
  have e : ∀ a : Fin (6 * u), (if Outer u a then pamPoint (6 * u) δ a else 0) = if Outer u a then δ * ((a.val : ℝ) - (6 * u - 1) / 2) else 0 := by
    intro a; rw [pamPoint_eq _ δ a.val a.isLt]; push_cast; rfl
  rw [Finset.sum_congr rfl fun a _ => e a, sum_outer u fun a => δ * ((a : ℝ) - (6 * u - 1) / 2), ← Finset.mul_sum, ← Finset.mul_sum]
  simp only [Nat.cast_add, Nat.cast_mul, Nat.cast_ofNat, Finset.sum_sub_distrib, Finset.sum_add_distrib, sum_id]
  simp; ring

theorem outer_sum_sq (u : Nat) (δ : ℝ) :
    ∑ a : Fin (6 * u), (if Outer u a then pamPoint (6 * u) δ a ^ 2 else 0) = δ ^ 2 * (u : ℝ) * (76 * (u : ℝ) ^ 2 - 1) / 6 := by
  have e : ∀ a : Fin (6 * u), (if Outer u a then pamPoint (6 * u) δ a ^ 2 else 0) =
      if Outer u a then δ ^ 2 * ((a.val : ℝ) ^ 2 - (6 * u - 1) * a.val + ((6 * u - 1) / 2) ^ 2) else 0 := by
    intro a; rw [pamPoint_eq _ δ a.val a.isLt]; push_cast; split <;> ring
  rw [Finset.sum_congr rfl fun a _ => e a, sum_outer u fun a => δ ^ 2 * ((a : ℝ) ^ 2 - (6 * u - 1) * a + ((6 * u - 1) / 2) ^ 2), ← Finset.mul_sum, ← Finset.mul_sum]
  have e2 : ∀ a : Fin u, (((5 * u + a.val : Nat) : ℝ) ^ 2 - (6 * u - 1) * ((5 * u + a.val : Nat) : ℝ) + ((6 * (u : ℝ) - 1) / 2) ^ 2) =
      (a.val : ℝ) ^ 2 + (10 * u - (6 * u - 1)) * a.val + (25 * u ^ 2 - (6 * u - 1) * (5 * u) + ((6 * (u : ℝ) - 1) / 2) ^ 2) := by
    intro a; push_cast; ring
  simp only [e2, Finset.sum_sub_distrib, Finset.sum_add_distrib, sum_id, sum_sq, ← Finset.mul_sum]
  simp; ring

/-- Sums over the points of the cross. -/
theorem cross_sum {α : Type} [Field α] (t : Nat) (δ : ℝ) (hδ : 0 < δ) (f : Nat → Nat → α) :
    ∑ k : { k // ¬ IsCorner (2 ^ (2 * t + 5)) δ k }, f (k.1.val / crossSide (2 ^ (2 * t + 5))) (k.1.val % crossSide (2 ^ (2 * t + 5))) =
      ∑ a : Fin (6 * 2 ^ t), ∑ b : Fin (6 * 2 ^ t), (1 - (if Outer (2 ^ t) a then 1 else 0) * (if Outer (2 ^ t) b then 1 else 0)) * f a b := by
  classical
  rw [← Finset.sum_subtype (Finset.univ.filter fun k => ¬ IsCorner (2 ^ (2 * t + 5)) δ k) (by simp)
    fun k => f (k.val / crossSide (2 ^ (2 * t + 5))) (k.val % crossSide (2 ^ (2 * t + 5))), Finset.sum_filter]
  have e : ∀ k : Fin (crossSide (2 ^ (2 * t + 5)) * crossSide (2 ^ (2 * t + 5))),
      (if ¬ IsCorner (2 ^ (2 * t + 5)) δ k then f (k.val / crossSide (2 ^ (2 * t + 5))) (k.val % crossSide (2 ^ (2 * t + 5))) else 0) =
      (1 - (if Outer (2 ^ t) (k.val / crossSide (2 ^ (2 * t + 5))) then 1 else 0) * (if Outer (2 ^ t) (k.val % crossSide (2 ^ (2 * t + 5))) then 1 else 0)) *
        f (k.val / crossSide (2 ^ (2 * t + 5))) (k.val % crossSide (2 ^ (2 * t + 5))) := by
    intro k
    rw [corner_iff t δ hδ]
    by_cases h1 : Outer (2 ^ t) (k.val / crossSide (2 ^ (2 * t + 5))) <;> by_cases h2 : Outer (2 ^ t) (k.val % crossSide (2 ^ (2 * t + 5))) <;>
      simp [h1, h2]
  rw [Finset.sum_congr rfl fun k _ => e k,
    sum_flat _ _ fun a b => (1 - (if Outer (2 ^ t) a then (1 : α) else 0) * (if Outer (2 ^ t) b then 1 else 0)) * f a b, crossSide_eq]

theorem cross_card_real (t : Nat) (δ : ℝ) (hδ : 0 < δ) :
    (Fintype.card { k // ¬ IsCorner (2 ^ (2 * t + 5)) δ k } : ℝ) = 32 * ((2 ^ t : Nat) : ℝ) ^ 2 := by
  have h := cross_sum (α := ℝ) t δ hδ fun _ _ => 1
  simp only [Finset.sum_const, Finset.card_univ, nsmul_eq_mul, mul_one] at h
  rw [h]
  simp only [Finset.sum_sub_distrib, ← Finset.mul_sum, ← Finset.sum_mul, outer_count, Finset.sum_const, Finset.card_univ, Fintype.card_fin, nsmul_eq_mul]
  push_cast; ring

/-- The cross keeps exactly `order` points of the square. -/
theorem C76_cross_size (order : Nat) (h : crossQamAccepts order = true) (δ : ℝ) (hδ : 0 < δ) :
    Fintype.card { k // ¬ IsCorner order δ k } = order := by
  obtain ⟨t, rfl⟩ := (C76_cross_orders order).mp h
  have := cross_card_real t δ hδ
  have h2 : Fintype.card { k // ¬ IsCorner (2 ^ (2 * t + 5)) δ k } = 32 * (2 ^ t) ^ 2 := by exact_mod_cast this
  rw [h2, pow_add, pow_mul']; ring

theorem grid_gap (δ : ℝ) (L x y : Nat) (h : x ≠ y) :
    δ ^ 2 ≤ δ ^ 2 * (((x / L : Nat) : ℝ) - ((y / L : Nat) : ℝ)) ^ 2 + δ ^ 2 * (((x % L : Nat) : ℝ) - ((y % L : Nat) : ℝ)) ^ 2 := by
  by_cases h1 : x / L = y / L
  · have h' : x % L ≠ y % L := fun h' => h (by rw [← Nat.div_add_mod x L, ← Nat.div_add_mod y L, h1, h'])
    have := one_le_sq_sub _ _ h'
    rw [h1, sub_self]
    nlinarith [sq_nonneg δ]
  · have := one_le_sq_sub _ _ h1
    nlinarith [sq_nonneg δ, mul_nonneg (sq_nonneg δ) (sq_nonneg (((x % L : Nat) : ℝ) - ((y % L : Nat) : ℝ)))]

/-- Mean 0, mean energy `δ² (31 M - 32) / 192`, minimum distance `δ`. -/
theorem C76_cross (order : Nat) (h : crossQamAccepts order = true) (δ φ : ℝ) (hδ : 0 < δ) :
    mean (crossQam order δ φ) (uniformPriors _) = 0 ∧ meanEnergy (crossQam order δ φ) (uniformPriors _) = crossQamMeanEnergy order δ ∧
    (∀ _ : DecidableEq { k // ¬ IsCorner order δ k }, minimumDistance (crossQam order δ φ) = (δ : WithTop ℝ)) := by
  obtain ⟨t, rfl⟩ := (C76_cross_orders order).mp h
  have hcard := cross_card_real t δ hδ
  have hu : 0 < 2 ^ t := by positivity
  have hu' : ((2 ^ t : Nat) : ℝ) ≠ 0 := by exact_mod_cast hu.ne'
  have hMr : ((2 ^ (2 * t + 5) : Nat) : ℝ) = 32 * ((2 ^ t : Nat) : ℝ) ^ 2 := by push_cast; rw [pow_add, pow_mul']; ring
  have hp : ∀ a, pamPoint (crossSide (2 ^ (2 * t + 5))) δ a = pamPoint (6 * 2 ^ t) δ a := fun a => by rw [crossSide_eq]
  refine ⟨?_, ?_, fun _ => ?_⟩
  · funext j
    simp only [mean, uniformPriors, crossQam, qam, phase_zero, mul_one, ← Finset.mul_sum, ← Finset.sum_mul, hp]
    rw [cross_sum t δ hδ fun a b => (((pamPoint (6 * 2 ^ t) δ a : ℝ) : ℂ) + Complex.I * ((pamPoint (6 * 2 ^ t) δ b : ℝ) : ℂ))]
    clear hp
    generalize 2 ^ t = u at *
    have key : ∑ a : Fin (6 * u), ∑ b : Fin (6 * u), ((1 : ℂ) - (if Outer u a then 1 else 0) * (if Outer u b then 1 else 0)) *
        (((pamPoint (6 * u) δ a : ℝ) : ℂ) + Complex.I * ((pamPoint (6 * u) δ b : ℝ) : ℂ)) = 0 := by
      have e : ∀ a b : Fin (6 * u), ((1 : ℂ) - (if Outer u a then 1 else 0) * (if Outer u b then 1 else 0)) *
          (((pamPoint (6 * u) δ a : ℝ) : ℂ) + Complex.I * ((pamPoint (6 * u) δ b : ℝ) : ℂ)) =
          ((pamPoint (6 * u) δ a : ℝ) : ℂ) + Complex.I * ((pamPoint (6 * u) δ b : ℝ) : ℂ)
          - (((if Outer u a then pamPoint (6 * u) δ a else 0 : ℝ) : ℂ) * ((if Outer u b then (1 : ℝ) else 0 : ℝ) : ℂ)
            + Complex.I * ((((if Outer u a then (1 : ℝ) else 0 : ℝ) : ℂ)) * ((if Outer u b then pamPoint (6 * u) δ b else 0 : ℝ) : ℂ))) := by
        intro a b
        by_cases h1 : Outer u a <;> by_cases h2 : Outer u b <;> simp [h1, h2]
      simp only [e, Finset.sum_sub_distrib, Finset.sum_add_distrib, ← Finset.mul_sum, ← Finset.sum_mul, Finset.sum_const, ← Complex.ofReal_sum, pam_sum,
        outer_sum, ← Finset.smul_sum]
      simp
    rw [key]; simp
  · have e : ∀ k : { k // ¬ IsCorner (2 ^ (2 * t + 5)) δ k }, ∑ j, ‖crossQam (2 ^ (2 * t + 5)) δ φ k j‖ ^ 2 =
        pamPoint (crossSide (2 ^ (2 * t + 5))) δ (k.1.val / crossSide (2 ^ (2 * t + 5))) ^ 2 +
        pamPoint (crossSide (2 ^ (2 * t + 5))) δ (k.1.val % crossSide (2 ^ (2 * t + 5))) ^ 2 := by
      intro k
      rw [Finset.univ_unique, Finset.sum_singleton, crossQam, norm_mul_phase, qam_normSq]
    simp only [meanEnergy, uniformPriors, e, ← Finset.mul_sum, hp]
    rw [cross_sum t δ hδ fun a b => pamPoint (6 * 2 ^ t) δ a ^ 2 + pamPoint (6 * 2 ^ t) δ b ^ 2, hcard, crossQamMeanEnergy, hMr]
    clear hp e
    generalize 2 ^ t = u at *
    have e : ∀ a b : Fin (6 * u), ((1 : ℝ) - (if Outer u a then 1 else 0) * (if Outer u b then 1 else 0)) * (pamPoint (6 * u) δ a ^ 2 + pamPoint (6 * u) δ b ^ 2) =
          pamPoint (6 * u) δ a ^ 2 + pamPoint (6 * u) δ b ^ 2
          - ((if Outer u a then pamPoint (6 * u) δ a ^ 2 else 0) * (if Outer u b then (1 : ℝ) else 0)
            + ((if Outer u a then (1 : ℝ) else 0)) * (if Outer u b then pamPoint (6 * u) δ b ^ 2 else 0)) := by
        intro a b
        by_cases h1 : Outer u a <;> by_cases h2 : Outer u b <;> simp [h1, h2]
    have key : ∑ a : Fin (6 * u), ∑ b : Fin (6 * u), ((1 : ℝ) - (if Outer u a then 1 else 0) * (if Outer u b then 1 else 0)) *
        (pamPoint (6 * u) δ a ^ 2 + pamPoint (6 * u) δ b ^ 2) = 2 * ((6 * u : ℝ) * ((6 * u : ℝ) * (δ ^ 2 * ((6 * u : ℝ) ^ 2 - 1) / 12)))
        - 2 * (2 * u * (δ ^ 2 * (u : ℝ) * (76 * (u : ℝ) ^ 2 - 1) / 6)) := by
      simp only [e, Finset.sum_sub_distrib, Finset.sum_add_distrib, ← Finset.mul_sum, ← Finset.sum_mul, Finset.sum_const, pam_sum_sq,
        outer_sum_sq, outer_count, ← Finset.smul_sum, Finset.card_univ, Fintype.card_fin, nsmul_eq_mul]
      push_cast; ring
    rw [key]
    field_simp
    ring
  · have hnc : ∀ b, b = 2 ^ t ∨ b = 2 ^ t + 1 → ∃ hb : b < crossSide (2 ^ (2 * t + 5)) * crossSide (2 ^ (2 * t + 5)), ¬ IsCorner (2 ^ (2 * t + 5)) δ ⟨b, hb⟩ := by
      intro b hb
      have hL := crossSide_eq t
      have hbL : b < crossSide (2 ^ (2 * t + 5)) := by omega
      refine ⟨hbL.trans_le (Nat.le_mul_of_pos_left _ (by omega)), ?_⟩
      rw [corner_iff t δ hδ]
      rintro ⟨-, h2⟩
      rw [Nat.mod_eq_of_lt hbL, Outer] at h2
      omega
    have hdist : ∀ k l : { k // ¬ IsCorner (2 ^ (2 * t + 5)) δ k }, ∑ j, ‖crossQam (2 ^ (2 * t + 5)) δ φ k j - crossQam (2 ^ (2 * t + 5)) δ φ l j‖ ^ 2 =
        ‖qam _ _ δ δ 0 k.1 0 - qam _ _ δ δ 0 l.1 0‖ ^ 2 := by
      intro k l
      rw [Finset.univ_unique, Finset.sum_singleton, crossQam, crossQam, ← sub_mul, norm_mul_phase]; rfl
    obtain ⟨h1, n1⟩ := hnc (2 ^ t) (Or.inl rfl)
    obtain ⟨h2, n2⟩ := hnc (2 ^ t + 1) (Or.inr rfl)
    refine minimumDistance_eq _ δ (fun k l hkl => ?_) ⟨⟨_, n1⟩, ⟨_, n2⟩, ?_, ?_⟩ hδ.le
    · rw [hdist, qam_dist]
      have hne : k.1.val ≠ l.1.val := fun h => hkl (Subtype.ext (Fin.ext h))
      exact grid_gap δ _ _ _ hne
    · simp
    · rw [hdist, qam_dist]
      have hL := crossSide_eq t
      have a1 : 2 ^ t < crossSide (2 ^ (2 * t + 5)) := by omega
      have a2 : 2 ^ t + 1 < crossSide (2 ^ (2 * t + 5)) := by omega
      simp only [Nat.div_eq_of_lt a1, Nat.div_eq_of_lt a2, Nat.mod_eq_of_lt a1, Nat.mod_eq_of_lt a2]
      push_cast; ring

/-- The orders named in the error message. -/
example : crossQamAccepts 32 = true ∧ crossQamAccepts 128 = true ∧ crossQamAccepts 512 = true ∧ crossQamAccepts 64 = false ∧ crossQamAccepts 8 = false := by
  decide +kernel

/-- The documented energy of `CrossQAMConstellation(order=32, delta=2)` is 20. -/
example : crossQamMeanEnergy 32 2 = 20 := by rw [crossQamMeanEnergy]; norm_num

end Komm
