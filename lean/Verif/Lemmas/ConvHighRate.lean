import Verif.Lemmas.ConvSeries
/-! The observer form of `HighRateConvolutionalCode` realises `q Y = ∑ pᵢ Uᵢ`. -/
namespace Komm.HighRate
open scoped BigOperators
variable {k : Nat} (c : HighRate k)

theorem natDegree_h (j : Fin (k + 1)) : (toPoly (c.hRow j)).natDegree ≤ c.degree := by
  apply natDegree_le_of_degree
  refine le_trans ((foldl_max_le _ 0).2 _ ?_) (Int.self_le_toNat _)
  exact List.mem_map.mpr ⟨j, List.mem_finRange j, rfl⟩

theorem beta_eq (i : Fin k) (r : Nat) (hr : r ≤ c.degree) : c.beta i r = (toPoly (c.hRow i.castSucc)).coeff r :=
  (C14_coefficients_width _ _ (by omega)).2 r (by omega)

theorem alpha_eq (r : Nat) (hr : r ≤ c.degree) : c.alpha r = (toPoly (c.hRow (Fin.last k))).coeff r :=
  (C14_coefficients_width _ _ (by omega)).2 r (by omega)

/-- What is injected in the cell `e` of the register. -/
noncomputable def inj (U : Fin k → PowerSeries (ZMod 2)) (Y : PowerSeries (ZMod 2)) (e : Nat) : PowerSeries (ZMod 2) :=
  PowerSeries.C (c.alpha (c.degree - e)) * Y + ∑ i, PowerSeries.C (c.beta i (c.degree - e)) * U i

/-- The content of cell `s`, as a series. -/
noncomputable def cell (U : Fin k → PowerSeries (ZMod 2)) (Y : PowerSeries (ZMod 2)) (s : Nat) : PowerSeries (ZMod 2) :=
  ∑ e ∈ Finset.range (s + 1), PowerSeries.X ^ (s + 1 - e) * c.inj U Y e

theorem cell_zero (U : Fin k → PowerSeries (ZMod 2)) (Y : PowerSeries (ZMod 2)) :
    c.cell U Y 0 = PowerSeries.X * c.inj U Y 0 := by simp [cell]

theorem cell_succ (U : Fin k → PowerSeries (ZMod 2)) (Y : PowerSeries (ZMod 2)) (s : Nat) :
    c.cell U Y (s + 1) = PowerSeries.X * (c.cell U Y s + c.inj U Y (s + 1)) := by
  rw [cell, Finset.sum_range_succ, mul_add, cell, Finset.mul_sum]
  congr 1
  · apply Finset.sum_congr rfl
    intro e he
    have := Finset.mem_range.mp he
    rw [show s + 1 + 1 - e = (s + 1 - e) + 1 by omega, pow_succ', mul_assoc]
  · rw [show s + 1 + 1 - (s + 1) = 1 by omega, pow_one]

theorem coeff_inj (U : Fin k → PowerSeries (ZMod 2)) (Y : PowerSeries (ZMod 2)) (e t : Nat) :
    PowerSeries.coeff t (c.inj U Y e) = c.alpha (c.degree - e) * PowerSeries.coeff t Y +
      ∑ i, c.beta i (c.degree - e) * PowerSeries.coeff t (U i) := by
  rw [inj, map_add, map_sum, PowerSeries.coeff_C_mul]
  congr 1
  apply Finset.sum_congr rfl
  intro i _
  rw [PowerSeries.coeff_C_mul]

theorem coeff_X_pow_inj (U : Fin k → PowerSeries (ZMod 2)) (Y : PowerSeries (ZMod 2)) (d e t : Nat) :
    PowerSeries.coeff t (PowerSeries.X ^ d * c.inj U Y e) =
      c.alpha (c.degree - e) * PowerSeries.coeff t (PowerSeries.X ^ d * Y) +
      ∑ i, c.beta i (c.degree - e) * PowerSeries.coeff t (PowerSeries.X ^ d * U i) := by
  rw [inj, mul_add, Finset.mul_sum, map_add, map_sum, mul_left_comm, PowerSeries.coeff_C_mul]
  congr 1
  apply Finset.sum_congr rfl
  intro i _
  rw [mul_left_comm, PowerSeries.coeff_C_mul]

/-- The last cell. -/
theorem cell_last (hσ : 1 ≤ c.degree) (hq : (toPoly (c.hRow (Fin.last k))).coeff 0 = 1)
    (U : Fin k → PowerSeries (ZMod 2)) (Y : PowerSeries (ZMod 2))
    (hY : (toPoly (c.hRow (Fin.last k)) : PowerSeries (ZMod 2)) * Y =
      ∑ i : Fin k, (toPoly (c.hRow i.castSucc) : PowerSeries (ZMod 2)) * U i) (t : Nat) :
    PowerSeries.coeff t (c.cell U Y (c.degree - 1)) + ∑ i, PowerSeries.coeff t (U i) * c.beta i 0 =
      PowerSeries.coeff t Y := by
  have h1 : PowerSeries.coeff t (c.cell U Y (c.degree - 1)) =
      ∑ r : Fin c.degree, (c.alpha (r + 1) * PowerSeries.coeff t (PowerSeries.X ^ ((r : Nat) + 1) * Y) +
        ∑ i, c.beta i (r + 1) * PowerSeries.coeff t (PowerSeries.X ^ ((r : Nat) + 1) * U i)) := by
    rw [cell, map_sum, Nat.sub_add_cancel hσ, Fin.sum_univ_eq_sum_range (fun r =>
      (c.alpha (r + 1) * PowerSeries.coeff t (PowerSeries.X ^ (r + 1) * Y) +
        ∑ i, c.beta i (r + 1) * PowerSeries.coeff t (PowerSeries.X ^ (r + 1) * U i))) c.degree, ← Finset.sum_range_reflect]
    apply Finset.sum_congr rfl
    intro r hr
    have := Finset.mem_range.mp hr
    rw [coeff_X_pow_inj]
    rw [show c.degree - (c.degree - 1 - r) = r + 1 by omega]
  have h2 := congrArg (PowerSeries.coeff t) hY
  rw [coeff_poly_mul _ _ (c.natDegree_h _), hq, one_mul, map_sum] at h2
  have h3 : ∀ i : Fin k, PowerSeries.coeff t ((toPoly (c.hRow i.castSucc) : PowerSeries (ZMod 2)) * U i) =
      PowerSeries.coeff t (U i) * c.beta i 0 +
        ∑ r : Fin c.degree, c.beta i (r + 1) * PowerSeries.coeff t (PowerSeries.X ^ ((r : Nat) + 1) * U i) := by
    intro i
    rw [coeff_poly_mul _ _ (c.natDegree_h _), beta_eq _ _ _ (by omega), mul_comm]
    congr 1
    apply Finset.sum_congr rfl
    intro r _
    rw [beta_eq _ _ _ (by omega)]
  have h4 : (∑ r : Fin c.degree, (toPoly (c.hRow (Fin.last k))).coeff (r + 1) *
      PowerSeries.coeff t (PowerSeries.X ^ ((r : Nat) + 1) * Y)) =
      ∑ r : Fin c.degree, c.alpha (r + 1) * PowerSeries.coeff t (PowerSeries.X ^ ((r : Nat) + 1) * Y) := by
    apply Finset.sum_congr rfl
    intro r _
    rw [alpha_eq _ _ (by omega)]
  rw [h4, Finset.sum_congr rfl (fun i _ => h3 i), Finset.sum_add_distrib, Finset.sum_comm] at h2
  rw [h1, Finset.sum_add_distrib]
  have e2 : ∀ y a b d : ZMod 2, y + a = b + d → a + d + b = y := by decide
  exact e2 _ _ _ _ h2

theorem next_eq (hσ : 1 ≤ c.degree) (w : BVec c.degree) (u : BVec k) (s : Fin c.degree) :
    c.stateSpace.next w u s = (if h : (s : Nat) = 0 then 0 else w ⟨(s : Nat) - 1, by omega⟩) +
      c.alpha (c.degree - s) * (w ⟨c.degree - 1, by omega⟩ + ∑ i, u i * c.beta i 0) +
      ∑ i, c.beta i (c.degree - s) * u i := by
  show (∑ r : Fin c.degree, w r * (if (r : Nat) + 1 = c.degree then c.alpha (c.degree - s) else
      if (s : Nat) = r + 1 then 1 else 0)) +
      ∑ i, u i * (c.beta i (c.degree - s) + c.alpha (c.degree - s) * c.beta i 0) = _
  have h1 : (∑ r : Fin c.degree, w r * (if (r : Nat) + 1 = c.degree then c.alpha (c.degree - s) else
      if (s : Nat) = r + 1 then 1 else 0)) =
      (∑ r : Fin c.degree, w r * (if (r : Nat) + 1 = c.degree then c.alpha (c.degree - s) else 0)) +
      ∑ r : Fin c.degree, w r * (if (s : Nat) = r + 1 then 1 else 0) := by
    rw [← Finset.sum_add_distrib]
    apply Finset.sum_congr rfl
    intro r _
    by_cases h : (r : Nat) + 1 = c.degree
    · rw [if_pos h, if_pos h, if_neg (by omega), mul_zero, add_zero]
    · rw [if_neg h, if_neg h, mul_zero, zero_add]
  have h2 : (∑ r : Fin c.degree, w r * (if (r : Nat) + 1 = c.degree then c.alpha (c.degree - s) else 0)) =
      c.alpha (c.degree - s) * w ⟨c.degree - 1, by omega⟩ := by
    rw [Finset.sum_eq_single ⟨c.degree - 1, by omega⟩]
    · rw [if_pos (by simp; omega), mul_comm]
    · intro r _ hr
      rw [if_neg, mul_zero]
      intro h; exact hr (Fin.ext (by simp; omega))
    · intro h; exact absurd (Finset.mem_univ _) h
  have h3 : (∑ r : Fin c.degree, w r * (if (s : Nat) = r + 1 then 1 else 0)) =
      if h : (s : Nat) = 0 then 0 else w ⟨(s : Nat) - 1, by omega⟩ := by
    by_cases hs : (s : Nat) = 0
    · rw [dif_pos hs]
      apply Finset.sum_eq_zero
      intro r _
      rw [if_neg (by omega), mul_zero]
    · rw [dif_neg hs, Finset.sum_eq_single ⟨(s : Nat) - 1, by omega⟩]
      · rw [if_pos (by simp; omega), mul_one]
      · intro r _ hr
        rw [if_neg, mul_zero]
        intro h; exact hr (Fin.ext (by simp; omega))
      · intro h; exact absurd (Finset.mem_univ _) h
  have h4 : (∑ i, u i * (c.beta i (c.degree - s) + c.alpha (c.degree - s) * c.beta i 0)) =
      (∑ i, c.beta i (c.degree - s) * u i) + c.alpha (c.degree - s) * ∑ i, u i * c.beta i 0 := by
    rw [Finset.mul_sum, ← Finset.sum_add_distrib]
    apply Finset.sum_congr rfl
    intro i _
    ring
  rw [h1, h2, h3, h4]
  ring

theorem output_last (hσ : 1 ≤ c.degree) (w : BVec c.degree) (u : BVec k) :
    c.stateSpace.output w u (Fin.last k) = w ⟨c.degree - 1, by omega⟩ + ∑ i, u i * c.beta i 0 := by
  show (∑ r : Fin c.degree, w r * (if (r : Nat) + 1 = c.degree ∧ k = k then 1 else 0)) +
    ∑ i, u i * (if k = k then c.beta i 0 else _) = _
  simp only [and_true, if_true]
  congr 1
  rw [Finset.sum_eq_single ⟨c.degree - 1, by omega⟩]
  · rw [if_pos (by simp; omega), mul_one]
  · intro r _ hr
    rw [if_neg, mul_zero]
    intro h; exact hr (Fin.ext (by simp; omega))
  · intro h; exact absurd (Finset.mem_univ _) h

theorem output_castSucc (w : BVec c.degree) (u : BVec k) (j : Fin k) : c.stateSpace.output w u j.castSucc = u j := by
  have hj : ((j.castSucc : Fin (k + 1)) : Nat) ≠ k := by simp; omega
  show (∑ r : Fin c.degree, w r * (if (r : Nat) + 1 = c.degree ∧ ((j.castSucc : Fin (k + 1)) : Nat) = k then 1 else 0)) +
    ∑ i : Fin k, u i * (if ((j.castSucc : Fin (k + 1)) : Nat) = k then c.beta i 0 else
      if (i : Nat) = ((j.castSucc : Fin (k + 1)) : Nat) then 1 else 0) = _
  rw [Finset.sum_eq_zero, zero_add, Finset.sum_eq_single j]
  · rw [if_neg hj, if_pos (by simp), mul_one]
  · intro i _ hi
    rw [if_neg hj, if_neg, mul_zero]
    intro h; exact hi (Fin.ext (by simpa using h))
  · intro h; exact absurd (Finset.mem_univ _) h
  · intro r _
    rw [if_neg (fun h => hj h.2), mul_zero]

theorem realises (hσ : 1 ≤ c.degree) (hq : (toPoly (c.hRow (Fin.last k))).coeff 0 = 1)
    (U : Fin k → PowerSeries (ZMod 2)) (Y : PowerSeries (ZMod 2))
    (hY : (toPoly (c.hRow (Fin.last k)) : PowerSeries (ZMod 2)) * Y =
      ∑ i : Fin k, (toPoly (c.hRow i.castSucc) : PowerSeries (ZMod 2)) * U i) (T : Nat) :
    c.stateSpace.outs 0 (List.ofFn fun t : Fin T => fun i : Fin k => PowerSeries.coeff (t : Nat) (U i)) =
      List.ofFn fun t : Fin T => Fin.snoc (α := fun _ => ZMod 2) (fun i : Fin k => PowerSeries.coeff (t : Nat) (U i))
        (PowerSeries.coeff (t : Nat) Y) := by
  let S : ℕ → BVec c.degree := fun t s => PowerSeries.coeff t (c.cell U Y s)
  have hlast := c.cell_last hσ hq U Y hY
  have hS : ∀ t, S (t + 1) = c.stateSpace.next (S t) (fun i => PowerSeries.coeff t (U i)) := by
    intro t
    funext s
    have e : S t ⟨c.degree - 1, by omega⟩ + ∑ i, PowerSeries.coeff t (U i) * c.beta i 0 = PowerSeries.coeff t Y := hlast t
    rw [next_eq c hσ, e]
    show PowerSeries.coeff (t + 1) (c.cell U Y s) = _
    by_cases hs : (s : Nat) = 0
    · rw [dif_pos hs, hs, cell_zero, PowerSeries.coeff_succ_X_mul, coeff_inj, zero_add]
    · rw [dif_neg hs]
      obtain ⟨m, hm⟩ : ∃ m, (s : Nat) = m + 1 := ⟨(s : Nat) - 1, by omega⟩
      show _ = PowerSeries.coeff t (c.cell U Y ((s : Nat) - 1)) + _ + _
      rw [hm, cell_succ, PowerSeries.coeff_succ_X_mul, map_add, coeff_inj, Nat.add_sub_cancel, add_assoc]
  have h := (c.stateSpace.trajectory (fun t i => PowerSeries.coeff t (U i)) S hS T).2
  have h0 : S 0 = 0 := by
    funext s
    show PowerSeries.coeff 0 (c.cell U Y s) = 0
    cases hs : (s : Nat) with
    | zero => rw [cell_zero]; simp
    | succ m => rw [cell_succ]; simp
  rw [h0] at h
  rw [h]
  congr 1
  funext t j
  induction j using Fin.lastCases with
  | last => rw [output_last c hσ, Fin.snoc_last]; exact hlast t
  | cast j => rw [output_castSucc, Fin.snoc_castSucc]

end Komm.HighRate
