import Verif.Lemmas.Convolutional
import Verif.Lemmas.Poly
import Verif.Lemmas.Fraction
import Verif.Props.C14_C16_Misc
import Mathlib.RingTheory.PowerSeries.Inverse
/-! The state-space representations realise the generator matrices: power-series computations. -/
namespace Komm
open scoped BigOperators

/-! ### trajectories -/
namespace StateSpace
variable {k n σ : Nat} (c : StateSpace k n σ)

theorem ofFn_snoc {α : Type} (f : ℕ → α) (T : Nat) :
    List.ofFn (fun t : Fin (T + 1) => f t) = List.ofFn (fun t : Fin T => f t) ++ [f T] := by
  rw [List.ofFn_succ_last]; rfl

theorem trajectory (u : ℕ → BVec k) (S : ℕ → BVec σ) (h : ∀ t, S (t + 1) = c.next (S t) (u t)) (T : Nat) :
    c.run (S 0) (List.ofFn fun t : Fin T => u t) = S T ∧
    c.outs (S 0) (List.ofFn fun t : Fin T => u t) = List.ofFn fun t : Fin T => c.output (S t) (u t) := by
  induction T with
  | zero => exact ⟨rfl, rfl⟩
  | succ T ih =>
    rw [ofFn_snoc u, run_append, outs_append, ih.1, ih.2, ofFn_snoc (fun t => c.output (S t) (u t))]
    exact ⟨(h T).symm, rfl⟩

end StateSpace

/-! ### power series -/
open PowerSeries in
theorem coeff_poly_mul (P : Polynomial (ZMod 2)) (ν : Nat) (hd : P.natDegree ≤ ν) (Z : PowerSeries (ZMod 2)) (t : Nat) :
    PowerSeries.coeff t ((P : PowerSeries (ZMod 2)) * Z) =
      P.coeff 0 * PowerSeries.coeff t Z +
        ∑ r : Fin ν, P.coeff (r + 1) * PowerSeries.coeff t (PowerSeries.X ^ ((r : Nat) + 1) * Z) := by
  have e : (P : PowerSeries (ZMod 2)) =
      ∑ r ∈ Finset.range (ν + 1), PowerSeries.C (P.coeff r) * PowerSeries.X ^ r := by
    conv_lhs => rw [P.as_sum_range' (ν + 1) (by omega)]
    rw [← Polynomial.coeToPowerSeries.ringHom_apply, map_sum]
    apply Finset.sum_congr rfl
    intro r _
    rw [Polynomial.coeToPowerSeries.ringHom_apply, Polynomial.coe_monomial, ← PowerSeries.monomial_zero_eq_C_apply,
      PowerSeries.X_pow_eq, PowerSeries.monomial_mul_monomial]
    simp
  rw [e, Finset.sum_mul, map_sum, Finset.sum_range_succ', add_comm, ← Fin.sum_univ_eq_sum_range
    (fun r => PowerSeries.coeff t (PowerSeries.C (P.coeff (r + 1)) * PowerSeries.X ^ (r + 1) * Z)) ν]
  congr 1
  · rw [pow_zero, mul_one, PowerSeries.coeff_C_mul]
  · apply Finset.sum_congr rfl
    intro r _
    rw [mul_assoc, PowerSeries.coeff_C_mul]

theorem coeff_shift (r t : Nat) (Z : PowerSeries (ZMod 2)) :
    PowerSeries.coeff (t + 1) (PowerSeries.X ^ (r + 1) * Z) = PowerSeries.coeff t (PowerSeries.X ^ r * Z) := by
  rw [pow_succ', mul_assoc, PowerSeries.coeff_succ_X_mul]

theorem coeff_shift_zero (r : Nat) (Z : PowerSeries (ZMod 2)) :
    PowerSeries.coeff 0 (PowerSeries.X ^ (r + 1) * Z) = 0 := by
  rw [pow_succ', mul_assoc]; simp

/-! ### maxima of degrees -/

theorem foldl_max_le (l : List Int) (a : Int) : a ≤ l.foldl max a ∧ ∀ x ∈ l, x ≤ l.foldl max a := by
  induction l generalizing a with
  | nil => simp
  | cons y l ih =>
    obtain ⟨h1, h2⟩ := ih (max a y)
    rw [List.foldl_cons]
    refine ⟨le_trans (le_max_left _ _) h1, ?_⟩
    intro x hx
    rcases List.mem_cons.mp hx with rfl | hx
    · exact le_trans (le_max_right _ _) h1
    · exact h2 x hx

theorem natDegree_le_of_degree {p ν : Nat} (h : BP.degree p ≤ (ν : Int)) : (toPoly p).natDegree ≤ ν := by
  rw [natDegree_toPoly]
  simp only [BP.degree] at h
  omega

namespace ConvCode
variable {k n : Nat} (c : ConvCode k n)

theorem natDegree_ff (i : Fin k) (j : Fin n) : (toPoly (c.feedforward i j)).natDegree ≤ c.constraintLength i := by
  apply natDegree_le_of_degree
  rw [constraintLength]
  refine le_trans ((foldl_max_le _ (BP.degree (c.feedback i))).2 _ ?_) (Int.self_le_toNat _)
  exact List.mem_map.mpr ⟨j, List.mem_finRange j, rfl⟩

theorem natDegree_fb (i : Fin k) : (toPoly (c.feedback i)).natDegree ≤ c.constraintLength i := by
  apply natDegree_le_of_degree
  exact le_trans (foldl_max_le _ (BP.degree (c.feedback i))).1 (Int.self_le_toNat _)

theorem beta_eq (i : Fin k) (r : Nat) (hr : r ≤ c.constraintLength i) (j : Fin n) :
    c.beta i r j = (toPoly (c.feedforward i j)).coeff r := (C14_coefficients_width _ _ (by omega)).2 r (by omega)

theorem alpha_eq (i : Fin k) (r : Nat) (hr : r ≤ c.constraintLength i) :
    c.alpha i r = (toPoly (c.feedback i)).coeff r := (C14_coefficients_width _ _ (by omega)).2 r (by omega)

/-- Position of entry `r` of the shift register of input `i` in the state vector. -/
def pos (i : Fin k) (r : Fin (c.constraintLength i)) : Fin c.degree := finSigmaFinEquiv ⟨i, r⟩

theorem pos_surj (s : Fin c.degree) : ∃ i r, c.pos i r = s :=
  ⟨(finSigmaFinEquiv.symm s).1, (finSigmaFinEquiv.symm s).2, by rw [pos]; exact Equiv.apply_symm_apply _ _⟩

theorem sum_pos {α : Type} [AddCommMonoid α] (f : Fin c.degree → α) :
    ∑ s, f s = ∑ i, ∑ r, f (c.pos i r) := by
  refine (Equiv.sum_comp (finSigmaFinEquiv (n := c.constraintLength)) f).symm.trans ?_
  rw [Fintype.sum_sigma]; rfl

theorem A_pos (i i' : Fin k) (r : Fin (c.constraintLength i)) (r' : Fin (c.constraintLength i')) :
    c.stateSpace.A (c.pos i' r') (c.pos i r) =
      if h : i' = i then c.blockA i (r'.cast (by rw [h])) r else 0 := by
  show (fun p q : (i : Fin k) × Fin (c.constraintLength i) =>
      if h : p.1 = q.1 then c.blockA q.1 (p.2.cast (by rw [h])) q.2 else 0)
    (finSigmaFinEquiv.symm (finSigmaFinEquiv (Sigma.mk i' r'))) (finSigmaFinEquiv.symm (finSigmaFinEquiv (Sigma.mk i r))) = _
  rw [Equiv.symm_apply_apply, Equiv.symm_apply_apply]

theorem B_pos (i' i : Fin k) (r : Fin (c.constraintLength i)) :
    c.stateSpace.B i' (c.pos i r) = if i' = i then c.blockB i r else 0 := by
  show (fun q : (i : Fin k) × Fin (c.constraintLength i) => if i' = q.1 then c.blockB q.1 q.2 else 0)
    (finSigmaFinEquiv.symm (finSigmaFinEquiv (Sigma.mk i r))) = _
  rw [Equiv.symm_apply_apply]

theorem C_pos (i : Fin k) (r : Fin (c.constraintLength i)) (j : Fin n) :
    c.stateSpace.C (c.pos i r) j = c.blockC i r j := by
  show (fun q : (i : Fin k) × Fin (c.constraintLength i) => c.blockC q.1 q.2 j)
    (finSigmaFinEquiv.symm (finSigmaFinEquiv (Sigma.mk i r))) = _
  rw [Equiv.symm_apply_apply]

theorem next_pos (s : BVec c.degree) (u : BVec k) (i : Fin k) (r : Fin (c.constraintLength i)) :
    c.stateSpace.next s u (c.pos i r) =
      (∑ r' : Fin (c.constraintLength i), s (c.pos i r') * c.blockA i r' r) + u i * c.blockB i r := by
  rw [StateSpace.next, Pi.add_apply, vecMat, vecMat, sum_pos]
  congr 1
  · rw [Finset.sum_eq_single i]
    · apply Finset.sum_congr rfl
      intro r' _
      rw [A_pos, dif_pos rfl]; rfl
    · intro i' _ hne
      apply Finset.sum_eq_zero
      intro r' _
      rw [A_pos, dif_neg hne, mul_zero]
    · intro h; exact absurd (Finset.mem_univ _) h
  · rw [Finset.sum_eq_single i]
    · rw [B_pos, if_pos rfl]
    · intro i' _ hne
      rw [B_pos, if_neg hne, mul_zero]
    · intro h; exact absurd (Finset.mem_univ _) h

/-- The first register cell. -/
theorem next_pos_zero (s : BVec c.degree) (u : BVec k) (i : Fin k) (r : Fin (c.constraintLength i)) (hr : (r : Nat) = 0) :
    c.stateSpace.next s u (c.pos i r) =
      (∑ r' : Fin (c.constraintLength i), s (c.pos i r') * (toPoly (c.feedback i)).coeff (r' + 1)) + u i := by
  rw [next_pos, blockB, if_pos hr, mul_one]
  congr 1
  apply Finset.sum_congr rfl
  intro r' _
  rw [blockA, if_pos hr, alpha_eq _ _ _ (by omega)]

/-- The other cells shift. -/
theorem next_pos_succ (s : BVec c.degree) (u : BVec k) (i : Fin k) (r r0 : Fin (c.constraintLength i))
    (hr : (r : Nat) = r0 + 1) : c.stateSpace.next s u (c.pos i r) = s (c.pos i r0) := by
  rw [next_pos, blockB, if_neg (by omega), mul_zero, add_zero, Finset.sum_eq_single r0]
  · rw [blockA, if_neg (by omega), if_pos (by omega), mul_one]
  · intro r' _ hne
    rw [blockA, if_neg (by omega), if_neg, mul_zero]
    intro h; exact hne (Fin.ext (by omega))
  · intro h; exact absurd (Finset.mem_univ _) h

theorem output_eq (s : BVec c.degree) (u : BVec k) (j : Fin n) :
    c.stateSpace.output s u j =
      ∑ i, (((∑ r : Fin (c.constraintLength i), s (c.pos i r) * (toPoly (c.feedforward i j)).coeff (r + 1)) +
        (toPoly (c.feedforward i j)).coeff 0 *
          ((∑ r : Fin (c.constraintLength i), s (c.pos i r) * (toPoly (c.feedback i)).coeff (r + 1)) + u i))) := by
  rw [StateSpace.output, Pi.add_apply, vecMat, vecMat, sum_pos, ← Finset.sum_add_distrib]
  apply Finset.sum_congr rfl
  intro i _
  rw [mul_add, ← add_assoc]
  congr 1
  · rw [Finset.mul_sum, ← Finset.sum_add_distrib]
    apply Finset.sum_congr rfl
    intro r _
    rw [C_pos, blockC, beta_eq _ _ _ (by omega), beta_eq _ _ _ (by omega), alpha_eq _ _ _ (by omega)]
    ring
  · show u i * c.beta i 0 j = _
    rw [beta_eq _ _ _ (by omega), mul_comm]

/-- The state after `t` blocks, when `Z i` is the series with `q_i Z_i = U_i`. -/
noncomputable def stateAt (Z : Fin k → PowerSeries (ZMod 2)) (t : Nat) : BVec c.degree := fun s =>
  PowerSeries.coeff t (PowerSeries.X ^ (((finSigmaFinEquiv (n := c.constraintLength)).symm s).2.val + 1) *
    Z ((finSigmaFinEquiv (n := c.constraintLength)).symm s).1)

theorem stateAt_pos (Z : Fin k → PowerSeries (ZMod 2)) (t : Nat) (i : Fin k) (r : Fin (c.constraintLength i)) :
    c.stateAt Z t (c.pos i r) = PowerSeries.coeff t (PowerSeries.X ^ ((r : Nat) + 1) * Z i) := by
  show (fun q : (i : Fin k) × Fin (c.constraintLength i) => PowerSeries.coeff t (PowerSeries.X ^ (q.2.val + 1) * Z q.1))
    (finSigmaFinEquiv.symm (finSigmaFinEquiv (Sigma.mk i r))) = _
  rw [Equiv.symm_apply_apply]

/-- What the feedback loop computes: the register input is the coefficient of `Z_i`. -/
theorem loop_eq (hq : ∀ i, (toPoly (c.feedback i)).coeff 0 = 1) (U Z : Fin k → PowerSeries (ZMod 2))
    (hZ : ∀ i, (toPoly (c.feedback i) : PowerSeries (ZMod 2)) * Z i = U i) (t : Nat) (i : Fin k) :
    (∑ r : Fin (c.constraintLength i), c.stateAt Z t (c.pos i r) * (toPoly (c.feedback i)).coeff (r + 1)) +
      PowerSeries.coeff t (U i) = PowerSeries.coeff t (Z i) := by
  rw [← hZ i, coeff_poly_mul _ _ (c.natDegree_fb i), hq i, one_mul]
  have : (∑ r : Fin (c.constraintLength i), c.stateAt Z t (c.pos i r) * (toPoly (c.feedback i)).coeff (r + 1)) =
      ∑ r : Fin (c.constraintLength i), (toPoly (c.feedback i)).coeff (r + 1) *
        PowerSeries.coeff t (PowerSeries.X ^ ((r : Nat) + 1) * Z i) := by
    apply Finset.sum_congr rfl
    intro r _
    rw [stateAt_pos, mul_comm]
  rw [this]
  have e2 : ∀ a b : ZMod 2, a + (b + a) = b := by decide
  exact e2 _ _

theorem stateAt_step (hq : ∀ i, (toPoly (c.feedback i)).coeff 0 = 1) (U Z : Fin k → PowerSeries (ZMod 2))
    (hZ : ∀ i, (toPoly (c.feedback i) : PowerSeries (ZMod 2)) * Z i = U i) (t : Nat) :
    c.stateAt Z (t + 1) = c.stateSpace.next (c.stateAt Z t) (fun i => PowerSeries.coeff t (U i)) := by
  funext s
  obtain ⟨i, r, rfl⟩ := c.pos_surj s
  by_cases hr : (r : Nat) = 0
  · rw [next_pos_zero _ _ _ _ _ hr, loop_eq c hq U Z hZ, stateAt_pos, coeff_shift, hr, pow_zero, one_mul]
  · rw [next_pos_succ _ _ _ _ _ ⟨(r : Nat) - 1, by omega⟩ (by simp; omega), stateAt_pos, stateAt_pos, coeff_shift]
    congr 3
    simp; omega

theorem stateAt_output (hq : ∀ i, (toPoly (c.feedback i)).coeff 0 = 1) (U Z : Fin k → PowerSeries (ZMod 2))
    (hZ : ∀ i, (toPoly (c.feedback i) : PowerSeries (ZMod 2)) * Z i = U i) (t : Nat) (j : Fin n) :
    c.stateSpace.output (c.stateAt Z t) (fun i => PowerSeries.coeff t (U i)) j =
      PowerSeries.coeff t (∑ i, (toPoly (c.feedforward i j) : PowerSeries (ZMod 2)) * Z i) := by
  rw [output_eq, map_sum]
  apply Finset.sum_congr rfl
  intro i _
  rw [loop_eq c hq U Z hZ, coeff_poly_mul _ _ (c.natDegree_ff i j), add_comm]
  congr 1
  apply Finset.sum_congr rfl
  intro r _
  rw [stateAt_pos, mul_comm]

theorem stateAt_zero (Z : Fin k → PowerSeries (ZMod 2)) : c.stateAt Z 0 = 0 := by
  funext s
  obtain ⟨i, r, rfl⟩ := c.pos_surj s
  rw [stateAt_pos, coeff_shift_zero]; rfl

theorem realises (hq : ∀ i, (toPoly (c.feedback i)).coeff 0 = 1) (U Z : Fin k → PowerSeries (ZMod 2))
    (hZ : ∀ i, (toPoly (c.feedback i) : PowerSeries (ZMod 2)) * Z i = U i) (T : Nat) :
    c.stateSpace.outs 0 (List.ofFn fun t : Fin T => fun i : Fin k => PowerSeries.coeff (t : Nat) (U i)) =
      List.ofFn fun t : Fin T => fun j : Fin n =>
        PowerSeries.coeff (t : Nat) (∑ i, (toPoly (c.feedforward i j) : PowerSeries (ZMod 2)) * Z i) := by
  have h := (c.stateSpace.trajectory (fun t i => PowerSeries.coeff t (U i)) (c.stateAt Z) (stateAt_step c hq U Z hZ) T).2
  rw [stateAt_zero] at h
  rw [h]
  congr 1
  funext t j
  exact stateAt_output c hq U Z hZ t j

end ConvCode

/-! ### low rate -/
namespace LowRate
variable {n : Nat} (c : LowRate n)

theorem natDegree_g (j : Fin n) : (toPoly (c.gRow j)).natDegree ≤ c.degree := by
  apply natDegree_le_of_degree
  refine le_trans ((foldl_max_le _ 0).2 _ ?_) (Int.self_le_toNat _)
  exact List.mem_map.mpr ⟨j, List.mem_finRange j, rfl⟩

theorem beta_eq (r : Nat) (hr : r ≤ c.degree) (j : Fin n) : c.beta r j = (toPoly (c.gRow j)).coeff r :=
  (C14_coefficients_width _ _ (by omega)).2 r (by omega)

theorem realises (U : PowerSeries (ZMod 2)) (T : Nat) :
    c.stateSpace.outs 0 (List.ofFn fun t : Fin T => fun _ : Fin 1 => PowerSeries.coeff (t : Nat) U) =
      List.ofFn fun t : Fin T => fun j : Fin n =>
        PowerSeries.coeff (t : Nat) ((toPoly (c.gRow j) : PowerSeries (ZMod 2)) * U) := by
  let S : ℕ → BVec c.degree := fun t s => PowerSeries.coeff t (PowerSeries.X ^ ((s : Nat) + 1) * U)
  have hS : ∀ t, S (t + 1) = c.stateSpace.next (S t) (fun _ => PowerSeries.coeff t U) := by
    intro t
    funext s
    show PowerSeries.coeff (t + 1) (PowerSeries.X ^ ((s : Nat) + 1) * U) =
      (∑ r, S t r * (if (s : Nat) = r + 1 then 1 else 0)) +
        ∑ _i : Fin 1, PowerSeries.coeff t U * (if (s : Nat) = 0 then 1 else 0)
    rw [coeff_shift]
    by_cases hs : (s : Nat) = 0
    · rw [Finset.sum_eq_zero]
      · simp [hs]
      · intro r _; rw [if_neg (by omega), mul_zero]
    · rw [Finset.sum_eq_single ⟨(s : Nat) - 1, by omega⟩]
      · rw [if_pos (by simp; omega), mul_one]
        simp only [hs, if_false, mul_zero, Finset.sum_const_zero, add_zero]
        show _ = PowerSeries.coeff t (PowerSeries.X ^ ((s : Nat) - 1 + 1) * U)
        rw [Nat.sub_add_cancel (by omega)]
      · intro r _ hr
        rw [if_neg, mul_zero]
        intro h; exact hr (Fin.ext (by simp; omega))
      · intro h; exact absurd (Finset.mem_univ _) h
  have h := (c.stateSpace.trajectory (fun t _ => PowerSeries.coeff t U) S hS T).2
  have h0 : S 0 = 0 := by funext s; exact coeff_shift_zero _ _
  rw [h0] at h
  rw [h]
  congr 1
  funext t j
  show (∑ r, S t r * c.beta (r + 1) j) + ∑ _i : Fin 1, PowerSeries.coeff (t : Nat) U * c.beta 0 j = _
  rw [coeff_poly_mul _ _ (c.natDegree_g j), add_comm]
  congr 1
  · rw [Finset.sum_const, Finset.card_univ, Fintype.card_fin, one_smul, beta_eq _ _ (by omega), mul_comm]
  · apply Finset.sum_congr rfl
    intro r _
    rw [beta_eq _ _ (by omega), mul_comm]

end LowRate
end Komm
