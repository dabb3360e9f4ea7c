import Verif.Props.C82_Absorption
import Mathlib.Algebra.BigOperators.Field
/-! C83: the stationary distribution of an irreducible chain. -/
namespace Komm
open MarkovChain
variable {n : Nat}

/-- `x P`. -/
def leftMul (P : TMat ℝ n) (x : Fin n → ℝ) : Fin n → ℝ := fun j => ∑ i, x i * P i j

theorem leftMul_sum (P : TMat ℝ n) (hsum : ∀ i, ∑ j, P i j = 1) (x : Fin n → ℝ) : ∑ j, leftMul P x j = ∑ i, x i := by
  simp only [leftMul]
  rw [Finset.sum_comm]
  simp only [← Finset.mul_sum, hsum, mul_one]

/-- The absolute values of an invariant vector are invariant. -/
theorem abs_invariant (P : TMat ℝ n) (hnn : ∀ i j, 0 ≤ P i j) (hsum : ∀ i, ∑ j, P i j = 1) (x : Fin n → ℝ) (hx : leftMul P x = x) :
    leftMul P (fun i => |x i|) = fun i => |x i| := by
  have hle : ∀ j, |x j| ≤ leftMul P (fun i => |x i|) j := by
    intro j
    conv_lhs => rw [← hx]
    refine (Finset.abs_sum_le_sum_abs _ _).trans (Finset.sum_le_sum fun i _ => ?_)
    rw [abs_mul, abs_of_nonneg (hnn i j)]
  have heq : ∑ j, |x j| = ∑ j, leftMul P (fun i => |x i|) j := (leftMul_sum P hsum _).symm
  funext j
  exact ((Finset.sum_eq_sum_iff_of_le fun j _ => hle j).mp heq j (Finset.mem_univ j)).symm

theorem invariant_pow (P : TMat ℝ n) (x : Fin n → ℝ) (hx : leftMul P x = x) (m : Nat) (j : Fin n) :
    ∑ i, x i * (Matrix.of P ^ m) i j = x j := by
  induction m generalizing j with
  | zero => simp [Matrix.one_apply]
  | succ m ih =>
    simp only [pow_succ, Matrix.mul_apply, Finset.mul_sum]
    rw [Finset.sum_comm]
    simp only [← mul_assoc, ← Finset.sum_mul, ih]
    exact congrFun hx j

/-- A nonzero non-negative invariant vector of an irreducible chain is positive. -/
theorem invariant_pos (P : TMat ℝ n) (hnn : ∀ i j, 0 ≤ P i j) (hirr : ∀ i j, ∃ m, 0 < (Matrix.of P ^ m) i j) (x : Fin n → ℝ)
    (hx : leftMul P x = x) (hx0 : ∀ i, 0 ≤ x i) (hne : ∃ i, x i ≠ 0) (j : Fin n) : 0 < x j := by
  obtain ⟨i, hi⟩ := hne
  obtain ⟨m, hm⟩ := hirr i j
  rw [← invariant_pow P x hx m j]
  exact Finset.sum_pos' (fun k _ => mul_nonneg (hx0 k) (pow_nonneg_entries P hnn m k j))
    ⟨i, Finset.mem_univ i, mul_pos (lt_of_le_of_ne (hx0 i) (Ne.symm hi)) hm⟩

/-- An invariant vector with sum zero is zero. -/
theorem invariant_zero (P : TMat ℝ n) (hnn : ∀ i j, 0 ≤ P i j) (hsum : ∀ i, ∑ j, P i j = 1)
    (hirr : ∀ i j, ∃ m, 0 < (Matrix.of P ^ m) i j) (x : Fin n → ℝ) (hx : leftMul P x = x) (h0 : ∑ i, x i = 0) : x = 0 := by
  have habs := abs_invariant P hnn hsum x hx
  have hadd : leftMul P (fun i => |x i| + x i) = fun i => |x i| + x i := by
    funext j
    have h1 := congrFun habs j
    have h2 := congrFun hx j
    simp only [leftMul, add_mul, Finset.sum_add_distrib] at h1 h2 ⊢
    rw [h1, h2]
  by_cases hz : ∃ i, |x i| + x i ≠ 0
  · -- then all entries are positive
    have hp := invariant_pos P hnn hirr _ hadd (fun i => by have := neg_abs_le (x i); linarith) hz
    have hxp : ∀ i, 0 ≤ x i := fun i => by
      by_contra hneg
      have := hp i
      rw [abs_of_neg (not_le.mp hneg)] at this
      linarith
    funext i
    exact (Finset.sum_eq_zero_iff_of_nonneg fun i _ => hxp i).mp h0 i (Finset.mem_univ i)
  · push Not at hz
    have hxn : ∀ i, 0 ≤ -x i := fun i => by have := hz i; have := abs_nonneg (x i); linarith
    have h0' : ∑ i, -x i = 0 := by rw [Finset.sum_neg_distrib, h0, neg_zero]
    funext i
    have := (Finset.sum_eq_zero_iff_of_nonneg fun i _ => hxn i).mp h0' i (Finset.mem_univ i)
    simpa using this

/-- A stationary distribution exists. -/
theorem exists_stationary (P : TMat ℝ n) (hnn : ∀ i j, 0 ≤ P i j) (hsum : ∀ i, ∑ j, P i j = 1) (hn : 0 < n) :
    ∃ x : Fin n → ℝ, leftMul P x = x ∧ ∑ i, x i = 1 ∧ ∀ i, 0 ≤ x i := by
  have hdet : (1 - Matrix.of P).det = 0 := by
    refine Matrix.exists_mulVec_eq_zero_iff.mp ⟨fun _ => 1, ?_, ?_⟩
    · intro h
      have := congrFun h ⟨0, hn⟩
      simp at this
    · funext i
      rw [Matrix.sub_mulVec, Matrix.one_mulVec]
      simp only [Pi.sub_apply, Matrix.mulVec, dotProduct, Matrix.of_apply, mul_one, hsum, sub_self, Pi.zero_apply]
  obtain ⟨v, hv0, hv⟩ := Matrix.exists_vecMul_eq_zero_iff.mpr hdet
  have hinv : leftMul P v = v := by
    funext j
    have := congrFun hv j
    rw [Matrix.vecMul_sub, Matrix.vecMul_one] at this
    simp only [Pi.sub_apply, Pi.zero_apply, Matrix.vecMul, dotProduct, Matrix.of_apply] at this
    rw [leftMul]
    linarith
  have habs := abs_invariant P hnn hsum v hinv
  have hpos : 0 < ∑ i, |v i| := by
    obtain ⟨i, hi⟩ := Function.ne_iff.mp hv0
    exact Finset.sum_pos' (fun i _ => abs_nonneg _) ⟨i, Finset.mem_univ i, abs_pos.mpr hi⟩
  refine ⟨fun i => |v i| / ∑ i, |v i|, ?_, ?_, fun i => div_nonneg (abs_nonneg _) hpos.le⟩
  · funext j
    have h1 := congrFun habs j
    simp only [leftMul] at h1 ⊢
    rw [← h1, Finset.sum_div]
    exact Finset.sum_congr rfl fun i _ => by ring
  · rw [← Finset.sum_div, div_self hpos.ne']

/-- An irreducible chain has exactly one stationary distribution, and all its entries are positive. -/
theorem C83_exists_unique (P : TMat ℝ n) (hP : validTransitionMatrix P = true) (hn : 0 < n) (hirr : isIrreducible P = true) :
    ∃ x : Fin n → ℝ, ((∀ j, ∑ i, x i * P i j = x j) ∧ ∑ i, x i = 1) ∧ (∀ i, 0 < x i) ∧
      ∀ y : Fin n → ℝ, (∀ j, ∑ i, y i * P i j = y j) → ∑ i, y i = 1 → y = x := by
  obtain ⟨hnn, hsum⟩ := (C72_accepts P).mp hP
  have hir := (C72_irreducible P hP hn).mp hirr
  obtain ⟨x, h1, h2, h3⟩ := exists_stationary P hnn hsum hn
  refine ⟨x, ⟨fun j => congrFun h1 j, h2⟩, ?_, ?_⟩
  · refine invariant_pos P hnn hir x h1 h3 ?_
    by_contra h
    push Not at h
    rw [Finset.sum_eq_zero fun i _ => h i] at h2
    exact zero_ne_one h2
  · intro y hy1 hy2
    have : (fun i => y i - x i) = 0 := by
      apply invariant_zero P hnn hsum hir
      · funext j
        have := congrFun h1 j
        simp only [leftMul, sub_mul, Finset.sum_sub_distrib] at this ⊢
        rw [this, hy1 j]
      · rw [Finset.sum_sub_distrib, h2, hy2, sub_self]
    funext i
    have := congrFun this i
    exact sub_eq_zero.mp this

/-- Whatever least-squares solution `np.linalg.lstsq` returns, `stationary_distribution()` is the stationary distribution:
`π P = π`, the entries sum to one and are positive. -/
theorem C83_stationary_distribution (P : TMat ℝ n) (hP : validTransitionMatrix P = true) (hn : 0 < n) (x : Fin n → ℝ)
    (hx : IsStationaryResult P x) : (∀ j, ∑ i, x i * P i j = x j) ∧ ∑ i, x i = 1 ∧ ∀ i, 0 < x i := by
  obtain ⟨p, ⟨hp1, hp2⟩, hp3, hp4⟩ := C83_exists_unique P hP hn hx.1
  have hcost : stationaryCost P p = 0 := by
    simp [stationaryCost, stationaryResidual, hp1, hp2]
  have h0 : stationaryCost P x ≤ 0 := hcost ▸ hx.2 p
  have hs : 0 ≤ ∑ j, (stationaryResidual P x).1 j ^ 2 := Finset.sum_nonneg fun j _ => sq_nonneg _
  have hb : 0 ≤ (stationaryResidual P x).2 ^ 2 := sq_nonneg _
  rw [stationaryCost] at h0
  have e1 : ∑ j, (stationaryResidual P x).1 j ^ 2 = 0 := by linarith
  have e2 : (stationaryResidual P x).2 ^ 2 = 0 := by linarith
  have f1 : ∀ j, ∑ i, x i * P i j = x j := by
    intro j
    have := (Finset.sum_eq_zero_iff_of_nonneg fun j _ => sq_nonneg _).mp e1 j (Finset.mem_univ j)
    have := pow_eq_zero_iff (two_ne_zero) |>.mp this
    exact sub_eq_zero.mp this
  have f2 : ∑ i, x i = 1 := sub_eq_zero.mp (pow_eq_zero_iff (two_ne_zero) |>.mp e2)
  rw [hp4 x f1 f2]
  exact ⟨hp1, hp2, hp3⟩

/-- A least-squares solution exists, so the method does return for irreducible chains, and it is unique. -/
theorem C83_defined (P : TMat ℝ n) (hP : validTransitionMatrix P = true) (hn : 0 < n) (hirr : isIrreducible P = true) :
    ∃! x, IsStationaryResult P x := by
  obtain ⟨p, ⟨hp1, hp2⟩, hp3, hp4⟩ := C83_exists_unique P hP hn hirr
  refine ⟨p, ⟨hirr, fun z => ?_⟩, fun y hy => ?_⟩
  · have hcost : stationaryCost P p = 0 := by simp [stationaryCost, stationaryResidual, hp1, hp2]
    rw [hcost]
    exact add_nonneg (Finset.sum_nonneg fun j _ => sq_nonneg _) (sq_nonneg _)
  · obtain ⟨h1, h2, -⟩ := C83_stationary_distribution P hP hn y hy
    exact hp4 y h1 h2

/-- Non-vacuity: the documented chain is irreducible, and its stationary distribution is `[0.4, 0.2, 0.4]`. -/
example : ∃ P : TMat ℝ 3, P = ![![1/2, 1/4, 1/4], ![1/2, 0, 1/2], ![1/4, 1/4, 1/2]] ∧ validTransitionMatrix P = true ∧
    isIrreducible P = true ∧ ∀ x, IsStationaryResult P x → x = ![2/5, 1/5, 2/5] := by
  refine ⟨_, rfl, ?_⟩
  generalize hPdef : (![![1/2, 1/4, 1/4], ![1/2, 0, 1/2], ![1/4, 1/4, 1/2]] : TMat ℝ 3) = P
  have hP : validTransitionMatrix P = true := by
    rw [C72_accepts, ← hPdef]
    refine ⟨fun i j => ?_, fun i => ?_⟩
    · fin_cases i <;> fin_cases j <;> simp
    · fin_cases i <;> simp [Fin.sum_univ_three] <;> norm_num
  have hirr : isIrreducible P = true := by
    rw [C72_irreducible P hP (by norm_num)]
    intro i j
    refine ⟨2, ?_⟩
    rw [pow_two, Matrix.mul_apply]
    simp only [Matrix.of_apply, Fin.sum_univ_three, ← hPdef]
    fin_cases i <;> fin_cases j <;> simp <;> norm_num
  refine ⟨hP, hirr, fun x hx => ?_⟩
  obtain ⟨p, -, -, hu⟩ := C83_exists_unique P hP (by norm_num) hirr
  obtain ⟨h1, h2, -⟩ := C83_stationary_distribution P hP (by norm_num) x hx
  rw [hu x h1 h2]
  symm
  apply hu
  · intro j
    simp only [Fin.sum_univ_three, ← hPdef]
    fin_cases j <;> simp <;> norm_num
  · simp [Fin.sum_univ_three]; norm_num

end Komm
