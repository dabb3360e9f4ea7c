import Verif.Model.MarkovReal
import Verif.Props.C72_MarkovChain
import Mathlib.Analysis.SpecificLimits.Basic
import Mathlib.LinearAlgebra.Matrix.ToLinearEquiv
import Mathlib.Topology.Algebra.InfiniteSum.Real
/-! C82: absorbing Markov chains.  `(Matrix.of P ^ m) i j` is the probability that the chain started in `i` is in `j` after `m` steps. -/
namespace Komm
open MarkovChain Walk Filter Topology
variable {n : Nat}

theorem pow_row_sum (P : TMat ℝ n) (hsum : ∀ i, ∑ j, P i j = 1) (m : Nat) (i : Fin n) : ∑ j, (Matrix.of P ^ m) i j = 1 := by
  induction m with
  | zero => simp [Matrix.one_apply]
  | succ m ih =>
    simp only [pow_succ, Matrix.mul_apply, Matrix.of_apply]
    rw [Finset.sum_comm]
    simp only [← Finset.mul_sum, hsum, mul_one]
    exact ih

/-- In an absorbing chain the states that are not absorbing are the transient ones. -/
theorem transient_iff (P : TMat ℝ n) (hP : validTransitionMatrix P = true) (ha : isAbsorbing P = true) (i : Fin n) :
    i ∈ transientStates P ↔ i ∉ absorbingStates P := by
  have hn : 0 < n := i.pos
  have hab := (C72_absorbing P hP).2 hn |>.mp ha
  have habs := (C72_absorbing P hP).1
  have stay : ∀ a ∈ absorbingStates P, ∀ m j, W (Step P) m a j → j = a := by
    intro a hA m
    induction m with
    | zero => intro j h; exact (W_zero.mp h).symm
    | succ m ih =>
      intro j h
      obtain ⟨k, h1, h2⟩ := W_succ.mp h
      obtain rfl := ih k h1
      by_contra hne
      have := (habs k).mp hA j hne
      rw [Step, this] at h2
      exact lt_irrefl _ h2
  rw [transientStates, Finset.mem_filter]
  simp only [Finset.mem_univ, true_and]
  constructor
  · rintro ⟨j, h1, h2⟩ hA
    obtain ⟨m, hm⟩ := (mem_reach P i j).mp h1
    rw [stay i hA m j hm] at h2
    exact h2 (reach_self P i)
  · intro hA
    obtain ⟨a, haA, m, hm⟩ := hab i
    refine ⟨a, (reach_iff_pow P hP i a).mpr ⟨m, hm⟩, fun h => ?_⟩
    obtain ⟨m', hm'⟩ := (mem_reach P a i).mp h
    rw [stay a haA m' i hm'] at hA
    exact hA haA

/-- The powers of `Q` are the blocks of the powers of `P`. -/
theorem subQ_pow (P : TMat ℝ n) (hP : validTransitionMatrix P = true) (ha : isAbsorbing P = true) (m : Nat) (i j : Transient P) :
    (subQ P ^ m) i j = (Matrix.of P ^ m) i j := by
  induction m generalizing j with
  | zero => simp only [pow_zero, Matrix.one_apply, Subtype.ext_iff]
  | succ m ih =>
    rw [pow_succ, pow_succ, Matrix.mul_apply, Matrix.mul_apply]
    have hz : ∀ k : Fin n, k ∉ transientStates P → (Matrix.of P ^ m) i k * Matrix.of P k j = 0 := by
      intro k hk
      have hkA : k ∈ absorbingStates P := by
        by_contra h; exact hk ((transient_iff P hP ha k).mpr h)
      have hne : (j : Fin n) ≠ k := by
        rintro rfl; exact hk j.2
      rw [Matrix.of_apply, ((C72_absorbing P hP).1 k).mp hkA j hne, mul_zero]
    rw [← Finset.sum_subset (Finset.subset_univ (transientStates P)) (fun k _ hk => hz k hk),
      ← Finset.sum_coe_sort (transientStates P) (fun k => (Matrix.of P ^ m) i k * Matrix.of P k j)]
    exact Finset.sum_congr rfl fun k _ => by rw [ih k]; rfl

/-- The probability of not being absorbed after `m` steps. -/
noncomputable def surv (P : TMat ℝ n) (m : Nat) (i : Fin n) : ℝ := ∑ j ∈ transientStates P, (Matrix.of P ^ m) i j

section
variable (P : TMat ℝ n) (hP : validTransitionMatrix P = true) (ha : isAbsorbing P = true)
include hP ha

theorem surv_nonneg (m : Nat) (i : Fin n) : 0 ≤ surv P m i :=
  Finset.sum_nonneg fun j _ => pow_nonneg_entries P ((C72_accepts P).mp hP).1 m i j

theorem surv_le_one (m : Nat) (i : Fin n) : surv P m i ≤ 1 := by
  rw [← pow_row_sum P ((C72_accepts P).mp hP).2 m i]
  exact Finset.sum_le_sum_of_subset_of_nonneg (Finset.subset_univ _) fun j _ _ => pow_nonneg_entries P ((C72_accepts P).mp hP).1 m i j

/-- From an absorbing state no transient state is ever reached. -/
theorem surv_absorbing (m : Nat) (a : Fin n) (hA : a ∉ transientStates P) : surv P m a = 0 := by
  refine Finset.sum_eq_zero fun j hj => ?_
  by_contra h
  have hpos := lt_of_le_of_ne (pow_nonneg_entries P ((C72_accepts P).mp hP).1 m a j) (Ne.symm h)
  have h1 : j ∈ reach P a := (reach_iff_pow P hP a j).mpr ⟨m, hpos⟩
  have hrec : a ∈ recurrentStates P := by simpa [recurrentStates] using hA
  have hj' : j ∉ recurrentStates P := by simpa [recurrentStates] using hj
  apply hj'
  rw [(C72_recurrent P hP j).1]
  intro k hk
  rw [← reach_iff_pow P hP] at hk ⊢
  have h2 : a ∈ reach P k := by
    rw [reach_iff_pow P hP]
    exact ((C72_recurrent P hP a).1.mp hrec) k ((reach_iff_pow P hP a k).mp (reach_trans h1 hk))
  exact reach_trans h2 h1

theorem surv_add (m m' : Nat) (i : Fin n) : surv P (m + m') i = ∑ k ∈ transientStates P, (Matrix.of P ^ m) i k * surv P m' k := by
  have : surv P (m + m') i = ∑ k, (Matrix.of P ^ m) i k * surv P m' k := by
    simp only [surv, pow_add, Matrix.mul_apply]
    rw [Finset.sum_comm]
    simp only [Finset.mul_sum]
  rw [this]
  symm
  refine Finset.sum_subset (Finset.subset_univ _) fun k _ hk => ?_
  rw [surv_absorbing P hP ha m' k hk, mul_zero]

theorem surv_antitone (i : Fin n) : Antitone fun m => surv P m i := by
  refine antitone_nat_of_succ_le fun m => ?_
  rw [surv_add P hP ha m 1 i, surv]
  refine Finset.sum_le_sum fun k _ => ?_
  have h1 := pow_nonneg_entries P ((C72_accepts P).mp hP).1 m i k
  have h2 := surv_le_one P hP ha 1 k
  nlinarith

theorem surv_lt_one : ∃ M > 0, ∃ c : ℝ, 0 ≤ c ∧ c < 1 ∧ ∀ i, surv P M i ≤ c := by
  have hex : ∀ i : Fin n, ∃ m, surv P m i < 1 := by
    intro i
    obtain ⟨a, haA, m, hm⟩ := ((C72_absorbing P hP).2 i.pos).mp ha i
    refine ⟨m, ?_⟩
    have hnn := pow_nonneg_entries P ((C72_accepts P).mp hP).1 m i
    have haT : a ∉ transientStates P := fun h => (transient_iff P hP ha a).mp h haA
    rw [← pow_row_sum P ((C72_accepts P).mp hP).2 m i]
    exact Finset.sum_lt_sum_of_subset (Finset.subset_univ _) (Finset.mem_univ a) haT hm fun j _ _ => hnn j
  choose f hf using hex
  refine ⟨(∑ i, f i) + 1, by omega, ?_⟩
  have hlt : ∀ i, surv P ((∑ i, f i) + 1) i < 1 := fun i => by
    refine lt_of_le_of_lt (surv_antitone P hP ha i ?_) (hf i)
    have := Finset.single_le_sum (f := f) (fun _ _ => Nat.zero_le _) (Finset.mem_univ i)
    omega
  by_cases hn : n = 0
  · subst hn
    exact ⟨0, le_rfl, by norm_num, fun i => i.elim0⟩
  · haveI : Nonempty (Fin n) := ⟨⟨0, by omega⟩⟩
    obtain ⟨i0, hi0⟩ := Finite.exists_max fun i => surv P ((∑ i, f i) + 1) i
    exact ⟨surv P ((∑ i, f i) + 1) i0, surv_nonneg P hP ha _ _, hlt i0, hi0⟩

/-- The chain is absorbed with probability one. -/
theorem surv_tendsto (i : Fin n) : Tendsto (fun m => surv P m i) atTop (𝓝 0) := by
  obtain ⟨M, hM, c, hc0, hc1, hc⟩ := surv_lt_one P hP ha
  have hpow : ∀ k i, surv P (M * k) i ≤ c ^ k := by
    intro k
    induction k with
    | zero => intro i; rw [Nat.mul_zero, pow_zero]; exact surv_le_one P hP ha 0 i
    | succ k ih =>
      intro i
      rw [Nat.mul_succ, Nat.add_comm, surv_add P hP ha, pow_succ']
      refine (Finset.sum_le_sum (g := fun j => (Matrix.of P ^ M) i j * c ^ k) fun j _ => ?_).trans ?_
      · exact mul_le_mul_of_nonneg_left (ih j) (pow_nonneg_entries P ((C72_accepts P).mp hP).1 M i j)
      · rw [← Finset.sum_mul]
        exact mul_le_mul_of_nonneg_right (hc i) (pow_nonneg hc0 k)
  have hbound : ∀ m, surv P m i ≤ c ^ (m / M) := fun m =>
    (surv_antitone P hP ha i (Nat.mul_div_le m M)).trans (hpow (m / M) i)
  refine squeeze_zero (fun m => surv_nonneg P hP ha m i) hbound ?_
  exact (tendsto_pow_atTop_nhds_zero_of_lt_one hc0 hc1).comp (Nat.tendsto_div_const_atTop (by omega))

theorem pow_tendsto_zero (i j : Fin n) (hj : j ∈ transientStates P) : Tendsto (fun m => (Matrix.of P ^ m) i j) atTop (𝓝 0) := by
  refine squeeze_zero (fun m => pow_nonneg_entries P ((C72_accepts P).mp hP).1 m i j) (fun m => ?_) (surv_tendsto P hP ha i)
  exact Finset.single_le_sum (f := fun j => (Matrix.of P ^ m) i j) (fun k _ => pow_nonneg_entries P ((C72_accepts P).mp hP).1 m i k) hj

theorem det_ne_zero : (1 - subQ P).det ≠ 0 := by
  intro h
  obtain ⟨x, hx0, hx⟩ := Matrix.exists_mulVec_eq_zero_iff.mpr h
  have h1 : Matrix.mulVec (subQ P) x = x := by
    rw [Matrix.sub_mulVec, Matrix.one_mulVec, sub_eq_zero] at hx
    exact hx.symm
  have h2 : ∀ m, Matrix.mulVec (subQ P ^ m) x = x := by
    intro m
    induction m with
    | zero => rw [pow_zero, Matrix.one_mulVec]
    | succ m ih => rw [pow_succ, ← Matrix.mulVec_mulVec, h1, ih]
  apply hx0
  funext i
  have hlim : Tendsto (fun m => Matrix.mulVec (subQ P ^ m) x i) atTop (𝓝 0) := by
    have : Tendsto (fun m => ∑ j, (subQ P ^ m) i j * x j) atTop (𝓝 (∑ j : Transient P, 0 * x j)) :=
      tendsto_finsetSum _ fun j _ => by
        refine Tendsto.mul_const _ ?_
        simp only [subQ_pow P hP ha]
        exact pow_tendsto_zero P hP ha i j j.2
    simp only [zero_mul, Finset.sum_const_zero] at this
    exact this
  simp only [h2] at hlim
  exact tendsto_nhds_unique tendsto_const_nhds hlim

theorem partial_sums (m : Nat) : (∑ k ∈ Finset.range m, subQ P ^ k) = (1 - subQ P ^ m) * (1 - subQ P)⁻¹ := by
  have h : (∑ k ∈ Finset.range m, subQ P ^ k) * (1 - subQ P) = 1 - subQ P ^ m := geom_sum_mul_neg (subQ P) m
  rw [← h, Matrix.mul_assoc, Matrix.mul_nonsing_inv _ (isUnit_iff_ne_zero.mpr (det_ne_zero P hP ha)), Matrix.mul_one]

theorem sums_tendsto (i j : Transient P) :
    Tendsto (fun m => ∑ k ∈ Finset.range m, (Matrix.of P ^ k) i j) atTop (𝓝 ((1 - subQ P)⁻¹ i j)) := by
  have e : ∀ m, ∑ k ∈ Finset.range m, (Matrix.of P ^ k) i j =
      (1 - subQ P)⁻¹ i j - ∑ l, (subQ P ^ m) i l * (1 - subQ P)⁻¹ l j := by
    intro m
    have := congrFun (congrFun (partial_sums P hP ha m) i) j
    rw [Matrix.sub_mul, Matrix.one_mul, Matrix.sub_apply, Matrix.mul_apply, Matrix.sum_apply] at this
    rw [← this]
    exact Finset.sum_congr rfl fun k _ => (subQ_pow P hP ha k i j).symm
  simp only [e]
  have hz : Tendsto (fun m => ∑ l, (subQ P ^ m) i l * (1 - subQ P)⁻¹ l j) atTop (𝓝 (∑ l : Transient P, 0 * (1 - subQ P)⁻¹ l j)) :=
    tendsto_finsetSum _ fun l _ => by
      refine Tendsto.mul_const _ ?_
      simp only [subQ_pow P hP ha]
      exact pow_tendsto_zero P hP ha i l l.2
  have := tendsto_const_nhds (x := (1 - subQ P)⁻¹ i j) |>.sub hz
  simpa using this

theorem visits_eq : meanNumberOfVisits P = some ((1 - subQ P)⁻¹) := by
  rw [meanNumberOfVisits, if_neg (by simpa using ha), npInv, if_neg (det_ne_zero P hP ha)]

theorem visits_hasSum (i j : Transient P) : HasSum (fun m => (Matrix.of P ^ m) i j) ((1 - subQ P)⁻¹ i j) :=
  (hasSum_iff_tendsto_nat_of_nonneg (fun m => pow_nonneg_entries P ((C72_accepts P).mp hP).1 m i j) _).mpr (sums_tendsto P hP ha i j)

end

/-- `mean_number_of_visits()` of an absorbing chain never fails (the matrix `I - Q` is always invertible), and its entry `(i, j)` is the
expected number of visits: the sum over all times `m` of the probability of being in `j` at time `m`, starting from `i`. -/
theorem C82_mean_number_of_visits (P : TMat ℝ n) (hP : validTransitionMatrix P = true) (ha : isAbsorbing P = true) :
    ∃ N, meanNumberOfVisits P = some N ∧ ∀ i j : Transient P, HasSum (fun m => (Matrix.of P ^ m) i j) (N i j) :=
  ⟨_, visits_eq P hP ha, visits_hasSum P hP ha⟩

/-- `mean_time_to_absorption()`: the expected number of steps before absorption, i.e. the sum over all times `m` of the probability that
the chain is not yet in an absorbing state at time `m`. -/
theorem C82_mean_time (P : TMat ℝ n) (hP : validTransitionMatrix P = true) (ha : isAbsorbing P = true) :
    ∃ t, meanTimeToAbsorption P = some t ∧
      ∀ i : Transient P, HasSum (fun m => ∑ j ∈ Finset.univ \ absorbingStates P, (Matrix.of P ^ m) i j) (t i) := by
  refine ⟨_, by rw [meanTimeToAbsorption, visits_eq P hP ha]; rfl, fun i => ?_⟩
  have hset : Finset.univ \ absorbingStates P = transientStates P := by
    ext j; simp [transient_iff P hP ha j]
  rw [hset]
  have := hasSum_sum (s := Finset.univ) fun (j : Transient P) _ => visits_hasSum P hP ha i j
  refine this.congr_fun ?_
  intro m
  exact (Finset.sum_coe_sort (transientStates P) fun j => (Matrix.of P ^ m) i j).symm

theorem pow_absorbing (P : TMat ℝ n) (hP : validTransitionMatrix P = true) (ha : isAbsorbing P = true) (i : Transient P) (a : Absorbing P)
    (m : Nat) : (Matrix.of P ^ m) i a = ∑ j : Transient P, (∑ k ∈ Finset.range m, (Matrix.of P ^ k) i j) * subR P j a := by
  induction m with
  | zero =>
    rw [pow_zero, Matrix.one_apply_ne]
    · simp
    · intro h
      exact (transient_iff P hP ha i).mp i.2 (h ▸ a.2)
  | succ m ih =>
    rw [pow_succ, Matrix.mul_apply]
    have hsplit : ∑ k, (Matrix.of P ^ m) i k * Matrix.of P k a =
        ∑ k ∈ transientStates P, (Matrix.of P ^ m) i k * Matrix.of P k a + (Matrix.of P ^ m) i a := by
      have haT : (a : Fin n) ∉ transientStates P := fun h => (transient_iff P hP ha a).mp h a.2
      have hPa : P a a = 1 := (Finset.mem_filter.mp a.2).2
      have := Finset.sum_insert (f := fun k => (Matrix.of P ^ m) i k * Matrix.of P k a) haT
      rw [Matrix.of_apply, hPa, mul_one] at this
      rw [add_comm, ← this]
      symm
      refine Finset.sum_subset (Finset.subset_univ _) fun k _ hk => ?_
      rw [Finset.mem_insert, not_or] at hk
      have hkA : k ∈ absorbingStates P := by
        by_contra h; exact hk.2 ((transient_iff P hP ha k).mpr h)
      rw [Matrix.of_apply, ((C72_absorbing P hP).1 k).mp hkA a (Ne.symm hk.1), mul_zero]
    rw [hsplit, ih, ← Finset.sum_coe_sort, ← Finset.sum_add_distrib]
    refine Finset.sum_congr rfl fun j _ => ?_
    rw [Finset.sum_range_succ, add_mul, add_comm]
    rfl

/-- `absorption_probabilities()`: entry `(i, a)` is the limit of the probability of being in the absorbing state `a` at time `m` (which is
the probability of having been absorbed there), and the rows sum to one. -/
theorem C82_absorption_probabilities (P : TMat ℝ n) (hP : validTransitionMatrix P = true) (ha : isAbsorbing P = true) :
    ∃ B, absorptionProbabilities P = some B ∧
      (∀ (i : Transient P) (a : Absorbing P), Tendsto (fun m => (Matrix.of P ^ m) i a) atTop (𝓝 (B i a))) ∧
      ∀ i, ∑ a, B i a = 1 := by
  refine ⟨_, by rw [absorptionProbabilities, visits_eq P hP ha]; rfl, ?_, ?_⟩
  · intro i a
    simp only [pow_absorbing P hP ha]
    rw [Matrix.mul_apply]
    exact tendsto_finsetSum _ fun j _ => (sums_tendsto P hP ha i j).mul_const _
  · intro i
    have hlim : Tendsto (fun m => ∑ a : Absorbing P, (Matrix.of P ^ m) i a) atTop (𝓝 (∑ a, ((1 - subQ P)⁻¹ * subR P) i a)) :=
      tendsto_finsetSum _ fun a _ => by
        simp only [pow_absorbing P hP ha]
        rw [Matrix.mul_apply]
        exact tendsto_finsetSum _ fun j _ => (sums_tendsto P hP ha i j).mul_const _
    have e : ∀ m, ∑ a : Absorbing P, (Matrix.of P ^ m) i a = 1 - surv P m i := by
      intro m
      rw [Finset.sum_coe_sort (absorbingStates P) fun j => (Matrix.of P ^ m) i j, ← pow_row_sum P ((C72_accepts P).mp hP).2 m i]
      have hc : absorbingStates P = (transientStates P)ᶜ := by
        ext j; rw [Finset.mem_compl, transient_iff P hP ha j, not_not]
      rw [hc, surv, ← Finset.sum_compl_add_sum (transientStates P)]
      ring
    simp only [e] at hlim
    have h1 : Tendsto (fun m => 1 - surv P m i) atTop (𝓝 (1 - 0)) := tendsto_const_nhds.sub (surv_tendsto P hP ha i)
    rw [sub_zero] at h1
    exact tendsto_nhds_unique hlim h1

/-- The chain is absorbed with probability one: the probability of being in a non-absorbing state tends to zero. -/
theorem C82_absorbed_almost_surely (P : TMat ℝ n) (hP : validTransitionMatrix P = true) (ha : isAbsorbing P = true) (i : Fin n) :
    Tendsto (fun m => ∑ j ∈ Finset.univ \ absorbingStates P, (Matrix.of P ^ m) i j) atTop (𝓝 0) := by
  have hset : Finset.univ \ absorbingStates P = transientStates P := by
    ext j; simp [transient_iff P hP ha j]
  rw [hset]
  exact surv_tendsto P hP ha i

/-- Non-vacuity: the documented gambler's-ruin chain satisfies the hypotheses, and its states 1 and 2 are transient. -/
example : ∃ P : TMat ℝ 4, P = ![![1, 0, 0, 0], ![1/2, 0, 1/2, 0], ![0, 1/2, 0, 1/2], ![0, 0, 0, 1]] ∧
    validTransitionMatrix P = true ∧ isAbsorbing P = true ∧ 1 ∈ transientStates P ∧ 2 ∈ transientStates P := by
  refine ⟨_, rfl, ?_⟩
  generalize hPdef : (![![1, 0, 0, 0], ![1/2, 0, 1/2, 0], ![0, 1/2, 0, 1/2], ![0, 0, 0, 1]] : TMat ℝ 4) = P
  have hP : validTransitionMatrix P = true := by
    rw [C72_accepts, ← hPdef]
    refine ⟨fun i j => ?_, fun i => ?_⟩
    · fin_cases i <;> fin_cases j <;> simp
    · fin_cases i <;> simp [Fin.sum_univ_four] <;> norm_num
  have hA : ∀ i : Fin 4, i ∈ absorbingStates P ↔ i = 0 ∨ i = 3 := by
    intro i
    rw [absorbingStates, Finset.mem_filter, ← hPdef]
    fin_cases i <;> simp
  have ha : isAbsorbing P = true := by
    rw [(C72_absorbing P hP).2 (by norm_num)]
    intro i
    have h1 : (1 : Nat) = 1 := rfl
    fin_cases i
    · exact ⟨0, (hA 0).mpr (Or.inl rfl), 0, by simp⟩
    · exact ⟨0, (hA 0).mpr (Or.inl rfl), 1, by rw [pow_one, Matrix.of_apply, ← hPdef]; simp⟩
    · exact ⟨3, (hA 3).mpr (Or.inr rfl), 1, by rw [pow_one, Matrix.of_apply, ← hPdef]; simp⟩
    · exact ⟨3, (hA 3).mpr (Or.inr rfl), 0, by simp⟩
  refine ⟨hP, ha, ?_, ?_⟩
  · rw [transient_iff P hP ha, hA]; decide
  · rw [transient_iff P hP ha, hA]; decide

end Komm
