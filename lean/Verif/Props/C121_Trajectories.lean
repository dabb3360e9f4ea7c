import Verif.Props.C83_Stationary
import Verif.Props.C120_ChannelCoding
/-! C121: the random trajectories of a Markov chain follow the quantities the chain computes; C122: convergence to the stationary
distribution. -/
namespace Komm
open MeasureTheory MarkovChain Filter Topology
variable {n : Nat}

/-- The state after all the draws. -/
noncomputable def stateAfter (P : TMat ℝ n) (i : Fin n) (us : List ℝ) : Option (Fin n) := us.foldlM (fun s u => rngChoice (P s) u) i

theorem stateAfter_cons (P : TMat ℝ n) (i : Fin n) (u : ℝ) (us : List ℝ) (j : Fin n) :
    stateAfter P i (u :: us) = some j ↔ ∃ k, rngChoice (P i) u = some k ∧ stateAfter P k us = some j := by
  rw [stateAfter, List.foldlM_cons]
  exact Option.bind_eq_some_iff

/-- The first draw is independent of the others. -/
theorem draws_cons {m : Nat} (A : Set ℝ) (B : Set (Fin m → ℝ)) :
    (uniformDraws (m + 1)).real {u | u 0 ∈ A ∧ (fun t : Fin m => u t.succ) ∈ B} = (volume.restrict (Set.Ico (0 : ℝ) 1)).real A * (uniformDraws m).real B := by
  have h := measurePreserving_piFinSuccAbove (fun _ : Fin (m + 1) => volume.restrict (Set.Ico (0 : ℝ) 1)) 0
  have hset : {u : Fin (m + 1) → ℝ | u 0 ∈ A ∧ (fun t : Fin m => u t.succ) ∈ B} = (MeasurableEquiv.piFinSuccAbove (fun _ : Fin (m + 1) => ℝ) 0) ⁻¹' (A ×ˢ B) := by
    ext u
    simp only [Set.mem_setOf_eq, Set.mem_preimage, Set.mem_prod]
    rfl
  rw [measureReal_def, uniformDraws, hset, h.measure_preimage_equiv, Measure.prod_prod, ENNReal.toReal_mul]
  rfl

theorem choice_real (p : Fin n → ℝ) (hp : validPmf p = true) (j : Fin n) :
    (volume.restrict (Set.Ico (0 : ℝ) 1)).real {u | rngChoice p u = some j} = p j := by
  rw [measureReal_def, Measure.restrict_apply (choice_measurable p j)]
  have : {u : ℝ | rngChoice p u = some j} ∩ Set.Ico 0 1 = {u : ℝ | u ∈ Set.Ico (0 : ℝ) 1 ∧ rngChoice p u = some j} := by
    ext u; exact and_comm
  rw [this, C84_choice_measure p hp j, ENNReal.toReal_ofReal (((validPmf_iff p).mp hp).1 j)]

/-- The law of the state at time `t`. -/
theorem stateAfter_law (P : TMat ℝ n) (hP : validTransitionMatrix P = true) : ∀ (m t : Nat) (_ : t ≤ m) (i j : Fin n),
    MeasurableSet {u : Fin m → ℝ | stateAfter P i ((List.ofFn u).take t) = some j} ∧
    (uniformDraws m).real {u : Fin m → ℝ | stateAfter P i ((List.ofFn u).take t) = some j} = (Matrix.of P ^ t) i j := by
  intro m
  induction m with
  | zero =>
    intro t ht i j
    obtain rfl : t = 0 := by omega
    simp only [List.take_zero, stateAfter, List.foldlM_nil, Option.pure_def, Option.some.injEq, pow_zero, Matrix.one_apply]
    refine ⟨MeasurableSet.const _, ?_⟩
    by_cases h : i = j <;> simp [h]
  | succ m ih =>
    intro t ht i j
    cases t with
    | zero =>
      simp only [List.take_zero, stateAfter, List.foldlM_nil, Option.pure_def, Option.some.injEq, pow_zero, Matrix.one_apply]
      refine ⟨MeasurableSet.const _, ?_⟩
      by_cases h : i = j <;> simp [h]
    | succ t =>
      have ht' : t ≤ m := by omega
      let E : Fin n → Set (Fin (m + 1) → ℝ) := fun k =>
        {u | u 0 ∈ {v : ℝ | rngChoice (P i) v = some k} ∧ (fun s : Fin m => u s.succ) ∈ {u : Fin m → ℝ | stateAfter P k ((List.ofFn u).take t) = some j}}
      have hset : {u : Fin (m + 1) → ℝ | stateAfter P i ((List.ofFn u).take (t + 1)) = some j} = ⋃ k ∈ Finset.univ, E k := by
        ext u
        simp only [List.ofFn_succ, List.take_succ_cons, Set.mem_setOf_eq, stateAfter_cons, Set.mem_iUnion, Finset.mem_univ, exists_true_left, E]
      have hm : ∀ k, MeasurableSet (E k) := fun k =>
        ((choice_measurable (P i) k).preimage (measurable_pi_apply 0)).inter
          ((ih t ht' k j).1.preimage (measurable_pi_lambda _ fun s => measurable_pi_apply s.succ))
      rw [hset]
      refine ⟨Finset.measurableSet_biUnion _ fun k _ => hm k, ?_⟩
      rw [measureReal_biUnion_finset (fun k _ k' _ hkk => Set.disjoint_left.mpr fun u hu hu' => hkk ?_) fun k _ => hm k]
      · rw [pow_succ', Matrix.mul_apply]
        refine Finset.sum_congr rfl fun k _ => ?_
        rw [draws_cons, choice_real _ (row_valid P hP i), (ih t ht' k j).2]
        rfl
      · have h1 := hu.1
        have h2 := hu'.1
        simp only [Set.mem_setOf_eq] at h1 h2
        rw [h1] at h2
        simpa using h2

/-- Almost surely all draws are in `[0, 1)`. -/
theorem draws_ae (m : Nat) : ∀ᵐ u ∂(uniformDraws m), ∀ x ∈ List.ofFn u, 0 ≤ x ∧ x < 1 := by
  have h1 : ∀ t : Fin m, ∀ᵐ u ∂(uniformDraws m), u t ∈ Set.Ico (0 : ℝ) 1 := fun t => by
    have := ae_restrict_mem (μ := (volume : Measure ℝ)) (measurableSet_Ico (a := (0 : ℝ)) (b := 1))
    exact (Measure.quasiMeasurePreserving_eval (μ := fun _ : Fin m => volume.restrict (Set.Ico (0 : ℝ) 1)) t).ae this
  rw [← ae_all_iff] at h1
  filter_upwards [h1] with u hu x hx
  obtain ⟨t, rfl⟩ := (List.mem_ofFn' u x).mp hx
  exact hu t

theorem stateAfter_total (P : TMat ℝ n) (hP : validTransitionMatrix P = true) (i : Fin n) (us : List ℝ) (hu : ∀ u ∈ us, 0 ≤ u ∧ u < 1) :
    ∃ j, stateAfter P i us = some j := by
  induction us generalizing i with
  | nil => exact ⟨i, rfl⟩
  | cons u us ih =>
    obtain ⟨k, hk, -⟩ := C84_choice_positive (P i) (row_valid P hP i) u (hu u (by simp))
    obtain ⟨j, hj⟩ := ih k fun v hv => hu v (List.mem_cons_of_mem _ hv)
    exact ⟨j, (stateAfter_cons P i u us j).mpr ⟨k, hk, hj⟩⟩

/-- Entry `t` of a simulated trajectory. -/
theorem simulate_entry (P : TMat ℝ n) (us : List ℝ) : ∀ (i : Fin n) (out : List (Fin n)) (_ : simulate P i us = some out) (t : Nat)
    (_ : t < us.length), out[t]? = stateAfter P i (us.take t) := by
  induction us with
  | nil => intro i out _ t ht; simp at ht
  | cons u us ih =>
    intro i out h t ht
    obtain ⟨k, rest, h1, h2, rfl⟩ := (simulate_cons P i u us out).mp h
    cases t with
    | zero => simp [stateAfter]
    | succ t =>
      rw [List.getElem?_cons_succ, ih k rest h2 t (by simpa using ht), List.take_succ_cons, stateAfter, stateAfter, List.foldlM_cons, h1]
      rfl

/-- An absorbing state is never left. -/
theorem stateAfter_absorbing (P : TMat ℝ n) (hP : validTransitionMatrix P = true) (i : Fin n) (hi : i ∈ absorbingStates P) (us : List ℝ)
    (hu : ∀ u ∈ us, 0 ≤ u ∧ u < 1) : stateAfter P i us = some i := by
  induction us with
  | nil => rfl
  | cons u us ih =>
    obtain ⟨k, hk, hpos⟩ := C84_choice_positive (P i) (row_valid P hP i) u (hu u (by simp))
    have : k = i := by
      by_contra hne
      have h0 := ((C72_absorbing P hP).1 i).mp hi k hne
      linarith
    subst this
    exact (stateAfter_cons P k u us k).mpr ⟨k, hk, ih fun v hv => hu v (List.mem_cons_of_mem _ hv)⟩

theorem until_spec (P : TMat ℝ n) (hP : validTransitionMatrix P = true) (ha : isAbsorbing P = true) (us : List ℝ) (hu : ∀ u ∈ us, 0 ≤ u ∧ u < 1) :
    ∀ i : Fin n, (untilLoop P i us = none ↔ ∃ j ∈ transientStates P, stateAfter P i us = some j) ∧
      ∀ rest, untilLoop P i us = some rest → (i :: rest).getLast? = stateAfter P i us ∧ ∃ j ∉ transientStates P, stateAfter P i us = some j := by
  induction us with
  | nil =>
    intro i
    rw [untilLoop]
    by_cases hi : i ∈ transientStates P
    · simp [hi, stateAfter]
    · simp [hi, stateAfter]
  | cons u us ih =>
    intro i
    have hu' : ∀ v ∈ us, 0 ≤ v ∧ v < 1 := fun v hv => hu v (List.mem_cons_of_mem _ hv)
    rw [untilLoop]
    by_cases hi : i ∈ transientStates P
    · rw [if_pos hi]
      obtain ⟨k, hk, -⟩ := C84_choice_positive (P i) (row_valid P hP i) u (hu u (by simp))
      have hs : stateAfter P i (u :: us) = stateAfter P k us := by
        rw [stateAfter, List.foldlM_cons, hk]; rfl
      rw [hs, ← (ih hu' k).1, hk]
      obtain ⟨-, h2⟩ := ih hu' k
      cases hl : untilLoop P k us with
      | none => simp [hl]
      | some r =>
        refine ⟨by simp [hl], fun rest hr => ?_⟩
        simp only [Option.bind_eq_bind, Option.bind_some, Option.pure_def, hl, Option.some.injEq] at hr
        subst hr
        rw [List.getLast?_cons_cons]
        exact h2 r hl
    · rw [if_neg hi]
      have hia : i ∈ absorbingStates P := by
        by_contra h; exact hi ((transient_iff P hP ha i).mpr h)
      rw [stateAfter_absorbing P hP i hia _ hu]
      simp [hi]

/-- The law of `simulate`: the state at any time `t` of a trajectory with `steps` states started at `i` is `j` with probability
`(P ^ t)[i, j]`. -/
theorem C121_simulate_law (P : TMat ℝ n) (hP : validTransitionMatrix P = true) (i j : Fin n) (steps t : Nat) (ht : t < steps) :
    (uniformDraws steps).real {u | ∃ out, simulate P i (List.ofFn u) = some out ∧ out[t]? = some j} = (Matrix.of P ^ t) i j := by
  rw [← (stateAfter_law P hP steps t ht.le i j).2]
  refine measureReal_congr ?_
  filter_upwards [draws_ae steps] with u hu
  obtain ⟨out, h1, h2, -⟩ := C84_simulate P hP i (List.ofFn u) hu
  have h3 := simulate_entry P (List.ofFn u) i out h1 t (by simpa using ht)
  refine propext ⟨?_, fun h => ⟨out, h1, h3.trans h⟩⟩
  rintro ⟨out', h4, h5⟩
  rw [h1, Option.some.injEq] at h4
  subst h4
  exact h3.symm.trans h5

theorem running_law (P : TMat ℝ n) (hP : validTransitionMatrix P = true) (ha : isAbsorbing P = true) (i : Fin n) (m : Nat) :
    (uniformDraws m).real {u | simulateUntilAbsorption P i (List.ofFn u) = .running} = ∑ j ∈ Finset.univ \ absorbingStates P, (Matrix.of P ^ m) i j := by
  have hset : Finset.univ \ absorbingStates P = transientStates P := by
    ext j; simp [transient_iff P hP ha j]
  rw [hset]
  have h1 : (uniformDraws m).real (⋃ j ∈ transientStates P, {u : Fin m → ℝ | stateAfter P i ((List.ofFn u).take m) = some j}) =
      ∑ j ∈ transientStates P, (Matrix.of P ^ m) i j := by
    rw [measureReal_biUnion_finset (fun j _ j' _ hne => Set.disjoint_left.mpr fun u hu hu' => hne ?_) fun j _ => (stateAfter_law P hP m m le_rfl i j).1]
    · exact Finset.sum_congr rfl fun j _ => (stateAfter_law P hP m m le_rfl i j).2
    · simp only [Set.mem_setOf_eq] at hu hu'
      rw [hu] at hu'
      simpa using hu'
  rw [← h1]
  refine measureReal_congr ?_
  filter_upwards [draws_ae m] with u hu
  have htake : (List.ofFn u).take m = List.ofFn u := List.take_of_length_le (by simp)
  refine propext ?_
  show simulateUntilAbsorption P i (List.ofFn u) = .running ↔ u ∈ ⋃ j ∈ transientStates P, {u : Fin m → ℝ | stateAfter P i ((List.ofFn u).take m) = some j}
  simp only [Set.mem_iUnion, Set.mem_setOf_eq, htake, exists_prop]
  rw [← (until_spec P hP ha _ hu i).1, simulateUntilAbsorption, if_neg (by simpa using ha)]
  cases untilLoop P i (List.ofFn u) <;> simp

theorem returns_law (P : TMat ℝ n) (hP : validTransitionMatrix P = true) (ha : isAbsorbing P = true) (i a : Fin n) (haa : a ∈ absorbingStates P) (m : Nat) :
    (uniformDraws m).real {u | ∃ out, simulateUntilAbsorption P i (List.ofFn u) = .returns out ∧ out.getLast? = some a} = (Matrix.of P ^ m) i a := by
  rw [← (stateAfter_law P hP m m le_rfl i a).2]
  refine measureReal_congr ?_
  filter_upwards [draws_ae m] with u hu
  have htake : (List.ofFn u).take m = List.ofFn u := List.take_of_length_le (by simp)
  refine propext ?_
  show (∃ out, simulateUntilAbsorption P i (List.ofFn u) = .returns out ∧ out.getLast? = some a) ↔ stateAfter P i ((List.ofFn u).take m) = some a
  rw [htake, simulateUntilAbsorption, if_neg (by simpa using ha)]
  obtain ⟨h1, h2⟩ := until_spec P hP ha _ hu i
  have hat : a ∉ transientStates P := fun h => (transient_iff P hP ha a).mp h haa
  cases hl : untilLoop P i (List.ofFn u) with
  | none =>
    obtain ⟨j, hj, hs⟩ := h1.mp hl
    rw [hs]
    constructor
    · rintro ⟨out, h, -⟩; cases h
    · intro h
      rw [Option.some.injEq] at h
      exact absurd (h ▸ hj) hat
  | some rest =>
    obtain ⟨h3, -⟩ := h2 rest hl
    rw [← h3]
    constructor
    · rintro ⟨out, h, h4⟩
      injection h with h
      rw [h]; exact h4
    · intro h
      exact ⟨_, rfl, h⟩

/-- `simulate_until_absorption`: the probability that `m` draws do not suffice is the probability of being in a non-absorbing state at time
`m`, which tends to zero; from a transient state these probabilities sum to `mean_time_to_absorption()` (the expected number of draws), and
the state in which the returned trajectory ends has the law `absorption_probabilities()`. -/
theorem C121_until_absorption (P : TMat ℝ n) (hP : validTransitionMatrix P = true) (ha : isAbsorbing P = true) :
    (∀ i m, (uniformDraws m).real {u | simulateUntilAbsorption P i (List.ofFn u) = .running} =
      ∑ j ∈ Finset.univ \ absorbingStates P, (Matrix.of P ^ m) i j) ∧
    (∀ i, Tendsto (fun m => (uniformDraws m).real {u | simulateUntilAbsorption P i (List.ofFn u) = .running}) atTop (𝓝 0)) ∧
    (∃ T, meanTimeToAbsorption P = some T ∧
      ∀ i : Transient P, HasSum (fun m => (uniformDraws m).real {u | simulateUntilAbsorption P i (List.ofFn u) = .running}) (T i)) ∧
    ∃ B, absorptionProbabilities P = some B ∧ ∀ (i : Transient P) (a : Absorbing P),
      Tendsto (fun m => (uniformDraws m).real {u | ∃ out, simulateUntilAbsorption P i (List.ofFn u) = .returns out ∧ out.getLast? = some (a : Fin n)}) atTop (𝓝 (B i a)) := by
  refine ⟨running_law P hP ha, fun i => ?_, ?_, ?_⟩
  · simp only [running_law P hP ha]
    exact C82_absorbed_almost_surely P hP ha i
  · obtain ⟨T, h1, h2⟩ := C82_mean_time P hP ha
    exact ⟨T, h1, fun i => by simpa only [running_law P hP ha] using h2 i⟩
  · obtain ⟨B, h1, h2, -⟩ := C82_absorption_probabilities P hP ha
    refine ⟨B, h1, fun i a => ?_⟩
    simp only [returns_law P hP ha i a a.2]
    exact h2 i a

/-- `mean_number_of_visits()` is the expected number of visits of the simulated trajectories: the sum over the times `t` of the probability
that the trajectory is in `j` at time `t`. -/
theorem C121_visits (P : TMat ℝ n) (hP : validTransitionMatrix P = true) (ha : isAbsorbing P = true) :
    ∃ N, meanNumberOfVisits P = some N ∧ ∀ i j : Transient P,
      HasSum (fun t => (uniformDraws (t + 1)).real {u | ∃ out, simulate P i (List.ofFn u) = some out ∧ out[t]? = some (j : Fin n)}) (N i j) := by
  obtain ⟨N, h1, h2⟩ := C82_mean_number_of_visits P hP ha
  refine ⟨N, h1, fun i j => ?_⟩
  simp only [C121_simulate_law P hP i j _ _ (Nat.lt_succ_self _)]
  exact h2 i j

/-- The sum of the absolute values. -/
def l1 (v : Fin n → ℝ) : ℝ := ∑ i, |v i|

theorem leftMul_l1 (P : TMat ℝ n) (hnn : ∀ i j, 0 ≤ P i j) (hsum : ∀ i, ∑ j, P i j = 1) (v : Fin n → ℝ) : l1 (leftMul P v) ≤ l1 v := by
  have : ∀ j, |leftMul P v j| ≤ leftMul P (fun i => |v i|) j := fun j => by
    refine (Finset.abs_sum_le_sum_abs _ _).trans (Finset.sum_le_sum fun i _ => ?_)
    rw [abs_mul, abs_of_nonneg (hnn i j)]
  refine (Finset.sum_le_sum fun j _ => this j).trans_eq ?_
  rw [leftMul_sum P hsum]; rfl

/-- A matrix with all entries at least `ε` contracts the vectors with sum zero. -/
theorem leftMul_contract (P : TMat ℝ n) (hsum : ∀ i, ∑ j, P i j = 1) (ε : ℝ) (hε : ∀ i j, ε ≤ P i j) (v : Fin n → ℝ) (hv : ∑ i, v i = 0) :
    l1 (leftMul P v) ≤ (1 - n * ε) * l1 v := by
  have h1 : ∀ j, leftMul P v j = ∑ i, v i * (P i j - ε) := fun j => by
    simp only [leftMul, mul_sub, Finset.sum_sub_distrib, ← Finset.sum_mul, hv, zero_mul, sub_zero]
  have h2 : ∀ j, |leftMul P v j| ≤ ∑ i, |v i| * (P i j - ε) := fun j => by
    rw [h1]
    refine (Finset.abs_sum_le_sum_abs _ _).trans (Finset.sum_le_sum fun i _ => ?_)
    rw [abs_mul, abs_of_nonneg (sub_nonneg.mpr (hε i j))]
  refine (Finset.sum_le_sum fun j _ => h2 j).trans_eq ?_
  rw [Finset.sum_comm]
  simp only [← Finset.mul_sum, Finset.sum_sub_distrib, hsum, Finset.sum_const, Finset.card_univ, Fintype.card_fin, nsmul_eq_mul]
  rw [← Finset.sum_mul, mul_comm]; rfl

theorem leftMul_iterate (P : TMat ℝ n) (v : Fin n → ℝ) (m : Nat) (j : Fin n) : ((leftMul P)^[m] v) j = ∑ i, v i * (Matrix.of P ^ m) i j := by
  induction m generalizing j with
  | zero => simp [Matrix.one_apply]
  | succ m ih =>
    rw [Function.iterate_succ_apply']
    simp only [leftMul, ih, pow_succ, Matrix.mul_apply, Finset.mul_sum, Finset.sum_mul]
    rw [Finset.sum_comm]
    simp only [mul_assoc]; rfl

theorem pow_rows (P : TMat ℝ n) (hsum : ∀ i, ∑ j, P i j = 1) (m : Nat) (i : Fin n) : ∑ j, (Matrix.of P ^ m) i j = 1 := by
  induction m generalizing i with
  | zero => simp [Matrix.one_apply]
  | succ m ih =>
    simp only [pow_succ, Matrix.mul_apply]
    rw [Finset.sum_comm]
    simp only [← Finset.mul_sum, Matrix.of_apply, hsum, mul_one, ih]

/-- A regular chain forgets its initial state at a geometric rate: the distribution of the state at time `t` approaches the result of
`stationary_distribution()`. -/
theorem C122_regular (P : TMat ℝ n) (hP : validTransitionMatrix P = true) (hreg : isRegular P = true) (x : Fin n → ℝ) (hx : IsStationaryResult P x) :
    ∃ ρ < 1, ∃ e > 0, 0 ≤ ρ ∧ ∀ (i j : Fin n) (steps t : Nat), t < steps →
      |(uniformDraws steps).real {u | ∃ out, simulate P i (List.ofFn u) = some out ∧ out[t]? = some j} - x j| ≤ 2 * ρ ^ (t / e) := by
  rcases Nat.eq_zero_or_pos n with h0 | hn
  · subst h0; exact ⟨0, zero_lt_one, 1, one_pos, le_rfl, fun i => i.elim0⟩
  obtain ⟨hnn, hsum⟩ := (C72_accepts P).mp hP
  obtain ⟨e, he1, hpos⟩ := (C73_regular P hP hn).mp hreg
  obtain ⟨hx1, hx2, hx3⟩ := C83_stationary_distribution P hP hn x hx
  -- the least entry of `P ^ e`
  haveI : Nonempty (Fin n) := ⟨⟨0, hn⟩⟩
  obtain ⟨p, -, hmin⟩ := Finset.exists_min_image (Finset.univ : Finset (Fin n × Fin n)) (fun p => (Matrix.of P ^ e) p.1 p.2) Finset.univ_nonempty
  obtain ⟨ε, hε⟩ : ∃ ε, ε = (Matrix.of P ^ e) p.1 p.2 := ⟨_, rfl⟩
  have hε0 : 0 < ε := hε ▸ hpos _ _
  have hε1 : ∀ i j, ε ≤ (Matrix.of P ^ e) i j := fun i j => hε ▸ hmin (i, j) (Finset.mem_univ _)
  have hn' : (0 : ℝ) < n := by exact_mod_cast hn
  have hρ0 : 0 ≤ 1 - n * ε := by
    have := Finset.sum_le_sum fun j (_ : j ∈ Finset.univ) => hε1 ⟨0, hn⟩ j
    rw [pow_rows P hsum] at this
    simp only [Finset.sum_const, Finset.card_univ, Fintype.card_fin, nsmul_eq_mul] at this
    linarith
  refine ⟨1 - n * ε, by nlinarith, e, he1, hρ0, fun i j steps t ht => ?_⟩
  rw [C121_simulate_law P hP i j steps t ht]
  let v : Fin n → ℝ := fun k => (if k = i then 1 else 0) - x k
  have hv0 : ∑ k, v k = 0 := by
    show ∑ k, ((if k = i then (1 : ℝ) else 0) - x k) = 0
    rw [Finset.sum_sub_distrib, hx2]; simp
  have hvl : l1 v ≤ 2 := by
    have : ∀ k, |v k| ≤ (if k = i then 1 else 0) + x k := fun k => by
      show |(if k = i then (1 : ℝ) else 0) - x k| ≤ _
      refine (abs_sub _ _).trans ?_
      rw [abs_of_pos (hx3 k)]
      split <;> simp
    refine (Finset.sum_le_sum fun k _ => this k).trans ?_
    rw [Finset.sum_add_distrib, hx2]; simp; norm_num
  have hinv : leftMul P x = x := funext hx1
  have hval : ∀ m, ((leftMul P)^[m] v) j = (Matrix.of P ^ m) i j - x j := fun m => by
    rw [leftMul_iterate]
    show ∑ k, ((if k = i then (1 : ℝ) else 0) - x k) * (Matrix.of P ^ m) k j = _
    simp only [sub_mul, Finset.sum_sub_distrib]
    rw [invariant_pow P x hinv]
    simp
  have hsum0 : ∀ m, ∑ k, ((leftMul P)^[m] v) k = 0 := fun m => by
    induction m with
    | zero => exact hv0
    | succ m ih => rw [Function.iterate_succ_apply', leftMul_sum P hsum, ih]
  have hstep : ∀ m, l1 ((leftMul P)^[m + e] v) ≤ (1 - n * ε) * l1 ((leftMul P)^[m] v) := fun m => by
    have h1 : (leftMul P)^[m + e] v = leftMul (fun i j => (Matrix.of P ^ e) i j) ((leftMul P)^[m] v) := by
      funext k
      rw [Nat.add_comm, Function.iterate_add_apply, leftMul_iterate]; rfl
    rw [h1]
    exact leftMul_contract _ (pow_rows P hsum e) ε hε1 _ (hsum0 m)
  have hmono : ∀ m r, l1 ((leftMul P)^[m + r] v) ≤ l1 ((leftMul P)^[m] v) := fun m r => by
    induction r with
    | zero => exact le_rfl
    | succ r ih =>
      rw [← Nat.add_assoc, Function.iterate_succ_apply']
      exact (leftMul_l1 P hnn hsum _).trans ih
  have hgeo : ∀ k, l1 ((leftMul P)^[k * e] v) ≤ 2 * (1 - n * ε) ^ k := fun k => by
    induction k with
    | zero => simpa using hvl
    | succ k ih =>
      rw [Nat.succ_mul]
      refine (hstep _).trans ((mul_le_mul_of_nonneg_left ih hρ0).trans_eq ?_)
      ring
  have h2 : |((leftMul P)^[t] v) j| ≤ l1 ((leftMul P)^[t] v) :=
    Finset.single_le_sum (f := fun k => |((leftMul P)^[t] v) k|) (fun k _ => abs_nonneg _) (Finset.mem_univ j)
  rw [hval] at h2
  have h3 := hmono (t / e * e) (t % e)
  rw [Nat.mul_comm, Nat.div_add_mod] at h3
  rw [Nat.mul_comm] at h3
  exact h2.trans (h3.trans (hgeo _))

/-- An irreducible chain, even a periodic one, spends in each state the fraction of time given by `stationary_distribution()`: the expected
fraction of the first `steps` states of a simulated trajectory that equal `j` tends to the stationary probability, uniformly like `1 / steps`. -/
theorem C122_irreducible (P : TMat ℝ n) (hP : validTransitionMatrix P = true) (x : Fin n → ℝ) (hx : IsStationaryResult P x) :
    ∃ K : ℝ, ∀ (i j : Fin n) (steps : Nat), 0 < steps →
      |(∑ t ∈ Finset.range steps, (uniformDraws steps).real {u | ∃ out, simulate P i (List.ofFn u) = some out ∧ out[t]? = some j}) / steps - x j| ≤ K / steps := by
  rcases Nat.eq_zero_or_pos n with h0 | hn
  · subst h0; exact ⟨0, fun i => i.elim0⟩
  obtain ⟨hnn, hsum⟩ := (C72_accepts P).mp hP
  obtain ⟨hx1, hx2, hx3⟩ := C83_stationary_distribution P hP hn x hx
  have hirr := (C72_irreducible P hP hn).mp hx.1
  have hinv : leftMul P x = x := funext hx1
  -- `v ↦ v - v P` is onto the vectors with sum zero
  let S : (Fin n → ℝ) →ₗ[ℝ] ℝ := ∑ i, LinearMap.proj i
  have hS : ∀ v, S v = ∑ i, v i := fun v => by simp [S]
  let L : (Fin n → ℝ) →ₗ[ℝ] (Fin n → ℝ) :=
    { toFun := fun v => v - leftMul P v
      map_add' := fun v w => by
        funext j
        simp only [leftMul, Pi.sub_apply, Pi.add_apply, add_mul, Finset.sum_add_distrib]; ring
      map_smul' := fun c v => by
        funext j
        simp only [leftMul, Pi.sub_apply, Pi.smul_apply, smul_eq_mul, RingHom.id_apply, mul_assoc, ← Finset.mul_sum]; ring }
  have hL : ∀ v, L v = v - leftMul P v := fun v => rfl
  let L' : LinearMap.ker S →ₗ[ℝ] LinearMap.ker S := L.restrict fun v hv => by
    rw [LinearMap.mem_ker, hS] at hv ⊢
    rw [hL]
    simp only [Pi.sub_apply, Finset.sum_sub_distrib, leftMul_sum P hsum, sub_self]
  have hinj : Function.Injective L' := by
    rw [← LinearMap.ker_eq_bot, LinearMap.ker_eq_bot']
    intro v hv
    have h1 : (v : Fin n → ℝ) - leftMul P v = 0 := congrArg Subtype.val hv
    have h2 := v.2
    rw [LinearMap.mem_ker, hS] at h2
    exact Subtype.ext (invariant_zero P hnn hsum hirr v (sub_eq_zero.mp h1).symm h2)
  have hsurj := LinearMap.injective_iff_surjective.mp hinj
  have hsolve : ∀ i : Fin n, ∃ w : Fin n → ℝ, ∀ k, w k - leftMul P w k = (if k = i then 1 else 0) - x k := fun i => by
    obtain ⟨w, hw⟩ := hsurj ⟨fun k => (if k = i then 1 else 0) - x k, by
      rw [LinearMap.mem_ker, hS, Finset.sum_sub_distrib, hx2]; simp⟩
    exact ⟨w, fun k => congrFun (congrArg Subtype.val hw) k⟩
  choose w hw using hsolve
  refine ⟨∑ i, 2 * l1 (w i), fun i j steps hs => ?_⟩
  have hs' : (0 : ℝ) < steps := by exact_mod_cast hs
  have hterm : ∀ t, (Matrix.of P ^ t) i j - x j = ((leftMul P)^[t] (w i)) j - ((leftMul P)^[t + 1] (w i)) j := fun t => by
    have h1 : ∑ k, ((if k = i then (1 : ℝ) else 0) - x k) * (Matrix.of P ^ t) k j = (Matrix.of P ^ t) i j - x j := by
      simp only [sub_mul, Finset.sum_sub_distrib]
      rw [invariant_pow P x hinv]
      simp
    rw [← h1, Function.iterate_succ_apply, leftMul_iterate, leftMul_iterate, ← Finset.sum_sub_distrib]
    refine Finset.sum_congr rfl fun k _ => ?_
    rw [← hw i k]; ring
  have htel : ∑ t ∈ Finset.range steps, ((Matrix.of P ^ t) i j - x j) = w i j - ((leftMul P)^[steps] (w i)) j := by
    simp only [hterm]
    rw [Finset.sum_range_sub']
    rfl
  have hl : ∀ m, l1 ((leftMul P)^[m] (w i)) ≤ l1 (w i) := fun m => by
    induction m with
    | zero => exact le_rfl
    | succ m ih =>
      rw [Function.iterate_succ_apply']
      exact (leftMul_l1 P hnn hsum _).trans ih
  have hone : ∀ v : Fin n → ℝ, |v j| ≤ l1 v := fun v =>
    Finset.single_le_sum (f := fun k => |v k|) (fun k _ => abs_nonneg _) (Finset.mem_univ j)
  have hb : |w i j - ((leftMul P)^[steps] (w i)) j| ≤ ∑ i, 2 * l1 (w i) := by
    have h1 := abs_sub (w i j) (((leftMul P)^[steps] (w i)) j)
    have h2 := hone (w i)
    have h3 := (hone ((leftMul P)^[steps] (w i))).trans (hl steps)
    have h4 : 2 * l1 (w i) ≤ ∑ i, 2 * l1 (w i) :=
      Finset.single_le_sum (f := fun i => 2 * l1 (w i)) (fun i _ => mul_nonneg zero_le_two (Finset.sum_nonneg fun k _ => abs_nonneg _)) (Finset.mem_univ i)
    linarith
  have hsim : ∑ t ∈ Finset.range steps, (uniformDraws steps).real {u | ∃ out, simulate P i (List.ofFn u) = some out ∧ out[t]? = some j} =
      ∑ t ∈ Finset.range steps, (Matrix.of P ^ t) i j :=
    Finset.sum_congr rfl fun t ht => C121_simulate_law P hP i j steps t (Finset.mem_range.mp ht)
  rw [hsim]
  rw [Finset.sum_sub_distrib, Finset.sum_const, Finset.card_range, nsmul_eq_mul] at htel
  have he : (∑ t ∈ Finset.range steps, (Matrix.of P ^ t) i j) / steps - x j = (w i j - ((leftMul P)^[steps] (w i)) j) / steps := by
    rw [← htel]; field_simp
  rw [he, abs_div, abs_of_pos hs']
  exact div_le_div_of_nonneg_right hb hs'.le

/-- Non-vacuity: a regular chain, and a chain that is irreducible but periodic (the stationary result of either exists by `C83_defined`). -/
example : let A : TMat Rat 3 := ![![1/2, 1/4, 1/4], ![1/2, 0, 1/2], ![1/4, 1/4, 1/2]]
    let D : TMat Rat 3 := ![![0, 1, 0], ![0, 0, 1], ![1, 0, 0]]
    validTransitionMatrix A = true ∧ isRegular A = true ∧ validTransitionMatrix D = true ∧ isIrreducible D = true ∧ isRegular D = false := by
  decide +kernel

end Komm
