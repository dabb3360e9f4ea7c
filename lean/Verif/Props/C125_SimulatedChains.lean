import Verif.Props.C124_AlmostSureRates
import Verif.Props.C121_Trajectories
/-! C125: what `MarkovChain.simulate` delivers on an endless supply of draws: the ergodic theorem, and Lempel–Ziv on a trajectory. -/
namespace Komm
open MeasureTheory Set Filter Topology MarkovChain
variable {n : ℕ}

/-- `simulate(i, m)`, from the first `m` draws, returns `out m`, for every number `m` of steps. -/
def Simulates (P : TMat ℝ n) (i : Fin n) (u : ℕ → ℝ) (out : ℕ → List (Fin n)) : Prop :=
  ∀ m, simulate P i ((List.range m).map u) = some (out m)

/-! ### one draw -/

/-- The state of one draw, and `j` for a draw outside `[0, 1)`. -/
noncomputable def drawnOr (p : Fin n → ℝ) (j : Fin n) (v : ℝ) : Fin n := (rngChoice p v).getD j

theorem drawnOr_measurable (p : Fin n → ℝ) (j : Fin n) : Measurable (drawnOr p j) := by
  have hm : Measurable fun u : ℝ => (Finset.univ.filter fun j : Fin n => cumsum p j / ∑ i, p i ≤ u).card := by
    simp only [Finset.card_filter]
    exact Finset.measurable_fun_sum _ fun i _ => Measurable.ite measurableSet_Ici measurable_const measurable_const
  have e : drawnOr p j = (fun i : ℕ => if h : i < n then ⟨i, h⟩ else j) ∘
      fun u : ℝ => (Finset.univ.filter fun j : Fin n => cumsum p j / ∑ i, p i ≤ u).card := by
    funext u
    simp only [drawnOr, rngChoice, Function.comp_apply]
    split <;> simp
  rw [e]
  exact (measurable_of_countable _).comp hm

theorem drawnOr_eq (p : Fin n → ℝ) (hp : validPmf p = true) (j : Fin n) (v : ℝ) (hv : v ∈ Ico (0 : ℝ) 1) :
    rngChoice p v = some (drawnOr p j v) ∧ 0 < p (drawnOr p j v) := by
  obtain ⟨k, hk, hpk⟩ := C84_choice_positive p hp v hv
  rw [drawnOr, hk]
  exact ⟨rfl, hpk⟩

theorem drawnOr_law (p : Fin n → ℝ) (hp : validPmf p = true) (j k : Fin n) :
    (volume.restrict (Ico (0 : ℝ) 1)) {v | drawnOr p j v = k} = ENNReal.ofReal (p k) := by
  have hm : MeasurableSet {v : ℝ | drawnOr p j v = k} := drawnOr_measurable p j (measurableSet_singleton k)
  rw [Measure.restrict_apply hm]
  have : {v | drawnOr p j v = k} ∩ Ico 0 1 = {v : ℝ | v ∈ Ico (0 : ℝ) 1 ∧ rngChoice p v = some k} := by
    ext v
    simp only [mem_inter_iff, mem_setOf_eq]
    rw [and_comm]
    refine and_congr_right fun hv => ?_
    rw [(drawnOr_eq p hp j v hv).1, Option.some.injEq]
  rw [this, C84_choice_measure _ hp]

theorem drawnOr_integral (p : Fin n → ℝ) (hp : validPmf p = true) (j : Fin n) (g : Fin n → ℝ) :
    ∫ v in Ico (0 : ℝ) 1, g (drawnOr p j v) = ∑ k, p k * g k := by
  have e : ∀ v, g (drawnOr p j v) = ∑ k, Set.indicator {v | drawnOr p j v = k} (fun _ => g k) v := by
    intro v
    rw [Finset.sum_eq_single (drawnOr p j v)]
    · simp
    · intro k _ hk
      simp [Ne.symm hk]
    · simp
  have hm : ∀ k, MeasurableSet {v : ℝ | drawnOr p j v = k} := fun k => drawnOr_measurable p j (measurableSet_singleton k)
  simp only [e]
  rw [integral_finsetSum _ fun k _ => (integrable_const _).indicator (hm k)]
  refine Finset.sum_congr rfl fun k _ => ?_
  rw [integral_indicator_const _ (hm k), measureReal_def, drawnOr_law p hp, ENNReal.toReal_ofReal (((validPmf_iff p).mp hp).1 k), smul_eq_mul]

theorem draws_in : ∀ᵐ u ∂endlessDraws, ∀ t : ℕ, u t ∈ Ico (0 : ℝ) 1 := by
  rw [ae_all_iff]
  intro t
  have h := measurePreserving_eval_infinitePi (fun _ : ℕ => volume.restrict (Ico (0 : ℝ) 1)) t
  have h2 : ∀ᵐ v ∂(volume.restrict (Ico (0 : ℝ) 1)), v ∈ Ico (0 : ℝ) 1 := ae_restrict_mem measurableSet_Ico
  exact h.quasiMeasurePreserving.ae h2

/-! ### the trajectory -/

/-- The state at time `t`. -/
noncomputable def chainState (P : TMat ℝ n) (i : Fin n) : ℕ → (ℕ → ℝ) → Fin n
  | 0, _ => i
  | t + 1, u => drawnOr (P (chainState P i t u)) (chainState P i t u) (u t)

theorem chainState_measurable (P : TMat ℝ n) (i : Fin n) (t : ℕ) : Measurable (chainState P i t) := by
  induction t with
  | zero => exact measurable_const
  | succ t ih =>
    have hF : Measurable fun p : Fin n × ℝ => drawnOr (P p.1) p.1 p.2 := measurable_from_prod_countable_right fun j => drawnOr_measurable (P j) j
    have e : chainState P i (t + 1) = (fun p : Fin n × ℝ => drawnOr (P p.1) p.1 p.2) ∘ fun u => (chainState P i t u, u t) := by
      funext u
      rw [chainState, Function.comp_apply]
    rw [e]
    exact hF.comp (ih.prodMk (measurable_pi_apply t))

theorem chainState_depends (P : TMat ℝ n) (i : Fin n) (t : ℕ) (u v : ℕ → ℝ) (h : ∀ s < t, u s = v s) : chainState P i t u = chainState P i t v := by
  induction t with
  | zero => rfl
  | succ t ih => rw [chainState, chainState, ih fun s hs => h s (by omega), h t (by omega)]

theorem chainState_simulates (P : TMat ℝ n) (hP : validTransitionMatrix P = true) (i : Fin n) (u : ℕ → ℝ) (hu : ∀ t, u t ∈ Ico (0 : ℝ) 1) :
    Simulates P i u fun m => (List.range m).map fun t => chainState P i t u := by
  intro m
  refine (simulate_iff P hP _ ?_ i _ (by simp)).mpr ⟨?_, ?_⟩
  · intro v hv
    obtain ⟨t, -, rfl⟩ := List.mem_map.mp hv
    exact hu t
  · intro hm
    have hm : 0 < m := by simpa using hm
    simp [hm, chainState]
  · intro t h1 h2
    simp only [List.getElem_map, List.getElem_range]
    exact (drawnOr_eq _ (row_valid P hP _) _ _ (hu t)).1

theorem chainState_positive (P : TMat ℝ n) (hP : validTransitionMatrix P = true) (i : Fin n) (u : ℕ → ℝ) (hu : ∀ t, u t ∈ Ico (0 : ℝ) 1) (t : ℕ) :
    0 < P (chainState P i t u) (chainState P i (t + 1) u) := (drawnOr_eq _ (row_valid P hP _) _ _ (hu t)).2

/-- Averages of a function of the transitions follow the conditional averages. -/
theorem transition_average (P : TMat ℝ n) (hP : validTransitionMatrix P = true) (i : Fin n) (g : Fin n → Fin n → ℝ) :
    ∀ᵐ u ∂endlessDraws, Tendsto (fun m : ℕ => (∑ t ∈ Finset.range m, (g (chainState P i t u) (chainState P i (t + 1) u) -
      ∑ k, P (chainState P i t u) k * g (chainState P i t u) k)) / m) atTop (𝓝 0) := by
  obtain ⟨C, hC⟩ : ∃ C : ℝ, ∀ j k, |g j k - ∑ l, P j l * g j l| ≤ C :=
    ⟨∑ j, ∑ k, |g j k - ∑ l, P j l * g j l|, fun j k =>
      (Finset.single_le_sum (f := fun k => |g j k - ∑ l, P j l * g j l|) (fun _ _ => abs_nonneg _) (Finset.mem_univ k)).trans
        (Finset.single_le_sum (f := fun j => ∑ k, |g j k - ∑ l, P j l * g j l|) (fun _ _ => Finset.sum_nonneg fun _ _ => abs_nonneg _) (Finset.mem_univ j))⟩
  refine adapted_average (C := C) (D := fun t u => g (chainState P i t u) (chainState P i (t + 1) u) -
      ∑ k, P (chainState P i t u) k * g (chainState P i t u) k) (fun t => ?_) (fun t u v h => ?_) (fun t u => hC _ _) fun t u => ?_
  · have : Measurable fun p : Fin n × Fin n => g p.1 p.2 - ∑ k, P p.1 k * g p.1 k := measurable_of_countable _
    exact this.comp ((chainState_measurable P i t).prodMk (chainState_measurable P i (t + 1)))
  · rw [chainState_depends P i t u v fun s hs => h s (by omega), chainState_depends P i (t + 1) u v fun s hs => h s (by omega)]
  · have e : ∀ v, chainState P i t (Function.update u t v) = chainState P i t u := fun v =>
      chainState_depends P i t _ _ fun s hs => Function.update_of_ne (by omega) _ _
    have e2 : ∀ v, chainState P i (t + 1) (Function.update u t v) = drawnOr (P (chainState P i t u)) (chainState P i t u) v := by
      intro v
      rw [chainState, e, Function.update_self]
    simp only [e, e2]
    obtain ⟨j, hj⟩ : ∃ j, j = chainState P i t u := ⟨_, rfl⟩
    rw [← hj]
    have hint : Integrable (fun v => g j (drawnOr (P j) j v)) (volume.restrict (Ico (0 : ℝ) 1)) := by
      have hm : Measurable fun v => g j (drawnOr (P j) j v) := (measurable_of_countable (g j)).comp (drawnOr_measurable _ _)
      exact bounded_integrable hm (B := ∑ k, |g j k|) fun v =>
        Finset.single_le_sum (f := fun k => |g j k|) (fun _ _ => abs_nonneg _) (Finset.mem_univ _)
    rw [integral_sub hint (integrable_const _), drawnOr_integral _ (row_valid P hP j)]
    simp

/-- The fraction of time in each state tends to the stationary distribution. -/
theorem occupation (P : TMat ℝ n) (hP : validTransitionMatrix P = true) (x : Fin n → ℝ) (hx : IsStationaryResult P x) (i : Fin n) :
    ∀ᵐ u ∂endlessDraws, ∀ j, Tendsto (fun m : ℕ => (∑ t ∈ Finset.range m, if chainState P i t u = j then (1 : ℝ) else 0) / m) atTop (𝓝 (x j)) := by
  have hn : 0 < n := lt_of_le_of_lt (Nat.zero_le _) i.2
  obtain ⟨hnn, hsum⟩ := (C72_accepts P).mp hP
  have hirr := (C72_irreducible P hP hn).mp hx.1
  obtain ⟨hx1, hx2, hx3⟩ := C83_stationary_distribution P hP hn x hx
  have hinv : leftMul P x = x := funext hx1
  obtain ⟨T, hT⟩ : ∃ T : (Fin n → ℝ) →ₗ[ℝ] (Fin n → ℝ) × ℝ, ∀ v, T v = (fun k => v k - leftMul P v k, ∑ k, v k) := by
    refine ⟨⟨⟨fun v => (fun k => v k - leftMul P v k, ∑ k, v k), ?_⟩, ?_⟩, fun v => rfl⟩
    · intro v w
      refine Prod.ext (funext fun k => ?_) ?_
      · simp only [leftMul, Pi.add_apply, add_mul, Finset.sum_add_distrib, Prod.fst_add]
        ring
      · simp [Finset.sum_add_distrib]
    · intro c v
      refine Prod.ext (funext fun k => ?_) ?_
      · simp only [leftMul, Pi.smul_apply, smul_eq_mul, Prod.smul_fst, RingHom.id_apply, mul_assoc, ← Finset.mul_sum]
        ring
      · simp [Finset.mul_sum]
  have hinj : Function.Injective T := by
    rw [← LinearMap.ker_eq_bot, LinearMap.ker_eq_bot']
    intro v hv
    rw [hT, Prod.mk_eq_zero] at hv
    exact invariant_zero P hnn hsum hirr v (funext fun k => (sub_eq_zero.mp (congrFun hv.1 k)).symm) hv.2
  obtain ⟨G, hG⟩ := LinearMap.exists_leftInverse_of_injective T (LinearMap.ker_eq_bot.mpr hinj)
  have hGT : ∀ v, G (T v) = v := fun v => LinearMap.congr_fun hG v
  have hGc : Continuous G := LinearMap.continuous_of_finiteDimensional G
  have hav : ∀ᵐ u ∂endlessDraws, ∀ k, Tendsto (fun m : ℕ => (∑ t ∈ Finset.range m, ((if chainState P i (t + 1) u = k then (1 : ℝ) else 0) -
      P (chainState P i t u) k)) / m) atTop (𝓝 0) := by
    rw [ae_all_iff]
    intro k
    have := transition_average P hP i fun _ l => if l = k then 1 else 0
    simpa using this
  filter_upwards [hav] with u hu
  obtain ⟨X, hX⟩ : ∃ X : ℕ → Fin n, ∀ t, chainState P i t u = X t := ⟨_, fun t => rfl⟩
  simp only [hX] at hu ⊢
  obtain ⟨v, hv⟩ : ∃ v : ℕ → Fin n → ℝ, ∀ m k, v m k = (∑ t ∈ Finset.range m, if X t = k then (1 : ℝ) else 0) / m := ⟨fun m k => _, fun m k => rfl⟩
  have hTv : Tendsto (fun m => T (v m)) atTop (𝓝 (T x)) := by
    simp only [hT]
    refine Tendsto.prodMk_nhds (tendsto_pi_nhds.mpr fun k => ?_) ?_
    · have hxk : x k - leftMul P x k = 0 := by rw [hinv, sub_self]
      rw [hxk]
      have hb : Tendsto (fun m : ℕ => ((if X 0 = k then (1 : ℝ) else 0) - if X m = k then (1 : ℝ) else 0) / m) atTop (𝓝 0) := by
        rw [tendsto_zero_iff_abs_tendsto_zero]
        have h1 : Tendsto (fun m : ℕ => (1 : ℝ) / m) atTop (𝓝 0) := tendsto_one_div_atTop_nhds_zero_nat
        refine squeeze_zero (fun _ => abs_nonneg _) (fun m => ?_) h1
        rw [Function.comp_apply, abs_div, Nat.abs_cast]
        refine div_le_div_of_nonneg_right ?_ (Nat.cast_nonneg m)
        split <;> split <;> simp
      have h2 := (hu k).add hb
      rw [add_zero] at h2
      refine h2.congr fun m => ?_
      rw [← add_div, hv]
      have e1 : leftMul P (v m) k = (∑ t ∈ Finset.range m, P (X t) k) / m := by
        simp only [leftMul, hv, div_mul_eq_mul_div, ← Finset.sum_div]
        congr 1
        simp only [Finset.sum_mul]
        rw [Finset.sum_comm]
        refine Finset.sum_congr rfl fun t _ => ?_
        simp
      rw [e1, ← sub_div, Finset.sum_sub_distrib]
      congr 1
      have e2 := Finset.sum_range_succ' (fun t => if X t = k then (1 : ℝ) else 0) m
      have e3 := Finset.sum_range_succ (fun t => if X t = k then (1 : ℝ) else 0) m
      linarith
    · rw [hx2]
      refine tendsto_const_nhds.congr' ?_
      filter_upwards [eventually_ge_atTop 1] with m hm
      simp only [hv, ← Finset.sum_div]
      rw [Finset.sum_comm]
      have : (m : ℝ) ≠ 0 := by positivity
      simp [this]
  have h3 := (hGc.tendsto (T x)).comp hTv
  rw [hGT] at h3
  intro j
  have h4 := tendsto_pi_nhds.mp h3 j
  refine h4.congr fun m => ?_
  rw [Function.comp_apply, hGT, hv]

/-- The ergodic theorem for functions of the transitions. -/
theorem ergodic_average (P : TMat ℝ n) (hP : validTransitionMatrix P = true) (x : Fin n → ℝ) (hx : IsStationaryResult P x) (i : Fin n) (g : Fin n → Fin n → ℝ) :
    ∀ᵐ u ∂endlessDraws, Tendsto (fun m : ℕ => (∑ t ∈ Finset.range m, g (chainState P i t u) (chainState P i (t + 1) u)) / m) atTop
      (𝓝 (∑ j, x j * ∑ k, P j k * g j k)) := by
  filter_upwards [transition_average P hP i g, occupation P hP x hx i] with u h1 h2
  have h3 : Tendsto (fun m : ℕ => ∑ j, ((∑ t ∈ Finset.range m, if chainState P i t u = j then (1 : ℝ) else 0) / m) * ∑ k, P j k * g j k) atTop
      (𝓝 (∑ j, x j * ∑ k, P j k * g j k)) := tendsto_finsetSum _ fun j _ => (h2 j).mul_const _
  have h4 := h1.add h3
  rw [zero_add] at h4
  refine h4.congr fun m => ?_
  rw [Finset.sum_sub_distrib, sub_div]
  have : ∑ j, ((∑ t ∈ Finset.range m, if chainState P i t u = j then (1 : ℝ) else 0) / m) * ∑ k, P j k * g j k =
      (∑ t ∈ Finset.range m, ∑ k, P (chainState P i t u) k * g (chainState P i t u) k) / m := by
    simp only [div_mul_eq_mul_div, ← Finset.sum_div]
    congr 1
    simp only [Finset.sum_mul (s := Finset.range m)]
    rw [Finset.sum_comm]
    refine Finset.sum_congr rfl fun t _ => ?_
    simp
  rw [this]
  ring

/-! ### what the user sees -/

/-- Number of times state `j` is followed by state `k`. -/
def transitionCount (out : List (Fin n)) (j k : Fin n) : ℕ := (out.zip out.tail).count (j, k)

theorem count_range (X : ℕ → Fin n) (m : ℕ) (j : Fin n) : (((List.range m).map X).count j : ℝ) = ∑ t ∈ Finset.range m, if X t = j then (1 : ℝ) else 0 := by
  induction m with
  | zero => simp
  | succ m ih =>
    rw [List.range_succ, List.map_append, List.count_append, Nat.cast_add, ih, Finset.sum_range_succ]
    simp [List.count_singleton]

theorem transitionCount_range (X : ℕ → Fin n) (m : ℕ) (j k : Fin n) :
    (transitionCount ((List.range (m + 1)).map X) j k : ℝ) = ∑ t ∈ Finset.range m, if X t = j ∧ X (t + 1) = k then (1 : ℝ) else 0 := by
  have e : ((List.range (m + 1)).map X).zip ((List.range (m + 1)).map X).tail = (List.range m).map fun t => (X t, X (t + 1)) := by
    refine List.ext_getElem (by simp) fun t h1 h2 => ?_
    simp
  rw [transitionCount, e]
  clear e
  induction m with
  | zero => simp
  | succ m ih =>
    rw [List.range_succ, List.map_append, List.count_append, Nat.cast_add, ih, Finset.sum_range_succ]
    simp [List.count_singleton]

/-- The ergodic theorem. For every irreducible chain and every initial state, with probability one over the draws: the fraction of the time that the trajectory
returned by `simulate` spends in state `j` tends to entry `j` of `stationary_distribution()`, the fraction of the transitions that go from `j` to `k` tends to
`π_j P_jk`, and, among the transitions out of `j`, the fraction that go to `k` tends to `P_jk`: the transition matrix can be read off one long trajectory. -/
theorem C125_ergodic (P : TMat ℝ n) (hP : validTransitionMatrix P = true) (x : Fin n → ℝ) (hx : IsStationaryResult P x) (i : Fin n) :
    ∀ᵐ u ∂endlessDraws, ∃ out : ℕ → List (Fin n), Simulates P i u out ∧
      (∀ j, Tendsto (fun m : ℕ => ((out m).count j : ℝ) / m) atTop (𝓝 (x j))) ∧
      (∀ j k, Tendsto (fun m : ℕ => (transitionCount (out (m + 1)) j k : ℝ) / m) atTop (𝓝 (x j * P j k))) ∧
      ∀ j k, Tendsto (fun m : ℕ => (transitionCount (out (m + 1)) j k : ℝ) / ((out m).count j : ℝ)) atTop (𝓝 (P j k)) := by
  have hn : 0 < n := lt_of_le_of_lt (Nat.zero_le _) i.2
  obtain ⟨hx1, hx2, hx3⟩ := C83_stationary_distribution P hP hn x hx
  have hpair : ∀ᵐ u ∂endlessDraws, ∀ j k, Tendsto (fun m : ℕ => (∑ t ∈ Finset.range m, if chainState P i t u = j ∧ chainState P i (t + 1) u = k then (1 : ℝ) else 0) / m) atTop
      (𝓝 (x j * P j k)) := by
    rw [ae_all_iff]
    intro j
    rw [ae_all_iff]
    intro k
    have h := ergodic_average P hP x hx i fun a b => if a = j ∧ b = k then 1 else 0
    have e : ∑ a, x a * ∑ b, P a b * (if a = j ∧ b = k then (1 : ℝ) else 0) = x j * P j k := by
      rw [Finset.sum_eq_single j]
      · simp
      · intro a _ ha
        simp [ha]
      · simp
    rw [e] at h
    exact h
  filter_upwards [draws_in, occupation P hP x hx i, hpair] with u h0 h1 h2
  have c1 : ∀ j, Tendsto (fun m : ℕ => ((((List.range m).map fun t => chainState P i t u).count j : ℕ) : ℝ) / m) atTop (𝓝 (x j)) := fun j =>
    (h1 j).congr fun m => by rw [count_range fun t => chainState P i t u]
  have c2 : ∀ j k, Tendsto (fun m : ℕ => (transitionCount ((List.range (m + 1)).map fun t => chainState P i t u) j k : ℝ) / m) atTop (𝓝 (x j * P j k)) := fun j k =>
    (h2 j k).congr fun m => by rw [transitionCount_range fun t => chainState P i t u]
  refine ⟨_, chainState_simulates P hP i u h0, c1, c2, fun j k => ?_⟩
  have h3 := (c2 j k).div (c1 j) (hx3 j).ne'
  rw [mul_div_cancel_left₀ _ (hx3 j).ne'] at h3
  refine h3.congr' ?_
  filter_upwards [eventually_ge_atTop 1] with m hm
  have : (m : ℝ) ≠ 0 := by positivity
  simp only [Pi.div_apply]
  rw [div_div_div_cancel_right₀ this]

/-! ### the entropy rate -/

/-- The probability that `simulate(i, ·)` returns the given trajectory (`C84_simulate_measure`, `path_law`): it starts in `i`, then one transition after another. -/
def pathProb (P : TMat ℝ n) (i : Fin n) (out : List (Fin n)) : ℝ := (if out.headD i = i then 1 else 0) * ((out.zip out.tail).map fun e => P e.1 e.2).prod

theorem pathProb_range (P : TMat ℝ n) (i : Fin n) (X : ℕ → Fin n) (h0 : X 0 = i) (m : ℕ) :
    pathProb P i ((List.range (m + 1)).map X) = ∏ t ∈ Finset.range m, P (X t) (X (t + 1)) := by
  have e : ((List.range (m + 1)).map X).zip ((List.range (m + 1)).map X).tail = (List.range m).map fun t => (X t, X (t + 1)) := by
    refine List.ext_getElem (by simp) fun t h1 h2 => ?_
    simp
  rw [pathProb, e, if_pos (by simp [List.range_succ_eq_map, h0]), one_mul, List.map_map]
  rfl

theorem logb_rate {b H : ℝ} (q : ℕ → ℝ) (h : Tendsto (fun m : ℕ => -Real.logb b (q (m + 1)) / m) atTop (𝓝 H)) :
    Tendsto (fun m : ℕ => -Real.logb b (q m) / m) atTop (𝓝 H) := by
  rw [← tendsto_add_atTop_iff_nat 1]
  have h1 : Tendsto (fun m : ℕ => (m : ℝ) / (m + 1)) atTop (𝓝 1) := tendsto_natCast_div_add_atTop 1
  have h2 := h.mul h1
  rw [mul_one] at h2
  refine h2.congr' ?_
  filter_upwards [eventually_ge_atTop 1] with m hm
  have : (m : ℝ) ≠ 0 := by positivity
  push_cast
  field_simp

/-- The entropy rate. For every irreducible chain, with probability one the trajectory has positive probability and the information `-log_b` of that probability
per step tends to `∑_j π_j H_b(P_j)`, where `H_b(P_j)` is the entropy of row `j`. -/
theorem C125_aep (P : TMat ℝ n) (hP : validTransitionMatrix P = true) (x : Fin n → ℝ) (hx : IsStationaryResult P x) (i : Fin n) (b : ℝ) (hb : 1 < b) :
    ∃ h : Fin n → ℝ, (∀ j, entropy (P j) (.num b) = some (h j)) ∧ ∀ᵐ u ∂endlessDraws, ∃ out : ℕ → List (Fin n), Simulates P i u out ∧
      (∀ m, 0 < pathProb P i (out m)) ∧ Tendsto (fun m : ℕ => -Real.logb b (pathProb P i (out m)) / m) atTop (𝓝 (∑ j, x j * h j)) := by
  have hent : ∀ j, entropy (P j) (.num b) = some (∑ k, P j k * -Real.logb b (P j k)) := by
    intro j
    rw [Info.entropy_eq _ _ ((Info.pmf_iff _).mp (row_valid P hP j)) (by
      simp only [validLogBase, Bool.not_eq_eq_eq_not, Bool.not_true, Bool.or_eq_false_iff, decide_eq_false_iff_not]
      constructor <;> linarith)]
    rw [Info.H, Finset.sum_div]
    refine congrArg some (Finset.sum_congr rfl fun k _ => ?_)
    rw [Real.negMulLog, Real.logb]
    simp only [LogBase.val]
    ring
  refine ⟨_, hent, ?_⟩
  filter_upwards [draws_in, ergodic_average P hP x hx i fun j k => -Real.logb b (P j k)] with u h0 h1
  have hpos : ∀ m, 0 < pathProb P i ((List.range m).map fun t => chainState P i t u) := by
    intro m
    cases m with
    | zero => simp [pathProb]
    | succ m =>
      rw [pathProb_range P i (fun t => chainState P i t u) rfl]
      exact Finset.prod_pos fun t _ => chainState_positive P hP i u h0 t
  refine ⟨_, chainState_simulates P hP i u h0, hpos, logb_rate (fun m => pathProb P i ((List.range m).map fun t => chainState P i t u)) (h1.congr fun m => ?_)⟩
  rw [pathProb_range P i (fun t => chainState P i t u) rfl, Real.logb_prod _ _ fun t _ => (chainState_positive P hP i u h0 t).ne', Finset.sum_neg_distrib]

/-! ### Lempel–Ziv on a trajectory -/

/-- The chain as a finite-state source: the extra state emits `i`. -/
noncomputable def chainSource (P : TMat ℝ n) (hP : validTransitionMatrix P = true) (i : Fin n) : FSource (Fin (n + 1)) n where
  next s a := if h : a < n then ⟨a, by omega⟩ else s
  prob s a := if hs : s.val < n then (if h : a < n then P ⟨s, hs⟩ ⟨a, h⟩ else 0) else if a = i then 1 else 0
  nonneg s a := by
    obtain ⟨hnn, -⟩ := (C72_accepts P).mp hP
    split
    · split
      · exact hnn _ _
      · exact le_rfl
    · split <;> norm_num
  total s := by
    obtain ⟨-, hsum⟩ := (C72_accepts P).mp hP
    by_cases hs : s.val < n
    · simp only [hs, dite_true]
      rw [Finset.sum_range, ← hsum ⟨s, hs⟩]
      refine Finset.sum_congr rfl fun k _ => ?_
      simp
    · simp only [hs, dite_false]
      simp

theorem chainSource_word (P : TMat ℝ n) (hP : validTransitionMatrix P = true) (i j : Fin n) (w : List (Fin n)) :
    (chainSource P hP i).wordProb j.castSucc (w.map Fin.val) = (((j :: w).zip w).map fun e => P e.1 e.2).prod := by
  induction w generalizing j with
  | nil => simp [FSource.wordProb]
  | cons a w ih =>
    rw [List.map_cons, FSource.wordProb]
    have h1 : (chainSource P hP i).next j.castSucc a = a.castSucc := by simp [chainSource]; rfl
    have h2 : (chainSource P hP i).prob j.castSucc a = P j a := by simp [chainSource]
    rw [h1, h2, ih, List.zip_cons_cons, List.map_cons, List.prod_cons]

theorem chainSource_path (P : TMat ℝ n) (hP : validTransitionMatrix P = true) (i : Fin n) (w : List (Fin n)) :
    (chainSource P hP i).wordProb (Fin.last n) (w.map Fin.val) = pathProb P i w := by
  cases w with
  | nil => simp [FSource.wordProb, pathProb]
  | cons a w =>
    rw [List.map_cons, FSource.wordProb]
    have h1 : (chainSource P hP i).next (Fin.last n) a = a.castSucc := by simp [chainSource]; rfl
    have h2 : (chainSource P hP i).prob (Fin.last n) a = if a = i then 1 else 0 := by simp [chainSource, Fin.ext_iff]
    rw [h1, h2, chainSource_word, pathProb]
    rfl

/-- The law of the trajectory. -/
theorem path_law (P : TMat ℝ n) (hP : validTransitionMatrix P = true) (i : Fin n) (w : List (Fin n)) :
    endlessDraws {u | (List.range w.length).map (fun t => chainState P i t u) = w} ≤ ENNReal.ofReal (pathProb P i w) := by
  cases w with
  | nil =>
    simp only [pathProb, List.headD_nil, if_true, List.zip_nil_left, List.map_nil, List.prod_nil, mul_one, ENNReal.ofReal_one]
    exact prob_le_one
  | cons a w =>
    by_cases ha : a = i
    · subst ha
      obtain ⟨hnn, -⟩ := (C72_accepts P).mp hP
      obtain ⟨Y, hY⟩ : ∃ Y : ℕ → Fin n, ∀ t, Y t = (a :: w).getD t a := ⟨_, fun t => rfl⟩
      have hw : (List.range (w.length + 1)).map Y = a :: w := by
        refine List.ext_getElem (by simp) fun t h1 h2 => ?_
        rw [List.getElem_map, List.getElem_range, hY, List.getD_eq_getElem _ _ h2]
      have hsub : {u : ℕ → ℝ | (List.range (a :: w).length).map (fun t => chainState P a t u) = a :: w} ⊆
          Set.pi (Finset.range w.length) fun t => {v : ℝ | drawnOr (P (Y t)) (Y t) v = Y (t + 1)} := by
        intro u hu
        rw [Set.mem_setOf_eq, List.length_cons] at hu
        have hst : ∀ t < w.length + 1, chainState P a t u = Y t := by
          intro t ht
          have h5 := congrArg (fun l => l.getD t a) hu
          rw [hY, ← h5, List.getD_eq_getElem _ _ (by simpa using ht)]
          simp
        intro t ht
        have ht : t < w.length := by simpa using ht
        show drawnOr (P (Y t)) (Y t) (u t) = Y (t + 1)
        rw [← hst t (by omega), ← hst (t + 1) (by omega), chainState]
      refine (measure_mono hsub).trans ?_
      have hms : ∀ t ∈ Finset.range w.length, MeasurableSet {v : ℝ | drawnOr (P (Y t)) (Y t) v = Y (t + 1)} := fun t _ =>
        drawnOr_measurable _ _ (measurableSet_singleton _)
      rw [endlessDraws, Measure.infinitePi_pi _ hms,
        Finset.prod_congr rfl fun t _ => drawnOr_law (P (Y t)) (row_valid P hP _) (Y t) (Y (t + 1)),
        ← ENNReal.ofReal_prod_of_nonneg fun t _ => hnn _ _]
      rw [← pathProb_range P a Y (by rw [hY]; rfl), hw]
    · have : {u : ℕ → ℝ | (List.range (a :: w).length).map (fun t => chainState P i t u) = a :: w} = ∅ := by
        refine Set.eq_empty_of_forall_notMem fun u hu => ha ?_
        rw [Set.mem_setOf_eq, List.length_cons, List.range_succ_eq_map, List.map_cons] at hu
        exact (List.cons.inj hu).1.symm
      rw [this, measure_empty]
      exact zero_le

/-- A prefix-free universal code on a trajectory. -/
theorem universal_chain (b : Nat) (hb : 2 ≤ b) (encode : List Nat → Option (List Nat)) (P : TMat ℝ n) (hP : validTransitionMatrix P = true) (hn : 2 ≤ n)
    (x : Fin n → ℝ) (hx : IsStationaryResult P x) (i : Fin n) (δ : ℕ → ℝ)
    (htot : ∀ x, (∀ a ∈ x, a < n) → ∃ u, encode x = some u ∧ ∀ a ∈ u, a < b)
    (hpf : ∀ x y u v, x.length = y.length → encode x = some u → encode y = some v → u <+: v → x = y) (hδ : Tendsto δ atTop (𝓝 0))
    (h : ∀ (F : FSource (Fin (n + 1)) n) (s0 : Fin (n + 1)) (x : List Nat), (∀ a ∈ x, a < n) → 0 < F.wordProb s0 x →
      ∃ out, encode x = some out ∧ (out.length : ℝ) ≤ -Real.logb b (F.wordProb s0 x) + x.length * δ x.length) :
    ∃ h : Fin n → ℝ, (∀ j, entropy (P j) (.num (b : ℝ)) = some (h j)) ∧ ∀ᵐ u ∂endlessDraws, ∃ (out : ℕ → List (Fin n)) (y : ℕ → Word), Simulates P i u out ∧
      (∀ m, encode ((out m).map Fin.val) = some (y m)) ∧ Tendsto (fun m : ℕ => ((y m).length : ℝ) / m) atTop (𝓝 (∑ j, x j * h j)) := by
  have hb1 : (1 : ℝ) < b := by exact_mod_cast (by omega : 1 < b)
  obtain ⟨H, h1, h2⟩ := C125_aep P hP x hx i b hb1
  refine ⟨H, h1, ?_⟩
  have hmem : ∀ m (u : ℕ → ℝ), ((List.range m).map fun t => chainState P i t u).map Fin.val ∈ allWords n m := by
    intro m u
    refine (mem_allWords _ _ _).mpr ⟨by simp, fun a ha => ?_⟩
    obtain ⟨t, -, rfl⟩ := List.mem_map.mp ha
    exact t.2
  have hbar := barron b hb encode n hn htot hpf endlessDraws (fun m u => ((List.range m).map fun t => chainState P i t u).map Fin.val)
    (fun w => (chainSource P hP i).wordProb (Fin.last n) w) hmem (by
    intro m _ w hw
    obtain ⟨hl, hs⟩ := (mem_allWords _ _ _).mp hw
    obtain ⟨w', rfl⟩ : ∃ w' : List (Fin n), w'.map Fin.val = w := ⟨w.pmap (fun a h => ⟨a, h⟩) hs, by simp [List.map_pmap]⟩
    rw [chainSource_path]
    refine (measure_mono fun u hu => ?_).trans (path_law P hP i w')
    rw [List.length_map] at hl
    rw [Set.mem_setOf_eq, hl]
    exact List.map_injective_iff.mpr Fin.val_injective hu)
  filter_upwards [h2, draws_in, hbar] with u g1 g2 g3
  obtain ⟨out, o1, o2, o3⟩ := g1
  have ho : ∀ m, out m = (List.range m).map fun t => chainState P i t u := fun m => Option.some.inj ((o1 m).symm.trans (chainState_simulates P hP i u g2 m))
  have hy : ∀ m, ∃ y, encode ((out m).map Fin.val) = some y ∧ (y.length : ℝ) ≤ -Real.logb b (pathProb P i (out m)) + m * δ m := by
    intro m
    obtain ⟨hl, hs⟩ := (mem_allWords _ _ _).mp (hmem m u)
    rw [← ho m] at hl hs
    obtain ⟨y, y1, y2⟩ := h (chainSource P hP i) (Fin.last n) _ hs (by rw [chainSource_path]; exact o2 m)
    rw [chainSource_path, hl] at y2
    exact ⟨y, y1, y2⟩
  choose y y1 y2 using hy
  refine ⟨out, y, o1, y1, sandwich b _ δ _ y o3 hδ ?_ (Eventually.of_forall y2)⟩
  filter_upwards [g3] with m k1
  rw [← ho m, y1, Option.getD_some, chainSource_path] at k1
  exact k1 (o2 m)

/-- LZ78 on the trajectory of any irreducible chain, which it does not know: with probability one, the number of code symbols per step tends to the entropy rate
`∑_j π_j H_b(P_j)`. -/
theorem C125_lz78 (b e : Nat) (hb : 2 ≤ b) (width : Nat → Nat) (hw : FieldWidth b e width) (P : TMat ℝ n) (hP : validTransitionMatrix P = true) (hn : 2 ≤ n)
    (x : Fin n → ℝ) (hx : IsStationaryResult P x) (i : Fin n) :
    ∃ h : Fin n → ℝ, (∀ j, entropy (P j) (.num (b : ℝ)) = some (h j)) ∧ ∀ᵐ u ∂endlessDraws, ∃ (out : ℕ → List (Fin n)) (y : ℕ → Word), Simulates P i u out ∧
      (∀ m, lz78Encode n b width ((out m).map Fin.val) = some (y m)) ∧ Tendsto (fun m : ℕ => ((y m).length : ℝ) / m) atTop (𝓝 (∑ j, x j * h j)) := by
  obtain ⟨δ, h1, h2⟩ := C114_lz78_universal n b (n + 1) e hn hb
  refine universal_chain b hb _ P hP hn x hx i δ ?_ ?_ h1 fun F s0 x hx hpos => h2 width hw F s0 x hx hpos
  · intro x hx
    obtain ⟨u, h, -⟩ := C33_lz78_roundtrip hn width (fun n hn => (hw n hn).1) x hx
    refine ⟨u, h, ?_⟩
    rw [lz78Encode] at h
    obtain ⟨ts, -, rfl⟩ := Option.map_eq_some_iff.mp h
    exact lz78Target_lt b (by omega) width _ ts 0
  · intro x y u v
    exact C114_lz78_prefix_free _ b width hn (fun n hn => (hw n hn).1) x y u v

/-- LZW on the trajectory of any irreducible chain. -/
theorem C125_lzw (b e : Nat) (hb : 2 ≤ b) (width : Nat → Nat) (hw : FieldWidth b e width) (P : TMat ℝ n) (hP : validTransitionMatrix P = true) (hn : 2 ≤ n)
    (x : Fin n → ℝ) (hx : IsStationaryResult P x) (i : Fin n) :
    ∃ h : Fin n → ℝ, (∀ j, entropy (P j) (.num (b : ℝ)) = some (h j)) ∧ ∀ᵐ u ∂endlessDraws, ∃ (out : ℕ → List (Fin n)) (y : ℕ → Word), Simulates P i u out ∧
      (∀ m, lzwEncode n b width ((out m).map Fin.val) = some (y m)) ∧ Tendsto (fun m : ℕ => ((y m).length : ℝ) / m) atTop (𝓝 (∑ j, x j * h j)) := by
  obtain ⟨δ, h1, h2⟩ := C114_lzw_universal n b (n + 1) e hn hb
  refine universal_chain b hb _ P hP hn x hx i δ ?_ ?_ h1 fun F s0 x hx hpos => h2 width hw F s0 x hx hpos
  · intro x hx
    obtain ⟨u, h, -⟩ := C34_lzw_roundtrip hn width (fun n hn => (hw n hn).1) x hx
    refine ⟨u, h, ?_⟩
    rw [lzwEncode, if_neg (by rw [not_not]; exact hx)] at h
    exact lzwEncodeLoop_lt b (by omega) width x _ _ u h
  · intro x y u v
    exact C114_lzw_prefix_free _ b width hn (fun n hn => (hw n hn).1) x y u v

/-- The hypotheses are met, also by a chain of period 2: the random walk on the path `0 – 1 – 2`, and its stationary distribution exists. -/
example : ∃ P : TMat ℝ 3, P = ![![0, 1, 0], ![1/2, 0, 1/2], ![0, 1, 0]] ∧ validTransitionMatrix P = true ∧ (∃ x, IsStationaryResult P x) ∧
    FieldWidth 2 0 (Nat.clog 2) := by
  refine ⟨_, rfl, ?_⟩
  generalize hPdef : (![![0, 1, 0], ![1/2, 0, 1/2], ![0, 1, 0]] : TMat ℝ 3) = P
  have hP : validTransitionMatrix P = true := by
    rw [C72_accepts, ← hPdef]
    refine ⟨fun i j => ?_, fun i => ?_⟩
    · fin_cases i <;> fin_cases j <;> simp
    · fin_cases i <;> simp [Fin.sum_univ_three] <;> norm_num
  have hirr : isIrreducible P = true := by
    rw [C72_irreducible P hP (by norm_num)]
    intro i j
    have hsq : ∀ a b, (Matrix.of P ^ 2) a b = ∑ k, P a k * P k b := fun a b => by rw [pow_two, Matrix.mul_apply]; rfl
    by_cases h : (i = 1) = (j = 1)
    · refine ⟨2, ?_⟩
      rw [hsq, Fin.sum_univ_three, ← hPdef]
      revert h
      fin_cases i <;> fin_cases j <;> simp
    · refine ⟨1, ?_⟩
      rw [pow_one, Matrix.of_apply, ← hPdef]
      revert h
      fin_cases i <;> fin_cases j <;> simp
  obtain ⟨x, hx, -⟩ := C83_defined P hP (by norm_num) hirr
  exact ⟨hP, ⟨x, hx⟩, fieldWidth_clog le_rfl⟩

end Komm
