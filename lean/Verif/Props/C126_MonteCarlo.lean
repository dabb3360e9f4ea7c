import Verif.Props.C125_SimulatedChains
import Verif.Props.C120_ChannelCoding
import Verif.Props.C104_GaussianQ
import Mathlib.MeasureTheory.Constructions.BorelSpace.Order
import Mathlib.Data.Nat.Nth
import Mathlib.MeasureTheory.Function.Floor
/-! C126: Monte-Carlo simulation. The relative frequencies that a user measures tend to the parameters and the exact error probabilities. -/
namespace Komm
open MeasureTheory ProbabilityTheory Set Filter Topology Function

open Classical in
/-- The number of times `t < N` for which `Q t` holds. -/
noncomputable def howMany (Q : ℕ → Prop) (N : ℕ) : ℕ := ((Finset.range N).filter Q).card

theorem howMany_sum (Q : ℕ → Prop) [DecidablePred Q] (N : ℕ) : (howMany Q N : ℝ) = ∑ t ∈ Finset.range N, if Q t then (1 : ℝ) else 0 := by
  rw [howMany, Finset.card_filter, Nat.cast_sum]
  refine Finset.sum_congr rfl fun t _ => ?_
  by_cases h : Q t <;> simp [h]

theorem howMany_count (Q : ℕ → Prop) [DecidablePred Q] (N : ℕ) : Nat.count Q N = howMany Q N := by
  rw [howMany, Nat.count_eq_card_filter_range]
  congr

theorem howMany_congr {Q R : ℕ → Prop} {N : ℕ} (h : ∀ t < N, Q t ↔ R t) : howMany Q N = howMany R N := by
  classical
  rw [howMany, howMany]
  exact congrArg Finset.card (Finset.filter_congr fun t ht => h t (Finset.mem_range.mp ht))

theorem howMany_true (N : ℕ) : howMany (fun _ => True) N = N := by simp [howMany]

/-! ### the law of large numbers along a subsequence -/

/-- Sums along the times that satisfy `S`. -/
theorem sum_nth (S : ℕ → Prop) [DecidablePred S] (f : ℕ → ℝ) (N : ℕ) :
    ∑ t ∈ Finset.range N, (if S t then f t else 0) = ∑ k ∈ Finset.range (Nat.count S N), f (Nat.nth S k) := by
  induction N with
  | zero => simp
  | succ N ih =>
    rw [Finset.sum_range_succ, ih, Nat.count_succ]
    by_cases h : S N
    · rw [if_pos h, if_pos h, Finset.sum_range_succ, Nat.nth_count h]
    · rw [if_neg h, if_neg h, add_zero, add_zero]

theorem sampled_average {α : Type} [MeasurableSpace α] (ν : Measure α) [IsProbabilityMeasure ν] (S : ℕ → Prop) [DecidablePred S] (f : ℕ → α → ℝ) (E : ℝ)
    (hf : ∀ t, Measurable (f t)) (hi : ∀ t, S t → Integrable (f t) ν) (hid : ∀ s t, S s → S t → ν.map (f s) = ν.map (f t)) (hE : ∀ t, S t → ∫ v, f t v ∂ν = E) :
    ∀ᵐ u ∂(Measure.infinitePi fun _ : ℕ => ν), Tendsto (Nat.count S) atTop atTop →
      Tendsto (fun N : ℕ => (∑ t ∈ Finset.range N, if S t then f t (u t) else 0) / (Nat.count S N : ℝ)) atTop (𝓝 E) := by
  by_cases hinf : (setOf S).Infinite
  · have hS : ∀ k, S (Nat.nth S k) := fun k => Nat.nth_mem_of_infinite hinf k
    obtain ⟨X, hX⟩ : ∃ X : ℕ → (ℕ → α) → ℝ, X = fun k u => f (Nat.nth S k) (u (Nat.nth S k)) := ⟨_, rfl⟩
    have hev : ∀ t : ℕ, MeasurePreserving (fun u : ℕ → α => u t) (Measure.infinitePi fun _ : ℕ => ν) ν := fun t =>
      measurePreserving_eval_infinitePi (fun _ : ℕ => ν) t
    have hind0 : iIndepFun (fun (t : ℕ) (u : ℕ → α) => f t (u t)) (Measure.infinitePi fun _ : ℕ => ν) := iIndepFun_infinitePi (X := f) hf
    have hind : Pairwise ((· ⟂ᵢ[Measure.infinitePi fun _ : ℕ => ν] ·) on X) := by
      intro j k hjk
      rw [hX]
      exact hind0.indepFun fun e => hjk (Nat.nth_injective hinf e)
    have hmap : ∀ k, (Measure.infinitePi fun _ : ℕ => ν).map (X k) = ν.map (f (Nat.nth S k)) := by
      intro k
      have e : X k = f (Nat.nth S k) ∘ fun u : ℕ → α => u (Nat.nth S k) := by rw [hX]; rfl
      rw [e, ← Measure.map_map (hf _) (hev _).measurable, (hev _).map_eq]
    have hXm : ∀ k, Measurable (X k) := fun k => by rw [hX]; exact (hf _).comp (measurable_pi_apply _)
    have hint : Integrable (X 0) (Measure.infinitePi fun _ : ℕ => ν) := by
      rw [hX]
      exact (hev _).integrable_comp_of_integrable (hi _ (hS 0))
    have h := strong_law_ae_real X hint hind fun k => ⟨(hXm k).aemeasurable, (hXm 0).aemeasurable, by rw [hmap, hmap, hid _ _ (hS k) (hS 0)]⟩
    have hmean : ∫ u, X 0 u ∂(Measure.infinitePi fun _ : ℕ => ν) = E := by
      have h5 := integral_map (μ := Measure.infinitePi fun _ : ℕ => ν) (hev (Nat.nth S 0)).measurable.aemeasurable (hf (Nat.nth S 0)).aestronglyMeasurable
      rw [(hev _).map_eq, hE _ (hS 0)] at h5
      rw [h5, hX]
    rw [hmean] at h
    filter_upwards [h] with u hu hc
    have h2 := hu.comp hc
    refine h2.congr fun N => ?_
    rw [Function.comp_apply, sum_nth S fun t => f t (u t), hX]
  · refine Eventually.of_forall fun u hc => absurd hc fun hc => ?_
    rw [Set.not_infinite] at hinf
    obtain ⟨N, hN⟩ := (tendsto_atTop.mp hc (hinf.toFinset.card + 1)).exists
    have h3 : Nat.count S N ≤ hinf.toFinset.card := by
      rw [Nat.count_eq_card_filter_range]
      refine Finset.card_le_card fun t ht => ?_
      rw [Set.Finite.mem_toFinset]
      exact (Finset.mem_filter.mp ht).2
    omega

theorem indicator_law {α : Type} [MeasurableSpace α] (ν : Measure α) [IsProbabilityMeasure ν] (A B : Set α) (hA : MeasurableSet A) (hB : MeasurableSet B)
    (h : ν.real A = ν.real B) : ν.map (A.indicator fun _ => (1 : ℝ)) = ν.map (B.indicator fun _ => (1 : ℝ)) := by
  have hmA : Measurable (A.indicator fun _ => (1 : ℝ)) := measurable_const.indicator hA
  have hmB : Measurable (B.indicator fun _ => (1 : ℝ)) := measurable_const.indicator hB
  have h1 : ν A = ν B := (ENNReal.toReal_eq_toReal_iff' (measure_ne_top _ _) (measure_ne_top _ _)).mp h
  have h2 : ν Aᶜ = ν Bᶜ := by rw [prob_compl_eq_one_sub hA, prob_compl_eq_one_sub hB, h1]
  refine Measure.ext fun s hs => ?_
  rw [Measure.map_apply hmA hs, Measure.map_apply hmB hs]
  have key : ∀ C : Set α, (C.indicator fun _ => (1 : ℝ)) ⁻¹' s = {x | x ∈ C ∧ (1 : ℝ) ∈ s ∨ x ∉ C ∧ (0 : ℝ) ∈ s} := by
    intro C
    ext x
    by_cases hx : x ∈ C <;> simp [hx]
  rw [key, key]
  by_cases k1 : (1 : ℝ) ∈ s <;> by_cases k0 : (0 : ℝ) ∈ s <;> simp only [k1, k0, and_true, and_false, or_false, false_or]
  · congr 1
    ext x
    simp [em]
  · exact h1
  · exact h2

/-- Relative frequencies, over the times that satisfy `S`, of events that have the same probability `p`. -/
theorem sampled_rate {α : Type} [MeasurableSpace α] (ν : Measure α) [IsProbabilityMeasure ν] (S : ℕ → Prop) (A : ℕ → Set α) (p : ℝ)
    (hA : ∀ t, MeasurableSet (A t)) (hp : ∀ t, S t → ν.real (A t) = p) :
    ∀ᵐ u ∂(Measure.infinitePi fun _ : ℕ => ν), Tendsto (howMany S) atTop atTop →
      Tendsto (fun N : ℕ => (howMany (fun t => S t ∧ u t ∈ A t) N : ℝ) / howMany S N) atTop (𝓝 p) := by
  classical
  have h := sampled_average ν S (fun t => (A t).indicator fun _ => (1 : ℝ)) p (fun t => measurable_const.indicator (hA t))
    (fun t _ => (integrable_const _).indicator (hA t)) (fun s t hs ht => indicator_law ν _ _ (hA s) (hA t) (by rw [hp s hs, hp t ht]))
    (fun t ht => by rw [integral_indicator_const _ (hA t), hp t ht, smul_eq_mul, mul_one])
  filter_upwards [h] with u hu hc
  have e : Nat.count S = howMany S := funext fun N => howMany_count S N
  rw [← e] at hc
  refine (hu hc).congr fun N => ?_
  rw [howMany_count, howMany_sum fun t => S t ∧ u t ∈ A t]
  congr 1
  refine Finset.sum_congr rfl fun t _ => ?_
  by_cases h1 : S t <;> by_cases h2 : u t ∈ A t <;> simp [h1, h2]

/-! ### sources and discrete channels -/

/-- The relative frequency of every symbol in what `emit` returns tends to its probability. -/
theorem C126_source {q : ℕ} (p : Fin q → ℝ) (hp : validPmf p = true) :
    ∀ᵐ u ∂endlessDraws, ∃ out : ℕ → List (Fin q), (∀ N, dmsEmit p ((List.range N).map u) = some (out N)) ∧
      ∀ a, Tendsto (fun N : ℕ => ((out N).count a : ℝ) / N) atTop (𝓝 (p a)) := by
  have hq : 0 < q := by
    rcases Nat.eq_zero_or_pos q with h | h
    · subst h
      simp [validPmf] at hp
    · exact h
  have hr : ∀ᵐ u ∂endlessDraws, ∀ a, Tendsto (fun N : ℕ => (howMany (fun t => True ∧ u t ∈ {v | drawnOr p ⟨0, hq⟩ v = a}) N : ℝ) /
      howMany (fun _ => True) N) atTop (𝓝 (p a)) := by
    rw [ae_all_iff]
    intro a
    have := sampled_rate (volume.restrict (Ico (0 : ℝ) 1)) (fun _ => True) (fun _ => {v | drawnOr p ⟨0, hq⟩ v = a}) (p a)
      (fun _ => drawnOr_measurable p _ (measurableSet_singleton a)) fun _ _ => by
        rw [measureReal_def, drawnOr_law p hp, ENNReal.toReal_ofReal (((validPmf_iff p).mp hp).1 a)]
    filter_upwards [this] with u hu
    refine hu (tendsto_id.congr fun N => (howMany_true N).symm)
  filter_upwards [draws_in, hr] with u h0 h1
  refine ⟨fun N => (List.range N).map fun t => drawnOr p ⟨0, hq⟩ (u t), fun N => ?_, fun a => ?_⟩
  · obtain ⟨out, o1, o2, -, o4⟩ := C84_emit p hp ((List.range N).map u) (by
      intro v hv
      obtain ⟨t, -, rfl⟩ := List.mem_map.mp hv
      exact h0 t)
    rw [o1]
    refine congrArg some (List.ext_getElem (by simp [o2]) fun t h1 h2 => ?_)
    have ht : t < N := by simpa using h2
    have h5 := o4 t (by simpa using ht)
    rw [List.getElem_map, List.getElem_range, List.getElem?_eq_getElem h1, (drawnOr_eq p hp ⟨0, hq⟩ _ (h0 t)).1] at h5
    rw [List.getElem_map, List.getElem_range]
    exact (Option.some.inj h5).symm
  · refine (h1 a).congr fun N => ?_
    rw [count_range fun t => drawnOr p ⟨0, hq⟩ (u t), howMany_true, howMany_congr (R := fun t => drawnOr p ⟨0, hq⟩ (u t) = a) fun t _ => by simp, howMany_sum]

/-- `transmit` is a fair simulation of the channel: whatever the sequence of input symbols, with probability one over the draws, among the positions where
symbol `i` is sent, the relative frequency of the output `j` tends to `M i j` (if `i` is sent again and again). -/
def Simulation {a b : ℕ} (M : Fin a → Fin b → ℝ) (T : List (ℕ × ℝ) → Option (List ℕ)) : Prop :=
  ∀ x : ℕ → Fin a, ∀ᵐ u ∂endlessDraws, ∃ out : ℕ → List ℕ, (∀ N, T ((List.range N).map fun t => ((x t).val, u t)) = some (out N) ∧ (out N).length = N) ∧
    ∀ i j, Tendsto (howMany fun t => x t = i) atTop atTop →
      Tendsto (fun N : ℕ => (howMany (fun t => x t = i ∧ (out N)[t]? = some j.val) N : ℝ) / howMany (fun t => x t = i) N) atTop (𝓝 (M i j))

theorem simulation_of {a b : ℕ} (M : Fin a → Fin b → ℝ) (hM : ∀ i j, 0 ≤ M i j) (T : List (ℕ × ℝ) → Option (List ℕ)) (S : Fin a → Fin b → Set ℝ)
    (hT : ∀ (N : Nat) (x : Fin N → Fin a) (y : Fin N → Fin b) (u : Fin N → ℝ),
      T (List.ofFn fun k : Fin N => ((x k).val, u k)) = some (List.ofFn fun k : Fin N => (y k).val) ↔ ∀ k, u k ∈ S (x k) (y k))
    (hm : ∀ i j, MeasurableSet (S i j)) (hv : ∀ i j, volume {u : ℝ | u ∈ Set.Ico (0 : ℝ) 1 ∧ u ∈ S i j} = ENNReal.ofReal (M i j))
    (hex : ∀ i, ∀ v ∈ Ico (0 : ℝ) 1, ∃ j, v ∈ S i j) (huniq : ∀ i j k v, v ∈ S i j → v ∈ S i k → j = k) : Simulation M T := by
  intro x
  have hr : ∀ᵐ u ∂endlessDraws, ∀ i j, Tendsto (howMany fun t => x t = i) atTop atTop →
      Tendsto (fun N : ℕ => (howMany (fun t => x t = i ∧ u t ∈ S (x t) j) N : ℝ) / howMany (fun t => x t = i) N) atTop (𝓝 (M i j)) := by
    rw [ae_all_iff]
    intro i
    rw [ae_all_iff]
    intro j
    exact sampled_rate (volume.restrict (Ico (0 : ℝ) 1)) (fun t => x t = i) (fun t => S (x t) j) (M i j) (fun t => hm _ _) fun t ht => by
      rw [ht, measureReal_def, Measure.restrict_apply (hm _ _)]
      have e : S i j ∩ Set.Ico 0 1 = {u : ℝ | u ∈ Set.Ico (0 : ℝ) 1 ∧ u ∈ S i j} := by ext u; exact and_comm
      rw [e, hv, ENNReal.toReal_ofReal (hM i j)]
  filter_upwards [draws_in, hr] with u h0 h1
  choose y hy using fun t => hex (x t) (u t) (h0 t)
  refine ⟨fun N => (List.range N).map fun t => (y t).val, fun N => ⟨?_, by simp⟩, fun i j hc => ?_⟩
  · have h2 := (hT N (fun k => x k) (fun k => y k) (fun k => u k)).mpr fun k => hy k
    have e : ∀ {β : Type} (g : ℕ → β), (List.ofFn fun k : Fin N => g k) = (List.range N).map g := by
      intro β g
      refine List.ext_getElem (by simp) fun t h1 h2 => by simp
    rw [e fun t => ((x t).val, u t), e fun t => (y t).val] at h2
    exact h2
  · refine (h1 i j hc).congr fun N => ?_
    rw [howMany_congr fun t ht => and_congr_right fun hxt => ?_]
    rw [List.getElem?_eq_getElem (by simpa using ht), List.getElem_map, List.getElem_range, Option.some.injEq]
    constructor
    · intro h
      exact congrArg Fin.val (huniq _ _ _ _ (hy t) h)
    · intro h
      rw [← Fin.ext h]
      exact hy t

/-- The four discrete channels: relative frequencies tend to `transition_matrix`. In particular the bit error rate measured on a BSC tends to
`crossover_probability` and the erasure rate on a BEC to `erasure_probability`. -/
theorem C126_channels (p : ℝ) (hp : validProbability p = true) {a b : ℕ} (P : Fin a → Fin b → ℝ) (hP : validChannelMatrix P = true) :
    Simulation (bscMatrix p) (fun l => some (bscTransmit p l)) ∧ Simulation (becMatrix p) (fun l => some (becTransmit p l)) ∧
    Simulation (zMatrix p) (fun l => some (zTransmit p l)) ∧ Simulation P fun l => (dmcTransmit P l).map (List.map Fin.val) := by
  have hp' := hp
  simp only [validProbability, Bool.and_eq_true, decide_eq_true_iff] at hp'
  have hP' := (Info.channel_iff P).mp hP
  refine ⟨?_, ?_, ?_, ?_⟩
  · refine simulation_of _ (fun i j => (bsc_rows p hp'.1 hp'.2 i).nn j) _ (fun i j => {v | bscTransmit p [(i.val, v)] = [j.val]}) (fun N x y u => ?_) (fun i j => ?_)
      (fun i j => (C77_law p hp i).1 j) (fun i v _ => ?_) fun i j k v h1 h2 => ?_
    · rw [bscTransmit, map_ofFn_some]
      simp [bscTransmit]
    · have : {v : ℝ | bscTransmit p [(i.val, v)] = [j.val]} = if i = j then Set.Ici p else Set.Iio p := by
        ext v
        fin_cases i <;> fin_cases j <;> by_cases h : v < p <;> simp [bscTransmit, h] <;> simpa using h
      rw [this]
      split
      · exact measurableSet_Ici
      · exact measurableSet_Iio
    · exact ⟨⟨(i.val + if v < p then 1 else 0) % 2, Nat.mod_lt _ (by norm_num)⟩, by simp [bscTransmit]⟩
    · have : [j.val] = [k.val] := h1.symm.trans h2
      simpa [Fin.ext_iff] using this
  · refine simulation_of _ (fun i j => (bec_rows p hp'.1 hp'.2 i).nn j) _ (fun i j => {v | becTransmit p [(i.val, v)] = [j.val]}) (fun N x y u => ?_) (fun i j => ?_)
      (fun i j => (C77_law p hp i).2.1 j) (fun i v _ => ?_) fun i j k v h1 h2 => ?_
    · rw [becTransmit, map_ofFn_some]
      simp [becTransmit]
    · have : {v : ℝ | becTransmit p [(i.val, v)] = [j.val]} = if j = 2 then Set.Iio p else if i.val = j.val then Set.Ici p else ∅ := by
        ext v
        fin_cases i <;> fin_cases j <;> by_cases h : v < p <;> simp [becTransmit, h]
      rw [this]
      split
      · exact measurableSet_Iio
      · split
        · exact measurableSet_Ici
        · exact MeasurableSet.empty
    · exact ⟨⟨if v < p then 2 else i.val, by split <;> omega⟩, by simp [becTransmit]⟩
    · have : [j.val] = [k.val] := h1.symm.trans h2
      simpa [Fin.ext_iff] using this
  · refine simulation_of _ (fun i j => (z_rows p hp'.1 hp'.2 i).nn j) _ (fun i j => {v | zTransmit p [(i.val, v)] = [j.val]}) (fun N x y u => ?_) (fun i j => ?_)
      (fun i j => (C77_law p hp i).2.2 j) (fun i v _ => ?_) fun i j k v h1 h2 => ?_
    · rw [zTransmit, map_ofFn_some]
      simp [zTransmit]
    · have : {v : ℝ | zTransmit p [(i.val, v)] = [j.val]} = if i = 0 then (if j = 0 then Set.univ else ∅) else if j = 0 then Set.Iio p else Set.Ici p := by
        ext v
        fin_cases i <;> fin_cases j <;> by_cases h : p ≤ v <;> simp [zTransmit, h]
      rw [this]
      split
      · split
        · exact MeasurableSet.univ
        · exact MeasurableSet.empty
      · split
        · exact measurableSet_Iio
        · exact measurableSet_Ici
    · exact ⟨⟨i.val * if v ≥ p then 1 else 0, by split <;> omega⟩, by simp [zTransmit]⟩
    · have : [j.val] = [k.val] := h1.symm.trans h2
      simpa [Fin.ext_iff] using this
  · refine simulation_of _ (fun i j => (hP' i).nn j) _ (fun i j => {v | rngChoice (P i) v = some j}) (fun N x y u => ?_) (fun i j => choice_measurable _ _)
      (fun i j => C84_choice_measure (P i) ((Info.pmf_iff _).mpr (hP' i)) j) (fun i v hv => ?_) fun i j k v h1 h2 => ?_
    · have h1 : (dmcTransmit P (List.ofFn fun k : Fin N => ((x k).val, u k))).map (List.map Fin.val) = some (List.ofFn fun k : Fin N => (y k).val) ↔
          dmcTransmit P (List.ofFn fun k : Fin N => ((x k).val, u k)) = some (List.ofFn y) := by
        have e : (List.ofFn fun k : Fin N => (y k).val) = (List.ofFn y).map Fin.val := by rw [List.map_ofFn]; rfl
        rw [e]
        constructor
        · intro h
          rw [Option.map_eq_some_iff] at h
          obtain ⟨l, hl, hl'⟩ := h
          rw [hl, List.map_injective_iff.mpr Fin.val_injective hl']
        · intro h; rw [h]; rfl
      simp only [h1]
      rw [dmcTransmit, mapM_ofFn]
      simp
    · obtain ⟨j, hj, -⟩ := C84_choice_positive (P i) ((Info.pmf_iff _).mpr (hP' i)) v hv
      exact ⟨j, hj⟩
    · exact Option.some.inj ((show rngChoice (P i) v = some j from h1).symm.trans h2)

/-! ### frames -/

/-- The draws cut into blocks of `n`. -/
def drawsOfBlock {α : Type} (n : ℕ) (u : ℕ → α) (k : ℕ) : Fin n → α := fun i => u (k * n + i)

theorem blocks_law {α : Type} [MeasurableSpace α] (ν : Measure α) [IsProbabilityMeasure ν] (n : ℕ) (hn : 0 < n) :
    MeasurePreserving (drawsOfBlock n) (Measure.infinitePi fun _ : ℕ => ν) (Measure.infinitePi fun _ : ℕ => Measure.pi fun _ : Fin n => ν) := by
  have : NeZero n := ⟨hn.ne'⟩
  have hm : Measurable (drawsOfBlock (α := α) n) := measurable_pi_lambda _ fun k => measurable_pi_lambda _ fun i => measurable_pi_apply _
  refine ⟨hm, ?_⟩
  have h1 := Measure.infinitePi_map_piCongrLeft (fun _ : ℕ × Fin n => ν) (Nat.divModEquiv n)
  have h2 := Measure.infinitePi_map_curry (fun (_ : ℕ) (_ : Fin n) => ν)
  rw [← h1, Measure.map_map (by fun_prop) (by fun_prop)] at h2
  simp only [Measure.infinitePi_eq_pi] at h2
  rw [← h2]
  congr 1
  funext u k i
  have e := Equiv.piCongrLeft_apply_apply (fun _ : ℕ × Fin n => α) (Nat.divModEquiv n) u ((Nat.divModEquiv n).symm (k, i))
  rw [Equiv.apply_symm_apply] at e
  exact e.symm

/-- Relative frequencies of events of blocks. -/
theorem block_rate {α : Type} [MeasurableSpace α] (ν : Measure α) [IsProbabilityMeasure ν] (n : ℕ) (hn : 0 < n) (S : ℕ → Prop) (A : ℕ → Set (Fin n → α)) (p : ℝ)
    (hA : ∀ t, MeasurableSet (A t)) (hp : ∀ t, S t → (Measure.pi fun _ : Fin n => ν).real (A t) = p) :
    ∀ᵐ u ∂(Measure.infinitePi fun _ : ℕ => ν), Tendsto (howMany S) atTop atTop →
      Tendsto (fun N : ℕ => (howMany (fun t => S t ∧ drawsOfBlock n u t ∈ A t) N : ℝ) / howMany S N) atTop (𝓝 p) :=
  (blocks_law ν n hn).quasiMeasurePreserving.ae (sampled_rate _ S A p hA hp)

theorem bscReceived_measurable {n : ℕ} (p : ℝ) (hp : validProbability p = true) (v : BVec n) (Q : BVec n → Prop) :
    MeasurableSet {u : Fin n → ℝ | Q (bscReceived p v u)} := by
  classical
  simp only [validProbability, Bool.and_eq_true, decide_eq_true_iff] at hp
  have hs : {u : Fin n → ℝ | Q (bscReceived p v u)} = ⋃ e ∈ Finset.univ.filter fun e : BVec n => Q (v + e), {u : Fin n → ℝ | flips p u = e} := by
    ext u
    simp [bscReceived_eq]
  rw [hs]
  exact Finset.measurableSet_biUnion _ fun e _ => (flips_law p hp.1 hp.2 e).1

/-- Frames over a BSC: whatever the code, the decoder and the sequence of messages, with probability one, among the frames that carry message `msg`, the fraction
that is decoded wrongly tends to the exact probability that `msg` is decoded wrongly (if it is sent again and again). -/
theorem C126_frames {k m n : ℕ} (c : LinCode k m n) (hn : 0 < n) (dec : BVec n → BVec k) (p : ℝ) (hp : validProbability p = true) (msgs : ℕ → BVec k) :
    ∀ᵐ u ∂endlessDraws, ∀ msg, Tendsto (howMany fun t => msgs t = msg) atTop atTop →
      Tendsto (fun N : ℕ => (howMany (fun t => msgs t = msg ∧ dec (bscReceived p (c.encode (msgs t)) (drawsOfBlock n u t)) ≠ msgs t) N : ℝ) /
        howMany (fun t => msgs t = msg) N) atTop (𝓝 ((uniformDraws n).real {u | dec (bscReceived p (c.encode msg) u) ≠ msg})) := by
  rw [ae_all_iff]
  intro msg
  exact block_rate (volume.restrict (Ico (0 : ℝ) 1)) n hn (fun t => msgs t = msg) (fun t => {u | dec (bscReceived p (c.encode (msgs t)) u) ≠ msgs t}) _
    (fun t => bscReceived_measurable p hp _ fun r => dec r ≠ msgs t) fun t ht => by rw [ht]; rfl

/-- The frame error rate of a linear code with the syndrome table decoder, and its rate of undetected errors, over any sequence of messages: they tend to the
values given by `coset_leader_weight_distribution()` and `codeword_weight_distribution()`. -/
theorem C126_linear_code {k m n : ℕ} (c : LinCode k m n) (h : c.Lawful) (hn : 0 < n) (hm : 1 ≤ m) (fuel : ℕ) (hf : n ≤ fuel) (p : ℝ) (hp : validProbability p = true) :
    ∃ T D, c.cosetLeaders fuel = some T ∧ c.leaderWeightDistribution fuel = some D ∧ ∀ msgs : ℕ → BVec k, ∀ᵐ u ∂endlessDraws,
      Tendsto (fun N : ℕ => (howMany (fun t => syndromeTableDecode c T (bscReceived p (c.encode (msgs t)) (drawsOfBlock n u t)) = msgs t) N : ℝ) / N) atTop
        (𝓝 (∑ w ∈ Finset.range (n + 1), (D.getD w 0 : ℝ) * (p ^ w * (1 - p) ^ (n - w)))) ∧
      Tendsto (fun N : ℕ => (howMany (fun t => bscReceived p (c.encode (msgs t)) (drawsOfBlock n u t) ≠ c.encode (msgs t) ∧
          c.check (bscReceived p (c.encode (msgs t)) (drawsOfBlock n u t)) = 0) N : ℝ) / N) atTop
        (𝓝 (∑ w ∈ Finset.Icc 1 n, (c.weightDistribution.getD w 0 : ℝ) * (p ^ w * (1 - p) ^ (n - w)))) := by
  obtain ⟨T, D, h1, h2, h3⟩ := C111_syndrome_table c h hm fuel hf p hp
  refine ⟨T, D, h1, h2, fun msgs => ?_⟩
  have hT : Tendsto (howMany fun _ => True) atTop atTop := tendsto_id.congr fun N => (howMany_true N).symm
  have g1 := block_rate (volume.restrict (Ico (0 : ℝ) 1)) n hn (fun _ => True) (fun t => {u | syndromeTableDecode c T (bscReceived p (c.encode (msgs t)) u) = msgs t}) _
    (fun t => bscReceived_measurable p hp _ fun r => syndromeTableDecode c T r = msgs t) fun t _ => h3 (msgs t)
  have g2 := block_rate (volume.restrict (Ico (0 : ℝ) 1)) n hn (fun _ => True)
    (fun t => {u | bscReceived p (c.encode (msgs t)) u ≠ c.encode (msgs t) ∧ c.check (bscReceived p (c.encode (msgs t)) u) = 0}) _
    (fun t => bscReceived_measurable p hp _ fun r => r ≠ c.encode (msgs t) ∧ c.check r = 0) fun t _ => C111_undetected c h p hp (msgs t)
  filter_upwards [g1, g2] with u k1 k2
  refine ⟨(k1 hT).congr fun N => ?_, (k2 hT).congr fun N => ?_⟩
  · rw [howMany_true]
    congr 2
    exact howMany_congr fun t _ => by simp
  · rw [howMany_true]
    congr 2
    exact howMany_congr fun t _ => by simp

/-! ### the Gaussian channel -/

open GaussianChannel Constellation

/-- The independent standard normal samples of the generator. -/
noncomputable def endlessNormals : Measure (ℕ → ℝ) := Measure.infinitePi fun _ => gaussianReal 0 1

/-- The measured noise power tends to `noise_power`, whatever the input (real and complex). -/
theorem C126_noise_power (P : ℝ) (hP : 0 ≤ P) (x : ℕ → ℝ) (x' : ℕ → ℂ) :
    (∀ᵐ z ∂endlessNormals, Tendsto (fun N : ℕ => (∑ t ∈ Finset.range N, (transmitReal P x z t - x t) ^ 2) / N) atTop (𝓝 P)) ∧
    ∀ᵐ z ∂(Measure.infinitePi fun _ : ℕ => stdNormals (Fin 2)),
      Tendsto (fun N : ℕ => (∑ t ∈ Finset.range N, ‖transmitComplex P x' z t - x' t‖ ^ 2) / N) atTop (𝓝 P) := by
  have hT : Tendsto (Nat.count fun _ => True) atTop atTop := tendsto_id.congr fun N => by simp
  constructor
  · have h0 := std_integrable_sq (ι := Fin 1) 0
    have hsq : ∫ v, v ^ 2 ∂(gaussianReal 0 1) = 1 := std_sq
    have hint : Integrable (fun v : ℝ => P * v ^ 2) (gaussianReal 0 1) := by
      refine Integrable.const_mul ?_ P
      by_contra hn
      rw [integral_undef hn] at hsq
      norm_num at hsq
    have h := sampled_average (gaussianReal 0 1) (fun _ => True) (fun _ v => P * v ^ 2) P (fun _ => by fun_prop) (fun _ _ => hint) (fun _ _ _ _ => rfl)
      fun _ _ => by rw [integral_const_mul, hsq, mul_one]
    filter_upwards [h] with z hz
    refine (hz hT).congr fun N => ?_
    simp only [if_true, Nat.count_true]
    congr 1
    refine Finset.sum_congr rfl fun t _ => ?_
    simp only [transmitReal, normal, zero_add, add_sub_cancel_left, mul_pow, Real.sq_sqrt hP]
  · have hint : ∀ i, Integrable (fun v : Fin 2 → ℝ => P / 2 * v i ^ 2) (stdNormals (Fin 2)) := fun i => (std_integrable_sq i).const_mul _
    have h := sampled_average (stdNormals (Fin 2)) (fun _ => True) (fun _ v => P / 2 * v 0 ^ 2 + P / 2 * v 1 ^ 2) P (fun _ => by fun_prop)
      (fun _ _ => (hint 0).add (hint 1)) (fun _ _ _ _ => rfl)
      fun _ _ => by rw [integral_add (hint 0) (hint 1), integral_const_mul, integral_const_mul, std_pi_sq, std_pi_sq]; ring
    filter_upwards [h] with z hz
    refine (hz hT).congr fun N => ?_
    simp only [if_true, Nat.count_true]
    congr 1
    refine Finset.sum_congr rfl fun t _ => ?_
    have hP2 : 0 ≤ P / 2 := by positivity
    rw [Complex.sq_norm, Complex.normSq_apply]
    simp only [transmitComplex, normal, zero_add, add_sub_cancel_left]
    have e : ∀ a b : ℝ, ((a : ℂ) + Complex.I * (b : ℂ)).re = a ∧ ((a : ℂ) + Complex.I * (b : ℂ)).im = b := fun a b => by simp
    rw [(e _ _).1, (e _ _).2]
    have h3 := Real.mul_self_sqrt hP2
    linear_combination (-(z t 0) ^ 2 - (z t 1) ^ 2) * h3

theorem npRound_measurable : Measurable (npRound : ℝ → ℤ) := by
  unfold npRound
  have hf : Measurable fun x : ℝ => x - ((⌊x⌋ : ℤ) : ℝ) := measurable_id.sub ((measurable_of_countable _).comp Int.measurable_floor)
  have he : MeasurableSet {x : ℝ | ⌊x⌋ % 2 = 0} := Int.measurable_floor (MeasurableSet.of_discrete (s := {k : ℤ | k % 2 = 0}))
  have h1 : Measurable fun x : ℝ => ⌊x⌋ + 1 := (measurable_of_countable fun k : ℤ => k + 1).comp Int.measurable_floor
  exact Measurable.ite (measurableSet_lt hf measurable_const) Int.measurable_floor
    (Measurable.ite (measurableSet_lt measurable_const hf) h1 (Measurable.ite he Int.measurable_floor h1))

theorem pamClosest_measurable (M : ℕ) (δ : ℝ) : Measurable (pamClosest M δ : ℝ → ℤ) := by
  unfold pamClosest
  exact (measurable_of_countable fun k : ℤ => npClip k ((M : ℤ) - 1)).comp (npRound_measurable.comp (by fun_prop))

/-- The symbol error rate of PAM over the Gaussian channel: whatever the sequence of symbols, with probability one, the error rate measured for each symbol tends to
`Q(delta / (2 sqrt(noise_power)))` at the two ends of the constellation and twice that inside; and if all symbols are equally frequent, the overall
error rate tends to `2 (M - 1) / M * Q(delta / (2 sqrt(noise_power)))`. -/
theorem C126_pam (M : ℕ) (hM : 0 < M) (δ : ℝ) (hδ : 0 < δ) (P : ℝ) (hP : 0 < P) (s : ℕ → Fin M) :
    ∀ᵐ z ∂endlessNormals,
      (∀ i, Tendsto (howMany fun t => s t = i) atTop atTop →
        Tendsto (fun N : ℕ => (howMany (fun t => s t = i ∧ pamClosest M δ (transmitReal P (fun t => pam M δ (s t) 0) z t) ≠ (s t).val) N : ℝ) / howMany (fun t => s t = i) N)
          atTop (𝓝 (((if i.val + 1 = M then 0 else 1) + (if i.val = 0 then 0 else 1)) * gaussianQ (δ / 2 / √P)))) ∧
      ((∀ i, Tendsto (fun N : ℕ => (howMany (fun t => s t = i) N : ℝ) / N) atTop (𝓝 (1 / M))) →
        Tendsto (fun N : ℕ => (howMany (fun t => pamClosest M δ (transmitReal P (fun t => pam M δ (s t) 0) z t) ≠ (s t).val) N : ℝ) / N) atTop
          (𝓝 (2 * ((M : ℝ) - 1) / M * gaussianQ (δ / (2 * √P))))) := by
  classical
  have hmeas : ∀ i : Fin M, MeasurableSet {v : ℝ | pamClosest M δ (pam M δ i 0 + √P * v) ≠ i.val} := fun i =>
    ((pamClosest_measurable M δ).comp (f := fun v : ℝ => pam M δ i 0 + √P * v) (by fun_prop)) (MeasurableSet.of_discrete (s := {k : ℤ | k ≠ i.val}))
  have hpt : ∀ i : Fin M, (gaussianReal 0 1).real {v : ℝ | pamClosest M δ (pam M δ i 0 + √P * v) ≠ i.val} =
      ((if i.val + 1 = M then 0 else 1) + (if i.val = 0 then 0 else 1)) * gaussianQ (δ / 2 / √P) := by
    intro i
    rw [← C104_pam_point M δ hδ P hP i]
    have hev : MeasurePreserving (fun z : Fin 1 → ℝ => z 0) (stdNormals (Fin 1)) (gaussianReal 0 1) := measurePreserving_eval (fun _ : Fin 1 => gaussianReal 0 1) 0
    rw [measureReal_def, measureReal_def, ← hev.measure_preimage (hmeas i).nullMeasurableSet]
    congr 2
    ext z
    simp [transmitReal, normal]
  have hr : ∀ᵐ z ∂endlessNormals, ∀ i, Tendsto (howMany fun t => s t = i) atTop atTop →
        Tendsto (fun N : ℕ => (howMany (fun t => s t = i ∧ pamClosest M δ (transmitReal P (fun t => pam M δ (s t) 0) z t) ≠ (s t).val) N : ℝ) / howMany (fun t => s t = i) N)
          atTop (𝓝 (((if i.val + 1 = M then 0 else 1) + (if i.val = 0 then 0 else 1)) * gaussianQ (δ / 2 / √P))) := by
    rw [ae_all_iff]
    intro i
    have h := sampled_rate (gaussianReal 0 1) (fun t => s t = i) (fun t => {v : ℝ | pamClosest M δ (pam M δ (s t) 0 + √P * v) ≠ (s t).val}) _ (fun t => hmeas _)
      fun t ht => by rw [ht, hpt i]
    filter_upwards [h] with z hz hc
    refine (hz hc).congr fun N => ?_
    rw [howMany_congr fun t _ => ?_]
    simp [transmitReal, normal]
  filter_upwards [hr] with z hz
  refine ⟨hz, fun hfreq => ?_⟩
  have hinf : ∀ i, Tendsto (howMany fun t => s t = i) atTop atTop := by
    intro i
    have hM0 : (0 : ℝ) < 1 / M := by positivity
    have h1 := (hfreq i).pos_mul_atTop hM0 tendsto_natCast_atTop_atTop
    rw [← tendsto_natCast_atTop_iff (R := ℝ)]
    refine h1.congr' ?_
    filter_upwards [eventually_ge_atTop 1] with N hN
    have : (N : ℝ) ≠ 0 := by positivity
    field_simp
  have hsum := tendsto_finsetSum Finset.univ fun i _ => (hz i (hinf i)).mul (hfreq i)
  have hval : ∑ i : Fin M, ((if i.val + 1 = M then 0 else 1) + (if i.val = 0 then 0 else 1)) * gaussianQ (δ / 2 / √P) * (1 / (M : ℝ)) =
      2 * ((M : ℝ) - 1) / M * gaussianQ (δ / (2 * √P)) := by
    rw [← C104_pam_error M hM δ hδ P hP]
    refine Finset.sum_congr rfl fun i _ => ?_
    rw [C104_pam_point M δ hδ P hP i]
    ring
  rw [hval] at hsum
  have hev := eventually_all.mpr fun i => (tendsto_atTop.mp (hinf i) 1)
  refine hsum.congr' ?_
  filter_upwards [hev] with N hN
  have e : ∀ i, (howMany (fun t => s t = i ∧ pamClosest M δ (transmitReal P (fun t => pam M δ (s t) 0) z t) ≠ (s t).val) N : ℝ) / howMany (fun t => s t = i) N *
      ((howMany (fun t => s t = i) N : ℝ) / N) =
      (howMany (fun t => s t = i ∧ pamClosest M δ (transmitReal P (fun t => pam M δ (s t) 0) z t) ≠ (s t).val) N : ℝ) / N := by
    intro i
    have : (howMany (fun t => s t = i) N : ℝ) ≠ 0 := by
      have := hN i
      positivity
    field_simp
  rw [Finset.sum_congr rfl fun i _ => e i, ← Finset.sum_div]
  congr 1
  simp only [howMany_sum]
  rw [Finset.sum_comm]
  refine Finset.sum_congr rfl fun t _ => ?_
  by_cases h : pamClosest M δ (transmitReal P (fun t => pam M δ (s t) 0) z t) ≠ (s t).val <;> simp [h]

theorem alternating (i : ℕ) (hi : i < 2) (N : ℕ) : howMany (fun t => t % 2 = i) N = (N + 1 - i) / 2 := by
  have h := howMany_count (fun t => t % 2 = i) N
  rw [← h]
  induction N with
  | zero => simp; omega
  | succ N ih =>
    rw [Nat.count_succ, ih (howMany_count _ _)]
    split <;> omega

/-- The hypotheses are met: a code, a crossover probability, a pmf and a channel matrix over the reals, and the alternating sequence of the two symbols of 2-PAM, where
both symbols are sent again and again, each half of the time. -/
example : (∃ c : LinCode 3 3 6, blockCodeOfGenerator exG = some c ∧ c.Lawful) ∧ validProbability (1 / 10 : ℝ) = true ∧ validChannelMatrix (bscMatrix (1 / 10 : ℝ)) = true ∧
    ∀ i : Fin 2, Tendsto (howMany fun t => (⟨t % 2, Nat.mod_lt t two_pos⟩ : Fin 2) = i) atTop atTop ∧
      Tendsto (fun N : ℕ => (howMany (fun t => (⟨t % 2, Nat.mod_lt t two_pos⟩ : Fin 2) = i) N : ℝ) / N) atTop (𝓝 (1 / (2 : ℕ))) := by
  refine ⟨?_, by simp [validProbability]; norm_num, (Info.channel_iff _).mpr (bsc_rows (1 / 10) (by norm_num) (by norm_num)), fun i => ?_⟩
  · obtain ⟨c, h1, -, h3⟩ := C41_generator exG (by
      rw [linearIndependent_iff_card_eq_finrank_span, Fintype.card_fin, Set.finrank, ← rank_spec]; decide +kernel)
    exact ⟨c, h1, h3⟩
  have e : ∀ N, howMany (fun t => (⟨t % 2, Nat.mod_lt t two_pos⟩ : Fin 2) = i) N = (N + 1 - i.val) / 2 := fun N => by
    rw [← alternating i.val i.isLt]
    exact howMany_congr fun t _ => by simp [Fin.ext_iff]
  have hi := i.isLt
  refine ⟨?_, ?_⟩
  · rw [tendsto_atTop]
    intro b
    filter_upwards [eventually_ge_atTop (2 * b)] with N hN
    rw [e]
    omega
  · have h0 : Tendsto (fun N : ℕ => (1 / 2 : ℝ) - 1 / N) atTop (𝓝 (1 / 2 - 0)) := tendsto_const_nhds.sub tendsto_one_div_atTop_nhds_zero_nat
    have h1 : Tendsto (fun N : ℕ => (1 / 2 : ℝ) + 1 / N) atTop (𝓝 (1 / 2 + 0)) := tendsto_const_nhds.add tendsto_one_div_atTop_nhds_zero_nat
    rw [sub_zero] at h0
    rw [add_zero] at h1
    push_cast
    refine tendsto_of_tendsto_of_tendsto_of_le_of_le' h0 h1 ?_ ?_
    · filter_upwards [eventually_ge_atTop 1] with N hN
      rw [e]
      have hN' : (0 : ℝ) < N := by exact_mod_cast hN
      have h3 : N ≤ 2 * ((N + 1 - i.val) / 2) + 2 := by omega
      have h4 : (N : ℝ) ≤ 2 * (((N + 1 - i.val) / 2 : ℕ) : ℝ) + 2 := by exact_mod_cast h3
      rw [le_div_iff₀ hN', sub_mul, one_div_mul_cancel hN'.ne']
      linarith
    · filter_upwards [eventually_ge_atTop 1] with N hN
      rw [e]
      have hN' : (0 : ℝ) < N := by exact_mod_cast hN
      have h3 : 2 * ((N + 1 - i.val) / 2) ≤ N + 2 := by omega
      have h4 : 2 * (((N + 1 - i.val) / 2 : ℕ) : ℝ) ≤ (N : ℝ) + 2 := by exact_mod_cast h3
      rw [div_le_iff₀ hN', add_mul, one_div_mul_cancel hN'.ne']
      linarith

end Komm
