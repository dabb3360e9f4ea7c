import Verif.Lemmas.ChannelCoding
import Verif.Props.C77_Channels
import Verif.Props.C78_Information
import Verif.Props.C85_ArimotoBlahut
import Verif.Props.C111_BlockError
/-! C120: the operational meaning of `capacity()` (Shannon's channel coding theorem with strong converse), for the `transmit` methods of the
four discrete memoryless channels. -/
namespace Komm
open MeasureTheory Real Info
variable {a b : Nat}

/-- The probability (over independent uniform generator values) that message `w` is not recovered, when its codeword `x w` goes through
`transmit` and the received sequence is given to the decoder `g`, which may also give up. -/
noncomputable def messageError {N M : Nat} (T : List (Nat × ℝ) → Option (List Nat)) (x : Fin M → Fin N → Fin a) (g : List Nat → Option (Fin M))
    (w : Fin M) : ℝ :=
  (uniformDraws N).real {u | (T (List.ofFn fun k : Fin N => ((x w k).val, u k))).bind g ≠ some w}

/-- The rate `R` is reliable: for all large block lengths there are codes with any number `M ≤ base ^ (N R)` of messages for which every
message is received with error probability below `ε`. -/
def Reliable (T : List (Nat × ℝ) → Option (List Nat)) (a : Nat) (base R : ℝ) : Prop :=
  ∀ ε > 0, ∃ N₀ : Nat, ∀ N ≥ N₀, ∀ M : Nat, (M : ℝ) ≤ base ^ (N * R) →
    ∃ (x : Fin M → Fin N → Fin a) (g : List Nat → Option (Fin M)), ∀ w, messageError T x g w < ε

/-- The rate `R` is hopeless: for all large block lengths every code with at least `base ^ (N R)` messages and every decoder has an average
error probability above `1 - ε`. -/
def Hopeless (T : List (Nat × ℝ) → Option (List Nat)) (a : Nat) (base R : ℝ) : Prop :=
  ∀ ε > 0, ∃ N₀ : Nat, ∀ N ≥ N₀, ∀ M : Nat, base ^ (N * R) ≤ (M : ℝ) →
    ∀ (x : Fin M → Fin N → Fin a) (g : List Nat → Option (Fin M)), 1 - ε < (∑ w, messageError T x g w) / M

/-- `transmit` realises the channel: given the word sent, the word received has the product distribution. -/
def Realises (P : Fin a → Fin b → ℝ) (T : List (Nat × ℝ) → Option (List Nat)) : Prop :=
  ∀ (N : Nat) (x : Fin N → Fin a) (y : Fin N → Fin b),
    MeasurableSet {u : Fin N → ℝ | T (List.ofFn fun k : Fin N => ((x k).val, u k)) = some (List.ofFn fun k : Fin N => (y k).val)} ∧
    (uniformDraws N).real {u | T (List.ofFn fun k : Fin N => ((x k).val, u k)) = some (List.ofFn fun k : Fin N => (y k).val)} = ∏ k, P (x k) (y k)

theorem realises_of (P : Fin a → Fin b → ℝ) (hP : ∀ i, Pmf (P i)) (T : List (Nat × ℝ) → Option (List Nat)) (S : Fin a → Fin b → Set ℝ)
    (hT : ∀ (N : Nat) (x : Fin N → Fin a) (y : Fin N → Fin b) (u : Fin N → ℝ),
      T (List.ofFn fun k : Fin N => ((x k).val, u k)) = some (List.ofFn fun k : Fin N => (y k).val) ↔ ∀ k, u k ∈ S (x k) (y k))
    (hm : ∀ i j, MeasurableSet (S i j)) (hv : ∀ i j, volume {u : ℝ | u ∈ Set.Ico (0 : ℝ) 1 ∧ u ∈ S i j} = ENNReal.ofReal (P i j)) : Realises P T := by
  intro N x y
  have hset : {u : Fin N → ℝ | T (List.ofFn fun k : Fin N => ((x k).val, u k)) = some (List.ofFn fun k : Fin N => (y k).val)} =
      Set.univ.pi fun k => S (x k) (y k) := by
    ext u
    simp only [Set.mem_setOf_eq, hT, Set.mem_univ_pi]
  rw [hset]
  refine ⟨MeasurableSet.univ_pi fun k => hm _ _, ?_⟩
  rw [measureReal_def, uniformDraws, Measure.pi_pi, ENNReal.toReal_prod]
  refine Finset.prod_congr rfl fun k _ => ?_
  rw [Measure.restrict_apply (hm _ _)]
  have : S (x k) (y k) ∩ Set.Ico 0 1 = {u : ℝ | u ∈ Set.Ico (0 : ℝ) 1 ∧ u ∈ S (x k) (y k)} := by ext u; exact and_comm
  rw [this, hv, ENNReal.toReal_ofReal ((hP _).nn _)]

theorem mapM_ofFn {α β : Type} (f : α → Option β) : ∀ (N : Nat) (l : Fin N → α) (y : Fin N → β),
    (List.ofFn l).mapM f = some (List.ofFn y) ↔ ∀ k, f (l k) = some (y k) := by
  intro N
  induction N with
  | zero => intro l y; simp
  | succ N ih =>
    intro l y
    rw [List.ofFn_succ, List.ofFn_succ, List.mapM_cons, Fin.forall_fin_succ, ← ih]
    cases h1 : f (l 0) with
    | none => simp
    | some v =>
      cases h2 : (List.ofFn fun i : Fin N => l i.succ).mapM f with
      | none => simp
      | some vs => simp

theorem map_ofFn_some {α β : Type} (f : α → β) (N : Nat) (l : Fin N → α) (y : Fin N → β) :
    some ((List.ofFn l).map f) = some (List.ofFn y) ↔ ∀ k, f (l k) = y k := by
  rw [Option.some.injEq, List.map_ofFn, List.ofFn_inj, funext_iff]
  rfl

theorem bsc_realises (p : ℝ) (hp : validProbability p = true) : Realises (bscMatrix p) fun l => some (bscTransmit p l) := by
  have hp' := hp
  simp only [validProbability, Bool.and_eq_true, decide_eq_true_iff] at hp'
  refine realises_of _ (bsc_rows p hp'.1 hp'.2) _ (fun i j => {v | bscTransmit p [(i.val, v)] = [j.val]}) (fun N x y u => ?_) (fun i j => ?_)
    fun i j => (C77_law p hp i).1 j
  · rw [bscTransmit, map_ofFn_some]
    simp [bscTransmit]
  · have : {v : ℝ | bscTransmit p [(i.val, v)] = [j.val]} = if i = j then Set.Ici p else Set.Iio p := by
      ext v
      fin_cases i <;> fin_cases j <;> by_cases h : v < p <;> simp [bscTransmit, h] <;> simpa using h
    rw [this]
    split
    · exact measurableSet_Ici
    · exact measurableSet_Iio

theorem bec_realises (p : ℝ) (hp : validProbability p = true) : Realises (becMatrix p) fun l => some (becTransmit p l) := by
  have hp' := hp
  simp only [validProbability, Bool.and_eq_true, decide_eq_true_iff] at hp'
  refine realises_of _ (bec_rows p hp'.1 hp'.2) _ (fun i j => {v | becTransmit p [(i.val, v)] = [j.val]}) (fun N x y u => ?_) (fun i j => ?_)
    fun i j => (C77_law p hp i).2.1 j
  · rw [becTransmit, map_ofFn_some]
    simp [becTransmit]
  · have : {v : ℝ | becTransmit p [(i.val, v)] = [j.val]} = if j = 2 then Set.Iio p else if i.val = j.val then Set.Ici p else ∅ := by
      ext v
      fin_cases i <;> fin_cases j <;> by_cases h : v < p <;> simp [becTransmit, h] <;> simpa using h
    rw [this]
    split
    · exact measurableSet_Iio
    · split
      · exact measurableSet_Ici
      · exact MeasurableSet.empty

theorem z_realises (p : ℝ) (hp : validProbability p = true) : Realises (zMatrix p) fun l => some (zTransmit p l) := by
  have hp' := hp
  simp only [validProbability, Bool.and_eq_true, decide_eq_true_iff] at hp'
  refine realises_of _ (z_rows p hp'.1 hp'.2) _ (fun i j => {v | zTransmit p [(i.val, v)] = [j.val]}) (fun N x y u => ?_) (fun i j => ?_)
    fun i j => (C77_law p hp i).2.2 j
  · rw [zTransmit, map_ofFn_some]
    simp [zTransmit]
  · have : {v : ℝ | zTransmit p [(i.val, v)] = [j.val]} = if i = 0 then (if j = 0 then Set.univ else ∅) else if j = 0 then Set.Iio p else Set.Ici p := by
      ext v
      fin_cases i <;> fin_cases j <;> by_cases h : p ≤ v <;> simp [zTransmit, h] <;> simpa using h
    rw [this]
    split
    · split
      · exact MeasurableSet.univ
      · exact MeasurableSet.empty
    · split
      · exact measurableSet_Iio
      · exact measurableSet_Ici

theorem choice_measurable (p : Fin b → ℝ) (j : Fin b) : MeasurableSet {u : ℝ | rngChoice p u = some j} := by
  have hm : Measurable fun u : ℝ => (Finset.univ.filter fun j : Fin b => cumsum p j / ∑ i, p i ≤ u).card := by
    simp only [Finset.card_filter]
    exact Finset.measurable_fun_sum _ fun i _ => Measurable.ite measurableSet_Ici measurable_const measurable_const
  have : {u : ℝ | rngChoice p u = some j} = (fun u : ℝ => (Finset.univ.filter fun j : Fin b => cumsum p j / ∑ i, p i ≤ u).card) ⁻¹' {j.val} := by
    ext u
    simp only [Set.mem_setOf_eq, Set.mem_preimage, Set.mem_singleton_iff, rngChoice]
    split
    · next h => rw [Option.some.injEq, Fin.ext_iff]
    · next h => simp; omega
  rw [this]
  exact hm (measurableSet_singleton _)

theorem dmc_realises (P : Fin a → Fin b → ℝ) (hP : validChannelMatrix P = true) : Realises P fun l => (dmcTransmit P l).map (List.map Fin.val) := by
  have hP' := (channel_iff P).mp hP
  refine realises_of _ hP' _ (fun i j => {v | rngChoice (P i) v = some j}) (fun N x y u => ?_) (fun i j => choice_measurable _ _)
    fun i j => C84_choice_measure (P i) ((pmf_iff _).mpr (hP' i)) j
  have h1 : (dmcTransmit P (List.ofFn fun k : Fin N => ((x k).val, u k))).map (List.map Fin.val) = some (List.ofFn fun k : Fin N => (y k).val) ↔
      dmcTransmit P (List.ofFn fun k : Fin N => ((x k).val, u k)) = some (List.ofFn y) := by
    have e : (List.ofFn fun k : Fin N => (y k).val) = (List.ofFn y).map Fin.val := by rw [List.map_ofFn]; rfl
    rw [e]
    constructor
    · intro h
      rw [Option.map_eq_some_iff] at h
      obtain ⟨l, hl, hl'⟩ := h
      rw [hl, List.map_injective_iff.mpr Fin.val_injective hl']
    · intro h; rw [h]; rfl
  simp only [h1]
  rw [dmcTransmit, mapM_ofFn]
  simp

/-- The error probability in terms of the block law. -/
theorem messageError_eq (P : Fin a → Fin b → ℝ) (hP : ∀ i, Pmf (P i)) (T : List (Nat × ℝ) → Option (List Nat)) (hT : Realises P T) {N M : Nat}
    (x : Fin M → Fin N → Fin a) (g : List Nat → Option (Fin M)) (w : Fin M) :
    messageError T x g w = 1 - ∑ y : Fin N → Fin b with g (List.ofFn fun k : Fin N => (y k).val) = some w, blockLaw P (x w) y := by
  let E : (Fin N → Fin b) → Set (Fin N → ℝ) := fun y =>
    {u | T (List.ofFn fun k : Fin N => ((x w k).val, u k)) = some (List.ofFn fun k : Fin N => (y k).val)}
  have hE : ∀ y, MeasurableSet (E y) ∧ (uniformDraws N).real (E y) = blockLaw P (x w) y := fun y => hT N (x w) y
  have hdisj : ∀ y y', y ≠ y' → Disjoint (E y) (E y') := by
    intro y y' h
    rw [Set.disjoint_left]
    intro u hu hu'
    simp only [E, Set.mem_setOf_eq] at hu hu'
    rw [hu, Option.some.injEq, List.ofFn_inj] at hu'
    exact h (funext fun k => Fin.ext (congrFun hu' k))
  have hU : ∀ B : Finset (Fin N → Fin b), (uniformDraws N).real (⋃ y ∈ B, E y) = ∑ y ∈ B, blockLaw P (x w) y := by
    intro B
    rw [measureReal_biUnion_finset (fun y _ y' _ h => hdisj y y' h) fun y _ => (hE y).1]
    exact Finset.sum_congr rfl fun y _ => (hE y).2
  have hmU : MeasurableSet (⋃ y ∈ (Finset.univ : Finset (Fin N → Fin b)), E y) := Finset.measurableSet_biUnion _ fun y _ => (hE y).1
  have hfull := hU Finset.univ
  rw [blockLaw_sum hP] at hfull
  have hnull : (uniformDraws N).real (⋃ y ∈ (Finset.univ : Finset (Fin N → Fin b)), E y)ᶜ = 0 := by
    rw [probReal_compl_eq_one_sub hmU, hfull, sub_self]
  rw [messageError]
  obtain ⟨S, hS⟩ : ∃ S, S = {u : Fin N → ℝ | (T (List.ofFn fun k : Fin N => ((x w k).val, u k))).bind g ≠ some w} := ⟨_, rfl⟩
  rw [← hS, ← measureReal_inter_add_diff (s := S) hmU (measure_ne_top _ _)]
  have h1 : (uniformDraws N).real (S \ ⋃ y ∈ (Finset.univ : Finset (Fin N → Fin b)), E y) = 0 := by
    refine le_antisymm ?_ measureReal_nonneg
    rw [← hnull]
    exact measureReal_mono (fun u hu => hu.2) (measure_ne_top _ _)
  have h2 : S ∩ (⋃ y ∈ (Finset.univ : Finset (Fin N → Fin b)), E y) =
      ⋃ y ∈ (Finset.univ.filter fun y : Fin N → Fin b => ¬ g (List.ofFn fun k : Fin N => (y k).val) = some w), E y := by
    ext u
    simp only [Set.mem_inter_iff, Set.mem_iUnion, Finset.mem_univ, exists_prop, true_and, Finset.mem_filter]
    constructor
    · rintro ⟨h3, y, hy⟩
      refine ⟨y, ?_, hy⟩
      rw [hS] at h3
      simp only [E, Set.mem_setOf_eq] at h3 hy
      rw [hy] at h3
      exact h3
    · rintro ⟨y, h3, hy⟩
      refine ⟨?_, y, hy⟩
      rw [hS]
      simp only [E, Set.mem_setOf_eq] at hy ⊢
      rw [hy]
      exact h3
  rw [h1, h2, hU, add_zero, ← blockLaw_sum hP (x w), ← Finset.sum_filter_add_sum_filter_not Finset.univ fun y : Fin N → Fin b => g (List.ofFn fun k : Fin N => (y k).val) = some w]
  ring

/-- The maximum of the mutual information separates the reliable from the hopeless rates. -/
theorem coding_theorem (P : Fin a → Fin b → ℝ) (hP : ∀ i, Pmf (P i)) (T : List (Nat × ℝ) → Option (List Nat)) (hT : Realises P T) (base : LogBase)
    (hb : 1 < base.val) (c : ℝ) (hc : IsGreatest (MutualInformationValues P base) c) :
    (∀ R < c, Reliable T a base.val R) ∧ ∀ R > c, Hopeless T a base.val R := by
  have hl : 0 < log base.val := log_pos hb
  have hv := base_valid base hb
  have hb0 : 0 < base.val := by linarith
  obtain ⟨⟨r, hr, hrc⟩, hub⟩ := hc
  have hr := (pmf_iff r).mp hr
  rw [mutualInformation_eq r P base hr hP hv, Option.some.injEq] at hrc
  have hmax : ∀ s, Pmf s → I s P ≤ I r P := by
    intro s hs
    have := hub ⟨s, (pmf_iff s).mpr hs, mutualInformation_eq s P base hs hP hv⟩
    rw [← hrc] at this
    exact (div_le_div_iff_of_pos_right hl).mp this
  obtain ⟨C, hC⟩ : ∃ C, C = I r P := ⟨_, rfl⟩
  have hcC : C = c * log base.val := by rw [hC, ← hrc]; field_simp
  obtain ⟨V, hVdef⟩ : ∃ V, V = ∑ i, ∑ j, P i j * log (P i j / outputPmf r P j) ^ 2 := ⟨_, rfl⟩
  have hnn : ∀ i, 0 ≤ ∑ j, P i j * log (P i j / outputPmf r P j) ^ 2 := fun i =>
    Finset.sum_nonneg fun j _ => mul_nonneg ((hP i).nn j) (sq_nonneg _)
  have hV : ∀ i, ∑ j, P i j * log (P i j / outputPmf r P j) ^ 2 ≤ V := fun i => by
    rw [hVdef]
    exact Finset.single_le_sum (f := fun i => ∑ j, P i j * log (P i j / outputPmf r P j) ^ 2) (fun i _ => hnn i) (Finset.mem_univ i)
  have hV0 : 0 ≤ V := by rw [hVdef]; exact Finset.sum_nonneg fun i _ => hnn i
  have hpow : ∀ (N : Nat) (R : ℝ), base.val ^ ((N : ℝ) * R) = exp (N * (R * log base.val)) := fun N R => by
    rw [rpow_def_of_pos hb0]; congr 1; ring
  -- for large `N` the remainder terms are small
  have hlarge : ∀ δ > 0, ∀ ε > 0, ∃ N₀ : Nat, ∀ N ≥ N₀, 0 < N ∧ exp (-(N * δ)) + V / (N * δ ^ 2) < ε := by
    intro δ hδ ε hε
    obtain ⟨N₀, hN₀⟩ := exists_nat_gt ((1 / δ + V / δ ^ 2) / ε)
    have hK : 0 < 1 / δ + V / δ ^ 2 := by positivity
    refine ⟨N₀, fun N hN => ?_⟩
    have h1 : (1 / δ + V / δ ^ 2) / ε < N := hN₀.trans_le (by exact_mod_cast hN)
    have hN0 : (0 : ℝ) < N := lt_trans (by positivity) h1
    refine ⟨by exact_mod_cast hN0, ?_⟩
    have h2 : exp (-(N * δ)) ≤ 1 / (N * δ) := by
      rw [exp_neg, ← one_div]
      exact one_div_le_one_div_of_le (by positivity) (by linarith [add_one_le_exp ((N : ℝ) * δ)])
    have h3 : 1 / (N * δ) + V / (N * δ ^ 2) = (1 / δ + V / δ ^ 2) / N := by field_simp
    rw [div_lt_iff₀ hε, mul_comm, ← div_lt_iff₀ hN0] at h1
    linarith
  constructor
  · intro R hR ε hε
    obtain ⟨δ, hδ⟩ : ∃ δ, δ = (C - R * log base.val) / 2 := ⟨_, rfl⟩
    have hδ0 : 0 < δ := by rw [hδ, hcC]; nlinarith
    obtain ⟨N₀, hN₀⟩ := hlarge δ hδ0 (ε / 2) (by linarith)
    refine ⟨N₀, fun N hN M hM => ?_⟩
    obtain ⟨hN0, hsmall⟩ := hN₀ N hN
    rw [hpow] at hM
    obtain ⟨x, A, h1, h2⟩ := achieve hr hP hmax V hV (M := M) hN0 δ (ε / 2) hδ0 (by
      refine lt_of_le_of_lt ?_ hsmall
      refine add_le_add ?_ (le_refl _)
      rw [div_le_iff₀ (exp_pos _), ← exp_add]
      refine hM.trans (exp_le_exp.mpr (le_of_eq ?_))
      rw [← hC, hδ]; ring)
    classical
    -- decode to the message whose region contains the received word
    refine ⟨x, fun l => if h : ∃ w, ∃ y ∈ A w, l = List.ofFn fun k : Fin N => (y k).val then some h.choose else none, fun w => ?_⟩
    rw [messageError_eq P hP T hT]
    have h3 : ∑ y ∈ A w, blockLaw P (x w) y ≤ ∑ y : Fin N → Fin b with
        (if h : ∃ w, ∃ y' ∈ A w, (List.ofFn fun k : Fin N => (y k).val) = List.ofFn fun k : Fin N => (y' k).val then some h.choose else none) = some w,
        blockLaw P (x w) y := by
      refine Finset.sum_le_sum_of_subset_of_nonneg (fun y hy => ?_) fun y _ _ => blockLaw_nonneg hP _ _
      simp only [Finset.mem_filter, Finset.mem_univ, true_and]
      have hex : ∃ w, ∃ y' ∈ A w, (List.ofFn fun k : Fin N => (y k).val) = List.ofFn fun k : Fin N => (y' k).val := ⟨w, y, hy, rfl⟩
      rw [dif_pos hex]
      obtain ⟨y', hy', he⟩ := hex.choose_spec
      have hyy : y = y' := by
        rw [List.ofFn_inj] at he
        exact funext fun k => Fin.ext (congrFun he k)
      by_contra hne
      rw [Option.some.injEq] at hne
      exact Finset.disjoint_left.mp (h1 _ _ hne) hy' (hyy ▸ hy)
    have := h2 w
    linarith
  · intro R hR ε hε
    obtain ⟨δ, hδ⟩ : ∃ δ, δ = (R * log base.val - C) / 2 := ⟨_, rfl⟩
    have hδ0 : 0 < δ := by rw [hδ, hcC]; nlinarith
    obtain ⟨N₀, hN₀⟩ := hlarge δ hδ0 ε hε
    refine ⟨N₀, fun N hN M hM x g => ?_⟩
    obtain ⟨hN0, hsmall⟩ := hN₀ N hN
    rw [hpow] at hM
    have hM0 : (0 : ℝ) < M := (exp_pos _).trans_le hM
    obtain ⟨hac, hD, -⟩ := kkt hr hP hmax
    have h1 := converse hP (out_pmf hr hP) hac C (fun i => hC ▸ hD i) V hV hN0 x (fun y => g (List.ofFn fun k : Fin N => (y k).val)) δ hδ0
    simp only [messageError_eq P hP T hT, Finset.sum_sub_distrib, Finset.sum_const, Finset.card_univ, Fintype.card_fin, nsmul_eq_mul, mul_one]
    have h2 : exp (N * (C + δ)) ≤ M * exp (-(N * δ)) := by
      have : exp (N * (C + δ)) = exp (N * (R * log base.val)) * exp (-(N * δ)) := by
        rw [← exp_add]; congr 1; rw [hδ]; ring
      rw [this]
      exact mul_le_mul_of_nonneg_right hM (exp_pos _).le
    rw [lt_div_iff₀ hM0]
    nlinarith

/-- The words received from the channels have the product law given by the transition matrix. -/
theorem C120_block_law (p : ℝ) (hp : validProbability p = true) (P : Fin a → Fin b → ℝ) (hP : validChannelMatrix P = true) :
    Realises (bscMatrix p) (fun l => some (bscTransmit p l)) ∧ Realises (becMatrix p) (fun l => some (becTransmit p l)) ∧
    Realises (zMatrix p) (fun l => some (zTransmit p l)) ∧ Realises P fun l => (dmcTransmit P l).map (List.map Fin.val) :=
  ⟨bsc_realises p hp, bec_realises p hp, z_realises p hp, dmc_realises P hP⟩

/-- `BinarySymmetricChannel.capacity()` separates the rates at which reliable communication is possible from those at which it is not. -/
theorem C120_bsc (p : ℝ) (hp : validProbability p = true) (base : LogBase) (hb : 1 < base.val) :
    ∃ c, bscCapacity p base = some c ∧ (∀ R < c, Reliable (fun l => some (bscTransmit p l)) 2 base.val R) ∧
      ∀ R > c, Hopeless (fun l => some (bscTransmit p l)) 2 base.val R := by
  obtain ⟨c, h1, h2⟩ := C87_bsc p hp base hb
  have hp' := hp
  simp only [validProbability, Bool.and_eq_true, decide_eq_true_iff] at hp'
  exact ⟨c, h1, coding_theorem _ (bsc_rows p hp'.1 hp'.2) _ (bsc_realises p hp) base hb c h2⟩

/-- The same for `BinaryErasureChannel.capacity()`. -/
theorem C120_bec (p : ℝ) (hp : validProbability p = true) (base : LogBase) (hb : 1 < base.val) :
    ∃ c, becCapacity p base = some c ∧ (∀ R < c, Reliable (fun l => some (becTransmit p l)) 2 base.val R) ∧
      ∀ R > c, Hopeless (fun l => some (becTransmit p l)) 2 base.val R := by
  obtain ⟨c, h1, h2⟩ := C87_bec p hp base hb
  have hp' := hp
  simp only [validProbability, Bool.and_eq_true, decide_eq_true_iff] at hp'
  exact ⟨c, h1, coding_theorem _ (bec_rows p hp'.1 hp'.2) _ (bec_realises p hp) base hb c h2⟩

/-- The same for `ZChannel.capacity()`. -/
theorem C120_z (p : ℝ) (hp : validProbability p = true) (base : LogBase) (hb : 1 < base.val) :
    ∃ c, zCapacity p base = some c ∧ (∀ R < c, Reliable (fun l => some (zTransmit p l)) 2 base.val R) ∧
      ∀ R > c, Hopeless (fun l => some (zTransmit p l)) 2 base.val R := by
  obtain ⟨c, h1, h2⟩ := C87_z p hp base hb
  have hp' := hp
  simp only [validProbability, Bool.and_eq_true, decide_eq_true_iff] at hp'
  exact ⟨c, h1, coding_theorem _ (z_rows p hp'.1 hp'.2) _ (z_realises p hp) base hb c h2⟩

/-- `DiscreteMemorylessChannel.capacity()` (an iteration that stops early): every rate below the value returned is reliable, every rate above
the value plus `log n / k` is hopeless, `k` being the number of passes made; and there is an exact threshold in between. -/
theorem C120_dmc (P : Fin a → Fin b → ℝ) (hP : validChannelMatrix P = true) (ha : 0 < a) (base : LogBase) (hb : 1 < base.val) (maxIter : Nat)
    (hm : 0 < maxIter) (tol : ℝ) :
    ∃ (v c : ℝ) (k : Nat) (last prev : Fin a → ℝ), dmcCapacity maxIter tol P base = some v ∧ mutualInformation last P base = some v ∧
      last = arimotoStep P prev ∧ 1 ≤ k ∧ (k = maxIter ∨ ∀ i, |last i - prev i| ≤ tol) ∧ v ≤ c ∧ c ≤ v + logb base.val a / k ∧
      (∀ R < c, Reliable (fun l => (dmcTransmit P l).map (List.map Fin.val)) a base.val R) ∧
      ∀ R > c, Hopeless (fun l => (dmcTransmit P l).map (List.map Fin.val)) a base.val R := by
  have hP' := (channel_iff P).mp hP
  have hv := base_valid base hb
  obtain ⟨v, k, last, prev, h1, h2, h3, h4, h5, h6, h7⟩ := C85_passes P hP ha base hb maxIter hm tol
  obtain ⟨r, hr, hmax⟩ := exists_max P ha
  have hc := greatest_of_nats P hP' base hb (I r P) hmax r hr rfl
  obtain ⟨v', h1', hmem, -⟩ := C85_bounds P hP ha base hb maxIter tol
  rw [h1, Option.some.injEq] at h1'
  subst h1'
  exact ⟨v, _, k, last, prev, h1, h5, h6, h2, h7, hc.2 hmem, h4 _ hc.1, coding_theorem P hP' _ (dmc_realises P hP) base hb _ hc⟩

/-- Non-vacuity: a channel, a base, and a positive capacity (so that there are reliable rates with more than one message). -/
example : validProbability (1 / 10 : ℝ) = true ∧ 1 < (LogBase.num 2).val ∧ becCapacity (1 / 10) (LogBase.num 2) = some (9 / 10) ∧
    validChannelMatrix (zMatrix (1 / 10 : ℝ)) = true := by
  refine ⟨by simp [validProbability]; norm_num, by norm_num [LogBase.val], ?_, ?_⟩
  · rw [becCapacity, if_pos (base_valid _ (by norm_num [LogBase.val])), LogBase.val, logb_self_eq_one one_lt_two]; norm_num
  · exact (channel_iff _).mpr (z_rows _ (by norm_num) (by norm_num))

end Komm
