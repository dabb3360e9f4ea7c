import Verif.Props.C129_Sessions
import Mathlib.Probability.StrongLaw
import Mathlib.Probability.Moments.SubGaussian
/-! C130: Monte-Carlo simulations: an experiment (any program of calls) repeated again and again in one session. -/
namespace Komm.Session
open MeasureTheory ProbabilityTheory Komm.MarkovChain Set Filter Topology Function

/-- Repeat an experiment: `τ`, which is `L` statements long and sees only its own responses, again and again. -/
def repeated (τ : Program) (L : ℕ) : Program := fun past => τ (past.drop (past.length / L * L))

/-- The responses of the `k`-th experiment, given all the responses. -/
def experiment (L : ℕ) (y : ℕ → List ℕ) (k : ℕ) : List (List ℕ) := (List.range L).map fun j => y (k * L + j)

/-- The probability that one experiment has the responses `b`, according to the laws of the single calls. -/
noncomputable def experimentProb (τ : Program) (L : ℕ) (objs : List RandomObject) (b : List (List ℕ)) : ℝ :=
  if b.length = L then transcriptProb τ [] objs b else 0

/-- An experiment: at least one statement, all of them calls, legal whatever the responses. -/
structure IsExperiment (τ : Program) (L : ℕ) (objs : List RandomObject) : Prop where
  pos : 0 < L
  calls : ∀ past, ∃ k c, τ past = .call k c
  measurable : ∀ past, (τ past).Measurable
  legal : LegalProgram τ L [] objs

section
variable {τ : Program} {L : ℕ} {objs : List RandomObject}

theorem objectsAfter_calls (h : ∀ past, ∃ k c, τ past = .call k c) (past : List (List ℕ)) (objs : List RandomObject) : objectsAfter objs (τ past) = objs := by
  obtain ⟨k, c, h⟩ := h past
  rw [h]; rfl

theorem transcriptProb_append (h : ∀ past, ∃ k c, τ past = .call k c) (ys zs : List (List ℕ)) : ∀ past, transcriptProb τ past objs (ys ++ zs) =
    transcriptProb τ past objs ys * transcriptProb τ (past ++ ys) objs zs := by
  induction ys with
  | nil => intro past; simp [transcriptProb]
  | cons y ys ih =>
    intro past
    rw [List.cons_append, transcriptProb, transcriptProb, objectsAfter_calls h, ih, mul_assoc]
    simp

theorem repeated_at (hL : 0 < L) {past p : List (List ℕ)} {k : ℕ} (hk : past.length = k * L) (hp : p.length < L) : repeated τ L (past ++ p) = τ p := by
  have : (past ++ p).length / L * L = past.length := by
    rw [List.length_append, hk, add_comm, Nat.add_mul_div_right _ _ hL, Nat.div_eq_of_lt hp, zero_add]
  rw [repeated, this, List.drop_left]

theorem repeated_calls (h : ∀ past, ∃ k c, τ past = .call k c) (past : List (List ℕ)) : ∃ k c, repeated τ L past = .call k c := h _

theorem transcriptProb_repeated (h : IsExperiment τ L objs) {past : List (List ℕ)} {k : ℕ} (hk : past.length = k * L) (ys : List (List ℕ)) : ∀ p : List (List ℕ),
    p.length + ys.length ≤ L → transcriptProb (repeated τ L) (past ++ p) objs ys = transcriptProb τ p objs ys := by
  induction ys with
  | nil => intro p _; rfl
  | cons y ys ih =>
    intro p hp
    simp only [List.length_cons] at hp
    rw [transcriptProb, transcriptProb, objectsAfter_calls (repeated_calls h.calls), objectsAfter_calls h.calls, repeated_at h.pos hk (by omega), List.append_assoc,
      ih (p ++ [y]) (by simp; omega)]

theorem transcriptProb_blocks (h : IsExperiment τ L objs) (bs : List (List (List ℕ))) (hb : ∀ b ∈ bs, b.length = L) : ∀ (past : List (List ℕ)) (k : ℕ), past.length = k * L →
    transcriptProb (repeated τ L) past objs bs.flatten = (bs.map fun b => experimentProb τ L objs b).prod := by
  induction bs with
  | nil => intro past k _; rfl
  | cons b bs ih =>
    intro past k hk
    have hbL := hb b (by simp)
    have h1 := transcriptProb_repeated h hk b [] (by simp [hbL])
    rw [List.append_nil] at h1
    rw [List.flatten_cons, transcriptProb_append (repeated_calls h.calls), h1, ih (fun b' hb' => hb b' (List.mem_cons_of_mem _ hb')) (past ++ b) (k + 1) (by
      rw [List.length_append, hk, hbL]; ring), List.map_cons, List.prod_cons, experimentProb, if_pos hbL]

theorem legal_repeated (h : IsExperiment τ L objs) (n : ℕ) : ∀ (past p : List (List ℕ)) (k : ℕ), past.length = k * L → p.length < L → LegalProgram τ (L - p.length) p objs →
    LegalProgram (repeated τ L) n (past ++ p) objs := by
  induction n with
  | zero => intro past p k _ _ _; trivial
  | succ n ih =>
    intro past p k hk hp hl
    obtain ⟨m, hm⟩ : ∃ m, L - p.length = m + 1 := ⟨L - p.length - 1, by omega⟩
    rw [hm] at hl
    obtain ⟨h1, h2⟩ := hl
    rw [objectsAfter_calls h.calls] at h2
    refine ⟨by rw [repeated_at h.pos hk hp]; exact h1, fun y => ?_⟩
    rw [objectsAfter_calls (repeated_calls h.calls)]
    by_cases hlast : p.length + 1 < L
    · rw [List.append_assoc]
      refine ih past (p ++ [y]) k hk (by simpa using hlast) ?_
      have : L - (p ++ [y]).length = m := by simp; omega
      rw [this]; exact h2 y
    · have := ih (past ++ p ++ [y]) [] (k + 1) (by simp only [List.length_append, List.length_cons, List.length_nil, hk]; rw [add_mul]; omega) (by simpa using h.pos)
        (by simpa using h.legal)
      rwa [List.append_nil] at this

theorem runs_prefix {ω : Randomness} {σ : Program} (ys zs : List (List ℕ)) : ∀ (past : List (List ℕ)) (w : World), Runs ω σ past w (ys ++ zs) → Runs ω σ past w ys := by
  induction ys with
  | nil => intro past w _; trivial
  | cons y ys ih => rintro past w ⟨w', h1, h2⟩; exact ⟨w', h1, ih _ _ h2⟩

/-- All the responses of a session of `n` statements, when it completes. -/
noncomputable def responses (σ : Program) (w : World) (n : ℕ) (ω : Randomness) : List (List ℕ) :=
  open Classical in if h : ∃ ys, ys.length = n ∧ Runs ω σ [] w ys then h.choose else []

theorem responses_eq {σ : Program} {w : World} {n : ℕ} {ω : Randomness} {ys : List (List ℕ)} (hl : ys.length = n) (hr : Runs ω σ [] w ys) : responses σ w n ω = ys := by
  have h : ∃ ys, ys.length = n ∧ Runs ω σ [] w ys := ⟨ys, hl, hr⟩
  rw [responses, dif_pos h]
  exact C129_deterministic ω σ _ [] w ys (h.choose_spec.1.trans hl.symm) h.choose_spec.2 hr

theorem responses_spec {σ : Program} {w : World} {n : ℕ} {ω : Randomness} (h : ∃ ys, ys.length = n ∧ Runs ω σ [] w ys) :
    (responses σ w n ω).length = n ∧ Runs ω σ [] w (responses σ w n ω) := by
  obtain ⟨ys, h1, h2⟩ := h
  rw [responses_eq h1 h2]; exact ⟨h1, h2⟩

local instance transcriptSpace : MeasurableSpace (List (List ℕ)) := ⊤
local instance transcriptDiscrete : DiscreteMeasurableSpace (List (List ℕ)) := ⟨fun _ => trivial⟩

theorem responses_measurable {σ : Program} (hσ : ∀ past, (σ past).Measurable) (w : World) (n : ℕ) : Measurable (responses σ w n) := by
  have hne : ∀ ys : List (List ℕ), ys.length = n → ys ≠ [] → MeasurableSet (responses σ w n ⁻¹' {ys}) := by
    intro ys hl hys
    have : responses σ w n ⁻¹' {ys} = {ω | Runs ω σ [] w ys} := by
      ext ω
      simp only [mem_preimage, mem_singleton_iff, mem_setOf_eq]
      constructor
      · intro h
        by_cases hex : ∃ ys, ys.length = n ∧ Runs ω σ [] w ys
        · rw [← h]; exact (responses_spec hex).2
        · rw [responses, dif_neg hex] at h; exact absurd h.symm hys
      · intro h; exact responses_eq hl h
    rw [this]
    exact (runs_law σ hσ ys [] w).1
  have hbad : ∀ ys : List (List ℕ), ys.length ≠ n → ys ≠ [] → responses σ w n ⁻¹' {ys} = ∅ := by
    intro ys hl hys
    ext ω
    simp only [mem_preimage, mem_singleton_iff, mem_empty_iff_false, iff_false]
    intro h
    by_cases hex : ∃ ys, ys.length = n ∧ Runs ω σ [] w ys
    · exact hl (h ▸ (responses_spec hex).1)
    · rw [responses, dif_neg hex] at h; exact hys h.symm
  have hall : ∀ ys : List (List ℕ), ys ≠ [] → MeasurableSet (responses σ w n ⁻¹' {ys}) := fun ys hys => by
    by_cases hl : ys.length = n
    · exact hne ys hl hys
    · rw [hbad ys hl hys]; exact MeasurableSet.empty
  refine measurable_to_countable' fun ys => ?_
  by_cases hys : ys = []
  · subst hys
    have : responses σ w n ⁻¹' {[]} = (⋃ ys : {ys : List (List ℕ) // ys ≠ []}, responses σ w n ⁻¹' {ys.1})ᶜ := by
      ext ω
      simp only [mem_preimage, mem_singleton_iff, mem_compl_iff, mem_iUnion, Subtype.exists, exists_prop, not_exists, not_and]
      exact ⟨fun h ys hys h' => hys (h' ▸ h), fun h => by_contra fun hne => h _ hne rfl⟩
    rw [this]
    exact (MeasurableSet.iUnion fun ys : {ys : List (List ℕ) // ys ≠ []} => hall ys.1 ys.2).compl
  · exact hall ys hys

/-- The session goes on for ever. -/
def Endless (σ : Program) (w : World) (ω : Randomness) : Prop := ∀ n, ∃ ys, ys.length = n ∧ Runs ω σ [] w ys

/-- The `n`-th response. -/
noncomputable def response (σ : Program) (w : World) (ω : Randomness) (n : ℕ) : List ℕ := (responses σ w (n + 1) ω).getD n []

theorem responses_take {σ : Program} {w : World} {ω : Randomness} (h : Endless σ w ω) {m n : ℕ} (hmn : m ≤ n) : (responses σ w n ω).take m = responses σ w m ω := by
  obtain ⟨h1, h2⟩ := responses_spec (h n)
  refine (responses_eq (by simp [h1, hmn]) ?_).symm
  refine runs_prefix _ ((responses σ w n ω).drop m) _ _ ?_
  rw [List.take_append_drop]; exact h2

theorem responses_stream {σ : Program} {w : World} {ω : Randomness} (h : Endless σ w ω) (n : ℕ) : responses σ w n ω = (List.range n).map (response σ w ω) := by
  refine List.ext_getElem (by simp [(responses_spec (h n)).1]) fun i h1 h2 => ?_
  have hi : i < n := by simpa using h2
  rw [List.getElem_map, List.getElem_range, response, ← responses_take h (show i + 1 ≤ n by omega), List.getD_eq_getElem _ _ (by simp; omega), List.getElem_take]

theorem response_unique {σ : Program} {w : World} {ω : Randomness} (y : ℕ → List ℕ) (hy : ∀ n, Runs ω σ [] w ((List.range n).map y)) : y = response σ w ω := by
  funext n
  rw [response, responses_eq (by simp) (hy (n + 1)), List.getD_eq_getElem _ _ (by simp)]
  simp

/-- The responses of the `k`-th experiment of a session. -/
noncomputable def blockOf (τ : Program) (L : ℕ) (w : World) (k : ℕ) (ω : Randomness) : List (List ℕ) :=
  (responses (repeated τ L) w ((k + 1) * L) ω).drop (k * L)

theorem blockOf_measurable (hτ : ∀ past, (τ past).Measurable) (w : World) (k : ℕ) : Measurable (blockOf τ L w k) :=
  (Measurable.of_discrete (f := fun l : List (List ℕ) => l.drop (k * L))).comp (responses_measurable (fun past => hτ _) w _)

theorem blockOf_eq {w : World} {ω : Randomness} (h : Endless (repeated τ L) w ω) (k : ℕ) : blockOf τ L w k ω = experiment L (response (repeated τ L) w ω) k := by
  rw [blockOf, responses_stream h, experiment, add_mul, one_mul, List.range_add, List.map_append, List.drop_left' (by simp), List.map_map]
  rfl

theorem experiments_flatten (y : ℕ → List ℕ) (L n : ℕ) : ((List.range n).map (experiment L y)).flatten = (List.range (n * L)).map y := by
  induction n with
  | zero => simp
  | succ n ih =>
    rw [List.range_succ, List.map_append, List.flatten_append, ih, add_mul, one_mul, List.range_add, List.map_append, List.map_map]
    simp [experiment]

theorem flatten_inj {α : Type} {L : ℕ} : ∀ {as bs : List (List α)}, as.length = bs.length → (∀ a ∈ as, a.length = L) → (∀ b ∈ bs, b.length = L) → as.flatten = bs.flatten → as = bs
  | [], [], _, _, _, _ => rfl
  | [], _ :: _, h, _, _, _ => by simp at h
  | _ :: _, [], h, _, _, _ => by simp at h
  | a :: as, b :: bs, h, ha, hb, hf => by
    rw [List.flatten_cons, List.flatten_cons] at hf
    obtain ⟨h1, h2⟩ := List.append_inj hf ((ha a (by simp)).trans (hb b (by simp)).symm)
    rw [h1, flatten_inj (by simpa using h) (fun a h => ha a (List.mem_cons_of_mem _ h)) (fun b h => hb b (List.mem_cons_of_mem _ h)) h2]

theorem endless_ae (h : IsExperiment τ L objs) (w : World) (hw : w.objects.map Prod.fst = objs) (ho : ∀ o ∈ w.objects, o.1.accepted) :
    ∀ᵐ ω ∂generators, Endless (repeated τ L) w ω := by
  unfold Endless
  rw [ae_all_iff]
  intro n
  refine completes _ n [] w ho ?_
  have := legal_repeated h n [] [] 0 (by simp) (by simpa using h.pos) (by simpa using h.legal)
  rw [hw]; simpa using this

theorem experiment_length (L : ℕ) (y : ℕ → List ℕ) (k : ℕ) : (experiment L y k).length = L := by simp [experiment]

theorem blocks_joint (h : IsExperiment τ L objs) (w : World) (hw : w.objects.map Prod.fst = objs) (ho : ∀ o ∈ w.objects, o.1.accepted) (n : ℕ) (b : Fin n → List (List ℕ)) :
    generators.real {ω | ∀ k : Fin n, blockOf τ L w k ω = b k} = ∏ k, experimentProb τ L objs (b k) := by
  by_cases hb : ∀ k, (b k).length = L
  · have e : {ω | ∀ k : Fin n, blockOf τ L w k ω = b k} =ᵐ[generators] {ω | Runs ω (repeated τ L) [] w (List.ofFn b).flatten} := by
      filter_upwards [endless_ae h w hw ho] with ω hω
      refine propext ?_
      show (∀ k : Fin n, blockOf τ L w k ω = b k) ↔ Runs ω (repeated τ L) [] w (List.ofFn b).flatten
      have hlen : (List.ofFn b).flatten.length = n * L := by
        rw [List.length_flatten, List.map_ofFn, List.sum_ofFn]
        simp [hb]
      have hblocks : responses (repeated τ L) w (n * L) ω = ((List.range n).map fun k => blockOf τ L w k ω).flatten := by
        rw [responses_stream hω, ← experiments_flatten]
        congr 1
        exact List.map_congr_left fun k _ => (blockOf_eq hω k).symm
      have hrange : (List.range n).map (fun k => blockOf τ L w k ω) = List.ofFn fun k : Fin n => blockOf τ L w k ω :=
        List.ext_getElem (by simp) fun i h1 h2 => by simp
      rw [hrange] at hblocks
      constructor
      · intro hk
        have : (fun k : Fin n => blockOf τ L w k ω) = b := funext hk
        rw [this] at hblocks
        rw [← hblocks]
        exact (responses_spec (hω _)).2
      · intro hr
        have h1 := responses_eq hlen hr
        rw [hblocks] at h1
        have h2 := flatten_inj (L := L) (by simp) (fun a ha => by
          obtain ⟨k, rfl⟩ := List.mem_ofFn.mp ha
          show (blockOf τ L w k ω).length = L
          rw [blockOf_eq hω, experiment_length]) (fun a ha => by obtain ⟨k, rfl⟩ := List.mem_ofFn.mp ha; exact hb k) h1
        exact fun k => congrFun (List.ofFn_injective h2) k
    rw [measureReal_congr e, C129_law (repeated τ L) (fun past => h.measurable _), hw, transcriptProb_blocks h _ (fun a ha => by
      obtain ⟨k, rfl⟩ := List.mem_ofFn.mp ha; exact hb k) [] 0 (by simp), List.map_ofFn, List.prod_ofFn]
    rfl
  · push Not at hb
    obtain ⟨k, hk⟩ := hb
    rw [Finset.prod_eq_zero (Finset.mem_univ k) (by rw [experimentProb, if_neg hk])]
    refine (measureReal_eq_zero_iff (measure_ne_top _ _)).mpr ?_
    have := endless_ae h w hw ho
    refine measure_mono_null (fun ω hω => ?_) this
    intro hend
    have h1 : blockOf τ L w k ω = b k := hω k
    rw [blockOf_eq hend] at h1
    exact hk (h1 ▸ experiment_length _ _ _)

theorem block_prob (h : IsExperiment τ L objs) (w : World) (hw : w.objects.map Prod.fst = objs) (ho : ∀ o ∈ w.objects, o.1.accepted) (b : List (List ℕ)) :
    generators.real {ω | blockOf τ L w 0 ω = b} = experimentProb τ L objs b := by
  have := blocks_joint h w hw ho 1 fun _ => b
  simpa using this

/-- The law of one experiment. -/
noncomputable def experimentLaw (τ : Program) (L : ℕ) (w : World) : Measure (List (List ℕ)) := generators.map (blockOf τ L w 0)

theorem blocks_law' (h : IsExperiment τ L objs) (w : World) (hw : w.objects.map Prod.fst = objs) (ho : ∀ o ∈ w.objects, o.1.accepted) (n : ℕ) :
    generators.map (fun ω (k : Fin n) => blockOf τ L w k ω) = Measure.pi fun _ : Fin n => experimentLaw τ L w := by
  have hm : ∀ k, Measurable (blockOf τ L w k) := fun k => blockOf_measurable h.measurable w k
  have : IsProbabilityMeasure (experimentLaw τ L w) := Measure.isProbabilityMeasure_map (hm 0).aemeasurable
  refine Measure.ext_of_singleton fun b => ?_
  have hmn : Measurable fun ω (k : Fin n) => blockOf τ L w k ω := measurable_pi_lambda _ fun k => hm k
  rw [Measure.map_apply hmn (measurableSet_singleton b), Measure.pi_singleton]
  have h1 : (fun ω (k : Fin n) => blockOf τ L w k ω) ⁻¹' {b} = {ω | ∀ k : Fin n, blockOf τ L w k ω = b k} := by ext ω; simp [funext_iff]
  have h2 : ∀ k, experimentLaw τ L w {b k} = ENNReal.ofReal (experimentProb τ L objs (b k)) := fun k => by
    rw [experimentLaw, Measure.map_apply (hm 0) (measurableSet_singleton _), ← block_prob h w hw ho, measureReal_def, ENNReal.ofReal_toReal (measure_ne_top _ _)]
    rfl
  have h3 : ∀ k, 0 ≤ experimentProb τ L objs (b k) := fun k => by rw [← block_prob h w hw ho]; exact measureReal_nonneg
  rw [h1]
  simp only [h2]
  rw [← ENNReal.ofReal_prod_of_nonneg fun k _ => h3 k, ← blocks_joint h w hw ho n b, measureReal_def, ENNReal.ofReal_toReal (measure_ne_top _ _)]

theorem blocks_indep (h : IsExperiment τ L objs) (w : World) (hw : w.objects.map Prod.fst = objs) (ho : ∀ o ∈ w.objects, o.1.accepted) :
    iIndepFun (fun k => blockOf τ L w k) generators ∧ ∀ k, generators.map (blockOf τ L w k) = experimentLaw τ L w := by
  have hm : ∀ k, Measurable (blockOf τ L w k) := fun k => blockOf_measurable h.measurable w k
  have : IsProbabilityMeasure (experimentLaw τ L w) := Measure.isProbabilityMeasure_map (hm 0).aemeasurable
  have hlaw : ∀ k, generators.map (blockOf τ L w k) = experimentLaw τ L w := fun k => by
    have h1 := blocks_law' h w hw ho (k + 1)
    have h2 := (measurePreserving_eval (fun _ : Fin (k + 1) => experimentLaw τ L w) (Fin.last k)).map_eq
    rw [← h1, Measure.map_map (g := Function.eval (Fin.last k)) (measurable_pi_apply _) (measurable_pi_lambda _ fun k : Fin _ => hm k)] at h2
    exact h2
  refine ⟨?_, hlaw⟩
  have hfin : ∀ n, iIndepFun (fun k : Fin n => blockOf τ L w k) generators := fun n => by
    rw [iIndepFun_iff_map_fun_eq_pi_map fun k : Fin n => (hm k).aemeasurable, blocks_law' h w hw ho n]
    congr 1
    funext k
    exact (hlaw k).symm
  rw [iIndepFun_iff_finset]
  intro S
  obtain ⟨n, hn⟩ : ∃ n, ∀ k ∈ S, k < n := ⟨S.sup id + 1, fun k hk => Nat.lt_succ_of_le (Finset.le_sup (f := id) hk)⟩
  exact (hfin n).precomp (g := fun k : S => (⟨k.1, hn k.1 k.2⟩ : Fin n)) fun a b hab => by
    simp only [Fin.mk.injEq] at hab
    exact Subtype.ext hab

theorem experimentLaw_real (h : IsExperiment τ L objs) (w : World) (hw : w.objects.map Prod.fst = objs) (ho : ∀ o ∈ w.objects, o.1.accepted) (b : List (List ℕ)) :
    (experimentLaw τ L w).real {b} = experimentProb τ L objs b := by
  rw [experimentLaw, map_measureReal_apply (blockOf_measurable h.measurable w 0) (measurableSet_singleton _), ← block_prob h w hw ho]
  rfl

theorem experimentProb_nonneg (h : IsExperiment τ L objs) (w : World) (hw : w.objects.map Prod.fst = objs) (ho : ∀ o ∈ w.objects, o.1.accepted) (b : List (List ℕ)) :
    0 ≤ experimentProb τ L objs b := by
  rw [← experimentLaw_real h w hw ho]; exact measureReal_nonneg

theorem experiment_mean (h : IsExperiment τ L objs) (w : World) (hw : w.objects.map Prod.fst = objs) (ho : ∀ o ∈ w.objects, o.1.accepted) {F : List (List ℕ) → ℝ} {μ : ℝ}
    (hF : HasSum (fun b => experimentProb τ L objs b * F b) μ) :
    Integrable (fun ω => F (blockOf τ L w 0 ω)) generators ∧ ∫ ω, F (blockOf τ L w 0 ω) ∂generators = μ := by
  have hm : Measurable (blockOf τ L w 0) := blockOf_measurable h.measurable w 0
  have : IsProbabilityMeasure (experimentLaw τ L w) := Measure.isProbabilityMeasure_map hm.aemeasurable
  have hFm : Measurable F := Measurable.of_discrete
  have hint : Integrable F (experimentLaw τ L w) := by
    refine ⟨hFm.aestronglyMeasurable, ?_⟩
    rw [HasFiniteIntegral, lintegral_countable']
    have e : ∀ b, ‖F b‖ₑ * experimentLaw τ L w {b} = ENNReal.ofReal |experimentProb τ L objs b * F b| := fun b => by
      rw [abs_mul, abs_of_nonneg (experimentProb_nonneg h w hw ho b), mul_comm, ENNReal.ofReal_mul (experimentProb_nonneg h w hw ho b), ← experimentLaw_real h w hw ho,
        measureReal_def, ENNReal.ofReal_toReal (measure_ne_top _ _), Real.enorm_eq_ofReal_abs]
    simp only [e]
    exact hF.summable.abs.tsum_ofReal_lt_top
  refine ⟨(integrable_map_measure hFm.aestronglyMeasurable hm.aemeasurable).mp hint, ?_⟩
  rw [← integral_map (μ := generators) (φ := blockOf τ L w 0) hm.aemeasurable (f := F) hFm.aestronglyMeasurable]
  show ∫ y, F y ∂experimentLaw τ L w = μ
  rw [integral_countable hint, ← hF.tsum_eq]
  simp only [experimentLaw_real h w hw ho, smul_eq_mul]

/-- The probabilities of the responses of one experiment sum to one. -/
theorem C130_total (h : IsExperiment τ L objs) (ho : ∀ o ∈ objs, o.accepted) : HasSum (experimentProb τ L objs) 1 := by
  obtain ⟨w, hw⟩ : ∃ w : World, w = ⟨0, objs.map fun o => (o, 0), fun _ => 0⟩ := ⟨_, rfl⟩
  have hw1 : w.objects.map Prod.fst = objs := by rw [hw, List.map_map]; exact List.map_id _
  have hw2 : ∀ o ∈ w.objects, o.1.accepted := by
    intro o hm
    rw [hw] at hm
    obtain ⟨o', h1, rfl⟩ := List.mem_map.mp hm
    exact ho o' h1
  have : IsProbabilityMeasure (experimentLaw τ L w) := Measure.isProbabilityMeasure_map (blockOf_measurable h.measurable w 0).aemeasurable
  have h1 : ∑' b, experimentLaw τ L w {b} = 1 := by
    have := lintegral_countable' (μ := experimentLaw τ L w) fun _ => 1
    simpa using this.symm
  have h2 : HasSum (fun b => (experimentLaw τ L w {b}).toReal) (∑' b, experimentLaw τ L w {b}).toReal := by
    rw [ENNReal.tsum_toReal_eq fun b => measure_ne_top _ _]
    exact ENNReal.hasSum_toReal (by rw [h1]; exact ENNReal.one_ne_top)
  rw [h1, ENNReal.toReal_one] at h2
  exact h2.congr_fun fun b => (experimentLaw_real h w hw1 hw2 b).symm

/-- Monte-Carlo simulation is consistent.  If an experiment is repeated for ever in one session, whatever generators its objects keep (shared or not), then almost
surely the average of any quantity computed from the responses of each experiment tends to its expectation under the laws of the single calls. -/
theorem C130_strong_law (h : IsExperiment τ L objs) (w : World) (hw : w.objects.map Prod.fst = objs) (ho : ∀ o ∈ w.objects, o.1.accepted) (F : List (List ℕ) → ℝ) (μ : ℝ)
    (hF : HasSum (fun b => experimentProb τ L objs b * F b) μ) :
    ∀ᵐ ω ∂generators, (∃! y : ℕ → List ℕ, ∀ n, Runs ω (repeated τ L) [] w ((List.range n).map y)) ∧
      ∀ y : ℕ → List ℕ, (∀ n, Runs ω (repeated τ L) [] w ((List.range n).map y)) →
        Tendsto (fun n : ℕ => (∑ k ∈ Finset.range n, F (experiment L y k)) / n) atTop (𝓝 μ) := by
  obtain ⟨hint, hmean⟩ := experiment_mean h w hw ho hF
  obtain ⟨hind, hlaw⟩ := blocks_indep h w hw ho
  have hm : ∀ k, Measurable (blockOf τ L w k) := fun k => blockOf_measurable h.measurable w k
  have hFm : Measurable F := Measurable.of_discrete
  have hsl := strong_law_ae_real (fun k ω => F (blockOf τ L w k ω)) hint (fun i j hij => (hind.indepFun hij).comp hFm hFm)
    (fun k => (⟨(hm k).aemeasurable, (hm 0).aemeasurable, (hlaw k).trans (hlaw 0).symm⟩ : IdentDistrib (blockOf τ L w k) (blockOf τ L w 0) generators generators).comp hFm)
  filter_upwards [hsl, endless_ae h w hw ho] with ω h1 h2
  rw [hmean] at h1
  have hr : ∀ n, Runs ω (repeated τ L) [] w ((List.range n).map (response (repeated τ L) w ω)) := fun n => by
    rw [← responses_stream h2]; exact (responses_spec (h2 n)).2
  refine ⟨⟨_, hr, fun y hy => response_unique y hy⟩, fun y hy => ?_⟩
  rw [response_unique y hy]
  simpa only [blockOf_eq h2] using h1

/-- The accuracy of a simulation: after `N` experiments, the average of a quantity with values in `[0, 1]` (an error rate, say) is off by `ε` or more with probability at
most `2 exp (-2 N ε ^ 2)`. -/
theorem C130_accuracy (h : IsExperiment τ L objs) (w : World) (hw : w.objects.map Prod.fst = objs) (ho : ∀ o ∈ w.objects, o.1.accepted) (F : List (List ℕ) → ℝ) (μ : ℝ)
    (hF : HasSum (fun b => experimentProb τ L objs b * F b) μ) (h01 : ∀ b, 0 ≤ F b ∧ F b ≤ 1) (N : ℕ) (hN : 0 < N) (ε : ℝ) (hε : 0 ≤ ε) :
    generators.real {ω | ∃ y : ℕ → List ℕ, Runs ω (repeated τ L) [] w ((List.range (N * L)).map y) ∧ ε ≤ |(∑ k ∈ Finset.range N, F (experiment L y k)) / N - μ|} ≤
      2 * Real.exp (-2 * N * ε ^ 2) := by
  obtain ⟨hint, hmean⟩ := experiment_mean h w hw ho hF
  obtain ⟨hind, hlaw⟩ := blocks_indep h w hw ho
  have hm : ∀ k, Measurable (blockOf τ L w k) := fun k => blockOf_measurable h.measurable w k
  have hFm : Measurable F := Measurable.of_discrete
  have hN' : (0 : ℝ) < N := by exact_mod_cast hN
  have hmk : ∀ k, ∫ ω, F (blockOf τ L w k ω) ∂generators = μ := fun k => by
    rw [← hmean]
    exact ((⟨(hm k).aemeasurable, (hm 0).aemeasurable, (hlaw k).trans (hlaw 0).symm⟩ : IdentDistrib (blockOf τ L w k) (blockOf τ L w 0) generators generators).comp hFm).integral_eq
  have hsub : ∀ k, HasSubgaussianMGF (fun ω => F (blockOf τ L w k ω) - μ) ((‖(1 : ℝ) - 0‖₊ / 2) ^ 2) generators := fun k => by
    have := hasSubgaussianMGF_of_mem_Icc (μ := generators) (X := fun ω => F (blockOf τ L w k ω)) (a := 0) (b := 1) (hFm.comp (hm k)).aemeasurable (ae_of_all _ fun ω => h01 _)
    rwa [hmk k] at this
  have hc : (((‖(1 : ℝ) - 0‖₊ / 2) ^ 2 : NNReal) : ℝ) = 1 / 4 := by norm_num
  have hexp : -(N * ε) ^ 2 / (2 * N * (((‖(1 : ℝ) - 0‖₊ / 2) ^ 2 : NNReal) : ℝ)) = -2 * N * ε ^ 2 := by rw [hc]; field_simp; ring
  have hi1 : iIndepFun (fun k ω => F (blockOf τ L w k ω) - μ) generators := hind.comp (fun _ b => F b - μ) fun _ => Measurable.of_discrete
  have hi2 : iIndepFun (fun k ω => -(F (blockOf τ L w k ω) - μ)) generators := hind.comp (fun _ b => -(F b - μ)) fun _ => Measurable.of_discrete
  have b1 := HasSubgaussianMGF.measure_sum_range_ge_le_of_iIndepFun hi1 (n := N) (fun k _ => hsub k) (ε := N * ε) (by positivity)
  have b2 := HasSubgaussianMGF.measure_sum_range_ge_le_of_iIndepFun hi2 (n := N) (fun k _ => (hsub k).neg) (ε := N * ε) (by positivity)
  rw [hexp] at b1 b2
  have hsubset : ({ω | ∃ y : ℕ → List ℕ, Runs ω (repeated τ L) [] w ((List.range (N * L)).map y) ∧ ε ≤ |(∑ k ∈ Finset.range N, F (experiment L y k)) / N - μ|} : Set Randomness) ⊆
      {ω | N * ε ≤ ∑ k ∈ Finset.range N, (F (blockOf τ L w k ω) - μ)} ∪ {ω | N * ε ≤ ∑ k ∈ Finset.range N, -(F (blockOf τ L w k ω) - μ)} := by
    rintro ω ⟨y, hy, he⟩
    have hblock : ∀ k ∈ Finset.range N, blockOf τ L w k ω = experiment L y k := fun k hk => by
      have hk' : k < N := Finset.mem_range.mp hk
      have hle : (k + 1) * L ≤ N * L := Nat.mul_le_mul_right L hk'
      obtain ⟨d, hd⟩ := Nat.exists_eq_add_of_le hle
      have hpre : Runs ω (repeated τ L) [] w ((List.range ((k + 1) * L)).map y) := by
        rw [hd, List.range_add, List.map_append] at hy
        exact runs_prefix _ _ _ _ hy
      rw [blockOf, responses_eq (by simp) hpre, experiment, add_mul, one_mul, List.range_add, List.map_append, List.drop_left' (by simp), List.map_map]
      rfl
    have hsum : (∑ k ∈ Finset.range N, F (experiment L y k)) / N - μ = (∑ k ∈ Finset.range N, (F (blockOf τ L w k ω) - μ)) / N := by
      rw [Finset.sum_congr rfl fun k hk => congrArg F (hblock k hk).symm, Finset.sum_sub_distrib]
      simp only [Finset.sum_const, Finset.card_range, nsmul_eq_mul]
      field_simp
    rw [hsum, abs_div, abs_of_pos hN', le_div_iff₀ hN', le_abs'] at he
    simp only [mem_union, mem_setOf_eq, Finset.sum_neg_distrib]
    rcases he with he | he
    · right; linarith
    · left; linarith
  refine (measureReal_mono hsubset (measure_ne_top _ _)).trans ((measureReal_union_le _ _).trans ?_)
  linarith

theorem event_prob (h : IsExperiment τ L objs) (w : World) (hw : w.objects.map Prod.fst = objs) (ho : ∀ o ∈ w.objects, o.1.accepted) (S : List (List ℕ) → Prop) [DecidablePred S] :
    HasSum (fun b => experimentProb τ L objs b * (if S b then 1 else 0)) (generators.real {ω | S (blockOf τ L w 0 ω)}) := by
  have hm : Measurable (blockOf τ L w 0) := blockOf_measurable h.measurable w 0
  have : IsProbabilityMeasure (experimentLaw τ L w) := Measure.isProbabilityMeasure_map hm.aemeasurable
  have h1 : experimentLaw τ L w {b | S b} = ∑' b, (if S b then experimentLaw τ L w {b} else 0) := by
    rw [← lintegral_indicator_one (MeasurableSet.of_discrete), lintegral_countable']
    refine tsum_congr fun b => ?_
    by_cases hb : S b
    · rw [if_pos hb, indicator_of_mem (show b ∈ {b | S b} from hb)]; simp
    · rw [if_neg hb, indicator_of_notMem (show b ∉ {b | S b} from hb)]; simp
  have h2 : HasSum (fun b => (if S b then experimentLaw τ L w {b} else 0).toReal) (∑' b, (if S b then experimentLaw τ L w {b} else 0)).toReal := by
    rw [ENNReal.tsum_toReal_eq fun b => by split; exacts [measure_ne_top _ _, ENNReal.zero_ne_top]]
    exact ENNReal.hasSum_toReal (by rw [← h1]; exact measure_ne_top _ _)
  rw [← h1, ← measureReal_def, experimentLaw, map_measureReal_apply hm MeasurableSet.of_discrete] at h2
  refine h2.congr_fun fun b => ?_
  rw [← experimentLaw_real h w hw ho]
  by_cases hb : S b
  · rw [if_pos hb, if_pos hb, mul_one]; rfl
  · rw [if_neg hb, if_neg hb, mul_zero]; rfl

theorem mean_of_tails (h : IsExperiment τ L objs) (w : World) (hw : w.objects.map Prod.fst = objs) (ho : ∀ o ∈ w.objects, o.1.accepted) (X : List (List ℕ) → ℕ) (T : ℝ)
    (hT : HasSum (fun m : ℕ => generators.real {ω | m < X (blockOf τ L w 0 ω)}) T) : HasSum (fun b => experimentProb τ L objs b * X b) T := by
  have hnn : ∀ q : ℕ × List (List ℕ), 0 ≤ experimentProb τ L objs q.2 * (if q.1 < X q.2 then (1 : ℝ) else 0) := fun q =>
    mul_nonneg (experimentProb_nonneg h w hw ho _) (by split <;> norm_num)
  have hrow' : ∀ m : ℕ, HasSum (fun b => experimentProb τ L objs b * (if m < X b then (1 : ℝ) else 0)) (generators.real {ω | m < X (blockOf τ L w 0 ω)}) := fun m =>
    event_prob h w hw ho fun b => m < X b
  have hs : Summable fun q : ℕ × List (List ℕ) => experimentProb τ L objs q.2 * (if q.1 < X q.2 then (1 : ℝ) else 0) := by
    rw [summable_prod_of_nonneg hnn]
    exact ⟨fun m => (hrow' m).summable, by simpa only [(hrow' _).tsum_eq] using hT.summable⟩
  have htot : HasSum (fun q : ℕ × List (List ℕ) => experimentProb τ L objs q.2 * (if q.1 < X q.2 then (1 : ℝ) else 0)) T := by
    have h1 := hs.hasSum.prod_fiberwise hrow'
    rw [hT.unique h1]
    exact hs.hasSum
  have hswap : HasSum (fun q : List (List ℕ) × ℕ => experimentProb τ L objs q.1 * (if q.2 < X q.1 then (1 : ℝ) else 0)) T := by
    have := (Equiv.prodComm (List (List ℕ)) ℕ).hasSum_iff.mpr htot
    exact this
  refine hswap.prod_fiberwise fun b => ?_
  have hfin : HasSum (fun m : ℕ => if m < X b then (1 : ℝ) else 0) (∑ m ∈ Finset.range (X b), if m < X b then (1 : ℝ) else 0) :=
    hasSum_sum_of_ne_finset_zero fun m hm => if_neg (by simpa using hm)
  rw [Finset.sum_congr rfl fun m hm => if_pos (Finset.mem_range.mp hm)] at hfin
  simp only [Finset.sum_const, Finset.card_range, nsmul_eq_mul, mul_one] at hfin
  exact hfin.mul_left _

/-! ### Repeated simulations of an absorbing chain -/

theorem until_law {n : ℕ} (P : TMat ℝ n) (i : Fin n) (w : World) (g m : ℕ) (Q : Outcome (List (Fin n)) → Prop) :
    generators.real {ω | Q (simulateUntilAbsorption P i ((answers ω w g m).map Prod.fst))} = (uniformDraws m).real {u | Q (simulateUntilAbsorption P i (List.ofFn u))} := by
  have hmeas : MeasurableSet {u : Fin m → ℝ | Q (simulateUntilAbsorption P i (List.ofFn u))} := by
    have := measurable_factor (fun (u : Fin m → ℝ) (k : Fin m) (i : Fin n) => rngChoice (P i) (u k)) (fun b => by
      have : (fun (u : Fin m → ℝ) (k : Fin m) (i : Fin n) => rngChoice (P i) (u k)) ⁻¹' {b} =
          ⋂ k, (fun u : Fin m → ℝ => u k) ⁻¹' ((fun u i => rngChoice (P i) u) ⁻¹' {b k}) := by ext u; simp [funext_iff]
      rw [this]
      exact MeasurableSet.iInter fun k => (measurable_pi_apply k) (choices_sig P (b k)))
      (fun u => Q (simulateUntilAbsorption P i (List.ofFn u))) (fun u v h => by
        simp only [simulateUntilAbsorption]
        rw [until_factors P (List.ofFn u) (List.ofFn v) (by rw [List.map_ofFn, List.map_ofFn]; exact congrArg List.ofFn h)]) True
    simpa using this
  rw [measureReal_def, measureReal_def, ← ((fst_law m).comp (block_law g (w.used g) m)).measure_preimage hmeas.nullMeasurableSet]
  congr 2
  ext ω
  simp only [mem_setOf_eq, mem_preimage, answers_eq, map_fst_ofFn]
  rfl

theorem until_within {n : ℕ} {P : TMat ℝ n} {i : Fin n} {ω : Randomness} {w : World} {g : ℕ} {y : List ℕ}
    (h : respond (.chain n P) (.untilAbsorption i) (answers ω w g (y.length - 1)) = some y) (m : ℕ) :
    (simulateUntilAbsorption P i ((answers ω w g m).map Prod.fst) = .running ↔ m < y.length - 1) ∧
    ∀ a : Fin n, (∃ out, simulateUntilAbsorption P i ((answers ω w g m).map Prod.fst) = .returns out ∧ out.getLast? = some a) ↔ y.length - 1 ≤ m ∧ y.getLast? = some a.val := by
  obtain ⟨hi, l, ha, hl, hy⟩ := respond_until h
  have hlen : y.length - 1 = l.length := by rw [hy]; simp
  rw [hlen] at hl ⊢
  have hlast : ∀ a : Fin n, ((i :: l).getLast? = some a ↔ y.getLast? = some a.val) := fun a => by
    have : y = (i :: l).map Fin.val := hy
    rw [this, List.getLast?_map]
    cases (i :: l).getLast? with
    | none => simp
    | some b => simp [Fin.ext_iff]
  by_cases hm : l.length ≤ m
  · obtain ⟨r, hr⟩ := answers_prefix ω w g hm
    have h1 : simulateUntilAbsorption P i ((answers ω w g m).map Prod.fst) = .returns (i :: l) := by
      rw [simulateUntilAbsorption, if_neg (by simpa using ha), hr, List.map_append, until_prefix P _ _ _ _ hl]
    rw [h1]
    refine ⟨by simp [hm], fun a => ?_⟩
    rw [← hlast]
    simp [hm]
  · have h1 : simulateUntilAbsorption P i ((answers ω w g m).map Prod.fst) = .running := by
      rw [simulateUntilAbsorption, if_neg (by simpa using ha)]
      cases hc : untilLoop P i ((answers ω w g m).map Prod.fst) with
      | none => rfl
      | some l' =>
        exfalso
        obtain ⟨r, hr⟩ := answers_prefix ω w g (not_le.mp hm).le
        have h2 := until_prefix P _ (r.map Prod.fst) _ _ hc
        rw [← List.map_append, ← hr, hl] at h2
        have h3 := (until_take P _ _ _ hc).1
        simp only [List.length_map, answers, List.length_range] at h3
        rw [← Option.some.inj h2] at h3
        omega
    rw [h1]
    refine ⟨by simpa using hm, fun a => ?_⟩
    simp [hm]

theorem experiment_one (y : ℕ → List ℕ) (k : ℕ) : experiment 1 y k = [y k] := by simp [experiment]

/-- `simulate_until_absorption` called again and again: almost surely the average number of steps tends to `mean_time_to_absorption()` and the fraction of the
trajectories that end in each absorbing state to `absorption_probabilities()`. -/
theorem C130_absorption {n : ℕ} (P : TMat ℝ n) (hP : validTransitionMatrix P = true) (ha : isAbsorbing P = true) :
    ∃ T B, meanTimeToAbsorption P = some T ∧ absorptionProbabilities P = some B ∧
      ∀ (i : Transient P) (w : World) (k g : ℕ), w.objects[k]? = some (.chain n P, g) → (∀ o ∈ w.objects, o.1.accepted) →
        ∀ᵐ ω ∂generators, (∃! y : ℕ → List ℕ, ∀ N, Runs ω (fun _ => .call k (.untilAbsorption i.1)) [] w ((List.range N).map y)) ∧
          ∀ y : ℕ → List ℕ, (∀ N, Runs ω (fun _ => .call k (.untilAbsorption i.1)) [] w ((List.range N).map y)) →
            Tendsto (fun N : ℕ => (∑ t ∈ Finset.range N, (((y t).length - 1 : ℕ) : ℝ)) / N) atTop (𝓝 (T i)) ∧
            ∀ a : Absorbing P, Tendsto (fun N : ℕ => (((Finset.range N).filter fun t => (y t).getLast? = some a.1.val).card : ℝ) / N) atTop (𝓝 (B i a)) := by
  classical
  obtain ⟨-, hrun, ⟨T, hT, hTs⟩, B, hB, hBs⟩ := C121_until_absorption P hP ha
  refine ⟨T, B, hT, hB, fun i w k g hk ho => ?_⟩
  obtain ⟨τ, hτ⟩ : ∃ τ : Program, τ = fun _ => .call k (.untilAbsorption i.1) := ⟨_, rfl⟩
  have hexp : IsExperiment τ 1 (w.objects.map Prod.fst) := by
    subst hτ
    exact ⟨one_pos, fun _ => ⟨_, _, rfl⟩, fun _ => trivial, ⟨.chain n P, by simp [hk], i.1.2, ha⟩, fun _ => trivial⟩
  have hrep : repeated τ 1 = τ := by subst hτ; rfl
  have hab : ∀ᵐ ω ∂generators, ∀ m,
      (simulateUntilAbsorption P i ((answers ω w g m).map Prod.fst) = .running ↔ m < ((blockOf τ 1 w 0 ω).headD []).length - 1) ∧
      ∀ a : Fin n, (∃ out, simulateUntilAbsorption P i ((answers ω w g m).map Prod.fst) = .returns out ∧ out.getLast? = some a) ↔
        ((blockOf τ 1 w 0 ω).headD []).length - 1 ≤ m ∧ ((blockOf τ 1 w 0 ω).headD []).getLast? = some a.val := by
    filter_upwards [endless_ae hexp w rfl ho] with ω hω m
    have h1 := (responses_spec (hω 1)).2
    rw [responses_stream hω] at h1
    rw [blockOf_eq hω, experiment_one]
    obtain ⟨w', h1, -⟩ := h1
    rw [hrep] at h1 ⊢
    have h2 : ∀ y, Step ω w (τ []) y w' → ∃ o g, w.objects[k]? = some (o, g) ∧ respond o (.untilAbsorption i.1) (answers ω w g (y.length - 1)) = some y := by
      subst hτ
      rintro y ⟨o, g, h1, h2, -⟩
      exact ⟨o, g, h1, h2⟩
    obtain ⟨o, g', h3, h4⟩ := h2 _ h1
    rw [hk] at h3
    obtain ⟨rfl, rfl⟩ := Prod.mk.inj (Option.some.inj h3)
    exact until_within h4 m
  have hmean : HasSum (fun b => experimentProb τ 1 (w.objects.map Prod.fst) b * (((b.headD []).length - 1 : ℕ) : ℝ)) (T i) := by
    refine mean_of_tails hexp w rfl ho (fun b => (b.headD []).length - 1) _ ?_
    refine (hTs i).congr_fun fun m => ?_
    rw [← until_law P i w g m fun o => o = .running]
    refine measureReal_congr ?_
    filter_upwards [hab] with ω hω
    exact propext (hω m).1.symm
  have hfrac : ∀ a : Absorbing P, HasSum (fun b => experimentProb τ 1 (w.objects.map Prod.fst) b * (if (b.headD []).getLast? = some a.1.val then 1 else 0)) (B i a) := fun a => by
    have h1 := event_prob hexp w rfl ho fun b => (b.headD []).getLast? = some a.1.val
    have h2 : generators.real {ω | ((blockOf τ 1 w 0 ω).headD []).getLast? = some a.1.val} = B i a := by
      refine tendsto_nhds_unique ?_ (hBs i a)
      have h3 : ∀ m, (uniformDraws m).real {u | ∃ out, simulateUntilAbsorption P i (List.ofFn u) = .returns out ∧ out.getLast? = some (a : Fin n)} =
          generators.real {ω | ((blockOf τ 1 w 0 ω).headD []).length - 1 ≤ m ∧ ((blockOf τ 1 w 0 ω).headD []).getLast? = some a.1.val} := fun m => by
        rw [← until_law P i w g m fun o => ∃ out, o = .returns out ∧ out.getLast? = some (a : Fin n)]
        refine measureReal_congr ?_
        filter_upwards [hab] with ω hω
        exact propext ((hω m).2 a)
      have h4 : ∀ m, (uniformDraws m).real {u | simulateUntilAbsorption P i (List.ofFn u) = .running} =
          generators.real {ω | m < ((blockOf τ 1 w 0 ω).headD []).length - 1} := fun m => by
        rw [← until_law P i w g m fun o => o = .running]
        refine measureReal_congr ?_
        filter_upwards [hab] with ω hω
        exact propext (hω m).1
      have h5 := hrun i
      simp only [h4] at h5
      simp only [h3]
      have hlow : Tendsto (fun m => generators.real {ω | ((blockOf τ 1 w 0 ω).headD []).getLast? = some a.1.val} - generators.real {ω | m < ((blockOf τ 1 w 0 ω).headD []).length - 1})
          atTop (𝓝 (generators.real {ω | ((blockOf τ 1 w 0 ω).headD []).getLast? = some a.1.val})) := by
        simpa using h5.const_sub (generators.real {ω | ((blockOf τ 1 w 0 ω).headD []).getLast? = some a.1.val})
      refine tendsto_of_tendsto_of_tendsto_of_le_of_le hlow tendsto_const_nhds (fun m => ?_) fun m => ?_
      · have : ({ω | ((blockOf τ 1 w 0 ω).headD []).getLast? = some a.1.val} : Set Randomness) ⊆
            {ω | ((blockOf τ 1 w 0 ω).headD []).length - 1 ≤ m ∧ ((blockOf τ 1 w 0 ω).headD []).getLast? = some a.1.val} ∪ {ω | m < ((blockOf τ 1 w 0 ω).headD []).length - 1} := by
          intro ω hω
          by_cases hm : m < ((blockOf τ 1 w 0 ω).headD []).length - 1
          · exact Or.inr hm
          · exact Or.inl ⟨not_lt.mp hm, hω⟩
        have := (measureReal_mono this (measure_ne_top _ _)).trans (measureReal_union_le (μ := generators) _ _)
        show _ - _ ≤ _
        linarith
      · exact measureReal_mono (fun ω hω => hω.2) (measure_ne_top _ _)
    rw [← h2]; exact h1
  have hfin : ∀ᵐ ω ∂generators, ∀ a : Absorbing P, ∀ y : ℕ → List ℕ, (∀ N, Runs ω (repeated τ 1) [] w ((List.range N).map y)) →
      Tendsto (fun N : ℕ => (∑ t ∈ Finset.range N, (if ((experiment 1 y t).headD []).getLast? = some a.1.val then (1 : ℝ) else 0)) / N) atTop (𝓝 (B i a)) := by
    rw [ae_all_iff]
    intro a
    filter_upwards [C130_strong_law hexp w rfl ho _ _ (hfrac a)] with ω hω
    exact hω.2
  filter_upwards [C130_strong_law hexp w rfl ho _ _ hmean, hfin] with ω h1 h2
  rw [hrep] at h1 h2
  rw [hτ] at h1 h2
  refine ⟨h1.1, fun y hy => ⟨?_, fun a => ?_⟩⟩
  · simpa only [experiment_one, List.headD_cons] using h1.2 y hy
  · have h3 := h2 a y hy
    simp only [experiment_one, List.headD_cons, Finset.sum_boole] at h3
    exact h3

/-! ### Simulations of a link -/

/-- The discrete channels, with their transition matrices. -/
inductive IsChannel : RandomObject → (a b : ℕ) → (Fin a → Fin b → ℝ) → Prop
  | bsc (p : ℝ) (h : validProbability p = true) : IsChannel (.bsc p) 2 2 (bscMatrix p)
  | bec (p : ℝ) (h : validProbability p = true) : IsChannel (.bec p) 2 3 (becMatrix p)
  | zch (p : ℝ) (h : validProbability p = true) : IsChannel (.zch p) 2 2 (zMatrix p)
  | dmc {a b : ℕ} (P : Fin a → Fin b → ℝ) (h : validChannelMatrix P = true) : IsChannel (.dmc a b P) a b P

theorem IsChannel.accepted {o : RandomObject} {a b : ℕ} {W : Fin a → Fin b → ℝ} (h : IsChannel o a b W) : o.accepted := by cases h <;> assumption

theorem IsChannel.legal {o : RandomObject} {a b : ℕ} {W : Fin a → Fin b → ℝ} (h : IsChannel o a b W) {N : ℕ} (x : Fin N → Fin a) :
    CallLegal o (.transmit (List.ofFn fun k : Fin N => (x k).val)) := by
  have : ∀ v ∈ List.ofFn fun k : Fin N => (x k).val, v < a := fun v hv => by
    obtain ⟨k, rfl⟩ := List.mem_ofFn.mp hv; exact (x k).2
  cases h <;> exact this

theorem IsChannel.law {o : RandomObject} {a b : ℕ} {W : Fin a → Fin b → ℝ} (h : IsChannel o a b W) {N : ℕ} (x : Fin N → Fin a) (y : Fin N → Fin b) :
    alone o (.transmit (List.ofFn fun k : Fin N => (x k).val)) (List.ofFn fun k : Fin N => (y k).val) = ∏ k, W (x k) (y k) := by
  cases h with
  | bsc p h => exact C129_calls.2.1 p h x y
  | bec p h => exact C129_calls.2.2.1 p h x y
  | zch p h => exact C129_calls.2.2.2.1 p h x y
  | dmc _ h => exact C129_calls.2.2.2.2.1 _ h x y

theorem IsChannel.rows {o : RandomObject} {a b : ℕ} {W : Fin a → Fin b → ℝ} (h : IsChannel o a b W) (i : Fin a) : ∑ j, W i j = 1 := by
  cases h with
  | bsc p h => fin_cases i <;> simp [bscMatrix, Fin.sum_univ_two]
  | bec p h => fin_cases i <;> simp [becMatrix, Fin.sum_univ_three]
  | zch p h => fin_cases i <;> simp [zMatrix, Fin.sum_univ_two]
  | dmc _ h =>
    simp only [validChannelMatrix, Bool.and_eq_true, decide_eq_true_eq] at h
    exact h.2 i

/-- One frame: the source emits `k` symbols, they are encoded and sent through the channel. -/
def linkProgram {a n : ℕ} (k : ℕ) (enc : List ℕ → Fin n → Fin a) : Program
  | [] => .call 0 (.emit k)
  | u :: _ => .call 1 (.transmit (List.ofFn fun j : Fin n => (enc u j).val))

theorem link_mean {q k a b n : ℕ} (p : Fin q → ℝ) (hp : validPmf p = true) (ch : RandomObject) (W : Fin a → Fin b → ℝ) (hW : IsChannel ch a b W)
    (enc : List ℕ → Fin n → Fin a) :
    IsExperiment (linkProgram k enc) 2 [.source q p, ch] ∧ ∀ F : List (List ℕ) → ℝ,
      HasSum (fun B => experimentProb (linkProgram k enc) 2 [.source q p, ch] B * F B) (∑ u : Fin k → Fin q, ∑ r : Fin n → Fin b,
        (∏ i, p (u i)) * (∏ j, W (enc (List.ofFn fun i : Fin k => (u i).val) j) (r j)) *
          F [List.ofFn fun i : Fin k => (u i).val, List.ofFn fun j : Fin n => (r j).val]) := by
  classical
  have hexp : IsExperiment (linkProgram k enc) 2 [.source q p, ch] := by
    refine ⟨two_pos, fun past => ?_, fun past => ?_, ⟨.source q p, rfl, trivial⟩, fun y => ⟨⟨ch, rfl, hW.legal _⟩, fun _ => trivial⟩⟩
    · cases past with
      | nil => exact ⟨_, _, rfl⟩
      | cons u past => exact ⟨_, _, rfl⟩
    · cases past with
      | nil => trivial
      | cons u past => trivial
  have hacc : ∀ o ∈ [RandomObject.source q p, ch], o.accepted := by
    intro o ho
    simp only [List.mem_cons, List.not_mem_nil, or_false] at ho
    rcases ho with rfl | rfl
    · exact hp
    · exact hW.accepted
  have htot := C130_total hexp hacc
  have hval : ∀ (u : Fin k → Fin q) (r : Fin n → Fin b),
      experimentProb (linkProgram k enc) 2 [.source q p, ch] [List.ofFn fun i : Fin k => (u i).val, List.ofFn fun j : Fin n => (r j).val] =
      (∏ i, p (u i)) * ∏ j, W (enc (List.ofFn fun i : Fin k => (u i).val) j) (r j) := fun u r => by
    rw [experimentProb, if_pos (by simp)]
    show alone _ _ _ * (alone _ _ _ * 1) = _
    rw [C129_calls.1 p hp u, hW.law, mul_one]
  have hnn : ∀ B, 0 ≤ experimentProb (linkProgram k enc) 2 [.source q p, ch] B := fun B => by
    refine experimentProb_nonneg hexp ⟨0, [(.source q p, 0), (ch, 0)], fun _ => 0⟩ rfl (fun o ho => ?_) B
    simp only [List.mem_cons, List.not_mem_nil, or_false] at ho
    rcases ho with rfl | rfl
    · exact hp
    · exact hW.accepted
  obtain ⟨φ, hφ⟩ : ∃ φ : (Fin k → Fin q) × (Fin n → Fin b) → List (List ℕ),
      φ = fun x => [List.ofFn fun i : Fin k => (x.1 i).val, List.ofFn fun j : Fin n => (x.2 j).val] := ⟨_, rfl⟩
  have hinj : Function.Injective φ := fun x x' h => by
    rw [hφ] at h
    simp only [List.cons.injEq, and_true] at h
    have h1 := List.ofFn_injective h.1
    have h2 := List.ofFn_injective h.2
    exact Prod.ext (funext fun i => Fin.ext (congrFun h1 i)) (funext fun j => Fin.ext (congrFun h2 j))
  obtain ⟨S, hS⟩ : ∃ S : Finset (List (List ℕ)), S = Finset.univ.image φ := ⟨_, rfl⟩
  have hsum : ∀ G : List (List ℕ) → ℝ, ∑ B ∈ S, G B = ∑ u : Fin k → Fin q, ∑ r : Fin n → Fin b, G (φ (u, r)) := fun G => by
    rw [hS, Finset.sum_image hinj.injOn, Fintype.sum_prod_type]
  have hone : ∑ B ∈ S, experimentProb (linkProgram k enc) 2 [.source q p, ch] B = 1 := by
    rw [hsum]
    simp only [hφ, hval]
    simp only [← Finset.mul_sum]
    have h1 : ∀ u : Fin k → Fin q, ∑ r : Fin n → Fin b, ∏ j, W (enc (List.ofFn fun i : Fin k => (u i).val) j) (r j) = 1 := fun u => by
      have h2 := Finset.prod_univ_sum (fun _ : Fin n => (Finset.univ : Finset (Fin b))) fun j y => W (enc (List.ofFn fun i : Fin k => (u i).val) j) y
      simp only [Fintype.piFinset_univ] at h2
      rw [← h2]
      simp [hW.rows]
    simp only [h1, mul_one]
    have h2 := Finset.prod_univ_sum (fun _ : Fin k => (Finset.univ : Finset (Fin q))) fun _ y => p y
    simp only [Fintype.piFinset_univ] at h2
    rw [← h2]
    simp [((validPmf_iff p).mp hp).2]
  have hzero : ∀ B ∉ S, experimentProb (linkProgram k enc) 2 [.source q p, ch] B = 0 := fun B hB => by
    have h1 := sum_le_hasSum (insert B S) (fun B _ => hnn B) htot
    rw [Finset.sum_insert hB, hone] at h1
    linarith [hnn B]
  refine ⟨hexp, fun F => ?_⟩
  have h1 : HasSum (fun B => experimentProb (linkProgram k enc) 2 [.source q p, ch] B * F B) (∑ B ∈ S, experimentProb (linkProgram k enc) 2 [.source q p, ch] B * F B) :=
    hasSum_sum_of_ne_finset_zero fun B hB => by rw [hzero B hB, zero_mul]
  rw [hsum] at h1
  simp only [hφ, hval] at h1
  exact h1

/-- Simulating a link (source, encoder, discrete channel): if frames are sent for ever in one session, the average of any quantity computed from the message and the received word
(`1` for a decoding error, the number of wrong bits, ...) tends almost surely to its expectation under the product law; after `N` frames a quantity with values in `[0, 1]` is off by
`ε` or more with probability at most `2 exp (-2 N ε ^ 2)`. -/
theorem C130_link {q k a b n : ℕ} (p : Fin q → ℝ) (hp : validPmf p = true) (ch : RandomObject) (W : Fin a → Fin b → ℝ) (hW : IsChannel ch a b W)
    (enc : List ℕ → Fin n → Fin a) (F : List ℕ → List ℕ → ℝ) (g g' c : ℕ) (used : ℕ → ℕ) (μ : ℝ)
    (hμ : μ = ∑ u : Fin k → Fin q, ∑ r : Fin n → Fin b, (∏ i, p (u i)) * (∏ j, W (enc (List.ofFn fun i : Fin k => (u i).val) j) (r j)) *
      F (List.ofFn fun i : Fin k => (u i).val) (List.ofFn fun j : Fin n => (r j).val)) :
    (∀ᵐ ω ∂generators, (∃! y : ℕ → List ℕ, ∀ N, Runs ω (repeated (linkProgram k enc) 2) [] ⟨c, [(.source q p, g), (ch, g')], used⟩ ((List.range N).map y)) ∧
      ∀ y : ℕ → List ℕ, (∀ N, Runs ω (repeated (linkProgram k enc) 2) [] ⟨c, [(.source q p, g), (ch, g')], used⟩ ((List.range N).map y)) →
        Tendsto (fun N : ℕ => (∑ t ∈ Finset.range N, F (y (t * 2)) (y (t * 2 + 1))) / N) atTop (𝓝 μ)) ∧
    ((∀ u r, 0 ≤ F u r ∧ F u r ≤ 1) → ∀ N : ℕ, 0 < N → ∀ ε : ℝ, 0 ≤ ε →
      generators.real {ω | ∃ y : ℕ → List ℕ, Runs ω (repeated (linkProgram k enc) 2) [] ⟨c, [(.source q p, g), (ch, g')], used⟩ ((List.range (N * 2)).map y) ∧
        ε ≤ |(∑ t ∈ Finset.range N, F (y (t * 2)) (y (t * 2 + 1))) / N - μ|} ≤ 2 * Real.exp (-2 * N * ε ^ 2)) := by
  obtain ⟨hexp, hmean⟩ := link_mean (k := k) p hp ch W hW enc
  have hm := hmean fun B => F (B.getD 0 []) (B.getD 1 [])
  have hacc : ∀ o ∈ [(RandomObject.source q p, g), (ch, g')], o.1.accepted := by
    intro o ho
    simp only [List.mem_cons, List.not_mem_nil, or_false] at ho
    rcases ho with rfl | rfl
    · exact hp
    · exact hW.accepted
  have e : ∀ (y : ℕ → List ℕ) (t : ℕ), F ((experiment 2 y t).getD 0 []) ((experiment 2 y t).getD 1 []) = F (y (t * 2)) (y (t * 2 + 1)) := fun y t => by
    simp [experiment, List.range_succ]
  have hμ' : HasSum (fun B => experimentProb (linkProgram k enc) 2 [.source q p, ch] B * F (B.getD 0 []) (B.getD 1 [])) μ := by
    rw [hμ]; exact hm
  constructor
  · have := C130_strong_law hexp ⟨c, [(.source q p, g), (ch, g')], used⟩ rfl hacc _ μ hμ'
    simpa only [e] using this
  · intro h01 N hN ε hε
    have := C130_accuracy hexp ⟨c, [(.source q p, g), (ch, g')], used⟩ rfl hacc _ μ hμ' (fun B => h01 _ _) N hN ε hε
    simpa only [e] using this

end


/-! ### Concrete cases -/

theorem sum_one {M : Type} [AddCommMonoid M] (f : (Fin 1 → Fin 2) → M) : ∑ u, f u = f ![0] + f ![1] := by
  have h : (Finset.univ : Finset (Fin 1 → Fin 2)) = {![0], ![1]} := by decide
  rw [h, Finset.sum_pair (by decide)]

/-- Uncoded bits over `BinarySymmetricChannel(1/10)`, source and channel sharing a generator: the simulated bit error rate tends to `1/10`. -/
example : ∀ᵐ ω ∂generators, ∀ y : ℕ → List ℕ,
    (∀ N, Runs ω (repeated (linkProgram 1 fun u (_ : Fin 1) => if u = [1] then (1 : Fin 2) else 0) 2) []
      ⟨0, [(.source 2 fun _ => 1 / 2, 0), (.bsc (1 / 10), 0)], fun _ => 0⟩ ((List.range N).map y)) →
    Tendsto (fun N : ℕ => (∑ t ∈ Finset.range N, if y (t * 2) = y (t * 2 + 1) then (0 : ℝ) else 1) / N) atTop (𝓝 (1 / 10)) := by
  have h := (C130_link (q := 2) (k := 1) (fun _ => 1 / 2) (by rw [validPmf_iff]; norm_num) (.bsc (1 / 10)) _ (.bsc (1 / 10) (by simp [validProbability]; norm_num))
    (fun u (_ : Fin 1) => if u = [1] then (1 : Fin 2) else 0) (fun u r => if u = r then 0 else 1) 0 0 0 (fun _ => 0) (1 / 10) (by
      rw [sum_one]
      simp only [sum_one]
      simp [bscMatrix]
      norm_num)).1
  filter_upwards [h] with ω hω
  exact hω.2

/-! The hypotheses of `C130_absorption` are met by the gambler's-ruin chain at the end of `C82_Absorption`. -/

end Komm.Session
