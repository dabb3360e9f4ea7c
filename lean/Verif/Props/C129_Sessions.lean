import Verif.Model.Session
import Verif.Props.C121_Trajectories
import Verif.Props.C125_SimulatedChains
import Verif.Props.C103_GaussianChannel
/-! C129: objects that share a random generator are independent of one another, and a session can be repeated. -/
namespace Komm.Session
open MeasureTheory ProbabilityTheory Komm.MarkovChain Set

/-- The law of one answer of a generator: `random()` is uniform on `[0, 1)`, a normal sample is standard normal. -/
noncomputable def answerLaw : Measure (ℝ × ℝ) := (volume.restrict (Ico (0 : ℝ) 1)).prod (gaussianReal 0 1)

instance answerLaw_prob : IsProbabilityMeasure answerLaw := by unfold answerLaw; infer_instance

/-- The law of all the answers of all the generators: independent. -/
noncomputable def generators : Measure Randomness := Measure.infinitePi fun _ => answerLaw

instance generators_prob : IsProbabilityMeasure generators := by unfold generators; infer_instance

/-- The probability that a call returns `y`, if it is made with a generator of its own. -/
noncomputable def alone (o : RandomObject) (c : Call) (y : List ℕ) : ℝ :=
  (Measure.pi fun _ : Fin (c.requests y) => answerLaw).real {v | respond o c (List.ofFn v) = some y}

/-- The objects created so far. -/
def objectsAfter (objs : List RandomObject) : Command → List RandomObject
  | .new o _ => objs ++ [o]
  | _ => objs

/-- The probability of the response to one statement, every call having a generator of its own. -/
noncomputable def responseProb (objs : List RandomObject) : Command → List ℕ → ℝ
  | .set _, y => if y = [] then 1 else 0
  | .new o _, y => open Classical in if y = [] ∧ o.accepted then 1 else 0
  | .call k c, y => match objs[k]? with
    | some o => alone o c y
    | none => 0

/-- The probability of the responses `ys` to the statements of the program, every call having a generator of its own: the product. -/
noncomputable def transcriptProb (σ : Program) : List (List ℕ) → List RandomObject → List (List ℕ) → ℝ
  | _, _, [] => 1
  | past, objs, y :: ys => responseProb objs (σ past) y * transcriptProb σ (past ++ [y]) (objectsAfter objs (σ past)) ys

/-- The functions through which the session sees the output of Gaussian channels are measurable. -/
def Call.Measurable : Call → Prop
  | .transmitReal _ _ see => ∀ y, MeasurableSet {r | see r = y}
  | .transmitComplex _ _ see => ∀ y, MeasurableSet {r | see r = y}
  | _ => True

def Command.Measurable : Command → Prop
  | .call _ c => c.Measurable
  | _ => True

/-! ### Measurability -/

theorem measurable_factor {α β γ : Type} [MeasurableSpace α] [Countable β] (φ : α → β) (hφ : ∀ b, MeasurableSet (φ ⁻¹' {b})) (F : α → γ)
    (h : ∀ u v, φ u = φ v → F u = F v) (y : γ) : MeasurableSet {u | F u = y} := by
  have : {u | F u = y} = ⋃ b ∈ φ '' {u | F u = y}, φ ⁻¹' {b} := by
    ext u
    simp only [mem_setOf_eq, mem_iUnion, mem_image, mem_preimage, mem_singleton_iff, exists_prop]
    constructor
    · intro hu; exact ⟨φ u, ⟨u, hu, rfl⟩, rfl⟩
    · rintro ⟨b, ⟨v, hv, rfl⟩, hb⟩; rw [h u v hb]; exact hv
  rw [this]
  exact MeasurableSet.biUnion (to_countable _) fun b _ => hφ b

theorem measurable_list {β γ : Type} [Countable β] (s : ℝ → β) (hs : ∀ b, MeasurableSet (s ⁻¹' {b})) (F : List ℝ → γ)
    (hF : ∀ l l', l.map s = l'.map s → F l = F l') (m : ℕ) (y : γ) :
    MeasurableSet {v : Fin m → ℝ × ℝ | F ((List.ofFn v).map Prod.fst) = y} := by
  refine measurable_factor (fun (v : Fin m → ℝ × ℝ) (k : Fin m) => s (v k).1) (fun b => ?_) (fun v => F ((List.ofFn v).map Prod.fst)) (fun u v h => hF _ _ ?_) y
  · have : (fun (v : Fin m → ℝ × ℝ) (k : Fin m) => s (v k).1) ⁻¹' {b} = ⋂ k, {v | (v k).1 ∈ s ⁻¹' {b k}} := by
      ext v; simp [funext_iff]
    rw [this]
    exact MeasurableSet.iInter fun k => (measurable_fst.comp (measurable_pi_apply k)) (hs (b k))
  · rw [List.map_map, List.map_map, List.map_ofFn, List.map_ofFn]
    exact congrArg List.ofFn h

theorem choice_sig {q : ℕ} (p : Fin q → ℝ) (b : Option (Fin q)) : MeasurableSet (rngChoice p ⁻¹' {b}) := by
  cases b with
  | some j => exact choice_measurable p j
  | none =>
    have : rngChoice p ⁻¹' {none} = (⋃ j, {u | rngChoice p u = some j})ᶜ := by
      ext u
      simp only [mem_preimage, mem_singleton_iff, mem_compl_iff, mem_iUnion, mem_setOf_eq, not_exists]
      cases h : rngChoice p u with
      | none => simp
      | some j => simp
    rw [this]
    exact (MeasurableSet.iUnion fun j => choice_measurable p j).compl

theorem choices_sig {a q : ℕ} (P : Fin a → Fin q → ℝ) (b : Fin a → Option (Fin q)) :
    MeasurableSet ((fun u i => rngChoice (P i) u) ⁻¹' {b}) := by
  have : (fun u i => rngChoice (P i) u) ⁻¹' {b} = ⋂ i, rngChoice (P i) ⁻¹' {b i} := by
    ext u; simp [funext_iff]
  rw [this]
  exact MeasurableSet.iInter fun i => choice_sig _ _

theorem lt_sig (p : ℝ) (b : Bool) : MeasurableSet ((fun u : ℝ => decide (u < p)) ⁻¹' {b}) := by
  cases b
  · have : (fun u : ℝ => decide (u < p)) ⁻¹' {false} = Ici p := by ext u; simp
    rw [this]; exact measurableSet_Ici
  · have : (fun u : ℝ => decide (u < p)) ⁻¹' {true} = Iio p := by ext u; simp
    rw [this]; exact measurableSet_Iio

theorem list_map_cases {α β : Type} {s : α → β} {P : List α → List α → Prop} (h0 : P [] [])
    (h1 : ∀ u v l l', s u = s v → l.map s = l'.map s → P l l' → P (u :: l) (v :: l')) : ∀ l l', l.map s = l'.map s → P l l'
  | [], [], _ => h0
  | [], _ :: _, h => by simp at h
  | _ :: _, [], h => by simp at h
  | u :: l, v :: l', h => by
    simp only [List.map_cons, List.cons.injEq] at h
    exact h1 u v l l' h.1 h.2 (list_map_cases h0 h1 l l' h.2)

theorem emit_factors {q : ℕ} (p : Fin q → ℝ) : ∀ l l' : List ℝ, l.map (rngChoice p) = l'.map (rngChoice p) → dmsEmit p l = dmsEmit p l' := by
  refine list_map_cases rfl fun u v l l' h _ ih => ?_
  rw [dmsEmit, dmsEmit] at ih ⊢
  rw [List.mapM_cons, List.mapM_cons, h, ih]

theorem zip_factors {β δ : Type} (s : ℝ → β) (f : ℕ × ℝ → δ) (hf : ∀ x u v, s u = s v → f (x, u) = f (x, v)) (l l' : List ℝ) (h : l.map s = l'.map s) :
    ∀ input : List ℕ, (input.zip l).map f = (input.zip l').map f := by
  revert l l'
  refine list_map_cases (fun input => by simp) fun u v l l' h _ ih input => ?_
  cases input with
  | nil => simp
  | cons x input => simp only [List.zip_cons_cons, List.map_cons]; rw [hf x u v h, ih]

theorem mapM_eq_map_id {α δ : Type} (f : α → Option δ) (l : List α) : l.mapM f = (l.map f).mapM id := by
  induction l with
  | nil => rfl
  | cons a l ih => rw [List.map_cons, List.mapM_cons, List.mapM_cons, ih]; rfl

theorem simulate_factors {n : ℕ} (P : TMat ℝ n) : ∀ l l' : List ℝ, l.map (fun u i => rngChoice (P i) u) = l'.map (fun u i => rngChoice (P i) u) →
    ∀ i, MarkovChain.simulate P i l = MarkovChain.simulate P i l' := by
  refine list_map_cases (fun i => rfl) fun u v l l' h _ ih i => ?_
  rw [MarkovChain.simulate, MarkovChain.simulate, show rngChoice (P i) u = rngChoice (P i) v from congrFun h i]
  simp only [ih]

theorem until_factors {n : ℕ} (P : TMat ℝ n) : ∀ l l' : List ℝ, l.map (fun u i => rngChoice (P i) u) = l'.map (fun u i => rngChoice (P i) u) →
    ∀ i, untilLoop P i l = untilLoop P i l' := by
  refine list_map_cases (fun i => rfl) fun u v l l' h _ ih i => ?_
  rw [untilLoop, untilLoop, show rngChoice (P i) u = rngChoice (P i) v from congrFun h i]
  simp only [ih]

theorem respond_measurable (o : RandomObject) (c : Call) (hc : c.Measurable) (m : ℕ) (y : List ℕ) :
    MeasurableSet {v : Fin m → ℝ × ℝ | respond o c (List.ofFn v) = some y} := by
  have hempty : MeasurableSet {v : Fin m → ℝ × ℝ | (none : Option (List ℕ)) = some y} := by simp
  cases o with
  | source q pmf =>
    cases c with
    | emit size =>
      exact measurable_list (rngChoice pmf) (choice_sig pmf) (fun l => (dmsEmit pmf l).map (List.map Fin.val))
        (fun l l' h => by simp only [emit_factors pmf l l' h]) m (some y)
    | _ => exact hempty
  | bsc p =>
    cases c with
    | transmit input =>
      refine measurable_list (fun u => decide (u < p)) (lt_sig p) (fun l => some (bscTransmit p (input.zip l))) (fun l l' h => ?_) m (some y)
      have := zip_factors _ (fun xu : ℕ × ℝ => (xu.1 + if xu.2 < p then 1 else 0) % 2) (fun x u v h => by simp only [decide_eq_decide] at h; simp only [h]) l l' h input
      exact congrArg some this
    | _ => exact hempty
  | bec e =>
    cases c with
    | transmit input =>
      refine measurable_list (fun u => decide (u < e)) (lt_sig e) (fun l => some (becTransmit e (input.zip l))) (fun l l' h => ?_) m (some y)
      have := zip_factors _ (fun xu : ℕ × ℝ => if xu.2 < e then 2 else xu.1) (fun x u v h => by simp only [decide_eq_decide] at h; simp only [h]) l l' h input
      exact congrArg some this
    | _ => exact hempty
  | zch p =>
    cases c with
    | transmit input =>
      refine measurable_list (fun u => decide (u < p)) (lt_sig p) (fun l => some (zTransmit p (input.zip l))) (fun l l' h => ?_) m (some y)
      have := zip_factors _ (fun xu : ℕ × ℝ => xu.1 * if xu.2 ≥ p then 1 else 0)
        (fun x u v h => by simp only [decide_eq_decide] at h; simp only [ge_iff_le, ← not_lt, h]) l l' h input
      exact congrArg some this
    | _ => exact hempty
  | dmc a b P =>
    cases c with
    | transmit input =>
      refine measurable_list (fun u i => rngChoice (P i) u) (choices_sig P) (fun l => (dmcTransmit P (input.zip l)).map (List.map Fin.val)) (fun l l' h => ?_) m (some y)
      have := zip_factors _ (fun xu : ℕ × ℝ => if h : xu.1 < a then rngChoice (P ⟨xu.1, h⟩) xu.2 else none)
        (fun x u v h => by dsimp only; split; exacts [congrFun h _, rfl]) l l' h input
      simp only [dmcTransmit]
      rw [mapM_eq_map_id, this, ← mapM_eq_map_id]
    | _ => exact hempty
  | gaussian N =>
    have hread : ∀ i : ℕ, Measurable fun v : Fin m → ℝ × ℝ => ((List.ofFn v).getD i 0).2 := by
      intro i
      by_cases hi : i < m
      · have : (fun v : Fin m → ℝ × ℝ => ((List.ofFn v).getD i 0).2) = fun v => (v ⟨i, hi⟩).2 := by
          funext v
          rw [List.getD_eq_getElem _ _ (by simpa using hi), List.getElem_ofFn]
        rw [this]; fun_prop
      · have : (fun v : Fin m → ℝ × ℝ => ((List.ofFn v).getD i 0).2) = fun v => 0 := by
          funext v
          rw [List.getD_eq_default _ _ (by simpa using hi)]; rfl
        rw [this]; fun_prop
    cases c with
    | transmitReal n x see =>
      have hm : Measurable fun v : Fin m → ℝ × ℝ => GaussianChannel.transmitReal N x fun i => ((List.ofFn v).getD i.val 0).2 := by
        refine measurable_pi_lambda _ fun i => ?_
        simp only [GaussianChannel.transmitReal, GaussianChannel.normal]
        exact ((((hread i).const_mul _).const_add _)).const_add _
      have : {v : Fin m → ℝ × ℝ | respond (.gaussian N) (.transmitReal n x see) (List.ofFn v) = some y} =
          (fun v : Fin m → ℝ × ℝ => GaussianChannel.transmitReal N x fun i => ((List.ofFn v).getD i.val 0).2) ⁻¹' {r | see r = y} := by
        ext v; simp [respond]
      rw [this]
      exact hm (hc y)
    | transmitComplex n x see =>
      have hm : Measurable fun v : Fin m → ℝ × ℝ => GaussianChannel.transmitComplex N x fun i c => ((List.ofFn v).getD (i.val * 2 + c.val) 0).2 := by
        refine measurable_pi_lambda _ fun i => ?_
        simp only [GaussianChannel.transmitComplex, GaussianChannel.normal]
        refine Measurable.const_add (Measurable.add ?_ (Measurable.const_mul ?_ _)) _
        · exact Complex.measurable_ofReal.comp (((hread _).const_mul _).const_add _)
        · exact Complex.measurable_ofReal.comp (((hread _).const_mul _).const_add _)
      have : {v : Fin m → ℝ × ℝ | respond (.gaussian N) (.transmitComplex n x see) (List.ofFn v) = some y} =
          (fun v : Fin m → ℝ × ℝ => GaussianChannel.transmitComplex N x fun i c => ((List.ofFn v).getD (i.val * 2 + c.val) 0).2) ⁻¹' {r | see r = y} := by
        ext v; simp [respond]
      rw [this]
      exact hm (hc y)
    | _ => exact hempty
  | chain n P =>
    cases c with
    | simulate i steps =>
      refine measurable_list (fun u i => rngChoice (P i) u) (choices_sig P)
        (fun l => if h : i < n then (MarkovChain.simulate P ⟨i, h⟩ l).map (List.map Fin.val) else none) (fun l l' h => ?_) m (some y)
      simp only [simulate_factors P l l' h]
    | untilAbsorption i =>
      refine measurable_list (fun u i => rngChoice (P i) u) (choices_sig P)
        (fun l => if h : i < n then
            match simulateUntilAbsorption P ⟨i, h⟩ l with
            | .returns out => some (out.map Fin.val)
            | _ => none
          else none) (fun l l' h => ?_) m (some y)
      have : ∀ i, simulateUntilAbsorption P i l = simulateUntilAbsorption P i l' := fun i => by
        simp only [simulateUntilAbsorption, until_factors P l l' h]
      simp only [this]
    | _ => exact hempty

/-! ### Independence -/

/-- The event depends only on the answers at the positions in `T`. -/
def Within (T : Finset (ℕ × ℕ)) (E : Set Randomness) : Prop := ∀ ω ω' : Randomness, (∀ p ∈ T, ω p = ω' p) → ω ∈ E → ω' ∈ E

/-- The answers at the positions in `T`, and zero elsewhere. -/
def fillIn (T : Finset (ℕ × ℕ)) (x : (p : T) → ℝ × ℝ) : Randomness := fun p => if h : p ∈ T then x ⟨p, h⟩ else 0

theorem fillIn_measurable (T : Finset (ℕ × ℕ)) : Measurable (fillIn T) := by
  refine measurable_pi_lambda _ fun p => ?_
  unfold fillIn
  split
  · exact measurable_pi_apply _
  · exact measurable_const

theorem within_eq {T : Finset (ℕ × ℕ)} {E : Set Randomness} (h : Within T E) : E = (fun ω (p : T) => ω p) ⁻¹' (fillIn T ⁻¹' E) := by
  have key : ∀ ω : Randomness, ∀ p ∈ T, ω p = fillIn T (fun p : T => ω p) p := fun ω p hp => by rw [fillIn, dif_pos hp]
  ext ω
  exact ⟨fun hω => h _ _ (key ω) hω, fun hω => h _ _ (fun p hp => (key ω p hp).symm) hω⟩

theorem coordinates_indep : iIndepFun (fun (p : ℕ × ℕ) (ω : Randomness) => ω p) generators :=
  iIndepFun_infinitePi (X := fun _ v => v) fun _ => measurable_id

theorem within_indep {S T : Finset (ℕ × ℕ)} (hST : Disjoint S T) {E F : Set Randomness} (hE : MeasurableSet E) (hF : MeasurableSet F) (hS : Within S E)
    (hT : Within T F) : generators.real (E ∩ F) = generators.real E * generators.real F := by
  have h := coordinates_indep.indepFun_finset S T hST fun i => measurable_pi_apply i
  have h2 := h.measure_inter_preimage_eq_mul (fillIn S ⁻¹' E) (fillIn T ⁻¹' F) (fillIn_measurable S hE) (fillIn_measurable T hF)
  rw [← within_eq hS, ← within_eq hT] at h2
  rw [measureReal_def, h2, ENNReal.toReal_mul]; rfl

/-- The next `m` requests to generator `g` find independent answers. -/
theorem block_law (g u m : ℕ) : MeasurePreserving (fun (ω : Randomness) (j : Fin m) => ω (g, u + j)) generators (Measure.pi fun _ : Fin m => answerLaw) := by
  have hm : ∀ j : Fin m, Measurable fun ω : Randomness => ω (g, u + j) := fun j => measurable_pi_apply _
  refine ⟨measurable_pi_lambda _ hm, ?_⟩
  have hi : iIndepFun (fun (j : Fin m) (ω : Randomness) => ω (g, u + j)) generators :=
    coordinates_indep.precomp (g := fun j : Fin m => (g, u + j.val)) fun a b h => by simp only [Prod.mk.injEq, true_and] at h; exact Fin.ext (by omega)
  rw [(iIndepFun_iff_map_fun_eq_pi_map fun j => (hm j).aemeasurable).mp hi]
  congr 1
  funext j
  exact (measurePreserving_eval_infinitePi (fun _ : ℕ × ℕ => answerLaw) (g, u + j)).map_eq

theorem answers_eq (ω : Randomness) (w : World) (g m : ℕ) : answers ω w g m = List.ofFn fun j : Fin m => ω (g, w.used g + j) := by
  refine List.ext_getElem (by simp [answers]) fun i h1 h2 => by simp [answers]

theorem call_law (o : RandomObject) (c : Call) (hc : c.Measurable) (w : World) (g : ℕ) (y : List ℕ) :
    MeasurableSet {ω | respond o c (answers ω w g (c.requests y)) = some y} ∧
    generators.real {ω | respond o c (answers ω w g (c.requests y)) = some y} = alone o c y ∧
    Within ((Finset.range (c.requests y)).image fun j => (g, w.used g + j)) {ω | respond o c (answers ω w g (c.requests y)) = some y} := by
  have hm := respond_measurable o c hc (c.requests y) y
  have hset : {ω | respond o c (answers ω w g (c.requests y)) = some y} =
      (fun (ω : Randomness) (j : Fin (c.requests y)) => ω (g, w.used g + j)) ⁻¹' {v | respond o c (List.ofFn v) = some y} := by
    ext ω; simp [answers_eq]
  refine ⟨?_, ?_, ?_⟩
  · rw [hset]; exact (block_law g (w.used g) _).measurable hm
  · rw [hset, measureReal_def, (block_law g (w.used g) _).measure_preimage hm.nullMeasurableSet]; rfl
  · intro ω ω' h hω
    have : answers ω' w g (c.requests y) = answers ω w g (c.requests y) := by
      refine List.map_congr_left fun j hj => (h _ ?_).symm
      exact Finset.mem_image.mpr ⟨j, by simpa using hj, rfl⟩
    rw [mem_setOf_eq, this]; exact hω

theorem runs_law (σ : Program) (hσ : ∀ past, (σ past).Measurable) (ys : List (List ℕ)) : ∀ (past : List (List ℕ)) (w : World),
    MeasurableSet {ω | Runs ω σ past w ys} ∧ generators.real {ω | Runs ω σ past w ys} = transcriptProb σ past (w.objects.map Prod.fst) ys ∧
    ∃ T : Finset (ℕ × ℕ), (∀ p ∈ T, w.used p.1 ≤ p.2) ∧ Within T {ω | Runs ω σ past w ys} := by
  induction ys with
  | nil =>
    intro past w
    have : {ω | Runs ω σ past w []} = univ := by ext ω; simp [Runs]
    rw [this]
    exact ⟨MeasurableSet.univ, by simp [transcriptProb], ∅, by simp, fun _ _ _ _ => trivial⟩
  | cons y ys ih =>
    intro past w
    rw [transcriptProb]
    have hempty : ∀ {q : ℝ}, q = 0 → (∀ ω, ¬ Runs ω σ past w (y :: ys)) → MeasurableSet {ω | Runs ω σ past w (y :: ys)} ∧
        generators.real {ω | Runs ω σ past w (y :: ys)} = q ∧ ∃ T : Finset (ℕ × ℕ), (∀ p ∈ T, w.used p.1 ≤ p.2) ∧ Within T {ω | Runs ω σ past w (y :: ys)} := by
      intro q hq hno
      have : {ω | Runs ω σ past w (y :: ys)} = ∅ := by ext ω; simp [hno ω]
      rw [this]
      exact ⟨MeasurableSet.empty, by simp [hq], ∅, by simp, fun _ _ _ h => h.elim⟩
    have hrun : ∀ ω, Runs ω σ past w (y :: ys) ↔ ∃ w', Step ω w (σ past) y w' ∧ Runs ω σ (past ++ [y]) w' ys := fun ω => Iff.rfl
    have hmeas := hσ past
    cases hcmd : σ past with
    | set g =>
      rw [hcmd] at hrun
      by_cases hy : y = []
      · have hset : {ω | Runs ω σ past w (y :: ys)} = {ω | Runs ω σ (past ++ [y]) { w with current := g } ys} := by
          ext ω; rw [mem_setOf_eq, hrun]; simp [Step, hy]
        rw [hset]
        obtain ⟨h1, h2, h3⟩ := ih (past ++ [y]) { w with current := g }
        exact ⟨h1, by rw [h2]; simp [responseProb, objectsAfter, hy], h3⟩
      · exact hempty (by simp [responseProb, hy]) fun ω => by rw [hrun]; rintro ⟨w', h, -⟩; exact hy h.1
    | new o rng =>
      rw [hcmd] at hrun
      by_cases hy : y = [] ∧ o.accepted
      · have hset : {ω | Runs ω σ past w (y :: ys)} = {ω | Runs ω σ (past ++ [y]) { w with objects := w.objects ++ [(o, rng.getD w.current)] } ys} := by
          ext ω; rw [mem_setOf_eq, hrun]; simp [Step, hy.1, hy.2]
        rw [hset]
        obtain ⟨h1, h2, h3⟩ := ih (past ++ [y]) { w with objects := w.objects ++ [(o, rng.getD w.current)] }
        exact ⟨h1, by rw [h2]; simp [responseProb, objectsAfter, hy], h3⟩
      · exact hempty (by simp [responseProb, hy]) fun ω => by rw [hrun]; rintro ⟨w', h, -⟩; exact hy ⟨h.1, h.2.1⟩
    | call k c =>
      rw [hcmd] at hrun hmeas
      cases hobj : w.objects[k]? with
      | none => exact hempty (by simp [responseProb, hobj]) fun ω => by rw [hrun]; rintro ⟨w', ⟨o, g, h, -⟩, -⟩; rw [hobj] at h; cases h
      | some og =>
        obtain ⟨o, g⟩ := og
        obtain ⟨w', hw'⟩ : ∃ w' : World, w' = { w with used := Function.update w.used g (w.used g + c.requests y) } := ⟨_, rfl⟩
        have hset : {ω | Runs ω σ past w (y :: ys)} = {ω | respond o c (answers ω w g (c.requests y)) = some y} ∩ {ω | Runs ω σ (past ++ [y]) w' ys} := by
          ext ω
          simp only [mem_setOf_eq, mem_inter_iff, hrun, Step]
          constructor
          · rintro ⟨w1, ⟨o', g', h1, h2, h3⟩, h4⟩
            rw [hobj, Option.some.injEq, Prod.mk.injEq] at h1
            obtain ⟨rfl, rfl⟩ := h1
            exact ⟨h2, by rw [hw', ← h3]; exact h4⟩
          · rintro ⟨h1, h2⟩
            exact ⟨w', ⟨o, g, hobj, h1, hw'⟩, h2⟩
        obtain ⟨h1, h2, h3⟩ := call_law o c hmeas w g y
        obtain ⟨i1, i2, T, hT, i3⟩ := ih (past ++ [y]) w'
        have hge : ∀ a, w.used a ≤ w'.used a := fun a => by
          rw [hw']
          by_cases ha : a = g
          · subst ha; simp
          · simp [Function.update_of_ne ha]
        have hdisj : Disjoint ((Finset.range (c.requests y)).image fun j => (g, w.used g + j)) T := by
          rw [Finset.disjoint_left]
          intro p hp hpT
          obtain ⟨j, hj, rfl⟩ := Finset.mem_image.mp hp
          have := hT _ hpT
          rw [hw'] at this
          simp only [Function.update_self] at this
          have := Finset.mem_range.mp hj
          omega
        rw [hset]
        refine ⟨h1.inter i1, ?_, ((Finset.range (c.requests y)).image fun j => (g, w.used g + j)) ∪ T, ?_, ?_⟩
        · rw [within_indep hdisj h1 i1 h3 i3, h2, i2]
          have : (w.objects.map Prod.fst)[k]? = some o := by simp [hobj]
          have e : w'.objects = w.objects := by rw [hw']
          simp only [responseProb, objectsAfter, this, e]
        · intro p hp
          rcases Finset.mem_union.mp hp with hp | hp
          · obtain ⟨j, -, rfl⟩ := Finset.mem_image.mp hp
            exact Nat.le_add_right _ _
          · exact (hge _).trans (hT p hp)
        · intro ω ω' h hω
          exact ⟨h3 ω ω' (fun p hp => h p (Finset.mem_union_left _ hp)) hω.1, i3 ω ω' (fun p hp => h p (Finset.mem_union_right _ hp)) hω.2⟩

/-! ### The law of a single call -/

theorem fst_law (m : ℕ) : MeasurePreserving (fun (v : Fin m → ℝ × ℝ) (j : Fin m) => (v j).1) (Measure.pi fun _ : Fin m => answerLaw) (uniformDraws m) :=
  measurePreserving_pi _ _ fun _ => measurePreserving_fst

theorem snd_law (m : ℕ) : MeasurePreserving (fun (v : Fin m → ℝ × ℝ) (j : Fin m) => (v j).2) (Measure.pi fun _ : Fin m => answerLaw)
    (Measure.pi fun _ : Fin m => gaussianReal 0 1) :=
  measurePreserving_pi _ _ fun _ => measurePreserving_snd

theorem map_fst_ofFn {m : ℕ} (v : Fin m → ℝ × ℝ) : (List.ofFn v).map Prod.fst = List.ofFn fun j : Fin m => (v j).1 := by
  rw [List.map_ofFn]; rfl

theorem zip_ofFn {α β : Type} {m : ℕ} (x : Fin m → α) (v : Fin m → β) : (List.ofFn x).zip (List.ofFn v) = List.ofFn fun j : Fin m => (x j, v j) :=
  List.ext_getElem (by simp) fun i h1 h2 => by simp

/-- If the call is a function of the uniform answers only. -/
theorem alone_uniform (o : RandomObject) (c : Call) (y : List ℕ) (m : ℕ) (hm : c.requests y = m) (E : Set (Fin m → ℝ)) (hE : MeasurableSet E)
    (h : ∀ v : Fin m → ℝ × ℝ, respond o c (List.ofFn v) = some y ↔ (fun j : Fin m => (v j).1) ∈ E) : alone o c y = (uniformDraws m).real E := by
  subst hm
  rw [alone, measureReal_def, measureReal_def, ← (fst_law _).measure_preimage hE.nullMeasurableSet]
  congr 2
  ext v
  exact h v

theorem alone_realises {a b : ℕ} (P : Fin a → Fin b → ℝ) (T : List (ℕ × ℝ) → Option (List ℕ)) (hT : Realises P T) (o : RandomObject)
    (ho : ∀ input us, respond o (.transmit input) us = T (input.zip (us.map Prod.fst))) {N : ℕ} (x : Fin N → Fin a) (y : Fin N → Fin b) :
    alone o (.transmit (List.ofFn fun k : Fin N => (x k).val)) (List.ofFn fun k : Fin N => (y k).val) = ∏ k, P (x k) (y k) := by
  obtain ⟨h1, h2⟩ := hT N x y
  rw [← h2]
  refine alone_uniform _ _ _ N (by simp [Call.requests]) _ h1 fun v => ?_
  rw [ho, map_fst_ofFn, zip_ofFn]
  rfl

theorem ofFn_val_inj {N b : ℕ} {y : Fin N → Fin b} {l : List (Fin b)} : l.map Fin.val = List.ofFn (fun k : Fin N => (y k).val) ↔ l = List.ofFn y := by
  rw [show (List.ofFn fun k : Fin N => (y k).val) = (List.ofFn y).map Fin.val by rw [List.map_ofFn]; rfl]
  exact (List.map_injective_iff.mpr Fin.val_injective).eq_iff

theorem map_some_iff {N b : ℕ} {y : Fin N → Fin b} {l : Option (List (Fin b))} :
    l.map (List.map Fin.val) = some (List.ofFn fun k : Fin N => (y k).val) ↔ l = some (List.ofFn y) := by
  cases l with
  | none => simp
  | some l => simp only [Option.map_some, Option.some.injEq]; exact ofFn_val_inj

theorem mapM_ofFn_iff {α δ : Type} (f : α → Option δ) {N : ℕ} (u : Fin N → α) (y : Fin N → δ) :
    (List.ofFn u).mapM f = some (List.ofFn y) ↔ ∀ k, f (u k) = some (y k) := by
  induction N with
  | zero => simp
  | succ N ih =>
    rw [List.ofFn_succ, List.ofFn_succ, List.mapM_cons, Fin.forall_fin_succ, ← ih]
    cases h1 : f (u 0) with
    | none => simp
    | some a =>
      cases h2 : (List.ofFn fun i : Fin N => u i.succ).mapM f with
      | none => simp
      | some l => simp

theorem alone_source {q N : ℕ} (p : Fin q → ℝ) (hp : validPmf p = true) (y : Fin N → Fin q) :
    alone (.source q p) (.emit N) (List.ofFn fun k : Fin N => (y k).val) = ∏ k, p (y k) := by
  have hm : ∀ k, MeasurableSet {u : ℝ | rngChoice p u = some (y k)} := fun k => choice_measurable p (y k)
  rw [alone_uniform _ _ _ N rfl (univ.pi fun k => {u | rngChoice p u = some (y k)}) (MeasurableSet.univ_pi hm), uniformDraws, measureReal_def, Measure.pi_pi, ENNReal.toReal_prod]
  · exact Finset.prod_congr rfl fun k _ => choice_real p hp (y k)
  · intro v
    rw [respond, map_fst_ofFn, map_some_iff, dmsEmit, mapM_ofFn_iff]
    simp

theorem alone_simulate {n m : ℕ} (P : TMat ℝ n) (hP : validTransitionMatrix P = true) (s : Fin (m + 1) → Fin n) :
    alone (.chain n P) (.simulate (s 0).val (m + 1)) (List.ofFn fun k : Fin (m + 1) => (s k).val) = ∏ t : Fin m, P (s t.castSucc) (s t.succ) := by
  have hmeas : MeasurableSet {u : Fin (m + 1) → ℝ | MarkovChain.simulate P (s 0) (List.ofFn u) = some (List.ofFn s)} :=
    measurable_factor (fun (u : Fin (m + 1) → ℝ) (k : Fin (m + 1)) (i : Fin n) => rngChoice (P i) (u k)) (fun b => by
      have : (fun (u : Fin (m + 1) → ℝ) (k : Fin (m + 1)) (i : Fin n) => rngChoice (P i) (u k)) ⁻¹' {b} =
          ⋂ k, (fun u : Fin (m + 1) → ℝ => u k) ⁻¹' ((fun u i => rngChoice (P i) u) ⁻¹' {b k}) := by ext u; simp [funext_iff]
      rw [this]
      exact MeasurableSet.iInter fun k => (measurable_pi_apply k) (choices_sig P (b k)))
      (fun u => MarkovChain.simulate P (s 0) (List.ofFn u)) (fun u v h => simulate_factors P _ _ (by rw [List.map_ofFn, List.map_ofFn]; exact congrArg List.ofFn h) _) _
  rw [alone_uniform _ _ _ (m + 1) rfl _ hmeas]
  · have h := C84_simulate_measure P hP m s
    have h0 : 0 ≤ ∏ t : Fin m, P (s t.castSucc) (s t.succ) := Finset.prod_nonneg fun t _ => ((C72_accepts P).mp hP).1 _ _
    rw [measureReal_def, uniformDraws, ← Measure.restrict_pi_pi, Measure.restrict_apply hmeas, ← ENNReal.toReal_ofReal h0, ← h]
    congr 2
    ext u
    simp only [mem_inter_iff, mem_setOf_eq, mem_univ_pi]
    exact and_comm
  · intro v
    rw [respond, dif_pos (s 0).2, map_fst_ofFn, map_some_iff]
    rfl

theorem until_path {n : ℕ} (P : TMat ℝ n) : ∀ (m : ℕ) (s : Fin (m + 1) → Fin n) (u : Fin m → ℝ), (∀ t : Fin m, s t.castSucc ∈ transientStates P) →
    s (Fin.last m) ∉ transientStates P →
    (untilLoop P (s 0) (List.ofFn u) = some (List.ofFn fun t : Fin m => s t.succ) ↔ ∀ t : Fin m, rngChoice (P (s t.castSucc)) (u t) = some (s t.succ))
  | 0, s, u, _, h2 => by
    have : s 0 ∉ transientStates P := h2
    simp [untilLoop, this]
  | m + 1, s, u, h1, h2 => by
    have h0 : s 0 ∈ transientStates P := h1 0
    have ih := until_path P m (fun t => s t.succ) (fun t => u t.succ) (fun t => h1 t.succ) h2
    rw [List.ofFn_succ, List.ofFn_succ, untilLoop, if_pos h0, Fin.forall_fin_succ]
    cases hc : rngChoice (P (s 0)) (u 0) with
    | none => simp [hc]
    | some j =>
      by_cases hj : j = s 1
      · subst hj
        simp only [Fin.succ_zero_eq_one] at ih
        have e : (s (Fin.castSucc 0)) = s 0 := rfl
        rw [e, hc]
        simp only [Fin.succ_zero_eq_one, true_and]
        refine Iff.trans ?_ ih
        cases hl : untilLoop P (s 1) (List.ofFn fun t : Fin m => u t.succ) with
        | none => simp [hl]
        | some l => simp [hl]
      · have e : (s (Fin.castSucc 0)) = s 0 := rfl
        rw [e, hc]
        constructor
        · intro h
          simp only [Option.bind_eq_bind, Option.bind_some] at h
          cases hl : untilLoop P j (List.ofFn fun t : Fin m => u t.succ) with
          | none => simp [hl] at h
          | some l => simp [hl] at h; exact absurd h.1 hj
        · rintro ⟨h, -⟩
          exact absurd (Option.some_inj.mp h) hj

theorem alone_until {n m : ℕ} (P : TMat ℝ n) (hP : validTransitionMatrix P = true) (ha : isAbsorbing P = true) (s : Fin (m + 1) → Fin n)
    (h1 : ∀ t : Fin m, s t.castSucc ∉ absorbingStates P) (h2 : s (Fin.last m) ∈ absorbingStates P) :
    alone (.chain n P) (.untilAbsorption (s 0).val) (List.ofFn fun k : Fin (m + 1) => (s k).val) = ∏ t : Fin m, P (s t.castSucc) (s t.succ) := by
  have htr : ∀ j, j ∈ transientStates P ↔ j ∉ absorbingStates P := fun j => transient_iff P hP ha j
  have hm : ∀ t : Fin m, MeasurableSet {u : ℝ | rngChoice (P (s t.castSucc)) u = some (s t.succ)} := fun t => choice_measurable _ _
  rw [alone_uniform _ _ _ m (by simp [Call.requests]) (univ.pi fun t : Fin m => {u | rngChoice (P (s t.castSucc)) u = some (s t.succ)}) (MeasurableSet.univ_pi hm),
    uniformDraws, measureReal_def, Measure.pi_pi, ENNReal.toReal_prod]
  · exact Finset.prod_congr rfl fun k _ => choice_real _ (row_valid P hP _) _
  · intro v
    rw [respond, dif_pos (s 0).2, map_fst_ofFn, simulateUntilAbsorption, if_neg (by simpa using ha)]
    have hp := until_path P m s (fun j => (v j).1) (fun t => (htr _).mpr (h1 t)) (by rw [htr]; simpa using h2)
    simp only [mem_univ_pi, mem_setOf_eq]
    rw [← hp]
    have e : (List.ofFn fun k : Fin (m + 1) => (s k).val) = ((s 0) :: List.ofFn fun t : Fin m => s t.succ).map Fin.val := by
      rw [← List.ofFn_succ, List.map_ofFn]; rfl
    rw [e]
    cases hl : untilLoop P ⟨(s 0).val, (s 0).2⟩ (List.ofFn fun j : Fin m => (v j).1) with
    | none =>
      simp
    | some l =>
      simp only [Option.some.injEq]
      rw [(List.map_injective_iff.mpr Fin.val_injective).eq_iff]
      simp

theorem alone_normal (o : RandomObject) (c : Call) (y : List ℕ) (m : ℕ) (hm : c.requests y = m) (E : Set (Fin m → ℝ)) (hE : MeasurableSet E)
    (h : ∀ v : Fin m → ℝ × ℝ, respond o c (List.ofFn v) = some y ↔ (fun j : Fin m => (v j).2) ∈ E) : alone o c y = (stdNormals (Fin m)).real E := by
  subst hm
  rw [alone, measureReal_def, measureReal_def, ← (snd_law _).measure_preimage hE.nullMeasurableSet]
  congr 2
  ext v
  exact h v

theorem alone_real {n : ℕ} (N : NNReal) (x : Fin n → ℝ) (see : (Fin n → ℝ) → List ℕ) (hs : ∀ y, MeasurableSet {r | see r = y}) (y : List ℕ) :
    alone (.gaussian N) (.transmitReal n x see) y = (Measure.pi fun i : Fin n => gaussianReal (x i) N).real {r | see r = y} := by
  have hm : Measurable (GaussianChannel.transmitReal (N : ℝ) x) := by
    refine measurable_pi_lambda _ fun i => ?_
    simp only [GaussianChannel.transmitReal, GaussianChannel.normal]
    fun_prop
  rw [← C103_real_law, measureReal_def, Measure.map_apply hm (hs y), ← measureReal_def]
  refine alone_normal _ _ _ n rfl _ (hm (hs y)) fun v => ?_
  simp only [respond, Option.some.injEq, mem_preimage, mem_setOf_eq]
  have : (fun i : Fin n => ((List.ofFn v).getD i.val 0).2) = fun j : Fin n => (v j).2 := by
    funext i
    rw [List.getD_eq_getElem _ _ (by simp), List.getElem_ofFn]
  rw [this]

theorem pairs_law (n : ℕ) : MeasurePreserving (fun (z : Fin (n * 2) → ℝ) (i : Fin n) (c : Fin 2) => z (finProdFinEquiv (i, c))) (Measure.pi fun _ : Fin (n * 2) => gaussianReal 0 1)
    (stdNormalPairs (Fin n)) := by
  have hm : Measurable (fun (z : Fin (n * 2) → ℝ) (i : Fin n) (c : Fin 2) => z (finProdFinEquiv (i, c))) :=
    measurable_pi_lambda _ fun i => measurable_pi_lambda _ fun c => measurable_pi_apply _
  refine ⟨hm, ?_⟩
  have h1 := Measure.infinitePi_map_piCongrLeft (fun _ : Fin n × Fin 2 => gaussianReal 0 1) (finProdFinEquiv (m := n) (n := 2)).symm
  have h2 := Measure.infinitePi_map_curry (fun (_ : Fin n) (_ : Fin 2) => gaussianReal 0 1)
  rw [← h1, Measure.map_map (by fun_prop) (by fun_prop)] at h2
  simp only [Measure.infinitePi_eq_pi] at h2
  rw [stdNormalPairs]
  simp only [stdNormals]
  rw [← h2]
  congr 1
  funext u i c
  have e := Equiv.piCongrLeft_apply_apply (fun _ : Fin n × Fin 2 => ℝ) (finProdFinEquiv (m := n) (n := 2)).symm u (finProdFinEquiv (i, c))
  rw [Equiv.symm_apply_apply] at e
  exact e.symm

theorem alone_complex {n : ℕ} (N : NNReal) (x : Fin n → ℂ) (see : (Fin n → ℂ) → List ℕ) (hs : ∀ y, MeasurableSet {r | see r = y}) (y : List ℕ) :
    alone (.gaussian N) (.transmitComplex n x see) y = (Measure.pi fun i : Fin n => complexGaussian (x i) N).real {r | see r = y} := by
  have hm : Measurable (GaussianChannel.transmitComplex (N : ℝ) x) := by
    refine measurable_pi_lambda _ fun i => ?_
    simp only [GaussianChannel.transmitComplex, GaussianChannel.normal]
    fun_prop
  rw [← C103_complex_law, measureReal_def, Measure.map_apply hm (hs y), ← (pairs_law n).measure_preimage (hm (hs y)).nullMeasurableSet, ← measureReal_def]
  refine alone_normal _ _ _ (n * 2) rfl _ ((pairs_law n).measurable (hm (hs y))) fun v => ?_
  simp only [respond, Option.some.injEq, mem_preimage, mem_setOf_eq]
  have : (fun (i : Fin n) (c : Fin 2) => ((List.ofFn v).getD (i.val * 2 + c.val) 0).2) = fun i c => (v (finProdFinEquiv (i, c))).2 := by
    funext i c
    have hlt : i.val * 2 + c.val < n * 2 := by have := i.2; have := c.2; omega
    rw [List.getD_eq_getElem _ _ (by simpa using hlt), List.getElem_ofFn]
    congr 2
    ext
    simp [finProdFinEquiv]
    omega
  rw [this]

/-! ### A session is determined by the answers -/

theorem until_prefix {n : ℕ} (P : TMat ℝ n) (us vs : List ℝ) : ∀ (i : Fin n) (l : List (Fin n)), untilLoop P i us = some l → untilLoop P i (us ++ vs) = some l := by
  induction us with
  | nil =>
    intro i l h
    rw [untilLoop] at h
    split at h
    · cases h
    · rename_i hi
      rw [List.nil_append]
      cases vs with
      | nil => rw [untilLoop, if_neg hi]; exact h
      | cons v vs => rw [untilLoop, if_neg hi]; exact h
  | cons u us ih =>
    intro i l h
    rw [List.cons_append]
    rw [untilLoop] at h ⊢
    by_cases hi : i ∈ transientStates P
    · rw [if_pos hi] at h ⊢
      cases hc : rngChoice (P i) u with
      | none => simp [hc] at h
      | some j =>
        cases hl : untilLoop P j us with
        | none => simp [hc, hl] at h
        | some l' => simpa [hc, hl, ih j l' hl] using h
    · rw [if_neg hi] at h ⊢; exact h

theorem until_take {n : ℕ} (P : TMat ℝ n) (us : List ℝ) : ∀ (i : Fin n) (l : List (Fin n)), untilLoop P i us = some l →
    l.length ≤ us.length ∧ untilLoop P i (us.take l.length) = some l := by
  induction us with
  | nil =>
    intro i l h
    have h' := h
    rw [untilLoop] at h
    split at h
    · cases h
    · cases h; exact ⟨le_rfl, h'⟩
  | cons u us ih =>
    intro i l h
    rw [untilLoop] at h
    by_cases hi : i ∈ transientStates P
    · rw [if_pos hi] at h
      cases hc : rngChoice (P i) u with
      | none => simp [hc] at h
      | some j =>
        cases hl : untilLoop P j us with
        | none => simp [hc, hl] at h
        | some l' =>
          simp [hc, hl] at h
          subst h
          obtain ⟨h1, h2⟩ := ih j l' hl
          refine ⟨by simpa using h1, ?_⟩
          rw [List.length_cons, List.take_succ_cons, untilLoop, if_pos hi]
          simp [hc, h2]
    · rw [if_neg hi] at h
      cases h
      refine ⟨Nat.zero_le _, ?_⟩
      rw [List.length_nil, List.take_zero, untilLoop, if_neg hi]

theorem answers_prefix (ω : Randomness) (w : World) (g : ℕ) {a b : ℕ} (h : a ≤ b) : ∃ r, answers ω w g b = answers ω w g a ++ r := by
  obtain ⟨d, rfl⟩ := Nat.exists_eq_add_of_le h
  exact ⟨(List.range d).map fun j => ω (g, w.used g + (a + j)), by rw [answers, List.range_add, List.map_append, List.map_map]; rfl⟩

theorem respond_until {n : ℕ} {P : TMat ℝ n} {i : ℕ} {us : List (ℝ × ℝ)} {y : List ℕ} (h : respond (.chain n P) (.untilAbsorption i) us = some y) :
    ∃ (hi : i < n) (l : List (Fin n)), isAbsorbing P = true ∧ untilLoop P ⟨i, hi⟩ (us.map Prod.fst) = some l ∧ y = i :: l.map Fin.val := by
  rw [respond] at h
  by_cases hi : i < n
  · rw [dif_pos hi, simulateUntilAbsorption] at h
    by_cases ha : isAbsorbing P = true
    · rw [if_neg (by simpa using ha)] at h
      cases hl : untilLoop P ⟨i, hi⟩ (us.map Prod.fst) with
      | none => simp [hl] at h
      | some l => simp [hl] at h; exact ⟨hi, l, ha, hl, h.symm⟩
    · rw [if_pos (by simpa using ha)] at h
      cases h
  · rw [dif_neg hi] at h; cases h

theorem until_unique {n : ℕ} {P : TMat ℝ n} {i : ℕ} {us vs : List (ℝ × ℝ)} {y y' : List ℕ} (h : respond (.chain n P) (.untilAbsorption i) us = some y)
    (h' : respond (.chain n P) (.untilAbsorption i) (us ++ vs) = some y') : y = y' := by
  obtain ⟨hi, l, -, h1, rfl⟩ := respond_until h
  obtain ⟨_, l', _, h2, rfl⟩ := respond_until h'
  rw [List.map_append, until_prefix P _ _ _ _ h1] at h2
  cases h2; rfl

theorem requests_const {c : Call} (hc : ∀ i, c ≠ .untilAbsorption i) (y y' : List ℕ) : c.requests y = c.requests y' := by
  cases c <;> first | rfl | exact absurd rfl (hc _)

theorem call_unique {ω : Randomness} {w : World} {g : ℕ} {o : RandomObject} {c : Call} {y y' : List ℕ} (h : respond o c (answers ω w g (c.requests y)) = some y)
    (h' : respond o c (answers ω w g (c.requests y')) = some y') : y = y' := by
  by_cases hc : ∃ i, c = .untilAbsorption i
  · obtain ⟨i, rfl⟩ := hc
    cases o with
    | chain n P =>
      rcases le_total ((Call.untilAbsorption i).requests y) ((Call.untilAbsorption i).requests y') with hle | hle
      · obtain ⟨r, hr⟩ := answers_prefix ω w g hle
        rw [hr] at h'
        exact until_unique h h'
      · obtain ⟨r, hr⟩ := answers_prefix ω w g hle
        rw [hr] at h
        exact (until_unique h' h).symm
    | _ => simp [respond] at h
  · rw [requests_const (not_exists.mp hc) y y', h', Option.some_inj] at h
    exact h.symm

theorem step_unique {ω : Randomness} {w w1 w2 : World} {cmd : Command} {y y' : List ℕ} (h : Step ω w cmd y w1) (h' : Step ω w cmd y' w2) : y = y' ∧ w1 = w2 := by
  cases cmd with
  | set g => exact ⟨h.1.trans h'.1.symm, h.2.trans h'.2.symm⟩
  | new o rng => exact ⟨h.1.trans h'.1.symm, h.2.2.trans h'.2.2.symm⟩
  | call k c =>
    obtain ⟨o, g, h1, h2, h3⟩ := h
    obtain ⟨o', g', h1', h2', h3'⟩ := h'
    rw [h1, Option.some.injEq, Prod.mk.injEq] at h1'
    obtain ⟨rfl, rfl⟩ := h1'
    have := call_unique h2 h2'
    subst this
    exact ⟨rfl, h3.trans h3'.symm⟩

/-- The responses of a session are determined by what the generators return. -/
theorem C129_deterministic (ω : Randomness) (σ : Program) (ys : List (List ℕ)) : ∀ (past : List (List ℕ)) (w : World) (ys' : List (List ℕ)),
    ys.length = ys'.length → Runs ω σ past w ys → Runs ω σ past w ys' → ys = ys' := by
  induction ys with
  | nil => intro past w ys' hl _ _; exact (List.eq_nil_of_length_eq_zero (by simpa using hl.symm)).symm
  | cons y ys ih =>
    intro past w ys' hl h h'
    cases ys' with
    | nil => simp at hl
    | cons y' ys' =>
      obtain ⟨w1, h1, h2⟩ := h
      obtain ⟨w2, h1', h2'⟩ := h'
      obtain ⟨rfl, rfl⟩ := step_unique h1 h1'
      rw [ih _ _ ys' (by simpa using hl) h2 h2']

/-! ### Sessions complete -/

/-- The arguments that the methods are meant for. -/
def CallLegal : RandomObject → Call → Prop
  | .source _ _, .emit _ => True
  | .bsc _, .transmit input => ∀ x ∈ input, x < 2
  | .bec _, .transmit input => ∀ x ∈ input, x < 2
  | .zch _, .transmit input => ∀ x ∈ input, x < 2
  | .dmc a _ _, .transmit input => ∀ x ∈ input, x < a
  | .gaussian _, .transmitReal _ _ _ => True
  | .gaussian _, .transmitComplex _ _ _ => True
  | .chain n _, .simulate i _ => i < n
  | .chain n P, .untilAbsorption i => i < n ∧ isAbsorbing P = true
  | _, _ => False

/-- The statement is legal when the given objects exist. -/
def Legal (objs : List RandomObject) : Command → Prop
  | .set _ => True
  | .new o _ => o.accepted
  | .call k c => ∃ o, objs[k]? = some o ∧ CallLegal o c

/-- The next `n` statements of the program are legal, whatever the responses are. -/
def LegalProgram (σ : Program) : ℕ → List (List ℕ) → List RandomObject → Prop
  | 0, _, _ => True
  | n + 1, past, objs => Legal objs (σ past) ∧ ∀ y, LegalProgram σ n (past ++ [y]) (objectsAfter objs (σ past))

theorem answers_ae : ∀ᵐ ω ∂generators, ∀ p : ℕ × ℕ, (ω p).1 ∈ Ico (0 : ℝ) 1 := by
  rw [ae_all_iff]
  intro p
  have h1 : MeasurePreserving (fun ω : Randomness => (ω p).1) generators (volume.restrict (Ico (0 : ℝ) 1)) :=
    (measurePreserving_fst (μ := volume.restrict (Ico (0 : ℝ) 1)) (ν := gaussianReal 0 1)).comp (measurePreserving_eval_infinitePi (fun _ : ℕ × ℕ => answerLaw) p)
  exact h1.quasiMeasurePreserving.ae (ae_restrict_mem measurableSet_Ico)

theorem mapM_total {α δ : Type} (f : α → Option δ) (l : List α) (h : ∀ a ∈ l, ∃ b, f a = some b) : ∃ out, l.mapM f = some out := by
  induction l with
  | nil => exact ⟨[], rfl⟩
  | cons a l ih =>
    obtain ⟨b, hb⟩ := h a (by simp)
    obtain ⟨out, ho⟩ := ih fun a ha => h a (List.mem_cons_of_mem _ ha)
    exact ⟨b :: out, by rw [List.mapM_cons, hb, ho]; rfl⟩

theorem until_ae {n : ℕ} (P : TMat ℝ n) (hP : validTransitionMatrix P = true) (ha : isAbsorbing P = true) (i : Fin n) (w : World) (g : ℕ) :
    ∀ᵐ ω ∂generators, ∃ m, simulateUntilAbsorption P i ((answers ω w g m).map Prod.fst) ≠ .running := by
  have hmeas : ∀ m : ℕ, MeasurableSet {u : Fin m → ℝ | simulateUntilAbsorption P i (List.ofFn u) = .running} := fun m =>
    measurable_factor (fun (u : Fin m → ℝ) (k : Fin m) (i : Fin n) => rngChoice (P i) (u k)) (fun b => by
      have : (fun (u : Fin m → ℝ) (k : Fin m) (i : Fin n) => rngChoice (P i) (u k)) ⁻¹' {b} =
          ⋂ k, (fun u : Fin m → ℝ => u k) ⁻¹' ((fun u i => rngChoice (P i) u) ⁻¹' {b k}) := by ext u; simp [funext_iff]
      rw [this]
      exact MeasurableSet.iInter fun k => (measurable_pi_apply k) (choices_sig P (b k)))
      (fun u => simulateUntilAbsorption P i (List.ofFn u)) (fun u v h => by
        simp only [simulateUntilAbsorption]
        rw [until_factors P (List.ofFn u) (List.ofFn v) (by rw [List.map_ofFn, List.map_ofFn]; exact congrArg List.ofFn h)]) _
  have hlaw : ∀ m : ℕ, generators.real {ω | simulateUntilAbsorption P i ((answers ω w g m).map Prod.fst) = .running} =
      (uniformDraws m).real {u | simulateUntilAbsorption P i (List.ofFn u) = .running} := fun m => by
    rw [measureReal_def, measureReal_def, ← ((fst_law m).comp (block_law g (w.used g) m)).measure_preimage (hmeas m).nullMeasurableSet]
    congr 2
    ext ω
    simp only [mem_setOf_eq, mem_preimage, answers_eq, map_fst_ofFn]
    rfl
  have hlim := (C121_until_absorption P hP ha).2.1 i
  rw [ae_iff]
  have hle : ∀ m : ℕ, generators.real {ω | ¬ ∃ m, simulateUntilAbsorption P i ((answers ω w g m).map Prod.fst) ≠ .running} ≤
      (uniformDraws m).real {u | simulateUntilAbsorption P i (List.ofFn u) = .running} := fun m => by
    rw [← hlaw m]
    refine measureReal_mono (fun ω hω => ?_) (measure_ne_top _ _)
    by_contra hc
    exact hω ⟨m, hc⟩
  have h0 := ge_of_tendsto' hlim hle
  have h1 : generators.real {ω | ¬ ∃ m, simulateUntilAbsorption P i ((answers ω w g m).map Prod.fst) ≠ .running} = 0 := le_antisymm h0 measureReal_nonneg
  exact (measureReal_eq_zero_iff (measure_ne_top _ _)).mp h1

theorem call_completes (o : RandomObject) (ho : o.accepted) (c : Call) (hc : CallLegal o c) (w : World) (g : ℕ) :
    ∀ᵐ ω ∂generators, ∃ y, respond o c (answers ω w g (c.requests y)) = some y := by
  have huni : ∀ ω : Randomness, (∀ p : ℕ × ℕ, (ω p).1 ∈ Ico (0 : ℝ) 1) → ∀ m, ∀ u ∈ (answers ω w g m).map Prod.fst, 0 ≤ u ∧ u < 1 := by
    intro ω hω m u hu
    simp only [answers, List.map_map, List.mem_map] at hu
    obtain ⟨j, -, rfl⟩ := hu
    exact hω _
  cases o with
  | source q pmf =>
    cases c with
    | emit size =>
      filter_upwards [answers_ae] with ω hω
      obtain ⟨out, h, -⟩ := C84_emit pmf ho _ (huni ω hω size)
      exact ⟨out.map Fin.val, by simp only [respond, Call.requests]; rw [h]; rfl⟩
    | _ => exact absurd hc (by simp [CallLegal])
  | bsc p =>
    cases c with
    | transmit input => exact ae_of_all _ fun ω => ⟨bscTransmit p (input.zip ((answers ω w g input.length).map Prod.fst)), rfl⟩
    | _ => exact absurd hc (by simp [CallLegal])
  | bec p =>
    cases c with
    | transmit input => exact ae_of_all _ fun ω => ⟨becTransmit p (input.zip ((answers ω w g input.length).map Prod.fst)), rfl⟩
    | _ => exact absurd hc (by simp [CallLegal])
  | zch p =>
    cases c with
    | transmit input => exact ae_of_all _ fun ω => ⟨zTransmit p (input.zip ((answers ω w g input.length).map Prod.fst)), rfl⟩
    | _ => exact absurd hc (by simp [CallLegal])
  | dmc a b P =>
    cases c with
    | transmit input =>
      filter_upwards [answers_ae] with ω hω
      obtain ⟨out, h⟩ := mapM_total (fun xu : ℕ × ℝ => if h : xu.1 < a then rngChoice (P ⟨xu.1, h⟩) xu.2 else none)
        (input.zip ((answers ω w g input.length).map Prod.fst)) (fun xu hxu => by
          have h1 : xu.1 < a := hc _ (List.of_mem_zip hxu).1
          have h2 := huni ω hω _ _ (List.of_mem_zip hxu).2
          have hrow : validPmf (P ⟨xu.1, h1⟩) = true := by
            rw [validPmf_iff]
            have : validChannelMatrix P = true := ho
            simp only [validChannelMatrix, Bool.and_eq_true, decide_eq_true_iff] at this
            exact ⟨fun j => this.1 _ j, this.2 _⟩
          obtain ⟨j, hj, -⟩ := C84_choice_positive _ hrow xu.2 h2
          exact ⟨j, by rw [dif_pos h1]; exact hj⟩)
      exact ⟨out.map Fin.val, by simp only [respond, Call.requests, dmcTransmit]; rw [h]; rfl⟩
    | _ => exact absurd hc (by simp [CallLegal])
  | gaussian N =>
    cases c with
    | transmitReal n x see => exact ae_of_all _ fun ω => ⟨see (GaussianChannel.transmitReal N x fun i => ((answers ω w g n).getD i.val 0).2), rfl⟩
    | transmitComplex n x see =>
      exact ae_of_all _ fun ω => ⟨see (GaussianChannel.transmitComplex N x fun i c => ((answers ω w g (n * 2)).getD (i.val * 2 + c.val) 0).2), rfl⟩
    | _ => exact absurd hc (by simp [CallLegal])
  | chain n P =>
    cases c with
    | simulate i steps =>
      have hc : i < n := hc
      filter_upwards [answers_ae] with ω hω
      obtain ⟨out, h, -⟩ := C84_simulate P ho ⟨i, hc⟩ _ (huni ω hω steps)
      exact ⟨out.map Fin.val, by simp only [respond, Call.requests]; rw [dif_pos hc, h]; rfl⟩
    | untilAbsorption i =>
      obtain ⟨hi, ha⟩ := hc
      filter_upwards [until_ae P ho ha ⟨i, hi⟩ w g] with ω hω
      obtain ⟨m, hm⟩ := hω
      rw [simulateUntilAbsorption, if_neg (by simpa using ha)] at hm
      cases hl : untilLoop P ⟨i, hi⟩ ((answers ω w g m).map Prod.fst) with
      | none => simp [hl] at hm
      | some l =>
        obtain ⟨h1, h2⟩ := until_take P _ _ _ hl
        refine ⟨i :: l.map Fin.val, ?_⟩
        have hreq : (Call.untilAbsorption i).requests (i :: l.map Fin.val) = l.length := by simp [Call.requests]
        have htake : ((answers ω w g m).map Prod.fst).take l.length = (answers ω w g l.length).map Prod.fst := by
          have : l.length ≤ m := by simpa [answers] using h1
          rw [← List.map_take]
          congr 1
          simp only [answers]
          rw [← List.map_take, List.take_range, min_eq_left this]
        rw [htake] at h2
        rw [hreq, respond, dif_pos hi, simulateUntilAbsorption, if_neg (by simpa using ha), h2]
        rfl
    | _ => exact absurd hc (by simp [CallLegal])

theorem completes (σ : Program) (n : ℕ) : ∀ (past : List (List ℕ)) (w : World), (∀ o ∈ w.objects, o.1.accepted) →
    LegalProgram σ n past (w.objects.map Prod.fst) → ∀ᵐ ω ∂generators, ∃ ys, ys.length = n ∧ Runs ω σ past w ys := by
  induction n with
  | zero => intro past w _ _; exact ae_of_all _ fun ω => ⟨[], rfl, trivial⟩
  | succ n ih =>
    intro past w hw hl
    obtain ⟨h1, h2⟩ := hl
    cases hcmd : σ past with
    | set g =>
      rw [hcmd] at h1 h2
      filter_upwards [ih (past ++ [[]]) { w with current := g } hw (h2 [])] with ω hω
      obtain ⟨ys, e, hr⟩ := hω
      exact ⟨[] :: ys, by simp [e], _, by rw [hcmd]; exact ⟨rfl, rfl⟩, hr⟩
    | new o rng =>
      rw [hcmd] at h1 h2
      have hobj : (w.objects ++ [(o, rng.getD w.current)]).map Prod.fst = objectsAfter (w.objects.map Prod.fst) (.new o rng) := by simp [objectsAfter]
      filter_upwards [ih (past ++ [[]]) { w with objects := w.objects ++ [(o, rng.getD w.current)] } (fun o' ho' => by
        rcases List.mem_append.mp ho' with h | h
        · exact hw _ h
        · simp only [List.mem_singleton] at h; subst h; exact h1) (by rw [hobj]; exact h2 [])] with ω hω
      obtain ⟨ys, e, hr⟩ := hω
      exact ⟨[] :: ys, by simp [e], _, by rw [hcmd]; exact ⟨rfl, h1, rfl⟩, hr⟩
    | call k c =>
      rw [hcmd] at h1 h2
      obtain ⟨o, ho, hc⟩ := h1
      rw [List.getElem?_map] at ho
      obtain ⟨og, hog, rfl⟩ := Option.map_eq_some_iff.mp ho
      have hrest : ∀ y : List ℕ, ∀ᵐ ω ∂generators, ∃ ys, ys.length = n ∧
          Runs ω σ (past ++ [y]) { w with used := Function.update w.used og.2 (w.used og.2 + c.requests y) } ys := fun y => ih _ _ hw (h2 y)
      rw [← ae_all_iff] at hrest
      filter_upwards [hrest, call_completes og.1 (hw _ (List.mem_of_getElem? hog)) c hc w og.2] with ω hω hy
      obtain ⟨y, hy⟩ := hy
      obtain ⟨ys, e, hr⟩ := hω y
      exact ⟨y :: ys, by simp [e], _, by rw [hcmd]; exact ⟨og.1, og.2, hog, hy, rfl⟩, hr⟩

/-! ### The properties -/

/-- Sessions behave as if every call had a generator of its own: whatever the program (which may choose its statements from the responses so
far), whatever generators the objects keep, however these are shared, and however much they have been used, the probability of the responses
`ys` is the product of the probabilities of the single calls. -/
theorem C129_law (σ : Program) (hσ : ∀ past, (σ past).Measurable) (w : World) (ys : List (List ℕ)) :
    generators.real {ω | Runs ω σ [] w ys} = transcriptProb σ [] (w.objects.map Prod.fst) ys :=
  (runs_law σ hσ ys [] w).2.1

/-- A program all of whose statements are legal completes almost surely, with exactly one list of responses. -/
theorem C129_completes (σ : Program) (n : ℕ) (w : World) (hw : ∀ o ∈ w.objects, o.1.accepted) (hl : LegalProgram σ n [] (w.objects.map Prod.fst)) :
    ∀ᵐ ω ∂generators, ∃! ys, ys.length = n ∧ Runs ω σ [] w ys := by
  filter_upwards [completes σ n [] w hw hl] with ω hω
  obtain ⟨ys, h1, h2⟩ := hω
  exact ⟨ys, ⟨h1, h2⟩, fun ys' h => C129_deterministic ω σ ys' [] w ys (h.1.trans h1.symm) h.2 h2⟩

/-- Two statements that differ at most in the generators they mention. -/
def SameButGenerators : Command → Command → Prop
  | .set _, .set _ => True
  | .new o _, .new o' _ => o = o'
  | .call k c, .call k' c' => k = k' ∧ c = c'
  | _, _ => False

/-- Which generators are passed to the constructors or made global does not change the law of the responses: the same for one global
generator and for a private generator for each object. -/
theorem C129_generators (σ σ' : Program) (hσ : ∀ past, (σ past).Measurable) (h : ∀ past, SameButGenerators (σ past) (σ' past)) (w w' : World)
    (hw : w.objects.map Prod.fst = w'.objects.map Prod.fst) (ys : List (List ℕ)) :
    generators.real {ω | Runs ω σ [] w ys} = generators.real {ω | Runs ω σ' [] w' ys} := by
  have hσ' : ∀ past, (σ' past).Measurable := fun past => by
    have h1 := hσ past
    have h2 := h past
    generalize σ past = c at h1 h2
    generalize σ' past = c' at h2 ⊢
    cases c <;> cases c' <;> simp only [SameButGenerators] at h2
    · exact h1
    · exact h1
    · obtain ⟨rfl, rfl⟩ := h2; exact h1
  rw [C129_law σ hσ, C129_law σ' hσ', hw]
  have key : ∀ (ys past : List (List ℕ)) (objs : List RandomObject), transcriptProb σ past objs ys = transcriptProb σ' past objs ys := by
    intro ys
    induction ys with
    | nil => intro past objs; rfl
    | cons y ys ih =>
      intro past objs
      rw [transcriptProb, transcriptProb]
      have h2 := h past
      generalize σ past = c at h2
      generalize σ' past = c' at h2
      cases c <;> cases c' <;> simp only [SameButGenerators] at h2
      · simp only [responseProb, objectsAfter, ih]
      · subst h2; simp only [responseProb, objectsAfter, ih]
      · obtain ⟨rfl, rfl⟩ := h2; simp only [responseProb, objectsAfter, ih]
  exact key ys [] _

/-- The laws of the single calls. -/
theorem C129_calls :
    (∀ {q N : ℕ} (p : Fin q → ℝ), validPmf p = true → ∀ y : Fin N → Fin q,
      alone (.source q p) (.emit N) (List.ofFn fun k : Fin N => (y k).val) = ∏ k, p (y k)) ∧
    (∀ {N : ℕ} (p : ℝ), validProbability p = true → ∀ (x y : Fin N → Fin 2),
      alone (.bsc p) (.transmit (List.ofFn fun k : Fin N => (x k).val)) (List.ofFn fun k : Fin N => (y k).val) = ∏ k, bscMatrix p (x k) (y k)) ∧
    (∀ {N : ℕ} (p : ℝ), validProbability p = true → ∀ (x : Fin N → Fin 2) (y : Fin N → Fin 3),
      alone (.bec p) (.transmit (List.ofFn fun k : Fin N => (x k).val)) (List.ofFn fun k : Fin N => (y k).val) = ∏ k, becMatrix p (x k) (y k)) ∧
    (∀ {N : ℕ} (p : ℝ), validProbability p = true → ∀ (x y : Fin N → Fin 2),
      alone (.zch p) (.transmit (List.ofFn fun k : Fin N => (x k).val)) (List.ofFn fun k : Fin N => (y k).val) = ∏ k, zMatrix p (x k) (y k)) ∧
    (∀ {a b N : ℕ} (P : Fin a → Fin b → ℝ), validChannelMatrix P = true → ∀ (x : Fin N → Fin a) (y : Fin N → Fin b),
      alone (.dmc a b P) (.transmit (List.ofFn fun k : Fin N => (x k).val)) (List.ofFn fun k : Fin N => (y k).val) = ∏ k, P (x k) (y k)) ∧
    (∀ {n m : ℕ} (P : TMat ℝ n), validTransitionMatrix P = true → ∀ s : Fin (m + 1) → Fin n,
      alone (.chain n P) (.simulate (s 0).val (m + 1)) (List.ofFn fun k : Fin (m + 1) => (s k).val) = ∏ t : Fin m, P (s t.castSucc) (s t.succ)) ∧
    (∀ {n m : ℕ} (P : TMat ℝ n), validTransitionMatrix P = true → isAbsorbing P = true → ∀ s : Fin (m + 1) → Fin n,
      (∀ t : Fin m, s t.castSucc ∉ absorbingStates P) → s (Fin.last m) ∈ absorbingStates P →
      alone (.chain n P) (.untilAbsorption (s 0).val) (List.ofFn fun k : Fin (m + 1) => (s k).val) = ∏ t : Fin m, P (s t.castSucc) (s t.succ)) ∧
    (∀ {n : ℕ} (N : NNReal) (x : Fin n → ℝ) (see : (Fin n → ℝ) → List ℕ), (∀ y, MeasurableSet {r | see r = y}) → ∀ y,
      alone (.gaussian N) (.transmitReal n x see) y = (Measure.pi fun i : Fin n => gaussianReal (x i) N).real {r | see r = y}) ∧
    ∀ {n : ℕ} (N : NNReal) (x : Fin n → ℂ) (see : (Fin n → ℂ) → List ℕ), (∀ y, MeasurableSet {r | see r = y}) → ∀ y,
      alone (.gaussian N) (.transmitComplex n x see) y = (Measure.pi fun i : Fin n => complexGaussian (x i) N).real {r | see r = y} :=
  ⟨fun p hp y => alone_source p hp y, fun p hp x y => alone_realises _ _ (bsc_realises p hp) _ (fun _ _ => rfl) x y,
    fun p hp x y => alone_realises _ _ (bec_realises p hp) _ (fun _ _ => rfl) x y, fun p hp x y => alone_realises _ _ (z_realises p hp) _ (fun _ _ => rfl) x y,
    fun P hP x y => alone_realises _ _ (dmc_realises P hP) _ (fun _ _ => rfl) x y, fun P hP s => alone_simulate P hP s,
    fun P hP ha s h1 h2 => alone_until P hP ha s h1 h2, fun N x see hs y => alone_real N x see hs y, fun N x see hs y => alone_complex N x see hs y⟩

/-- The program leaves the choice of generators to `global_rng`, and does not change it. -/
def UsesGlobal (σ : Program) : Prop := ∀ past, (∀ g, σ past ≠ .set g) ∧ ∀ o g, σ past ≠ .new o (some g)

/-- A session can be repeated: if the global generator is set to one in the same state (a fresh one with the same seed) before the objects are created, the
responses are the same, whatever happens to the other generators. -/
theorem C129_repeatable (σ : Program) (hσ : UsesGlobal σ) (ω ω' : Randomness) (g g' : ℕ) (used used' : ℕ → ℕ)
    (h : ∀ i, ω (g, used g + i) = ω' (g', used' g' + i)) (ys : List (List ℕ)) :
    Runs ω σ [] ⟨g, [], used⟩ ys ↔ Runs ω' σ [] ⟨g', [], used'⟩ ys := by
  have key : ∀ (ω ω' : Randomness) (g g' : ℕ) (ys past : List (List ℕ)) (objs : List RandomObject) (used used' : ℕ → ℕ), (∀ i, ω (g, used g + i) = ω' (g', used' g' + i)) →
      Runs ω σ past ⟨g, objs.map fun o => (o, g), used⟩ ys → Runs ω' σ past ⟨g', objs.map fun o => (o, g'), used'⟩ ys := by
    intro ω ω' g g' ys
    induction ys with
    | nil => intro past objs used used' h _; trivial
    | cons y ys ih =>
      rintro past objs used used' h ⟨w1, h1, h2⟩
      obtain ⟨hs1, hs2⟩ := hσ past
      cases hcmd : σ past with
      | set a => exact absurd hcmd (hs1 a)
      | new o rng =>
        cases rng with
        | some a => exact absurd hcmd (hs2 o a)
        | none =>
          rw [hcmd] at h1
          obtain ⟨rfl, ho, rfl⟩ := h1
          refine ⟨_, by rw [hcmd]; exact ⟨rfl, ho, rfl⟩, ?_⟩
          have := ih (past ++ [[]]) (objs ++ [o]) used used' h
          simp only [List.map_append, List.map_cons, List.map_nil] at this
          exact this h2
      | call k c =>
        rw [hcmd] at h1
        obtain ⟨o, a, ho, hr, rfl⟩ := h1
        simp only [List.getElem?_map, Option.map_eq_some_iff, Prod.mk.injEq] at ho
        obtain ⟨o', ho', rfl, rfl⟩ := ho
        refine ⟨⟨g', objs.map fun o => (o, g'), Function.update used' g' (used' g' + c.requests y)⟩, ?_, ?_⟩
        · rw [hcmd]
          refine ⟨o', g', by simp [ho'], ?_, rfl⟩
          rw [← hr]
          congr 1
          refine List.map_congr_left fun j _ => (h j).symm
        · refine ih _ objs _ _ (fun i => ?_) h2
          simp only [Function.update_self]
          rw [add_assoc, add_assoc]
          exact h _
  exact ⟨fun hr => key ω ω' g g' ys [] [] used used' h hr, fun hr => key ω' ω g' g ys [] [] used' used (fun i => (h i).symm) hr⟩

/-- Objects keep the generator they were created with: once the objects exist, `global_rng.set` and the use of other generators change nothing. -/
theorem C129_kept (σ : Program) (hσ : ∀ past, ∃ k c, σ past = .call k c) (ω ω' : Randomness) (w : World) (g : ℕ) (used' : ℕ → ℕ)
    (h : ∀ o ∈ w.objects, ∀ i, ω (o.2, w.used o.2 + i) = ω' (o.2, used' o.2 + i)) (ys : List (List ℕ)) :
    Runs ω σ [] w ys ↔ Runs ω' σ [] { w with current := g, used := used' } ys := by
  have key : ∀ (ω ω' : Randomness) (ys past : List (List ℕ)) (w w' : World), w.objects = w'.objects →
      (∀ o ∈ w.objects, ∀ i, ω (o.2, w.used o.2 + i) = ω' (o.2, w'.used o.2 + i)) → Runs ω σ past w ys → Runs ω' σ past w' ys := by
    intro ω ω' ys
    induction ys with
    | nil => intro past w w' _ _ _; trivial
    | cons y ys ih =>
      rintro past w w' hobj h ⟨w1, h1, h2⟩
      obtain ⟨k, c, hcmd⟩ := hσ past
      rw [hcmd] at h1
      obtain ⟨o, a, ho, hr, rfl⟩ := h1
      have hmem := List.mem_of_getElem? ho
      refine ⟨{ w' with used := Function.update w'.used a (w'.used a + c.requests y) }, ?_, ?_⟩
      · rw [hcmd]
        refine ⟨o, a, by rw [← hobj]; exact ho, ?_, rfl⟩
        rw [← hr]
        congr 1
        exact List.map_congr_left fun j _ => (h _ hmem j).symm
      · refine ih _ { w with used := Function.update w.used a (w.used a + c.requests y) } _ hobj (fun o' ho' i => ?_) h2
        by_cases ha : o'.2 = a
        · simp only [ha, Function.update_self]
          rw [add_assoc, add_assoc]
          exact h _ hmem _
        · simp only [Function.update_of_ne ha]
          exact h o' ho' i
  exact ⟨fun hr => key ω ω' ys [] w _ rfl h hr, fun hr => key ω' ω ys [] { w with current := g, used := used' } w rfl (fun o ho i => (h o ho i).symm) hr⟩

/-- The statements that a program has executed when its responses are `past`. -/
def history (σ : Program) (past : List (List ℕ)) : List Command := (List.range past.length).map fun i => σ (past.take i)

/-- The argument of the last `global_rng.set`, or `start` if there is none. -/
def lastSet (start : ℕ) : List Command → ℕ
  | [] => start
  | .set g :: cmds => lastSet g cmds
  | _ :: cmds => lastSet start cmds

/-- The same program, with `rng=` passed to every constructor: where it is missing, the argument of the last `global_rng.set`, or `start` if there is none. -/
def explicitly (start : ℕ) (σ : Program) : Program := fun past =>
  match σ past with
  | .new o none => .new o (some (lastSet start (history σ past)))
  | cmd => cmd

theorem history_append (σ : Program) (past : List (List ℕ)) (y : List ℕ) : history σ (past ++ [y]) = history σ past ++ [σ past] := by
  rw [history, history, List.length_append, List.length_singleton, List.range_succ, List.map_append, List.map_singleton, List.take_left' rfl]
  congr 1
  refine List.map_congr_left fun i hi => ?_
  rw [List.take_append_of_le_length (List.mem_range.mp hi).le]

theorem lastSet_append (cmds : List Command) (cmd : Command) : ∀ start, lastSet start (cmds ++ [cmd]) = lastSet (lastSet start cmds) [cmd] := by
  induction cmds with
  | nil => intro start; rfl
  | cons c cmds ih => intro start; cases c <;> exact ih _

/-- Which generator an object keeps: the one passed to its constructor as `rng=`, or else the one most recently passed to `global_rng.set` (calls do not change it).  So
passing it explicitly changes nothing, and then the global generator does not matter. -/
theorem C129_explicit (σ : Program) (ω : Randomness) (g g' : ℕ) (used : ℕ → ℕ) (ys : List (List ℕ)) :
    Runs ω σ [] ⟨g, [], used⟩ ys ↔ Runs ω (explicitly g σ) [] ⟨g', [], used⟩ ys := by
  have key : ∀ (ys past : List (List ℕ)) (c' : ℕ) (objs : List (RandomObject × ℕ)) (used : ℕ → ℕ),
      Runs ω σ past ⟨lastSet g (history σ past), objs, used⟩ ys ↔ Runs ω (explicitly g σ) past ⟨c', objs, used⟩ ys := by
    intro ys
    induction ys with
    | nil => intro past c' objs used; exact Iff.rfl
    | cons y ys ih =>
      intro past c' objs used
      have hh : lastSet g (history σ (past ++ [y])) = lastSet (lastSet g (history σ past)) [σ past] := by rw [history_append, lastSet_append]
      have ih' := ih (past ++ [y])
      rw [hh] at ih'
      rw [Runs, Runs]
      cases hcmd : σ past with
      | set a =>
        have he : explicitly g σ past = .set a := by rw [explicitly, hcmd]
        rw [he]
        rw [hcmd] at ih'
        constructor
        · rintro ⟨w1, ⟨h1, rfl⟩, h2⟩; exact ⟨_, ⟨h1, rfl⟩, (ih' _ _ _).mp h2⟩
        · rintro ⟨w1, ⟨h1, rfl⟩, h2⟩; exact ⟨_, ⟨h1, rfl⟩, (ih' _ _ _).mpr h2⟩
      | new o rng =>
        rw [hcmd] at ih'
        have he : explicitly g σ past = .new o (some (rng.getD (lastSet g (history σ past)))) := by
          rw [explicitly, hcmd]
          cases rng <;> rfl
        rw [he]
        constructor
        · rintro ⟨w1, ⟨h1, ho, rfl⟩, h2⟩; exact ⟨_, ⟨h1, ho, rfl⟩, (ih' _ _ _).mp h2⟩
        · rintro ⟨w1, ⟨h1, ho, rfl⟩, h2⟩; exact ⟨_, ⟨h1, ho, rfl⟩, (ih' _ _ _).mpr h2⟩
      | call k c =>
        rw [hcmd] at ih'
        have he : explicitly g σ past = .call k c := by rw [explicitly, hcmd]
        rw [he]
        constructor
        · rintro ⟨w1, ⟨o, a, h1, h3, rfl⟩, h2⟩; exact ⟨_, ⟨o, a, h1, h3, rfl⟩, (ih' _ _ _).mp h2⟩
        · rintro ⟨w1, ⟨o, a, h1, h3, rfl⟩, h2⟩; exact ⟨_, ⟨o, a, h1, h3, rfl⟩, (ih' _ _ _).mpr h2⟩
  exact key ys [] g' [] used

/-- `DiscreteMemorylessSource(m)` is the uniform source with `m` symbols; it is refused exactly when `m < 1`. -/
theorem C129_uniform_source (m : ℤ) : (m < 1 ↔ uniformPmf m = none) ∧
    (1 ≤ m → ∃ p, uniformPmf m = some p ∧ validPmf p = true ∧ ∀ a, p a = 1 / (m : ℝ)) := by
  have hvalid : 1 ≤ m → validPmf (fun _ : Fin m.toNat => 1 / (m : ℝ)) = true := by
    intro hm
    have h0 : (0 : ℝ) < m := by exact_mod_cast hm
    rw [validPmf_iff]
    refine ⟨fun _ => by positivity, ?_⟩
    rw [Finset.sum_const, Finset.card_univ, Fintype.card_fin, nsmul_eq_mul]
    have : ((m.toNat : ℕ) : ℝ) = m := by
      have : ((m.toNat : ℕ) : ℤ) = m := Int.toNat_of_nonneg (by omega)
      exact_mod_cast this
    rw [this]
    field_simp
  constructor
  · constructor
    · intro h
      rw [uniformPmf, if_pos (by omega)]
    · intro h
      by_contra hm
      rw [uniformPmf, if_neg (by omega)] at h
      simp only at h
      rw [if_pos (hvalid (by omega))] at h
      cases h
  · intro hm
    refine ⟨fun _ => 1 / (m : ℝ), ?_, hvalid hm, fun _ => rfl⟩
    rw [uniformPmf, if_neg (by omega)]
    simp only
    rw [if_pos (hvalid hm)]

/-- A session with a shared generator: create a fair source and a binary symmetric channel, emit two bits, send what was emitted. -/
noncomputable def exampleProgram : Program := fun past =>
  match past.length with
  | 0 => .new (.source 2 fun _ => 1 / 2) none
  | 1 => .new (.bsc (1 / 10)) none
  | 2 => .call 0 (.emit 2)
  | _ => .call 1 (.transmit (past.getD 2 []))

/-- Emitting `[1, 0]` and receiving `[1, 1]` has probability `1/2 · 1/2 · 9/10 · 1/10`. -/
example : generators.real {ω | Runs ω exampleProgram [] ⟨0, [], fun _ => 0⟩ [[], [], [1, 0], [1, 1]]} = 9 / 400 := by
  rw [C129_law]
  · have h1 := C129_calls.1 (N := 2) (fun _ : Fin 2 => (1 / 2 : ℝ)) (by rw [validPmf_iff]; norm_num) ![1, 0]
    have h2 := C129_calls.2.1 (N := 2) (1 / 10 : ℝ) (by simp [validProbability]; norm_num) ![1, 0] ![1, 1]
    have e1 : (List.ofFn fun k : Fin 2 => ((![1, 0] : Fin 2 → Fin 2) k).val) = [1, 0] := by decide
    have e2 : (List.ofFn fun k : Fin 2 => ((![1, 1] : Fin 2 → Fin 2) k).val) = [1, 1] := by decide
    rw [e1] at h1 h2
    rw [e2] at h2
    have a1 : (RandomObject.source 2 fun _ => (1 / 2 : ℝ)).accepted := by
      show validPmf _ = true
      rw [validPmf_iff]; norm_num
    have a2 : (RandomObject.bsc (1 / 10)).accepted := by
      show validProbability _ = true
      simp [validProbability]; norm_num
    simp only [transcriptProb, exampleProgram, responseProb, objectsAfter, List.length_nil, List.length_cons, List.nil_append, List.cons_append, zero_add, List.map_nil,
      List.getElem?_cons_zero, List.getElem?_cons_succ, List.getD_cons_succ, List.getD_cons_zero, a1, a2, and_self, if_true, one_mul, mul_one, Nat.reduceAdd]
    rw [h1, h2]
    simp [Fin.prod_univ_two, bscMatrix]
    norm_num
  · intro past
    unfold exampleProgram
    split <;> trivial

end Komm.Session
