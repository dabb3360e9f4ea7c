import Verif.Spec.Codes
import Mathlib.Probability.StrongLaw
import Mathlib.Probability.Independence.InfinitePi
import Mathlib.Analysis.PSeries
import Mathlib.MeasureTheory.Measure.Lebesgue.Basic
/-! An endless supply of independent uniform draws; parsing of a random stream by a complete prefix-free dictionary; the strong law for the parsed words. -/
namespace Komm
open MeasureTheory Set ProbabilityTheory Filter Topology Function

instance uniform_isProb : IsProbabilityMeasure (volume.restrict (Ico (0 : ℝ) 1)) := ⟨by simp⟩

/-- The law of an endless sequence of independent draws of `rng.random()`, uniform on `[0, 1)`. -/
noncomputable def endlessDraws : Measure (ℕ → ℝ) := Measure.infinitePi fun _ => volume.restrict (Ico (0 : ℝ) 1)

instance endlessDraws_prob : IsProbabilityMeasure endlessDraws := by
  unfold endlessDraws; infer_instance

/-! ### parsing an infinite sequence -/

/-- The word of the dictionary that an infinite sequence starts with. -/
noncomputable def parseWord (D : List (List Nat)) (f : ℕ → ℕ) : List Nat :=
  open Classical in if h : ∃ w ∈ D, w ≠ [] ∧ w = (List.range w.length).map f then h.choose else []

/-- The word that the sequence is parsed into at stage `i`: after the first word is removed, the rest is parsed. -/
noncomputable def parsed (D : List (List Nat)) : ℕ → (ℕ → ℕ) → List Nat
  | 0, f => parseWord D f
  | i + 1, f => parsed D i fun t => f ((parseWord D f).length + t)

theorem prefix_of_starts {f : ℕ → ℕ} {v w : List Nat} (hv : v = (List.range v.length).map f) (hw : w = (List.range w.length).map f)
    (h : v.length ≤ w.length) : v <+: w := by
  rw [hv, hw]
  refine List.IsPrefix.map f ?_
  obtain ⟨d, hd⟩ := Nat.exists_eq_add_of_le h
  rw [hd, List.range_add]
  exact List.prefix_append _ _

theorem starts_unique {D : List (List Nat)} (hpf : PrefixFree D) {f : ℕ → ℕ} {v w : List Nat} (hv : v ∈ D) (hw : w ∈ D) (hv0 : v ≠ []) (hw0 : w ≠ [])
    (h1 : v = (List.range v.length).map f) (h2 : w = (List.range w.length).map f) : v = w := by
  obtain ⟨i, hi, rfl⟩ := List.mem_iff_getElem.mp hv
  obtain ⟨j, hj, rfl⟩ := List.mem_iff_getElem.mp hw
  by_cases hij : i = j
  · subst hij; rfl
  · rcases le_total D[i].length D[j].length with h | h
    · exact absurd (prefix_of_starts h1 h2 h) (hpf i j hi hj hij hv0 hw0)
    · exact absurd (prefix_of_starts h2 h1 h) (hpf j i hj hi (Ne.symm hij) hw0 hv0)

theorem parseWord_spec {D : List (List Nat)} {q : Nat} (hcov : FullyCovering D q) {f : ℕ → ℕ} (hf : ∀ t, f t < q) :
    parseWord D f ∈ D ∧ parseWord D f ≠ [] ∧ parseWord D f = (List.range (parseWord D f).length).map f := by
  have h := hcov f hf
  have e : parseWord D f = h.choose := by rw [parseWord, dif_pos h]
  rw [e]
  exact h.choose_spec

theorem parseWord_eq_iff {D : List (List Nat)} {q : Nat} (hpf : PrefixFree D) (hcov : FullyCovering D q) {f : ℕ → ℕ} (hf : ∀ t, f t < q)
    {w : List Nat} (hw : w ∈ D) (hw0 : w ≠ []) : parseWord D f = w ↔ w = (List.range w.length).map f := by
  obtain ⟨h1, h2, h3⟩ := parseWord_spec hcov hf
  exact ⟨fun h => h ▸ h3, fun h => starts_unique hpf h1 hw h2 hw0 h3 h⟩

theorem parsed_spec {D : List (List Nat)} {q : Nat} (hcov : FullyCovering D q) (i : ℕ) : ∀ {f : ℕ → ℕ}, (∀ t, f t < q) → parsed D i f ∈ D ∧ parsed D i f ≠ [] := by
  induction i with
  | zero => intro f hf; exact ⟨(parseWord_spec hcov hf).1, (parseWord_spec hcov hf).2.1⟩
  | succ i ih => intro f hf; exact ih fun t => hf _

theorem starts_append {f : ℕ → ℕ} (a b : List Nat) :
    a ++ b = (List.range (a ++ b).length).map f ↔ a = (List.range a.length).map f ∧ b = (List.range b.length).map fun t => f (a.length + t) := by
  rw [List.length_append, List.range_add, List.map_append, List.map_map]
  constructor
  · intro h
    exact List.append_inj h (by simp)
  · rintro ⟨h1, h2⟩
    have h2' : b = (List.range b.length).map (f ∘ fun x => a.length + x) := h2
    rw [← h1, ← h2']

/-- The first words are `ws` exactly when the sequence starts with their concatenation. -/
theorem parsed_iff {D : List (List Nat)} {q : Nat} (hpf : PrefixFree D) (hcov : FullyCovering D q) (ws : List (List Nat)) :
    ∀ {f : ℕ → ℕ}, (∀ t, f t < q) → (∀ w ∈ ws, w ∈ D ∧ w ≠ []) →
      ((List.range ws.length).map (fun i : ℕ => parsed D i f) = ws ↔ ws.flatten = (List.range ws.flatten.length).map f) := by
  induction ws with
  | nil => intro f _ _; simp
  | cons w ws ih =>
    intro f hf hws
    obtain ⟨hw, hw0⟩ := hws w (by simp)
    rw [List.flatten_cons, starts_append, List.length_cons, List.range_succ_eq_map, List.map_cons, List.map_map, List.cons.injEq]
    change (parseWord D f = w ∧ _) ↔ _
    rw [parseWord_eq_iff hpf hcov hf hw hw0]
    refine and_congr_right fun h1 => ?_
    have e : parseWord D f = w := (parseWord_eq_iff hpf hcov hf hw hw0).mpr h1
    rw [← ih (fun t => hf _) fun w' hw' => hws w' (by simp [hw'])]
    have : ((fun i : ℕ => parsed D i f) ∘ Nat.succ) = fun i : ℕ => parsed D i fun t => f (w.length + t) := by
      funext i
      show parsed D i (fun t => f ((parseWord D f).length + t)) = _
      rw [e]
    rw [this]

/-- The sequence starts with its parsed words. -/
theorem parsed_prefix {D : List (List Nat)} {q : Nat} (hpf : PrefixFree D) (hcov : FullyCovering D q) {f : ℕ → ℕ} (hf : ∀ t, f t < q) (n : ℕ)
    (ws : List (List Nat)) (hws : ws = (List.range n).map fun i : ℕ => parsed D i f) : ws.flatten = (List.range ws.flatten.length).map f := by
  refine (parsed_iff hpf hcov ws hf ?_).mp ?_
  · intro w hw
    rw [hws] at hw
    obtain ⟨i, -, rfl⟩ := List.mem_map.mp hw
    exact parsed_spec hcov i hf
  · rw [hws, List.length_map, List.length_range]

/-! ### the law of the parsed words -/

section law
variable {Ω : Type} [MeasurableSpace Ω] (μ : Measure Ω) [IsProbabilityMeasure μ] (S : Ω → ℕ → ℕ) (prob : ℕ → ℝ)

/-- A stream of independent symbols below `q` with the given distribution. -/
structure IsStream (q : ℕ) : Prop where
  lt : ∀ ω t, S ω t < q
  measurable : ∀ x : List Nat, MeasurableSet {ω | x = (List.range x.length).map (S ω)}
  law : ∀ x : List Nat, (∀ a ∈ x, a < q) → μ.real {ω | x = (List.range x.length).map (S ω)} = (x.map prob).prod

variable {μ S prob} {q : ℕ} {D : List (List Nat)}

/-- The law of the first `n` words. -/
theorem parsed_law (h : IsStream μ S prob q) (hpf : PrefixFree D) (hcov : FullyCovering D q) (hD : ∀ w ∈ D, w ≠ [] ∧ ∀ a ∈ w, a < q) (n : ℕ)
    (Q : (Fin n → List Nat) → Prop) [DecidablePred Q] :
    MeasurableSet {ω | Q fun i => parsed D i (S ω)} ∧
    μ.real {ω | Q fun i => parsed D i (S ω)} =
      ∑ p ∈ Fintype.piFinset (fun _ : Fin n => D.toFinset), if Q p then ∏ i, ((p i).map prob).prod else 0 := by
  have hcyl : ∀ p ∈ Fintype.piFinset (fun _ : Fin n => D.toFinset), {ω | (fun i : Fin n => parsed D i (S ω)) = p} =
      {ω | (List.ofFn p).flatten = (List.range (List.ofFn p).flatten.length).map (S ω)} := by
    intro p hp
    ext ω
    have hws : ∀ w ∈ List.ofFn p, w ∈ D ∧ w ≠ [] := by
      intro w hw
      obtain ⟨i, rfl⟩ := List.mem_ofFn.mp hw
      have := List.mem_toFinset.mp (Fintype.mem_piFinset.mp hp i)
      exact ⟨this, (hD _ this).1⟩
    have := parsed_iff hpf hcov (List.ofFn p) (h.lt ω) hws
    simp only [mem_setOf_eq]
    rw [← this, List.length_ofFn]
    constructor
    · intro e
      rw [← e, ← List.map_coe_finRange_eq_range, List.map_map, List.ofFn_eq_map]
      rfl
    · intro e
      funext i
      have := congrArg (fun l : List (List Nat) => l[i]?) e
      simpa [List.getElem?_ofFn] using this
  have hset : {ω | Q fun i => parsed D i (S ω)} =
      ⋃ p ∈ (Fintype.piFinset (fun _ : Fin n => D.toFinset)).filter Q, {ω | (fun i : Fin n => parsed D i (S ω)) = p} := by
    ext ω
    simp only [mem_setOf_eq, mem_iUnion, Finset.mem_filter, exists_prop, exists_eq_right', Fintype.mem_piFinset, List.mem_toFinset]
    exact ⟨fun hq => ⟨fun i => (parsed_spec hcov i (h.lt ω)).1, hq⟩, fun hq => hq.2⟩
  have hm : ∀ p ∈ (Fintype.piFinset (fun _ : Fin n => D.toFinset)).filter Q, MeasurableSet {ω | (fun i : Fin n => parsed D i (S ω)) = p} := by
    intro p hp
    rw [hcyl p (Finset.mem_filter.mp hp).1]
    exact h.measurable _
  rw [hset]
  refine ⟨Finset.measurableSet_biUnion _ hm, ?_⟩
  rw [measureReal_biUnion_finset (fun a _ b _ hab => Set.disjoint_left.mpr fun u hu hu' => hab (hu.symm.trans hu')) hm, Finset.sum_filter]
  refine Finset.sum_congr rfl fun p hp => ?_
  split
  · rw [hcyl p hp, h.law]
    · rw [List.map_flatten, List.prod_flatten, List.map_map, List.map_ofFn, List.prod_ofFn]
      rfl
    · intro a ha
      obtain ⟨w, hw, haw⟩ := List.mem_flatten.mp ha
      obtain ⟨i, rfl⟩ := List.mem_ofFn.mp hw
      exact (hD _ (List.mem_toFinset.mp (Fintype.mem_piFinset.mp hp i))).2 a haw
  · rfl

theorem sum_piFinset {n : ℕ} (T : Finset (List Nat)) (f : Fin n → List Nat → ℝ) :
    ∑ p ∈ Fintype.piFinset (fun _ : Fin n => T), ∏ i, f i (p i) = ∏ i, ∑ w ∈ T, f i w :=
  (Finset.prod_univ_sum _ _).symm

theorem dict_total (h : IsStream μ S prob q) (hpf : PrefixFree D) (hcov : FullyCovering D q) (hD : ∀ w ∈ D, w ≠ [] ∧ ∀ a ∈ w, a < q) :
    ∑ w ∈ D.toFinset, (w.map prob).prod = 1 := by
  have h1 := (parsed_law h hpf hcov hD 1 fun _ => True).2
  simp only [if_true, setOf_true, probReal_univ] at h1
  rw [sum_piFinset D.toFinset fun _ w => (w.map prob).prod] at h1
  simpa using h1.symm

open Classical in
/-- The law of one word. -/
theorem parsed_one (h : IsStream μ S prob q) (hpf : PrefixFree D) (hcov : FullyCovering D q) (hD : ∀ w ∈ D, w ≠ [] ∧ ∀ a ∈ w, a < q) (i : ℕ)
    (A : Set (List Nat)) : MeasurableSet {ω | parsed D i (S ω) ∈ A} ∧
    μ.real {ω | parsed D i (S ω) ∈ A} = ∑ w ∈ D.toFinset, if w ∈ A then (w.map prob).prod else 0 := by
  obtain ⟨h1, h2⟩ := parsed_law h hpf hcov hD (i + 1) fun p => p (Fin.last i) ∈ A
  simp only [Fin.val_last] at h1 h2
  refine ⟨h1, h2.trans ?_⟩
  have e : ∀ p : Fin (i + 1) → List Nat, (if p (Fin.last i) ∈ A then ∏ j, ((p j).map prob).prod else 0) =
      ∏ j, ((p j).map prob).prod * (if j = Fin.last i then (if p j ∈ A then 1 else 0) else 1) := by
    intro p
    rw [Finset.prod_mul_distrib, Finset.prod_ite_eq' Finset.univ (Fin.last i) fun j => if p j ∈ A then (1 : ℝ) else 0]
    simp
  simp only [e]
  rw [sum_piFinset D.toFinset fun j w => (w.map prob).prod * (if j = Fin.last i then (if w ∈ A then 1 else 0) else 1)]
  rw [Finset.prod_eq_single (Fin.last i)]
  · simp
  · intro j _ hj
    simp [hj, dict_total h hpf hcov hD]
  · simp

open Classical in
/-- Two words are independent. -/
theorem parsed_two (h : IsStream μ S prob q) (hpf : PrefixFree D) (hcov : FullyCovering D q) (hD : ∀ w ∈ D, w ≠ [] ∧ ∀ a ∈ w, a < q) (i k : ℕ)
    (hik : i ≠ k) (A B : Set (List Nat)) :
    μ.real {ω | parsed D i (S ω) ∈ A ∧ parsed D k (S ω) ∈ B} = μ.real {ω | parsed D i (S ω) ∈ A} * μ.real {ω | parsed D k (S ω) ∈ B} := by
  obtain ⟨i', hi'⟩ : ∃ i' : Fin (max i k + 1), i' = ⟨i, by omega⟩ := ⟨_, rfl⟩
  obtain ⟨k', hk'⟩ : ∃ k' : Fin (max i k + 1), k' = ⟨k, by omega⟩ := ⟨_, rfl⟩
  have hne : i' ≠ k' := by rw [hi', hk']; intro e; exact hik (Fin.mk.inj_iff.mp e)
  obtain ⟨-, h2⟩ := parsed_law h hpf hcov hD (max i k + 1) fun p => p i' ∈ A ∧ p k' ∈ B
  rw [(parsed_one h hpf hcov hD i A).2, (parsed_one h hpf hcov hD k B).2]
  have e0 : {ω | parsed D i (S ω) ∈ A ∧ parsed D k (S ω) ∈ B} = {ω | parsed D (i' : ℕ) (S ω) ∈ A ∧ parsed D (k' : ℕ) (S ω) ∈ B} := by rw [hi', hk']
  rw [e0, h2]
  have e : ∀ p : Fin (max i k + 1) → List Nat, (if p i' ∈ A ∧ p k' ∈ B then ∏ j, ((p j).map prob).prod else 0) =
      ∏ j, ((p j).map prob).prod * ((if j = i' then (if p j ∈ A then 1 else 0) else 1) * (if j = k' then (if p j ∈ B then 1 else 0) else 1)) := by
    intro p
    rw [Finset.prod_mul_distrib, Finset.prod_mul_distrib, Finset.prod_ite_eq' Finset.univ i' fun j => if p j ∈ A then (1 : ℝ) else 0,
      Finset.prod_ite_eq' Finset.univ k' fun j => if p j ∈ B then (1 : ℝ) else 0]
    by_cases ha : p i' ∈ A <;> by_cases hb : p k' ∈ B <;> simp [ha, hb]
  simp only [e]
  rw [sum_piFinset D.toFinset fun j w => (w.map prob).prod * ((if j = i' then (if w ∈ A then 1 else 0) else 1) * (if j = k' then (if w ∈ B then 1 else 0) else 1))]
  rw [Finset.prod_eq_mul i' k' hne]
  · simp [hne, hne.symm]
  · rintro j - ⟨h1, h2⟩
    simp [h1, h2, dict_total h hpf hcov hD]
  · simp
  · simp

/-- The strong law of large numbers for the parsed words. -/
theorem parsed_average (h : IsStream μ S prob q) (hpf : PrefixFree D) (hcov : FullyCovering D q) (hD : ∀ w ∈ D, w ≠ [] ∧ ∀ a ∈ w, a < q)
    (F : List Nat → ℝ) :
    ∀ᵐ ω ∂μ, Tendsto (fun n : ℕ => (∑ i ∈ Finset.range n, F (parsed D i (S ω))) / n) atTop (𝓝 (∑ w ∈ D.toFinset, (w.map prob).prod * F w)) := by
  classical
  obtain ⟨X, hX⟩ : ∃ X : ℕ → Ω → ℝ, X = fun i ω => F (parsed D i (S ω)) := ⟨_, rfl⟩
  have hmeas : ∀ i, Measurable (X i) := by
    intro i s _
    rw [hX]
    exact (parsed_one h hpf hcov hD i (F ⁻¹' s)).1
  have hX0 : X 0 = fun ω => ∑ w ∈ D.toFinset, ({ω | parsed D 0 (S ω) ∈ ({w} : Set (List Nat))}).indicator (fun _ => F w) ω := by
    funext ω
    have hm : parsed D 0 (S ω) ∈ D.toFinset := List.mem_toFinset.mpr (parsed_spec hcov 0 (h.lt ω)).1
    rw [Finset.sum_eq_single (parsed D 0 (S ω))]
    · rw [hX]; simp
    · intro w _ hw
      rw [indicator_of_notMem]
      simpa using fun e => hw e.symm
    · exact fun e => absurd hm e
  have hint : ∀ w ∈ D.toFinset, Integrable (({ω | parsed D 0 (S ω) ∈ ({w} : Set (List Nat))}).indicator fun _ => F w) μ := fun w _ =>
    (integrable_const _).indicator (parsed_one h hpf hcov hD 0 {w}).1
  have hint0 : Integrable (X 0) μ := by
    rw [hX0]
    exact integrable_finset_sum _ hint
  have hE : ∫ ω, X 0 ω ∂μ = ∑ w ∈ D.toFinset, (w.map prob).prod * F w := by
    rw [hX0, integral_finset_sum _ hint]
    refine Finset.sum_congr rfl fun w hw => ?_
    rw [integral_indicator_const _ (parsed_one h hpf hcov hD 0 {w}).1, (parsed_one h hpf hcov hD 0 {w}).2, smul_eq_mul]
    congr 1
    rw [Finset.sum_eq_single w]
    · simp
    · intro v _ hv; simp [hv]
    · exact fun e => absurd hw e
  have hindep : Pairwise ((· ⟂ᵢ[μ] ·) on X) := by
    intro i k hik
    show IndepFun (X i) (X k) μ
    rw [indepFun_iff_measure_inter_preimage_eq_mul]
    intro s t _ _
    have := parsed_two h hpf hcov hD i k hik (F ⁻¹' s) (F ⁻¹' t)
    rw [← ENNReal.toReal_eq_toReal_iff' (measure_ne_top _ _) (ENNReal.mul_ne_top (measure_ne_top _ _) (measure_ne_top _ _)), ENNReal.toReal_mul]
    rw [hX]
    exact this
  have hident : ∀ i, IdentDistrib (X i) (X 0) μ μ := by
    intro i
    refine ⟨(hmeas i).aemeasurable, (hmeas 0).aemeasurable, Measure.ext fun s hs => ?_⟩
    rw [Measure.map_apply (hmeas i) hs, Measure.map_apply (hmeas 0) hs]
    rw [← ENNReal.toReal_eq_toReal_iff' (measure_ne_top _ _) (measure_ne_top _ _)]
    have h1 := (parsed_one h hpf hcov hD i (F ⁻¹' s)).2
    have h2 := (parsed_one h hpf hcov hD 0 (F ⁻¹' s)).2
    rw [hX]
    exact h1.trans h2.symm
  have := strong_law_ae_real X hint0 hindep hident
  rw [hE] at this
  rw [hX] at this
  exact this

end law
/-! ### a law of large numbers for functions of the past and the present draw -/

section adapted
variable {D : ℕ → (ℕ → ℝ) → ℝ} {C : ℝ}

/-- The draws before time `t` are independent of the draw at time `t`. -/
theorem past_present (t : ℕ) : endlessDraws.map (fun u => (((Finset.range t).restrict u : (i : Finset.range t) → ℝ), u t)) =
    (endlessDraws.map ((Finset.range t).restrict)).prod (volume.restrict (Ico (0 : ℝ) 1)) := by
  have hind : iIndepFun (fun (i : ℕ) (u : ℕ → ℝ) => u i) endlessDraws := iIndepFun_infinitePi (X := fun _ v => v) fun _ => measurable_id
  have h1 := hind.indepFun_finset (Finset.range t) {t} (by simp) fun i => measurable_pi_apply i
  have h2 : IndepFun ((Finset.range t).restrict : (ℕ → ℝ) → _) (fun u : ℕ → ℝ => u t) endlessDraws :=
    h1.comp (φ := id) (ψ := fun v : (({t} : Finset ℕ) → ℝ) => v ⟨t, by simp⟩) measurable_id (measurable_pi_apply _)
  have h3 := (indepFun_iff_map_prod_eq_prod_map_map (by fun_prop) (measurable_pi_apply t).aemeasurable).mp h2
  rw [h3]
  congr 1
  exact Measure.infinitePi_map_eval (fun _ : ℕ => volume.restrict (Ico (0 : ℝ) 1)) t

/-- The draws up to time `t`, the later ones replaced. -/
def pastWith (t : ℕ) (p : ((i : Finset.range t) → ℝ) × ℝ) : ℕ → ℝ := fun i => if h : i ∈ Finset.range t then p.1 ⟨i, h⟩ else p.2

theorem pastWith_measurable (t : ℕ) : Measurable (pastWith t) := by
  refine measurable_pi_lambda _ fun i => ?_
  unfold pastWith
  split
  · fun_prop
  · fun_prop

theorem bounded_integrable {Ω : Type} [MeasurableSpace Ω] {μ : Measure Ω} [IsFiniteMeasure μ] {f : Ω → ℝ} (hf : Measurable f) {B : ℝ} (hB : ∀ ω, |f ω| ≤ B) : Integrable f μ :=
  Integrable.of_bound hf.aestronglyMeasurable B (Eventually.of_forall hB)

theorem adapted_orthogonal (hm : ∀ t, Measurable (D t)) (hdep : ∀ t u v, (∀ i ≤ t, u i = v i) → D t u = D t v) (hC : ∀ t u, |D t u| ≤ C)
    (hz : ∀ t u, ∫ v in Ico (0 : ℝ) 1, D t (Function.update u t v) = 0) {s t : ℕ} (hst : s < t) : ∫ u, D s u * D t u ∂endlessDraws = 0 := by
  obtain ⟨G, hG⟩ : ∃ G : ((i : Finset.range t) → ℝ) × ℝ → ℝ, G = fun p => D s (pastWith t (p.1, 0)) * D t (pastWith t p) := ⟨_, rfl⟩
  have hGm : Measurable G := by
    rw [hG]
    exact ((hm s).comp ((pastWith_measurable t).comp (by fun_prop))).mul ((hm t).comp (pastWith_measurable t))
  have hφ : Measurable fun u : ℕ → ℝ => (((Finset.range t).restrict u : (i : Finset.range t) → ℝ), u t) := by fun_prop
  have e : ∀ u : ℕ → ℝ, D s u * D t u = G (((Finset.range t).restrict u : (i : Finset.range t) → ℝ), u t) := by
    intro u
    rw [hG]
    congr 1
    · refine hdep s _ _ fun i hi => ?_
      simp only [pastWith]
      rw [dif_pos (Finset.mem_range.mpr (by omega))]
      rfl
    · refine hdep t _ _ fun i hi => ?_
      simp only [pastWith]
      split
      · rfl
      · next h =>
        have : i = t := by rw [Finset.mem_range] at h; omega
        rw [this]
  have hGb : ∀ p, |G p| ≤ C * C := by
    intro p
    rw [hG, abs_mul]
    exact mul_le_mul (hC _ _) (hC _ _) (abs_nonneg _) ((abs_nonneg _).trans (hC 0 0))
  simp only [e]
  rw [← integral_map (μ := endlessDraws) hφ.aemeasurable hGm.aestronglyMeasurable, past_present t]
  have : IsProbabilityMeasure (endlessDraws.map ((Finset.range t).restrict : (ℕ → ℝ) → ((i : Finset.range t) → ℝ))) := Measure.isProbabilityMeasure_map (by fun_prop)
  rw [integral_prod _ (bounded_integrable hGm hGb)]
  refine integral_eq_zero_of_ae (Eventually.of_forall fun p => ?_)
  have h5 : ∀ v, G (p, v) = D s (pastWith t (p, 0)) * D t (Function.update (pastWith t (p, 0)) t v) := by
    intro v
    rw [hG]
    refine congrArg (D s (pastWith t (p, 0)) * ·) (hdep t _ _ fun i hi => ?_)
    by_cases h : i = t
    · subst h
      simp [pastWith]
    · rw [Function.update_of_ne h]
      simp only [pastWith]
      rw [dif_pos (Finset.mem_range.mpr (by omega)), dif_pos (Finset.mem_range.mpr (by omega))]
  simp only [h5, integral_const_mul, hz, mul_zero, Pi.zero_apply]

theorem adapted_variance (hm : ∀ t, Measurable (D t)) (hdep : ∀ t u v, (∀ i ≤ t, u i = v i) → D t u = D t v) (hC : ∀ t u, |D t u| ≤ C)
    (hz : ∀ t u, ∫ v in Ico (0 : ℝ) 1, D t (Function.update u t v) = 0) (n : ℕ) : ∫ u, (∑ t ∈ Finset.range n, D t u) ^ 2 ∂endlessDraws ≤ C ^ 2 * n := by
  have hi : ∀ s t, Integrable (fun u => D s u * D t u) endlessDraws := fun s t =>
    bounded_integrable ((hm s).mul (hm t)) (B := C * C) fun u => by
      rw [abs_mul]
      exact mul_le_mul (hC _ _) (hC _ _) (abs_nonneg _) ((abs_nonneg _).trans (hC 0 0))
  have hS : ∀ n, Measurable fun u => ∑ t ∈ Finset.range n, D t u := fun n => Finset.measurable_fun_sum _ fun t _ => hm t
  have hSb : ∀ n u, |∑ t ∈ Finset.range n, D t u| ≤ n * C := fun n u => by
    refine (Finset.abs_sum_le_sum_abs _ _).trans ((Finset.sum_le_sum fun t _ => hC t u).trans_eq ?_)
    simp
  have hC0 : 0 ≤ C := (abs_nonneg _).trans (hC 0 0)
  induction n with
  | zero => simp
  | succ n ih =>
    have e : ∀ u, (∑ t ∈ Finset.range (n + 1), D t u) ^ 2 = (∑ t ∈ Finset.range n, D t u) ^ 2 + (2 * ∑ s ∈ Finset.range n, D s u * D n u) + D n u * D n u := by
      intro u
      rw [Finset.sum_range_succ, ← Finset.sum_mul]
      ring
    have i1 : Integrable (fun u => (∑ t ∈ Finset.range n, D t u) ^ 2) endlessDraws := bounded_integrable ((hS n).pow_const 2) (B := (n * C) ^ 2) fun u => by
      rw [abs_pow]
      exact pow_le_pow_left₀ (abs_nonneg _) (hSb n u) 2
    have i2 : Integrable (fun u => 2 * ∑ s ∈ Finset.range n, D s u * D n u) endlessDraws := (integrable_finsetSum _ fun s _ => hi s n).const_mul 2
    simp only [e]
    rw [integral_add (f := fun u => (∑ t ∈ Finset.range n, D t u) ^ 2 + 2 * ∑ s ∈ Finset.range n, D s u * D n u) (i1.add i2) (hi n n), integral_add i1 i2, integral_const_mul, integral_finsetSum _ fun s _ => hi s n,
      Finset.sum_eq_zero fun s hs => adapted_orthogonal hm hdep hC hz (Finset.mem_range.mp hs)]
    have hlast : ∫ u, D n u * D n u ∂endlessDraws ≤ C ^ 2 := by
      calc ∫ u, D n u * D n u ∂endlessDraws ≤ ∫ _, C ^ 2 ∂endlessDraws := by
            refine integral_mono (hi n n) (integrable_const _) fun u => ?_
            show D n u * D n u ≤ C ^ 2
            rw [← abs_mul_abs_self, sq]
            exact mul_le_mul (hC _ _) (hC _ _) (abs_nonneg _) hC0
        _ = C ^ 2 := by simp
    push_cast
    linarith

/-- If each term depends on the draws so far, is bounded, and has mean zero over its own draw whatever the past, the averages tend to zero with probability one. -/
theorem adapted_average (hm : ∀ t, Measurable (D t)) (hdep : ∀ t u v, (∀ i ≤ t, u i = v i) → D t u = D t v) (hC : ∀ t u, |D t u| ≤ C)
    (hz : ∀ t u, ∫ v in Ico (0 : ℝ) 1, D t (Function.update u t v) = 0) :
    ∀ᵐ u ∂endlessDraws, Tendsto (fun n : ℕ => (∑ t ∈ Finset.range n, D t u) / n) atTop (𝓝 0) := by
  have hC0 : 0 ≤ C := (abs_nonneg _).trans (hC 0 0)
  have hS : ∀ n, Measurable fun u => ∑ t ∈ Finset.range n, D t u := fun n => Finset.measurable_fun_sum _ fun t _ => hm t
  obtain ⟨Y, hY⟩ : ∃ Y : ℕ → (ℕ → ℝ) → ℝ, Y = fun k u => ((∑ t ∈ Finset.range ((k + 1) ^ 2), D t u) / ((k + 1 : ℕ) ^ 2 : ℝ)) ^ 2 := ⟨_, rfl⟩
  have hYe : ∀ k u, Y k u = ((∑ t ∈ Finset.range ((k + 1) ^ 2), D t u) / ((k + 1 : ℕ) ^ 2 : ℝ)) ^ 2 := fun k u => by rw [hY]
  have hYm : ∀ k, Measurable (Y k) := fun k => by rw [hY]; exact ((hS _).div_const _).pow_const 2
  have hY0 : ∀ k u, 0 ≤ Y k u := fun k u => by rw [hY]; positivity
  have hYint : ∀ k, ∫⁻ u, ENNReal.ofReal (Y k u) ∂endlessDraws ≤ ENNReal.ofReal (C ^ 2 * (1 / ((k + 1 : ℕ) : ℝ) ^ 2)) := by
    intro k
    have hint : Integrable (Y k) endlessDraws := by
      refine bounded_integrable (hYm k) (B := C ^ 2) fun u => ?_
      rw [abs_of_nonneg (hY0 k u), hYe]
      have hpos : (0 : ℝ) < ((k + 1 : ℕ) : ℝ) ^ 2 := by positivity
      rw [← sq_abs (_ / _), abs_div, abs_of_pos hpos]
      refine pow_le_pow_left₀ (by positivity) ?_ 2
      rw [div_le_iff₀ hpos]
      refine (Finset.abs_sum_le_sum_abs _ _).trans ((Finset.sum_le_sum fun t _ => hC t u).trans_eq ?_)
      simp [mul_comm]
    rw [← ofReal_integral_eq_lintegral_ofReal hint (Eventually.of_forall (hY0 k))]
    refine ENNReal.ofReal_le_ofReal ?_
    have hpos : (0 : ℝ) < ((k + 1 : ℕ) : ℝ) ^ 2 := by positivity
    have e : ∀ u, Y k u = (∑ t ∈ Finset.range ((k + 1) ^ 2), D t u) ^ 2 * (1 / (((k + 1 : ℕ) : ℝ) ^ 2) ^ 2) := by
      intro u
      rw [hYe, div_pow]
      ring
    simp only [e]
    rw [integral_mul_const]
    have hv := adapted_variance hm hdep hC hz ((k + 1) ^ 2)
    rw [Nat.cast_pow] at hv
    calc _ ≤ C ^ 2 * ((k + 1 : ℕ) : ℝ) ^ 2 * (1 / (((k + 1 : ℕ) : ℝ) ^ 2) ^ 2) := mul_le_mul_of_nonneg_right hv (by positivity)
      _ = _ := by field_simp
  have hsum : ∫⁻ u, ∑' k, ENNReal.ofReal (Y k u) ∂endlessDraws ≠ ⊤ := by
    rw [lintegral_tsum fun k => (hYm k).ennreal_ofReal.aemeasurable]
    have hs : Summable fun k : ℕ => C ^ 2 * (1 / ((k + 1 : ℕ) : ℝ) ^ 2) :=
      ((summable_nat_add_iff (f := fun k : ℕ => 1 / (k : ℝ) ^ 2) 1).mpr (Real.summable_one_div_nat_pow.mpr (by norm_num : 1 < 2))).mul_left _
    exact ne_top_of_le_ne_top hs.tsum_ofReal_ne_top (ENNReal.tsum_le_tsum hYint)
  have hfin := ae_lt_top (Measurable.ennreal_tsum fun k => (hYm k).ennreal_ofReal) hsum
  filter_upwards [hfin] with u hu
  have hYt : Tendsto (fun k => Y k u) atTop (𝓝 0) := by
    have h1 := ENNReal.tendsto_atTop_zero_of_tsum_ne_top hu.ne
    have h2 := (ENNReal.tendsto_toReal ENNReal.zero_ne_top).comp h1
    refine h2.congr fun k => ?_
    rw [Function.comp_apply, ENNReal.toReal_ofReal (hY0 k u)]
  have hroot : Tendsto (fun k : ℕ => |∑ t ∈ Finset.range (k ^ 2), D t u| / ((k : ℕ) : ℝ) ^ 2) atTop (𝓝 0) := by
    rw [← tendsto_add_atTop_iff_nat 1]
    have h3 := (Real.continuous_sqrt.tendsto 0).comp hYt
    rw [Real.sqrt_zero] at h3
    refine h3.congr fun k => ?_
    rw [Function.comp_apply, hYe, Real.sqrt_sq_eq_abs, abs_div, abs_of_pos (by positivity : (0 : ℝ) < ((k + 1 : ℕ) : ℝ) ^ 2)]
  have hsq : Tendsto Nat.sqrt atTop atTop := by
    refine tendsto_atTop.mpr fun B => ?_
    filter_upwards [eventually_ge_atTop (B * B)] with n hn
    exact Nat.le_sqrt.mpr hn
  have hmain : Tendsto (fun n : ℕ => |∑ t ∈ Finset.range (Nat.sqrt n ^ 2), D t u| / ((Nat.sqrt n : ℕ) : ℝ) ^ 2 + 2 * C / ((Nat.sqrt n : ℕ) : ℝ)) atTop (𝓝 0) := by
    have h5 : Tendsto (fun n : ℕ => 2 * C / ((Nat.sqrt n : ℕ) : ℝ)) atTop (𝓝 0) := (tendsto_natCast_atTop_atTop.comp hsq).const_div_atTop _
    simpa using (hroot.comp hsq).add h5
  rw [tendsto_zero_iff_abs_tendsto_zero]
  refine tendsto_of_tendsto_of_tendsto_of_le_of_le' tendsto_const_nhds hmain (Eventually.of_forall fun n => abs_nonneg _) ?_
  filter_upwards [eventually_ge_atTop 1] with n hn
  obtain ⟨k, hk⟩ : ∃ k, k = Nat.sqrt n := ⟨_, rfl⟩
  have k1 : k ^ 2 ≤ n := by rw [hk, sq]; exact Nat.sqrt_le n
  have k2 : n ≤ k ^ 2 + 2 * k := by have := Nat.sqrt_le_add n; rw [← hk] at this; nlinarith
  have k0 : 0 < k := by rw [hk]; exact Nat.sqrt_pos.mpr hn
  rw [← hk]
  have hn0 : (0 : ℝ) < n := by exact_mod_cast hn
  have hk0 : (0 : ℝ) < k := by exact_mod_cast k0
  obtain ⟨d, hd⟩ := Nat.exists_eq_add_of_le k1
  have hsplit : ∑ t ∈ Finset.range n, D t u = ∑ t ∈ Finset.range (k ^ 2), D t u + ∑ t ∈ Finset.range d, D (k ^ 2 + t) u := by
    rw [hd, Finset.sum_range_add]
  have hrest : |∑ t ∈ Finset.range d, D (k ^ 2 + t) u| ≤ 2 * k * C := by
    refine (Finset.abs_sum_le_sum_abs _ _).trans ((Finset.sum_le_sum fun t _ => hC _ u).trans ?_)
    simp only [Finset.sum_const, Finset.card_range, nsmul_eq_mul]
    refine mul_le_mul_of_nonneg_right ?_ hC0
    have : d ≤ 2 * k := by omega
    exact_mod_cast this
  have hkn : ((k : ℝ)) ^ 2 ≤ n := by exact_mod_cast k1
  simp only [Function.comp_apply]
  rw [abs_div, abs_of_pos hn0, hsplit]
  calc |∑ t ∈ Finset.range (k ^ 2), D t u + ∑ t ∈ Finset.range d, D (k ^ 2 + t) u| / (n : ℝ)
      ≤ (|∑ t ∈ Finset.range (k ^ 2), D t u| + 2 * k * C) / n := div_le_div_of_nonneg_right ((abs_add_le _ _).trans (by linarith)) hn0.le
    _ ≤ (|∑ t ∈ Finset.range (k ^ 2), D t u| + 2 * k * C) / (k : ℝ) ^ 2 := div_le_div_of_nonneg_left (by positivity) (by positivity) hkn
    _ = _ := by field_simp

end adapted
end Komm
