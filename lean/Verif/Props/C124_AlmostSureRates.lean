import Verif.Lemmas.EndlessDraws
import Verif.Props.C84_Draws
import Verif.Props.C114_LempelZivRate
/-! C124: what the source codes deliver on an endless stream of symbols drawn by a memoryless source. -/
namespace Komm
open MeasureTheory Set Filter Topology

/-! ### the stream -/

/-- `emit(n)` of the memoryless source with the given pmf, from the first `n` draws, returns `x n`, for every `n`. -/
def Emits (pmf : List ℚ) (u : ℕ → ℝ) (x : ℕ → Word) : Prop :=
  ∀ n, (dmsEmit (pmfVec pmf) ((List.range n).map u)).map (List.map Fin.val) = some (x n)

/-- The symbol of one draw. -/
noncomputable def sourceSymbol (pmf : List ℚ) (u : ℝ) : ℕ := ((rngChoice (pmfVec pmf) u).map Fin.val).getD 0

theorem sourceSymbol_measurable (pmf : List ℚ) : Measurable (sourceSymbol pmf) := by
  have hm : Measurable fun u : ℝ => (Finset.univ.filter fun j : Fin pmf.length => cumsum (pmfVec pmf) j / ∑ i, pmfVec pmf i ≤ u).card := by
    simp only [Finset.card_filter]
    exact Finset.measurable_fun_sum _ fun i _ => Measurable.ite measurableSet_Ici measurable_const measurable_const
  have e : sourceSymbol pmf = (fun i : ℕ => if i < pmf.length then i else 0) ∘
      fun u : ℝ => (Finset.univ.filter fun j : Fin pmf.length => cumsum (pmfVec pmf) j / ∑ i, pmfVec pmf i ≤ u).card := by
    funext u
    simp only [sourceSymbol, rngChoice, Function.comp_apply]
    split <;> simp
  rw [e]
  exact (measurable_of_countable _).comp hm

theorem sourceSymbol_lt {pmf : List ℚ} (hq : 0 < pmf.length) (u : ℝ) : sourceSymbol pmf u < pmf.length := by
  rw [sourceSymbol]
  cases rngChoice (pmfVec pmf) u with
  | none => exact hq
  | some j => exact j.2

theorem valid_pmfVec {pmf : List ℚ} (hp : IsPmf pmf) : validPmf (pmfVec pmf) = true := by
  rw [validPmf_iff]
  have := pmf_pmfVec hp.1 hp.2
  exact ⟨this.1, this.2⟩

theorem sourceSymbol_law {pmf : List ℚ} (hp : IsPmf pmf) (a : ℕ) (ha : a < pmf.length) :
    (volume.restrict (Ico (0 : ℝ) 1)) {u | sourceSymbol pmf u = a} = ENNReal.ofReal (symbolProb pmf a) := by
  have hm : MeasurableSet {u : ℝ | sourceSymbol pmf u = a} := sourceSymbol_measurable pmf (measurableSet_singleton a)
  rw [Measure.restrict_apply hm]
  have : {u | sourceSymbol pmf u = a} ∩ Ico 0 1 = {u : ℝ | u ∈ Ico (0 : ℝ) 1 ∧ rngChoice (pmfVec pmf) u = some ⟨a, ha⟩} := by
    ext u
    simp only [mem_inter_iff, mem_setOf_eq]
    rw [and_comm]
    refine and_congr_right fun hu => ?_
    obtain ⟨j, hj, -⟩ := C84_choice_positive (pmfVec pmf) (valid_pmfVec hp) u hu
    simp [sourceSymbol, hj, Fin.ext_iff]
  rw [this, C84_choice_measure _ (valid_pmfVec hp)]
  congr 1
  simp [pmfVec, symbolProb, ha]

theorem source_stream {pmf : List ℚ} (hp : IsPmf pmf) (hq : 0 < pmf.length) :
    IsStream endlessDraws (fun u t => sourceSymbol pmf (u t)) (symbolProb pmf) pmf.length := by
  have hset : ∀ x : List Nat, {u : ℕ → ℝ | x = (List.range x.length).map fun t => sourceSymbol pmf (u t)} =
      Set.pi (Finset.range x.length) fun i => {u : ℝ | sourceSymbol pmf u = x.getD i 0} := by
    intro x
    ext u
    simp only [mem_setOf_eq, Set.mem_pi, Finset.coe_range, mem_Iio]
    constructor
    · intro h i hi
      conv_rhs => rw [h]
      simp [hi]
    · intro h
      refine List.ext_getElem (by simp) fun i h1 h2 => ?_
      simp [h i h1, h1]
  have hm : ∀ a, MeasurableSet {u : ℝ | sourceSymbol pmf u = a} := fun a => sourceSymbol_measurable pmf (measurableSet_singleton a)
  refine ⟨fun u t => sourceSymbol_lt hq _, fun x => ?_, fun x hx => ?_⟩
  · rw [hset]
    exact MeasurableSet.pi (Finset.countable_toSet _) fun i _ => hm _
  · rw [hset, measureReal_def, endlessDraws, Measure.infinitePi_pi _ fun i _ => hm _, ENNReal.toReal_prod]
    have : ∀ i ∈ Finset.range x.length, ((volume.restrict (Ico (0 : ℝ) 1)) {u | sourceSymbol pmf u = x.getD i 0}).toReal = symbolProb pmf (x.getD i 0) := by
      intro i hi
      have hi' := Finset.mem_range.mp hi
      rw [sourceSymbol_law hp _ (by rw [List.getD_eq_getElem _ _ hi']; exact hx _ (List.getElem_mem _)),
        ENNReal.toReal_ofReal (symbolProb_nonneg hp.1 _)]
    rw [Finset.prod_congr rfl this, Finset.prod_range]
    conv_rhs => rw [← List.ofFn_getElem (xs := x), List.map_ofFn, List.prod_ofFn]
    refine Finset.prod_congr rfl fun i _ => ?_
    rw [Function.comp, List.getD_eq_getElem _ _ i.2]

/-- Almost surely all draws are in `[0, 1)`, the source emits one symbol per draw, and only symbols of positive probability. -/
theorem source_emits {pmf : List ℚ} (hp : IsPmf pmf) : ∀ᵐ u ∂endlessDraws, Emits pmf u (fun n => (List.range n).map fun t => sourceSymbol pmf (u t)) ∧
    ∀ t, 0 < symbolProb pmf (sourceSymbol pmf (u t)) := by
  have h1 : ∀ᵐ u ∂endlessDraws, ∀ t : ℕ, u t ∈ Ico (0 : ℝ) 1 := by
    rw [ae_all_iff]
    intro t
    have h := measurePreserving_eval_infinitePi (fun _ : ℕ => volume.restrict (Ico (0 : ℝ) 1)) t
    have h2 : ∀ᵐ v ∂(volume.restrict (Ico (0 : ℝ) 1)), v ∈ Ico (0 : ℝ) 1 := ae_restrict_mem measurableSet_Ico
    exact h.quasiMeasurePreserving.ae h2
  filter_upwards [h1] with u hu
  have hch : ∀ t, ∃ j, rngChoice (pmfVec pmf) (u t) = some j ∧ 0 < pmfVec pmf j := fun t => C84_choice_positive _ (valid_pmfVec hp) _ (hu t)
  refine ⟨fun n => ?_, fun t => ?_⟩
  · obtain ⟨out, o1, o2, -, o4⟩ := C84_emit (pmfVec pmf) (valid_pmfVec hp) ((List.range n).map u) (by
      intro v hv
      obtain ⟨t, -, rfl⟩ := List.mem_map.mp hv
      exact hu t)
    rw [o1, Option.map_some]
    refine congrArg some (List.ext_getElem (by simp [o2]) fun t h1 h2 => ?_)
    have ht : t < n := by simpa using h2
    have h5 := o4 t (by simpa using ht)
    rw [List.getElem_map, List.getElem_range, List.getElem?_eq_getElem (by simpa using h1)] at h5
    simp [sourceSymbol, h5]
  · obtain ⟨j, h2, h3⟩ := hch t
    rw [sourceSymbol, h2]
    simpa [pmfVec, symbolProb] using h3

/-! ### fixed-to-variable codes -/

theorem allWords_prefixFree (q k : ℕ) : PrefixFree (allWords q k) := by
  intro i j hi hj hij _ _ h
  have h1 := ((mem_allWords q k _).mp (List.getElem_mem hi)).1
  have h2 := ((mem_allWords q k _).mp (List.getElem_mem hj)).1
  exact hij (((allWords_nodup q k).getElem_inj_iff).mp (h.eq_of_length (h1.trans h2.symm)))

theorem allWords_covering (q k : ℕ) (hk : 1 ≤ k) : FullyCovering (allWords q k) q := by
  intro f hf
  have hl : ((List.range k).map f).length = k := by simp
  refine ⟨(List.range k).map f, (mem_allWords q k _).mpr ⟨hl, ?_⟩, ?_, by rw [hl]⟩
  · intro a ha
    obtain ⟨t, -, rfl⟩ := List.mem_map.mp ha
    exact hf t
  · intro h
    rw [h] at hl
    simp at hl
    omega

theorem allWords_words (q k : ℕ) (hk : 1 ≤ k) : ∀ w ∈ allWords q k, w ≠ [] ∧ ∀ a ∈ w, a < q := by
  intro w hw
  obtain ⟨h1, h2⟩ := (mem_allWords q k w).mp hw
  exact ⟨fun h => by rw [h] at h1; simp at h1; omega, h2⟩

/-- For every uniquely decodable fixed-to-variable code and every pmf of its source alphabet: with probability one, the number of code symbols
that `encode` outputs for the first `N k` symbols of the stream, divided by `N k`, tends to the expected rate. -/
theorem C124_fixed_to_variable {calX calY k : Nat} {enc : List (Word × Word)} {c : FVCode} (hc : FVCode.create calX calY k enc = some c)
    (hkeys : (enc.map Prod.fst).Nodup) (hu : c.isUniquelyDecodable = some true) (pmf : List ℚ) (hl : pmf.length = calX) (hp : IsPmf pmf) :
    ∀ᵐ u ∂endlessDraws, ∃ x y : ℕ → Word, Emits pmf u x ∧ (∀ N, c.encode (x (N * k)) = some (y N)) ∧
      Tendsto (fun N : ℕ => ((y N).length : ℝ) / ((N * k : ℕ) : ℝ)) atTop (𝓝 (expectedRate c pmf : ℝ)) := by
  have hdef := C24_encode_defined hc hkeys hu
  obtain ⟨hX, hY, hk, hset, -, hcc⟩ := FVCode.create_facts hc
  have hq : 0 < pmf.length := by omega
  obtain ⟨F, hF⟩ : ∃ F : Word → ℝ, F = fun w => (((dictGet enc w).getD []).length : ℝ) := ⟨_, rfl⟩
  have hslln := parsed_average (source_stream hp hq) (allWords_prefixFree _ k) (allWords_covering _ k hk) (allWords_words _ k hk) F
  have hperm := keys_perm hset hkeys
  have hlim : ∑ w ∈ (allWords pmf.length k).toFinset, (w.map (symbolProb pmf)).prod * F w = (expectedRate c pmf : ℝ) * k := by
    have hk0 : (k : ℝ) ≠ 0 := by positivity
    have e1 : (allWords pmf.length k).toFinset = (enc.map Prod.fst).toFinset := by rw [hl, hset]
    rw [e1, ← sum_map_toFinset _ hkeys, expectedRate, hcc, Rat.cast_div, Rat.cast_natCast, div_mul_cancel₀ _ hk0, List.map_map]
    have hcast : ∀ l : List ℚ, ((l.sum : ℚ) : ℝ) = (l.map fun r : ℚ => (r : ℝ)).sum := by
      intro l
      induction l with
      | nil => simp
      | cons a l ih => simp only [List.sum_cons, List.map_cons, Rat.cast_add, ih]
    rw [hcast, List.map_map]
    refine congrArg List.sum (List.map_congr_left fun e he => ?_)
    have : dictGet enc e.1 = some e.2 := (dictGet_eq_some hkeys _ _).mpr he
    simp only [Function.comp_apply, hF, this, Option.getD_some, Rat.cast_mul, Rat.cast_natCast, blockProb_cast]
    rfl
  filter_upwards [hslln, source_emits hp] with u h1 h2
  obtain ⟨S, hS⟩ : ∃ S : ℕ → ℕ, S = fun t => sourceSymbol pmf (u t) := ⟨_, rfl⟩
  rw [← hS] at h1
  have hSlt : ∀ t, S t < pmf.length := by rw [hS]; exact fun t => sourceSymbol_lt hq _
  have hw : ∀ N, ((List.range N).map fun i : ℕ => parsed (allWords pmf.length k) i S).flatten = (List.range (N * k)).map S := by
    intro N
    have h3 := parsed_prefix (allWords_prefixFree pmf.length k) (allWords_covering _ k hk) hSlt N _ rfl
    rw [h3]
    congr 2
    rw [List.length_flatten, List.map_map, List.map_congr_left (g := fun _ => k)]
    · simp
    · intro i _
      exact ((mem_allWords _ k _).mp (parsed_spec (allWords_covering _ k hk) i hSlt).1).1
  have henc : ∀ N, ∃ y, c.encode ((List.range (N * k)).map S) = some y ∧ (y.length : ℝ) = ∑ i ∈ Finset.range N, F (parsed (allWords pmf.length k) i S) := by
    intro N
    obtain ⟨es, hes⟩ : ∃ es : List (Word × Word), es = (List.range N).map fun i : ℕ =>
      (parsed (allWords pmf.length k) i S, (dictGet enc (parsed (allWords pmf.length k) i S)).getD []) := ⟨_, rfl⟩
    have hmem : ∀ i, parsed (allWords pmf.length k) i S ∈ enc.map Prod.fst := fun i => by
      rw [← List.mem_toFinset, hset, ← hl, List.mem_toFinset]
      exact (parsed_spec (allWords_covering _ k hk) i hSlt).1
    refine ⟨(es.map Prod.snd).flatten, ?_, ?_⟩
    · rw [FVCode.encode, hu]
      simp only [ne_eq, not_true_eq_false, if_false]
      rw [hcc]
      rw [parseFixedLength_spec enc k (by omega)]
      refine ⟨es, ?_, ?_, rfl⟩
      · intro e he
        rw [hes] at he
        obtain ⟨i, -, rfl⟩ := List.mem_map.mp he
        refine ⟨?_, ((mem_allWords _ k _).mp (parsed_spec (allWords_covering _ k hk) i hSlt).1).1⟩
        obtain ⟨e', he', h5⟩ := List.mem_map.mp (hmem i)
        rw [← h5, (dictGet_eq_some hkeys _ _).mpr he', Option.getD_some]
      · rw [← hw N, hes, List.map_map]
        rfl
    · rw [List.length_flatten, hes, List.map_map, List.map_map, Finset.sum_range, hF]
      have : ∀ g : ℕ → ℕ, ((((List.range N).map g).sum : ℕ) : ℝ) = ∑ i : Fin N, (g i : ℝ) := by
        intro g
        rw [← Finset.sum_range fun i => (g i : ℝ), ← Nat.cast_sum]
        congr 1
      exact this _
  choose y hy1 hy2 using henc
  refine ⟨fun n => (List.range n).map S, y, by rw [hS]; exact h2.1, hy1, ?_⟩
  rw [hlim] at h1
  have h3 := h1.div_const (k : ℝ)
  have hk0 : (k : ℝ) ≠ 0 := by positivity
  rw [mul_div_cancel_right₀ _ hk0] at h3
  refine h3.congr fun N => ?_
  rw [hy2, Nat.cast_mul, div_div]

/-- A Huffman code on the stream of its own source: with probability one, the number of bits per symbol tends to `rate(pmf)`, which is within `1/k` of
the entropy. -/
theorem C124_huffman (pmf : List ℚ) (hpos : ∀ x ∈ pmf, 0 < x) (hsum : pmf.sum = 1) (k : Nat) (policy : HuffmanPolicy)
    (assignment : HuffmanAssignment) (h2 : 2 ≤ pmf.length) (hk : 1 ≤ k) :
    ∃ c h r, huffmanCode pmf k policy assignment = some c ∧ entropy (pmfVec pmf) (.num 2) = some h ∧ c.rate pmf = some r ∧ h ≤ (r : ℝ) ∧ (r : ℝ) < h + 1 / k ∧
      ∀ᵐ u ∂endlessDraws, ∃ x y : ℕ → Word, Emits pmf u x ∧ (∀ N, c.encode (x (N * k)) = some (y N)) ∧
        Tendsto (fun N : ℕ => ((y N).length : ℝ) / ((N * k : ℕ) : ℝ)) atTop (𝓝 (r : ℝ)) := by
  obtain ⟨c, h, r, c1, c2, c3, c4, c5⟩ := C100_huffman pmf hpos hsum k policy assignment h2 hk
  obtain ⟨c₁, g1, -, -, g4, g5, -, -, g8, g9⟩ := huffmanCode_facts pmf k policy assignment h2 hk
  rw [c1] at g1; cases g1
  refine ⟨c, h, r, c1, c2, c3, c4, c5, ?_⟩
  obtain ⟨enc, henc⟩ : ∃ enc, FVCode.create pmf.length 2 k enc = some c := by
    unfold huffmanCode at c1
    split at c1
    · cases c1
    · split at c1
      · cases c1
      · exact ⟨_, c1⟩
  have hcc := (FVCode.create_facts henc).2.2.2.2.2
  have hkeys : (enc.map Prod.fst).Nodup := by
    have : enc = c.encMapping := by rw [hcc]
    rw [this, g8]
    exact allWords_nodup _ _
  have hr := C79_rate_lexicographic_partial c pmf (by rw [g9]; exact g8)
  rw [c3] at hr
  cases hr
  exact C124_fixed_to_variable henc hkeys (isUniquelyParsable_of_prefixFree g4 g5) pmf rfl ⟨fun x hx => (hpos x hx).le, hsum⟩

/-! ### variable-to-fixed codes -/

/-- `encode` of a variable-to-fixed code splits the sequence into sourcewords and a proper prefix of a sourceword; it outputs one block for each, and none for
an empty prefix. -/
theorem vf_encode_count {calY calX n : Nat} {dec : List (Word × Word)} {c : VFCode} (h : VFCode.create calY calX n dec = some c)
    (hd : (dec.map Prod.fst).Nodup) (hpf : PrefixFree c.sourcewords) (hcov : FullyCovering c.sourcewords calX) (x : Word) (hx : ∀ a ∈ x, a < calX) :
    ∃ (ws : List Word) (rem y : Word), (∀ w ∈ ws, w ∈ c.sourcewords) ∧ x = ws.flatten ++ rem ∧ (∃ w ∈ c.sourcewords, rem <+: w ∧ rem.length < w.length) ∧
      c.encode x = some y ∧ y.length = n * (ws.length + if rem = [] then 0 else 1) := by
  obtain ⟨rfl, hY, hX, hn, hdom, hcod⟩ := VFCode.create_spec h
  have hne : ∀ w ∈ dec.map Prod.snd, w ≠ [] := by
    intro w hw
    obtain ⟨e, he, rfl⟩ := List.mem_map.mp hw
    exact (hcod e he).2
  have hud : VFCode.isUniquelyEncodable ⟨calY, calX, n, dec⟩ = some true := isUniquelyParsable_of_prefixFree hpf hne
  have hpf' : VFCode.prefixFree ⟨calY, calX, n, dec⟩ = true := (isPrefixFree_iff _).mpr hpf
  have hcov' : VFCode.fullyCovering ⟨calY, calX, n, dec⟩ = true := (isFullyCovering_iff _ _).mpr hcov
  have hnd : (dec.map Prod.snd).Nodup := hpf.nodup hne
  have hdl : ∀ k v, dictGet (dictInverse dec) k = some v → k ∈ dec.map Prod.snd ∧ v.length = n := by
    intro k v hkv
    have h1 := (dictGet_eq_some hd _ _).mp ((dictInverse_get dec hd hnd k v).mp hkv)
    exact ⟨List.mem_map_of_mem (f := Prod.snd) h1, (hdom v (List.mem_map_of_mem (f := Prod.fst) h1)).1⟩
  unfold VFCode.encode
  rw [hud, hpf', hcov']
  simp only [ne_eq, not_true_eq_false, if_false, Bool.not_true, Bool.false_eq_true]
  generalize hp : parseLoop (dictInverse dec) x [] [] = r
  obtain ⟨rem, out⟩ := r
  obtain ⟨⟨es, h1, h2, h3⟩, h4⟩ := parseLoop_sound _ x [] [] rem out hp (fun p hp hpp => absurd (List.prefix_nil.mp hpp) hp)
  simp only [List.nil_append] at h2 h3
  have hremlt : ∀ a ∈ rem, a < calX := fun a ha => hx a (by rw [h2]; exact List.mem_append_right _ ha)
  have hget : ∀ w ∈ dec.map Prod.snd, ∃ v, dictGet (dictInverse dec) w = some v := by
    intro w hw
    obtain ⟨e, he, hew⟩ := List.mem_map.mp hw
    exact ⟨e.1, (dictInverse_get dec hd hnd _ _).mpr ((dictGet_eq_some hd _ _).mpr (by rw [← hew]; exact he))⟩
  obtain ⟨w, hw, hw0, hwf⟩ := hcov (fun i => rem.getD i 0) (by
    intro i
    by_cases hi : i < rem.length
    · simp only [List.getD_eq_getElem _ _ hi]; exact hremlt _ (List.getElem_mem _)
    · simp only [List.getD_eq_default _ _ (not_lt.mp hi)]; omega)
  have hremf : rem = (List.range rem.length).map fun i => rem.getD i 0 :=
    List.ext_getElem (by simp) fun i h1 h2 => by simp [h1]
  obtain ⟨v, hv⟩ := hget w hw
  have hlt : rem.length < w.length := by
    by_contra hge
    rw [h4 w hw0 (prefix_of_starts hwf hremf (not_lt.mp hge))] at hv
    cases hv
  have hpre : rem <+: w := prefix_of_starts hremf hwf hlt.le
  have hout : out.length = n * es.length := by
    rw [h3, List.length_flatten, List.map_map, List.map_congr_left (g := fun _ => n)]
    · simp [mul_comm]
    · intro e he
      exact (hdl _ _ (h1 e he)).2
  by_cases hrem : rem = []
  · refine ⟨es.map Prod.fst, rem, out, ?_, h2, ⟨w, hw, hpre, hlt⟩, by unfold parsePrefixFree; rw [hp]; simp [hrem], by simp [hrem, hout]⟩
    intro w' hw'
    obtain ⟨e, he, rfl⟩ := List.mem_map.mp hw'
    exact (hdl _ _ (h1 e he)).1
  · have hfind : ∃ p, (dictInverse dec).find? (fun p => isPrefixOf rem p.1) = some p := by
      rw [← Option.isSome_iff_exists, List.find?_isSome]
      unfold dictGet at hv
      obtain ⟨e, he, hev⟩ := Option.map_eq_some_iff.mp hv
      have hew : e.1 = w := by simpa using List.find?_some he
      exact ⟨e, List.mem_of_find?_eq_some he, by rw [isPrefixOf_iff, hew]; exact hpre⟩
    obtain ⟨p, hp2⟩ := hfind
    refine ⟨es.map Prod.fst, rem, out ++ p.2, ?_, h2, ⟨w, hw, hpre, hlt⟩, ?_, ?_⟩
    · intro w' hw'
      obtain ⟨e, he, rfl⟩ := List.mem_map.mp hw'
      exact (hdl _ _ (h1 e he)).1
    · unfold parsePrefixFree
      rw [hp]
      simp [hrem, hp2]
    · have hpm := List.mem_of_find?_eq_some hp2
      rw [dictInverse_nodup dec hnd] at hpm
      obtain ⟨e, he, rfl⟩ := List.mem_map.mp hpm
      have hen := (hdom e.1 (List.mem_map_of_mem (f := Prod.fst) he)).1
      simp [hrem, hout, hen, Nat.mul_add]

/-- Inversion: if the first `j` words have total length `s j` with `s j / j → m`, then a count `z n` within one of the number of words that fit in `n` symbols has
`z n / n → 1 / m`. -/
theorem count_rate (s : ℕ → ℝ) (m L : ℝ) (hm : 0 < m) (hs : Tendsto (fun j : ℕ => s j / j) atTop (𝓝 m)) (j : ℕ → ℕ) (z : ℕ → ℝ)
    (h1 : ∀ n, s (j n) ≤ n) (h2 : ∀ n : ℕ, (n : ℝ) ≤ s (j n) + L) (h3 : ∀ n, (j n : ℝ) ≤ z n) (h4 : ∀ n, z n ≤ j n + 1)
    (hj : Tendsto j atTop atTop) : Tendsto (fun n : ℕ => z n / n) atTop (𝓝 (1 / m)) := by
  have hjr : Tendsto (fun n => (j n : ℝ)) atTop atTop := tendsto_natCast_atTop_atTop.comp hj
  have a1 : Tendsto (fun n => s (j n) / (j n : ℝ)) atTop (𝓝 m) := hs.comp hj
  have a2 : Tendsto (fun n => s (j n) / (j n : ℝ) + L / (j n : ℝ)) atTop (𝓝 m) := by
    simpa using a1.add (hjr.const_div_atTop L)
  have a3 : Tendsto (fun n : ℕ => (n : ℝ) / (j n : ℝ)) atTop (𝓝 m) := by
    refine tendsto_of_tendsto_of_tendsto_of_le_of_le a1 a2 (fun n => ?_) fun n => ?_
    · exact div_le_div_of_nonneg_right (h1 n) (Nat.cast_nonneg _)
    · show (n : ℝ) / _ ≤ _
      rw [← add_div]
      exact div_le_div_of_nonneg_right (h2 n) (Nat.cast_nonneg _)
  have a4 : Tendsto (fun n => z n / (j n : ℝ)) atTop (𝓝 1) := by
    have b2 : Tendsto (fun n => 1 + 1 / (j n : ℝ)) atTop (𝓝 1) := by simpa using (hjr.const_div_atTop 1).const_add 1
    refine tendsto_of_tendsto_of_tendsto_of_le_of_le' tendsto_const_nhds b2 ?_ ?_
    · filter_upwards [hj.eventually_ge_atTop 1] with n hn
      have : (0 : ℝ) < j n := by exact_mod_cast hn
      rw [le_div_iff₀ this, one_mul]
      exact h3 n
    · filter_upwards [hj.eventually_ge_atTop 1] with n hn
      have : (0 : ℝ) < j n := by exact_mod_cast hn
      rw [div_le_iff₀ this, add_mul, one_div, inv_mul_cancel₀ this.ne', one_mul]
      exact h4 n
  have a5 := a4.div a3 hm.ne'
  refine a5.congr' ?_
  filter_upwards [hj.eventually_ge_atTop 1] with n hn
  have : (j n : ℝ) ≠ 0 := by
    have : 1 ≤ j n := hn
    positivity
  simp only [Pi.div_apply]
  rw [div_div_div_cancel_right₀ this]

/-- For every prefix-free, fully covering variable-to-fixed code and every pmf of its source alphabet: with probability one, the number of code symbols that
`encode` outputs for the first `n` symbols of the stream, divided by `n`, tends to `rate(pmf)`. -/
theorem C124_variable_to_fixed {calY calX n : Nat} {dec : List (Word × Word)} {c : VFCode} (hc : VFCode.create calY calX n dec = some c)
    (hkeys : (dec.map Prod.fst).Nodup) (hpf : c.prefixFree = true) (hcov : c.fullyCovering = true) (pmf : List ℚ) (hl : pmf.length = calX) (hp : IsPmf pmf) :
    ∃ r, c.rate pmf = some r ∧ ∀ᵐ u ∂endlessDraws, ∃ x y : ℕ → Word, Emits pmf u x ∧ (∀ N, c.encode (x N) = some (y N)) ∧
      Tendsto (fun N : ℕ => ((y N).length : ℝ) / (N : ℝ)) atTop (𝓝 (r : ℝ)) := by
  have hw := sourcewords_facts hc
  obtain ⟨hY, hX, hn, hset, -, hcc⟩ := VFCode.create_facts hc
  have hpf' := (isPrefixFree_iff _).mp hpf
  have hcov' : FullyCovering c.sourcewords calX := by
    have := (isFullyCovering_iff c.sourcewords c.sourceCardinality).mp hcov
    rwa [hcc] at this ⊢
  obtain ⟨h1, h2, h3⟩ := vf_rate c pmf hl hX hp hpf' hw hcov'
  have hnn : c.targetBlockSize = n := by rw [hcc]
  rw [hnn] at h3
  refine ⟨_, h3, ?_⟩
  have hnd := hpf'.nodup fun w h => (hw w h).1
  have hcount := fun x hx => vf_encode_count hc hkeys hpf' hcov' x hx
  clear hc hset
  subst hl
  have hq : 0 < pmf.length := by omega
  have hslln := parsed_average (source_stream hp hq) hpf' hcov' hw fun w => (w.length : ℝ)
  have hlim : ∑ w ∈ c.sourcewords.toFinset, (w.map (symbolProb pmf)).prod * (w.length : ℝ) = (expectedWordLength c.sourcewords pmf : ℝ) := (cast_expected _ hnd pmf).symm
  rw [hlim] at hslln
  have hm : (0 : ℝ) < (expectedWordLength c.sourcewords pmf : ℝ) := by
    have : (0 : ℚ) < expectedWordLength c.sourcewords pmf := by linarith
    exact_mod_cast this
  filter_upwards [hslln, source_emits hp] with u g1 g2
  obtain ⟨S, hS⟩ : ∃ S : ℕ → ℕ, S = fun t => sourceSymbol pmf (u t) := ⟨_, rfl⟩
  rw [← hS] at g1
  have hSlt : ∀ t, S t < pmf.length := by rw [hS]; exact fun t => sourceSymbol_lt hq _
  obtain ⟨L, hL⟩ : ∃ L : ℕ, ∀ w ∈ c.sourcewords, w.length ≤ L := ⟨_, fun w hw => length_le_sum hw⟩
  have hsplit : ∀ N : ℕ, ∃ (j : ℕ) (y : Word) (θ : ℕ), c.encode ((List.range N).map S) = some y ∧ y.length = n * (j + θ) ∧ θ ≤ 1 ∧
      (∑ i ∈ Finset.range j, (parsed c.sourcewords i S).length) ≤ N ∧ N ≤ (∑ i ∈ Finset.range j, (parsed c.sourcewords i S).length) + L := by
    intro N
    obtain ⟨ws, rem, y, k1, k2, ⟨w, k3, -, k4⟩, k5, k6⟩ := hcount ((List.range N).map S) (by
      intro a ha
      obtain ⟨t, -, rfl⟩ := List.mem_map.mp ha
      exact hSlt t)
    refine ⟨ws.length, y, _, k5, k6, by split <;> omega, ?_⟩
    have hN : N = ws.flatten.length + rem.length := by
      have := congrArg List.length k2
      simpa using this
    have hpre : ws.flatten = (List.range ws.flatten.length).map S := by
      have h5 : ws.flatten <+: (List.range N).map S := ⟨rem, k2.symm⟩
      rw [List.prefix_iff_eq_take, ← List.map_take, List.take_range, Nat.min_eq_left (by omega)] at h5
      exact h5
    have hws := (parsed_iff hpf' hcov' ws hSlt fun w hw' => ⟨k1 w hw', (hw w (k1 w hw')).1⟩).mpr hpre
    have hsum : ∑ i ∈ Finset.range ws.length, (parsed c.sourcewords i S).length = ws.flatten.length := by
      conv_rhs => rw [← hws, List.length_flatten, List.map_map]
      rfl
    rw [hsum]
    have := hL w k3
    omega
  choose j y θ k1 k2 k3 k4 k5 using hsplit
  refine ⟨fun N => (List.range N).map S, y, by rw [hS]; exact g2.1, k1, ?_⟩
  have hjt : Tendsto j atTop atTop := by
    rw [tendsto_atTop]
    intro B
    filter_upwards [eventually_ge_atTop ((B + 1) * L + 1)] with N hN
    by_contra hlt
    push Not at hlt
    have hle : ∑ i ∈ Finset.range (j N), (parsed c.sourcewords i S).length ≤ j N * L := by
      calc _ ≤ ∑ i ∈ Finset.range (j N), L := Finset.sum_le_sum fun i _ => hL _ (parsed_spec hcov' i hSlt).1
        _ = j N * L := by simp
    have := k5 N
    have h6 : j N * L ≤ B * L := Nat.mul_le_mul_right L hlt.le
    rw [Nat.add_mul] at hN
    omega
  have hmain := count_rate (fun j => ∑ i ∈ Finset.range j, ((parsed c.sourcewords i S).length : ℝ)) _ L hm g1 j (fun N => ((j N + θ N : ℕ) : ℝ))
    (fun N => by have := k4 N; exact_mod_cast this) (fun N => by have := k5 N; exact_mod_cast this) (fun N => by push_cast; simp)
    (fun N => by have := k3 N; push_cast; have : (θ N : ℝ) ≤ 1 := by exact_mod_cast this
                 linarith) hjt
  have h7 := hmain.const_mul (n : ℝ)
  rw [mul_one_div] at h7
  rw [Rat.cast_div, Rat.cast_natCast]
  refine h7.congr fun N => ?_
  rw [k2, Nat.cast_mul, mul_div_assoc]

/-- A Tunstall code on the stream of its own source: with probability one, the number of bits per symbol tends to `rate(pmf)`. -/
theorem C124_tunstall (pmf : List ℚ) (hp : IsPmf pmf) (n : Nat) (hS : 2 ≤ pmf.length) (hn : pmf.length ≤ 2 ^ n)
    (choose : List TNode → Nat) (hc : ∀ heap, heap ≠ [] → choose heap < heap.length) :
    ∃ c r, tunstallCode pmf n choose = some c ∧ c.rate pmf = some r ∧ ∀ᵐ u ∂endlessDraws, ∃ x y : ℕ → Word, Emits pmf u x ∧ (∀ N, c.encode (x N) = some (y N)) ∧
      Tendsto (fun N : ℕ => ((y N).length : ℝ) / (N : ℝ)) atTop (𝓝 (r : ℝ)) := by
  obtain ⟨c, h1, hpf, hcov, hnd, hw, -, hkeys⟩ := C30_tunstall_tree pmf n hS hn choose hc
  have h1' := h1
  unfold tunstallCode at h1'
  split at h1'; · cases h1'
  split at h1'; · cases h1'
  have hcc := (VFCode.create_facts h1').2.2.2.2.2
  obtain ⟨r, h2, h3⟩ := C124_variable_to_fixed h1' (by
    have e : tunstallMapping pmf n choose = c.decMapping := by rw [hcc]
    rw [e, hkeys]
    exact (allWords_nodup 2 n).sublist (List.take_sublist _ _)) ((isPrefixFree_iff _).mpr hpf)
    ((isFullyCovering_iff _ _).mpr (by rw [hcc] at hcov ⊢; exact hcov)) pmf rfl hp
  exact ⟨c, r, h1, h2, h3⟩

/-! ### universal codes -/

theorem parsed_symbols (q : ℕ) (i : ℕ) : ∀ {f : ℕ → ℕ}, (∀ t, f t < q) → parsed (allWords q 1) i f = [f i] := by
  have hw : ∀ {f : ℕ → ℕ}, (∀ t, f t < q) → parseWord (allWords q 1) f = [f 0] := by
    intro f hf
    refine (parseWord_eq_iff (allWords_prefixFree q 1) (allWords_covering q 1 le_rfl) hf ((mem_allWords q 1 _).mpr ⟨rfl, ?_⟩) (by simp)).mpr (by simp)
    simpa using hf 0
  induction i with
  | zero => intro f hf; exact hw hf
  | succ i ih =>
    intro f hf
    rw [parsed, ih fun t => hf _, hw hf, List.length_singleton, Nat.add_comm]

/-- The asymptotic equipartition property: with probability one, `-log P` of the first `n` symbols, per symbol, tends to `entropy(pmf)`. -/
theorem C124_aep (pmf : List ℚ) (hq : 2 ≤ pmf.length) (hp : IsPmf pmf) (b : ℝ) (hb : 1 < b) :
    ∃ h, entropy (pmfVec pmf) (.num b) = some h ∧ ∀ᵐ u ∂endlessDraws, ∃ x : ℕ → Word, Emits pmf u x ∧
      (∀ n, 0 < blockProb pmf (x n)) ∧ Tendsto (fun n : ℕ => -Real.logb b (blockProb pmf (x n) : ℝ) / n) atTop (𝓝 h) := by
  refine ⟨_, entropy_pmfVec hp.1 hp.2 hb, ?_⟩
  have hq0 : 0 < pmf.length := by omega
  have hslln := parsed_average (source_stream hp hq0) (allWords_prefixFree _ 1) (allWords_covering _ 1 le_rfl) (allWords_words _ 1 le_rfl)
    fun w => -Real.logb b (symbolProb pmf (w.headD 0))
  have hlim : ∑ w ∈ (allWords pmf.length 1).toFinset, (w.map (symbolProb pmf)).prod * -Real.logb b (symbolProb pmf (w.headD 0)) =
      (∑ a ∈ Finset.range pmf.length, Real.negMulLog (symbolProb pmf a)) / Real.log b := by
    have e : allWords pmf.length 1 = (List.range pmf.length).map fun a => [a] := by simp [allWords, List.map_eq_flatMap]
    rw [← sum_map_toFinset _ (allWords_nodup _ _), e, List.map_map, Finset.sum_div]
    rw [Finset.sum_range, ← List.sum_ofFn, List.ofFn_eq_map, ← List.map_coe_finRange_eq_range, List.map_map]
    refine congrArg List.sum (List.map_congr_left fun a _ => ?_)
    simp [Real.negMulLog, Real.logb]
    ring
  rw [hlim] at hslln
  filter_upwards [hslln, source_emits hp] with u g1 g2
  have hlog : ∀ n : ℕ, 0 < (blockProb pmf ((List.range n).map fun t => sourceSymbol pmf (u t)) : ℝ) ∧
      -Real.logb b (blockProb pmf ((List.range n).map fun t => sourceSymbol pmf (u t)) : ℝ) = ∑ i ∈ Finset.range n, -Real.logb b (symbolProb pmf (sourceSymbol pmf (u i))) := by
    intro n
    have e : (blockProb pmf ((List.range n).map fun t => sourceSymbol pmf (u t)) : ℝ) = ∏ i ∈ Finset.range n, symbolProb pmf (sourceSymbol pmf (u i)) := by
      rw [blockProb_cast, WordTree.prob, List.map_map]
      rfl
    rw [e]
    exact ⟨Finset.prod_pos fun i _ => g2.2 i, by rw [Real.logb_prod _ _ fun i _ => (g2.2 i).ne', Finset.sum_neg_distrib]⟩
  refine ⟨_, g2.1, fun n => by exact_mod_cast (hlog n).1, g1.congr fun n => ?_⟩
  rw [(hlog n).2]
  congr 1
  refine Finset.sum_congr rfl fun i _ => ?_
  rw [parsed_symbols pmf.length i fun t => sourceSymbol_lt hq0 _]
  rfl

/-- Barron's lemma: with probability one, from some point on, prefix-free encodings of the first `n` symbols are not shorter than `-log_b Q - 2 log_b n`, if the
probability of each sequence `x` is at most `Q x`. -/
theorem barron (b : Nat) (hb : 2 ≤ b) (encode : List Nat → Option (List Nat)) (q : Nat) (hq : 2 ≤ q)
    (htot : ∀ x, (∀ a ∈ x, a < q) → ∃ u, encode x = some u ∧ ∀ a ∈ u, a < b)
    (hpf : ∀ x y u v, x.length = y.length → encode x = some u → encode y = some v → u <+: v → x = y)
    {Ω : Type} [MeasurableSpace Ω] (μ : Measure Ω) (X : ℕ → Ω → Word) (Q : Word → ℝ) (hX : ∀ n ω, X n ω ∈ allWords q n)
    (hQ : ∀ n, 1 ≤ n → ∀ x ∈ allWords q n, μ {ω | X n ω = x} ≤ ENNReal.ofReal (Q x)) :
    ∀ᵐ ω ∂μ, ∀ᶠ n : ℕ in atTop, 0 < Q (X n ω) → -Real.logb b (Q (X n ω)) - 2 * Real.logb b n ≤ (((encode (X n ω)).getD []).length : ℝ) := by
  classical
  have hb1 : (1 : ℝ) < b := by exact_mod_cast (by omega : 1 < b)
  have hb0 : (0 : ℝ) < b := by linarith
  obtain ⟨bad, hbad⟩ : ∃ bad : ℕ → Set Word, bad = fun n : ℕ => {x | 0 < Q x ∧ (((encode x).getD []).length : ℝ) < -Real.logb b (Q x) - 2 * Real.logb b n} := ⟨_, rfl⟩
  have hmeas : ∀ n : ℕ, 1 ≤ n → μ {ω | X n ω ∈ bad n} ≤ ENNReal.ofReal (1 / (n : ℝ) ^ 2) := by
    intro n hn
    have hn0 : (0 : ℝ) < n := by exact_mod_cast hn
    have hkr := (block_kraft b hb encode q hq htot hpf n hn).2
    rw [List.map_map, List.map_map] at hkr
    have hkr' : ∑ w ∈ (allWords q n).toFinset, 1 / (b : ℝ) ^ ((encode w).getD []).length ≤ 1 := by
      rw [sum_map_toFinset _ (allWords_nodup _ _)] at hkr
      have : ((∑ w ∈ (allWords q n).toFinset, 1 / (b : ℚ) ^ ((encode w).getD []).length : ℚ) : ℝ) ≤ ((1 : ℚ) : ℝ) := by exact_mod_cast hkr
      push_cast at this
      exact this
    have hsub : {ω | X n ω ∈ bad n} ⊆ ⋃ w ∈ (allWords q n).toFinset.filter (· ∈ bad n), {ω | X n ω = w} := by
      intro ω hω
      simp only [mem_iUnion, Finset.mem_filter, List.mem_toFinset, exists_prop]
      exact ⟨_, ⟨hX n ω, hω⟩, rfl⟩
    calc μ {ω | X n ω ∈ bad n} ≤ ∑ w ∈ (allWords q n).toFinset.filter (· ∈ bad n), μ {ω | X n ω = w} := (measure_mono hsub).trans (measure_biUnion_finset_le _ _)
      _ ≤ ∑ w ∈ (allWords q n).toFinset.filter (· ∈ bad n), ENNReal.ofReal (1 / (b : ℝ) ^ ((encode w).getD []).length * (1 / (n : ℝ) ^ 2)) := by
          refine Finset.sum_le_sum fun w hw => ?_
          obtain ⟨hw1, hw2⟩ := Finset.mem_filter.mp hw
          refine (hQ n hn w (List.mem_toFinset.mp hw1)).trans (ENNReal.ofReal_le_ofReal ?_)
          rw [hbad] at hw2
          obtain ⟨k1, k2⟩ := hw2
          have h5 : Real.logb b (Q w * (n : ℝ) ^ 2 * (b : ℝ) ^ ((encode w).getD []).length) < 0 := by
            rw [Real.logb_mul (by positivity) (by positivity), Real.logb_mul (by positivity) (by positivity), Real.logb_pow, Real.logb_pow, Real.logb_self_eq_one hb1]
            push_cast
            linarith
          have h6 := (Real.logb_neg_iff hb1 (by positivity)).mp h5
          rw [div_mul_div_comm, one_mul, le_div_iff₀ (by positivity)]
          nlinarith
      _ = ENNReal.ofReal (∑ w ∈ (allWords q n).toFinset.filter (· ∈ bad n), 1 / (b : ℝ) ^ ((encode w).getD []).length * (1 / (n : ℝ) ^ 2)) :=
          (ENNReal.ofReal_sum_of_nonneg fun w _ => by positivity).symm
      _ ≤ ENNReal.ofReal (1 / (n : ℝ) ^ 2) := by
          refine ENNReal.ofReal_le_ofReal ?_
          rw [← Finset.sum_mul]
          refine mul_le_of_le_one_left (by positivity) (le_trans ?_ hkr')
          exact Finset.sum_le_sum_of_subset_of_nonneg (Finset.filter_subset _ _) fun w _ _ => by positivity
  have hsum : ∑' n : ℕ, μ {ω | 1 ≤ n ∧ X n ω ∈ bad n} ≠ ⊤ := by
    refine ne_top_of_le_ne_top (Summable.tsum_ofReal_ne_top (Real.summable_one_div_nat_pow.mpr (by norm_num : 1 < 2))) (ENNReal.tsum_le_tsum fun n => ?_)
    by_cases hn : 1 ≤ n
    · simpa [hn] using hmeas n hn
    · simp [hn]
  filter_upwards [ae_eventually_notMem hsum] with u hu
  filter_upwards [hu, eventually_ge_atTop 1] with n h1 hn hx0
  by_contra hlt
  refine h1 ⟨hn, ?_⟩
  rw [hbad]
  exact ⟨hx0, not_le.mp hlt⟩

/-- Lengths between `c n - 2 log_b n` and `c n + n δ n`, where `c n / n → H`. -/
theorem sandwich (b : ℝ) (c : ℕ → ℝ) (δ : ℕ → ℝ) (H : ℝ) (y : ℕ → Word) (hc : Tendsto (fun n : ℕ => c n / n) atTop (𝓝 H)) (hδ : Tendsto δ atTop (𝓝 0))
    (lo : ∀ᶠ n : ℕ in atTop, c n - 2 * Real.logb b n ≤ (y n).length) (up : ∀ᶠ n : ℕ in atTop, ((y n).length : ℝ) ≤ c n + n * δ n) :
    Tendsto (fun n : ℕ => ((y n).length : ℝ) / n) atTop (𝓝 H) := by
  have hu : Tendsto (fun n : ℕ => c n / n + δ n) atTop (𝓝 H) := by simpa using hc.add hδ
  have hlogn : Tendsto (fun n : ℕ => 2 * Real.logb b n / n) atTop (𝓝 0) := by
    have h5 : Tendsto (fun n : ℕ => Real.log n / n) atTop (𝓝 0) := by
      exact (Real.isLittleO_log_id_atTop.tendsto_div_nhds_zero).comp (tendsto_natCast_atTop_atTop (R := ℝ))
    have h6 := h5.const_mul (2 / Real.log b)
    rw [mul_zero] at h6
    refine h6.congr fun n => ?_
    rw [Real.logb]
    ring
  have hl : Tendsto (fun n : ℕ => c n / n - 2 * Real.logb b n / n) atTop (𝓝 H) := by simpa using hc.sub hlogn
  refine tendsto_of_tendsto_of_tendsto_of_le_of_le' hl hu ?_ ?_
  · filter_upwards [lo, eventually_ge_atTop 1] with n k1 k2
    have hn : (0 : ℝ) < n := by exact_mod_cast k2
    rw [← sub_div]
    exact div_le_div_of_nonneg_right k1 hn.le
  · filter_upwards [up, eventually_ge_atTop 1] with n k1 k2
    have hn : (0 : ℝ) < n := by exact_mod_cast k2
    rw [div_le_iff₀ hn, add_mul, div_mul_cancel₀ _ hn.ne']
    linarith

/-- A prefix-free universal code on the stream: the number of code symbols per source symbol tends to the entropy with probability one. -/
theorem universal_rate (b : Nat) (hb : 2 ≤ b) (encode : List Nat → Option (List Nat)) (pmf : List ℚ) (hq : 2 ≤ pmf.length) (hp : IsPmf pmf) (δ : ℕ → ℝ)
    (htot : ∀ x, (∀ a ∈ x, a < pmf.length) → ∃ u, encode x = some u ∧ ∀ a ∈ u, a < b)
    (hpf : ∀ x y u v, x.length = y.length → encode x = some u → encode y = some v → u <+: v → x = y) (hδ : Tendsto δ atTop (𝓝 0))
    (h : ∀ (F : FSource (Fin 1) pmf.length) (s0 : Fin 1) (x : List Nat), (∀ a ∈ x, a < pmf.length) → 0 < F.wordProb s0 x →
      ∃ out, encode x = some out ∧ (out.length : ℝ) ≤ -Real.logb b (F.wordProb s0 x) + x.length * δ x.length) :
    ∃ h, entropy (pmfVec pmf) (.num (b : ℝ)) = some h ∧ ∀ᵐ u ∂endlessDraws, ∃ x y : ℕ → Word, Emits pmf u x ∧ (∀ n, encode (x n) = some (y n)) ∧
      Tendsto (fun n : ℕ => ((y n).length : ℝ) / n) atTop (𝓝 h) := by
  have hq0 : 0 < pmf.length := by omega
  have hb1 : (1 : ℝ) < b := by exact_mod_cast (by omega : 1 < b)
  obtain ⟨H, h1, h2⟩ := C124_aep pmf hq hp b hb1
  refine ⟨H, h1, ?_⟩
  obtain ⟨F, hF⟩ : ∃ F : FSource (Fin 1) pmf.length, ∀ s w, F.wordProb s w = WordTree.prob (symbolProb pmf) w := by
    refine ⟨⟨fun _ _ => 0, fun _ a => symbolProb pmf a, fun _ a => symbolProb_nonneg hp.1 a, fun _ => sum_symbolProb pmf hp.2⟩, fun s w => ?_⟩
    induction w generalizing s with
    | nil => rfl
    | cons a w ih => rw [FSource.wordProb, ih, WordTree.prob_cons]
  have hmem : ∀ n (u : ℕ → ℝ), (List.range n).map (fun t => sourceSymbol pmf (u t)) ∈ allWords pmf.length n := by
    intro n u
    refine (mem_allWords _ _ _).mpr ⟨by simp, fun a ha => ?_⟩
    obtain ⟨t, -, rfl⟩ := List.mem_map.mp ha
    exact sourceSymbol_lt hq0 _
  have hbar := barron b hb encode pmf.length hq htot hpf endlessDraws (fun n u => (List.range n).map fun t => sourceSymbol pmf (u t)) (fun x => (blockProb pmf x : ℝ)) hmem (by
    intro n _ x hx
    obtain ⟨hl, hs⟩ := (mem_allWords _ _ _).mp hx
    have h3 := (source_stream hp hq0).law x hs
    rw [hl] at h3
    have e : {u : ℕ → ℝ | (List.range n).map (fun t => sourceSymbol pmf (u t)) = x} = {u | x = (List.range n).map fun t => sourceSymbol pmf (u t)} := by
      ext u; exact eq_comm
    rw [e, blockProb_cast, ← ENNReal.ofReal_toReal (measure_ne_top endlessDraws _)]
    exact ENNReal.ofReal_le_ofReal h3.le)
  filter_upwards [h2, source_emits hp, hbar] with u g1 g2 g3
  obtain ⟨x, x1, x2, x3⟩ := g1
  have hx : ∀ n, x n = (List.range n).map fun t => sourceSymbol pmf (u t) := fun n => Option.some.inj ((x1 n).symm.trans (g2.1 n))
  have hy : ∀ n, ∃ y, encode (x n) = some y ∧ (y.length : ℝ) ≤ -Real.logb b (blockProb pmf (x n) : ℝ) + n * δ n := by
    intro n
    obtain ⟨hl, hs⟩ := (mem_allWords _ _ _).mp (hmem n u)
    rw [← hx n] at hl hs
    obtain ⟨y, y1, y2⟩ := h F 0 (x n) hs (by rw [hF, ← blockProb_cast]; exact_mod_cast x2 n)
    rw [hF, ← blockProb_cast, hl] at y2
    exact ⟨y, y1, y2⟩
  choose y y1 y2 using hy
  refine ⟨x, y, x1, y1, sandwich b _ δ H y x3 hδ ?_ (Eventually.of_forall y2)⟩
  filter_upwards [g3] with n k1
  rw [← hx n, y1, Option.getD_some] at k1
  exact k1 (by exact_mod_cast x2 n)

/-- LZ78 on the stream of any memoryless source, which it does not know: with probability one, the number of code symbols per source symbol tends to the entropy. -/
theorem C124_lz78 (b e : Nat) (hb : 2 ≤ b) (width : Nat → Nat) (hw : FieldWidth b e width) (pmf : List ℚ) (hq : 2 ≤ pmf.length) (hp : IsPmf pmf) :
    ∃ h, entropy (pmfVec pmf) (.num (b : ℝ)) = some h ∧ ∀ᵐ u ∂endlessDraws, ∃ x y : ℕ → Word, Emits pmf u x ∧
      (∀ n, lz78Encode pmf.length b width (x n) = some (y n)) ∧ Tendsto (fun n : ℕ => ((y n).length : ℝ) / n) atTop (𝓝 h) := by
  obtain ⟨δ, h1, h2⟩ := C114_lz78_universal pmf.length b 1 e hq hb
  refine universal_rate b hb _ pmf hq hp δ ?_ ?_ h1 fun F s0 x hx hpos => h2 width hw F s0 x hx hpos
  · intro x hx
    obtain ⟨u, h, -⟩ := C33_lz78_roundtrip hq width (fun n hn => (hw n hn).1) x hx
    refine ⟨u, h, ?_⟩
    rw [lz78Encode] at h
    obtain ⟨ts, -, rfl⟩ := Option.map_eq_some_iff.mp h
    exact lz78Target_lt b (by omega) width _ ts 0
  · intro x y u v
    exact C114_lz78_prefix_free _ b width hq (fun n hn => (hw n hn).1) x y u v

/-- LZW on the stream of any memoryless source. -/
theorem C124_lzw (b e : Nat) (hb : 2 ≤ b) (width : Nat → Nat) (hw : FieldWidth b e width) (pmf : List ℚ) (hq : 2 ≤ pmf.length) (hp : IsPmf pmf) :
    ∃ h, entropy (pmfVec pmf) (.num (b : ℝ)) = some h ∧ ∀ᵐ u ∂endlessDraws, ∃ x y : ℕ → Word, Emits pmf u x ∧
      (∀ n, lzwEncode pmf.length b width (x n) = some (y n)) ∧ Tendsto (fun n : ℕ => ((y n).length : ℝ) / n) atTop (𝓝 h) := by
  obtain ⟨δ, h1, h2⟩ := C114_lzw_universal pmf.length b 1 e hq hb
  refine universal_rate b hb _ pmf hq hp δ ?_ ?_ h1 fun F s0 x hx hpos => h2 width hw F s0 x hx hpos
  · intro x hx
    obtain ⟨u, h, -⟩ := C34_lzw_roundtrip hq width (fun n hn => (hw n hn).1) x hx
    refine ⟨u, h, ?_⟩
    rw [lzwEncode, if_neg (by rw [not_not]; exact hx)] at h
    exact lzwEncodeLoop_lt b (by omega) width x _ _ u h
  · intro x y u v
    exact C114_lzw_prefix_free _ b width hq (fun n hn => (hw n hn).1) x y u v

/-- The hypotheses are met: a biased source; a uniquely decodable code that is not prefix-free; a Huffman and a Tunstall code. -/
example : IsPmf [1 / 10, 9 / 10] ∧
    (∃ c, FVCode.create 3 2 1 [([2], [1, 1]), ([0], [0]), ([1], [0, 1])] = some c ∧ c.isUniquelyDecodable = some true ∧ c.prefixFree = false ∧
      expectedRate c [1 / 2, 1 / 4, 1 / 4] = 3 / 2) ∧
    (∃ c, VFCode.create 2 2 2 [([0, 0], [0, 0]), ([0, 1], [0, 1]), ([1, 0], [1])] = some c ∧ c.prefixFree = true ∧ c.fullyCovering = true ∧
      c.rate [9 / 10, 1 / 10] = some (20 / 19)) ∧ FieldWidth 2 0 (Nat.clog 2) :=
  ⟨by constructor <;> decide +kernel,
    ⟨⟨3, 2, 1, [([2], [1, 1]), ([0], [0]), ([1], [0, 1])]⟩, by decide +kernel, by decide +kernel, by decide +kernel, by decide +kernel⟩,
    ⟨⟨2, 2, 2, [([0, 0], [0, 0]), ([0, 1], [0, 1]), ([1, 0], [1])]⟩, by decide +kernel, by decide +kernel, by decide +kernel, by decide +kernel⟩,
    fieldWidth_clog le_rfl⟩

end Komm
