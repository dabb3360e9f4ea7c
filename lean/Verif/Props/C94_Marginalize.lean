import Verif.Model.Marginalize
import Verif.Props.C37_C40_Labelings
import Verif.Lemmas.Blockwise
import Mathlib.Algebra.BigOperators.Field
/-! C94: `marginalize` returns the log-ratios of the bits of the label. -/
namespace Komm
open scoped BigOperators

/-- Specification: the total metric of the indices whose label has bit `i` equal to `b`. -/
noncomputable def bitMass (L : Lab) (row : List ℝ) (i b : Nat) : ℝ :=
  ∑ x ∈ Finset.range L.matrix.length with (L.matrix.getD x []).getD i 0 = b, row.getD x 0

theorem zipWith_mask (rows : List (List Nat)) (row : List ℝ) (h : row.length = rows.length) (i b : Nat) :
    (List.zipWith (fun x y : ℝ => x * y) row (rows.map fun r : List Nat => if r.getD i 0 = b then (1 : ℝ) else 0)).sum =
      ∑ x ∈ Finset.range rows.length with (rows.getD x []).getD i 0 = b, row.getD x 0 := by
  induction rows generalizing row with
  | nil => simp
  | cons r rs ih =>
    cases row with
    | nil => simp at h
    | cons a as =>
      rw [List.map_cons, List.zipWith_cons_cons, List.sum_cons, ih as (by simpa using h), Finset.sum_filter, Finset.sum_filter,
        List.length_cons, Finset.sum_range_succ']
      simp only [List.getD_cons_succ, List.getD_cons_zero]
      rw [add_comm]
      congr 1
      split <;> simp

theorem lvalues_eq (L : Lab) (row : List ℝ) (h : row.length = L.matrix.length) :
    L.lvalues row = (List.range L.numBits).map fun i : Nat => logRatio (bitMass L row i 0) (bitMass L row i 1) := by
  rw [Lab.lvalues]
  refine List.map_congr_left fun i _ => ?_
  rw [Lab.mask, Lab.mask, zipWith_mask _ _ h, zipWith_mask _ _ h, bitMass, bitMass]

/-- `marginalize` is refused exactly when the length of the metrics is not a multiple of the number of labels; otherwise the
output has `num_bits` entries for each group of metrics. -/
theorem C94_length (L : Lab) (hc : L.cardinality ≠ 0) (metrics : List ℝ) :
    (L.marginalize metrics = none ↔ ¬ L.cardinality ∣ metrics.length) ∧
    ∀ out, L.marginalize metrics = some out → out.length = metrics.length / L.cardinality * L.numBits := by
  rw [Lab.marginalize, if_neg hc]
  split
  · rename_i h
    refine ⟨by simpa [Nat.dvd_iff_mod_eq_zero] using h, by simp⟩
  · rename_i h
    rw [not_not] at h
    refine ⟨by simpa [Nat.dvd_iff_mod_eq_zero] using h, ?_⟩
    rintro out ho
    rw [Option.some.injEq] at ho
    subst ho
    rw [List.length_flatten, List.map_map, List.map_congr_left (g := fun _ => L.numBits)]
    · rw [List.map_const']; simp [chunks]
    · intro r _
      simp [Lab.lvalues]

/-- Group by group, entry `i` is the logarithm of the ratio of the total metric of the labels with bit `i` equal to 0 to that of
the labels with bit `i` equal to 1. -/
theorem C94_value (L : Lab) (hm : L.matrix.length = L.cardinality) (hc : L.cardinality ≠ 0) (groups : List (List ℝ))
    (hg : ∀ g ∈ groups, g.length = L.cardinality) :
    L.marginalize groups.flatten = some (groups.flatMap fun g : List ℝ =>
      (List.range L.numBits).map fun i : Nat => logRatio (bitMass L g i 0) (bitMass L g i 1)) := by
  rw [Lab.marginalize, if_neg hc, if_neg, chunks_flatten _ (Nat.pos_of_ne_zero hc) _ hg, List.flatMap]
  · congr 2
    refine List.map_congr_left fun g h => ?_
    rw [lvalues_eq _ _ (by rw [hg g h, hm])]
  · rw [not_not, List.length_flatten, List.map_congr_left (g := fun _ => L.cardinality) (fun g h => hg g h)]
    simp

/-- Only the ratios of the metrics of a group matter: likelihoods and posteriors give the same result. -/
theorem C94_scale (L : Lab) (hm : L.matrix.length = L.cardinality) (hc : L.cardinality ≠ 0) (g : List ℝ) (hg : g.length = L.cardinality)
    (h0 : ∀ x ∈ g, 0 ≤ x) (c : ℝ) (hpos : 0 < c) :
    L.marginalize (g.map fun x : ℝ => c * x) = L.marginalize g := by
  have h1 := C94_value L hm hc [g] (by simpa using hg)
  have h2 := C94_value L hm hc [g.map fun x : ℝ => c * x] (by simpa using hg)
  simp only [List.flatten_cons, List.flatten_nil, List.append_nil, List.flatMap_cons, List.flatMap_nil] at h1 h2
  rw [h1, h2]
  have hmass : ∀ i b, bitMass L (g.map fun x : ℝ => c * x) i b = c * bitMass L g i b := by
    intro i b
    rw [bitMass, bitMass, Finset.mul_sum]
    refine Finset.sum_congr rfl fun x hx => ?_
    rw [List.getD_eq_getElem?_getD, List.getElem?_map, List.getD_eq_getElem?_getD]
    cases g[x]? <;> simp
  have hnn : ∀ i b, 0 ≤ bitMass L g i b := by
    intro i b
    refine Finset.sum_nonneg fun x hx => ?_
    rw [List.getD_eq_getElem?_getD]
    cases e : g[x]? with
    | none => simp
    | some v => exact h0 v (List.mem_of_getElem? e)
  congr 1
  refine List.map_congr_left fun i _ => ?_
  rw [hmass, hmass]
  have a0 := hnn i 0
  have a1 := hnn i 1
  generalize bitMass L g i 0 = a at *
  generalize bitMass L g i 1 = b at *
  rw [logRatio, logRatio]
  simp only [mul_eq_zero, hpos.ne', false_or]
  split
  · rfl
  · split
    · rfl
    · rename_i ha hb
      rw [Real.log_mul hpos.ne' ha, Real.log_mul hpos.ne' hb]
      congr 2
      ring

/-- The sum over all labels of a product over the bits is the product of sums. -/
theorem sum_labels (L : Lab) (ht : IsLabelTable L.numBits L.matrix) (f : Fin L.numBits → Nat → ℝ) :
    ∑ x ∈ Finset.range L.matrix.length, ∏ j : Fin L.numBits, f j ((L.matrix.getD x []).getD j 0) = ∏ j, (f j 0 + f j 1) := by
  have h2 : ∏ j, (f j 0 + f j 1) = ∏ j, ∑ b ∈ ({0, 1} : Finset Nat), f j b := by
    refine Finset.prod_congr rfl fun j _ => ?_
    rw [Finset.sum_pair (by decide)]
  rw [h2, Finset.prod_univ_sum]
  refine Finset.sum_bij (fun x _ => fun j : Fin L.numBits => (L.matrix.getD x []).getD j 0) ?_ ?_ ?_ ?_
  · intro x hx
    rw [Finset.mem_range] at hx
    rw [Fintype.mem_piFinset]
    intro j
    have hmem : L.matrix.getD x [] ∈ L.matrix := by
      rw [List.getD_eq_getElem _ _ hx]; exact List.getElem_mem hx
    obtain ⟨hl, hb⟩ := (ht.2 _).mp hmem
    have hj : (j : Nat) < (L.matrix.getD x []).length := by rw [hl]; exact j.2
    have := hb _ (by rw [List.getD_eq_getElem _ _ hj]; exact List.getElem_mem hj : (L.matrix.getD x []).getD j 0 ∈ _)
    simpa using this
  · intro x hx y hy h
    rw [Finset.mem_range] at hx hy
    have hlx := ((ht.2 _).mp (by rw [List.getD_eq_getElem _ _ hx]; exact List.getElem_mem hx : L.matrix.getD x [] ∈ L.matrix)).1
    have hly := ((ht.2 _).mp (by rw [List.getD_eq_getElem _ _ hy]; exact List.getElem_mem hy : L.matrix.getD y [] ∈ L.matrix)).1
    have : L.matrix.getD x [] = L.matrix.getD y [] := by
      refine List.ext_getElem (by rw [hlx, hly]) fun j h1 h2 => ?_
      have := congrFun h ⟨j, by rw [← hlx]; exact h1⟩
      simp only at this
      rwa [List.getD_eq_getElem _ _ h1, List.getD_eq_getElem _ _ h2] at this
    rw [List.getD_eq_getElem _ _ hx, List.getD_eq_getElem _ _ hy] at this
    exact (List.Nodup.getElem_inj_iff ht.1).mp this
  · intro g hg
    rw [Fintype.mem_piFinset] at hg
    have hmem : List.ofFn g ∈ L.matrix := by
      refine (ht.2 _).mpr ⟨by simp, ?_⟩
      intro b hb
      obtain ⟨j, rfl⟩ := (List.mem_ofFn' _ _).mp hb
      simpa using hg j
    obtain ⟨x, hx, e⟩ := List.mem_iff_getElem.mp hmem
    refine ⟨x, by simpa using hx, ?_⟩
    funext j
    rw [List.getD_eq_getElem _ _ hx, e, List.getD_eq_getElem _ _ (by simp)]
    simp
  · intro x hx
    rfl

/-- Independent bits: when the metric of each index is (proportional to) the product of the probabilities `p j b` of the bits
of its label, `marginalize` returns the log-likelihood ratio of each bit. -/
theorem C94_independent (L : Lab) (hc : L.cardinality = L.matrix.length) (ht : IsLabelTable L.numBits L.matrix)
    (p : Fin L.numBits → Nat → ℝ) (hp : ∀ j, 0 < p j 0 ∧ 0 < p j 1) (c : ℝ) (hpos : 0 < c) :
    L.marginalize ((List.range L.matrix.length).map fun x : Nat => c * ∏ j : Fin L.numBits, p j ((L.matrix.getD x []).getD j 0)) =
      some (List.ofFn fun j : Fin L.numBits => some ((Real.log (p j 0 / p j 1) : ℝ) : EReal)) := by
  have hlen := table_length _ _ ht
  have hcard : L.cardinality ≠ 0 := by rw [hc, hlen]; positivity
  have h := C94_value L hc.symm hcard [(List.range L.matrix.length).map fun x : Nat =>
    c * ∏ j : Fin L.numBits, p j ((L.matrix.getD x []).getD j 0)] (by simp [hc])
  simp only [List.flatten_cons, List.flatten_nil, List.append_nil, List.flatMap_cons, List.flatMap_nil] at h
  rw [h]
  congr 1
  have hmass : ∀ (i : Fin L.numBits) (b : Nat), b = 0 ∨ b = 1 → bitMass L ((List.range L.matrix.length).map fun x : Nat =>
      c * ∏ j : Fin L.numBits, p j ((L.matrix.getD x []).getD j 0)) i b = c * (p i b * ∏ j ∈ Finset.univ.erase i, (p j 0 + p j 1)) := by
    intro i b hb
    rw [bitMass, Finset.sum_filter]
    have e := sum_labels L ht (fun j a => if j = i ∧ a ≠ b then 0 else p j a)
    have e2 : ∏ j, ((fun j a => if j = i ∧ a ≠ b then (0 : ℝ) else p j a) j 0 + (fun j a => if j = i ∧ a ≠ b then (0 : ℝ) else p j a) j 1)
        = p i b * ∏ j ∈ Finset.univ.erase i, (p j 0 + p j 1) := by
      rw [← Finset.mul_prod_erase _ _ (Finset.mem_univ i)]
      congr 1
      · rcases hb with rfl | rfl <;> simp
      · refine Finset.prod_congr rfl fun j hj => ?_
        have : j ≠ i := (Finset.mem_erase.mp hj).1
        simp [this]
    rw [e2] at e
    rw [← e, Finset.mul_sum]
    refine Finset.sum_congr rfl fun x hx => ?_
    rw [Finset.mem_range] at hx
    rw [List.getD_eq_getElem ((List.range L.matrix.length).map fun x : Nat =>
      c * ∏ j : Fin L.numBits, p j ((L.matrix.getD x []).getD j 0)) _ (by simpa using hx), List.getElem_map, List.getElem_range]
    split
    · rename_i hxb
      congr 1
      refine Finset.prod_congr rfl fun j _ => ?_
      rw [if_neg]
      rintro ⟨rfl, hne⟩
      exact hne hxb
    · rename_i hxb
      rw [Finset.prod_eq_zero (Finset.mem_univ i), mul_zero]
      simp only [true_and]
      rw [if_pos hxb]
  refine List.ext_getElem (by simp) fun i h1 h2 => ?_
  have hi : i < L.numBits := by simpa using h2
  rw [List.getElem_map, List.getElem_range, List.getElem_ofFn, hmass ⟨i, hi⟩ 0 (Or.inl rfl), hmass ⟨i, hi⟩ 1 (Or.inr rfl)]
  obtain ⟨p0, p1⟩ := hp ⟨i, hi⟩
  have hP : 0 < ∏ j ∈ Finset.univ.erase (⟨i, hi⟩ : Fin L.numBits), (p j 0 + p j 1) :=
    Finset.prod_pos fun j _ => add_pos (hp j).1 (hp j).2
  rw [logRatio, if_neg (by positivity), if_neg (by positivity), ← Real.log_div (by positivity) (by positivity)]
  congr 3
  field_simp

/-- Certainty: when only index `x` has a non-zero metric in a group, every bit of its label gets infinite confidence, with the
right sign. -/
theorem C94_certain (L : Lab) (hc : L.cardinality = L.matrix.length) (ht : IsLabelTable L.numBits L.matrix)
    (xs : List Nat) (hx : ∀ x ∈ xs, x < L.matrix.length) (c : ℝ) (hpos : 0 < c) :
    ∃ bits, L.indicesToBits (xs.map fun x : Nat => (x : Int)) = some bits ∧
      L.marginalize (xs.flatMap fun x : Nat => (List.range L.matrix.length).map fun y : Nat => if y = x then c else 0) =
        some (bits.map fun b : Nat => some (if b = 0 then (⊤ : EReal) else ⊥)) := by
  have hlen := table_length _ _ ht
  have hcard : L.cardinality ≠ 0 := by rw [hc, hlen]; positivity
  set g : Nat → List Nat := fun i => L.matrix.getD i [] with hg
  have hgi : ∀ i ∈ xs, L.matrix[i]? = some (g i) := by
    intro i hi
    have := hx i hi
    simp [hg, this]
  refine ⟨(xs.map g).flatten, ?_, ?_⟩
  · unfold Lab.indicesToBits
    rw [if_neg]
    · have : (xs.map fun i : Nat => (i : Int)).mapM (fun i => L.matrix[i.toNat]?) = xs.mapM fun i => L.matrix[i]? := by
        rw [List.mapM_map]; rfl
      rw [this, mapM_some _ g xs hgi]
      rfl
    · rw [not_not]
      constructor
      · intro i hi; obtain ⟨j, _, rfl⟩ := List.mem_map.mp hi; omega
      · intro i hi
        obtain ⟨j, hj, rfl⟩ := List.mem_map.mp hi
        rw [hc]
        exact_mod_cast hx j hj
  · rw [List.flatMap, C94_value L hc.symm hcard _ (by
      intro r hr
      obtain ⟨x, _, rfl⟩ := List.mem_map.mp hr
      simp [hc]), List.flatMap, List.map_map, List.map_flatten, List.map_map]
    congr 2
    refine List.map_congr_left fun x hxs => ?_
    simp only [Function.comp]
    have hxl := hx x hxs
    have hmem : g x ∈ L.matrix := List.mem_of_getElem? (hgi x hxs)
    obtain ⟨hl, hb⟩ := (ht.2 _).mp hmem
    have hmass : ∀ i b, bitMass L ((List.range L.matrix.length).map fun y : Nat => if y = x then c else 0) i b =
        if (g x).getD i 0 = b then c else 0 := by
      intro i b
      rw [bitMass, Finset.sum_filter, Finset.sum_eq_single x]
      · rw [List.getD_eq_getElem ((List.range L.matrix.length).map fun y : Nat => if y = x then c else 0) _ (by simpa using hxl)]
        simp [hg]
      · intro y hy hne
        rw [Finset.mem_range] at hy
        rw [List.getD_eq_getElem ((List.range L.matrix.length).map fun y : Nat => if y = x then c else 0) _ (by simpa using hy)]
        simp [hne]
      · intro h
        exact absurd (Finset.mem_range.mpr hxl) h
    refine List.ext_getElem (by simp [hl]) fun i h1 h2 => ?_
    have hi : i < (g x).length := by simpa using h2
    rw [List.getElem_map, List.getElem_range, List.getElem_map, hmass, hmass, List.getD_eq_getElem _ _ hi]
    rcases hb _ (List.getElem_mem hi) with e | e
    · rw [e]; simp [logRatio, hpos.ne']
    · rw [e]; simp [logRatio, hpos.ne']

/-- A concrete case: `NaturalLabeling(2)`, where the bits are independent with probabilities of 1 equal to 1/4 and 1/3. -/
example : ∃ L, naturalLab 2 = some L ∧ L.marginalize [1 / 2, 1 / 4, 1 / 6, 1 / 12] =
    some [some ((Real.log ((3 / 4) / (1 / 4)) : ℝ) : EReal), some ((Real.log ((2 / 3) / (1 / 3)) : ℝ) : EReal)] := by
  refine ⟨⟨[[0, 0], [0, 1], [1, 0], [1, 1]], 2, 4⟩, by decide +kernel, ?_⟩
  have ht : IsLabelTable 2 [[0, 0], [0, 1], [1, 0], [1, 1]] := by
    obtain ⟨L, h, _, _, ht, _⟩ := C37_natural_matrix 2 (by norm_num)
    rw [show naturalLab 2 = some ⟨[[0, 0], [0, 1], [1, 0], [1, 1]], 2, 4⟩ by decide +kernel, Option.some.injEq] at h
    subst h
    exact ht
  have := C94_independent ⟨[[0, 0], [0, 1], [1, 0], [1, 1]], 2, 4⟩ rfl ht
    (fun j b => (![![3 / 4, 1 / 4], ![2 / 3, 1 / 3]] : Fin 2 → Fin 2 → ℝ) j (if b = 0 then 0 else 1))
    (by intro j; fin_cases j <;> norm_num) 1 one_pos
  simp only [List.length_cons, List.length_nil, show List.range (0 + 1 + 1 + 1 + 1) = [0, 1, 2, 3] from rfl, List.map_cons, List.map_nil,
    Fin.prod_univ_two, List.ofFn_succ, List.ofFn_zero] at this
  norm_num at this
  norm_num
  exact this

end Komm
