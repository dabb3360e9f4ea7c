import Verif.Lemmas.CosetLeaders
namespace Komm

variable {k m n : Nat}

theorem natToVec_surj (u : BVec k) : ∃ i < 2 ^ k, natToVec k i = u := ⟨vecToNat u, vecToNat_lt u, natToVec_vecToNat u⟩

theorem codewords_mem (c : LinCode k m n) (v : BVec n) : v ∈ c.codewords ↔ ∃ u, c.encode u = v := by
  unfold LinCode.codewords
  rw [List.mem_map]
  constructor
  · rintro ⟨i, _, rfl⟩; exact ⟨_, rfl⟩
  · rintro ⟨u, rfl⟩
    obtain ⟨i, hi, rfl⟩ := natToVec_surj u
    exact ⟨i, List.mem_range.mpr hi, rfl⟩

theorem codewords_nodup (c : LinCode k m n) (h : c.Lawful) : c.codewords.Nodup := by
  apply List.Nodup.map_on _ List.nodup_range
  intro i hi j hj e
  have := congrArg vecToNat (h.encode_injective e)
  rwa [vecToNat_natToVec _ (List.mem_range.mp hi), vecToNat_natToVec _ (List.mem_range.mp hj)] at this

theorem codewords_cons (c : LinCode k m n) : ∃ v0 vs, c.codewords = v0 :: vs := by
  cases hc : c.codewords with
  | nil =>
    have := congrArg List.length hc
    simp [LinCode.codewords] at this
  | cons v0 vs => exact ⟨v0, vs, rfl⟩

theorem weightDistribution_get (c : LinCode k m n) (w : Nat) :
    (c.weightDistribution).getD w 0 = if w < n + 1 then (c.codewords.map hammingNorm).count w else 0 := by
  unfold LinCode.weightDistribution LinCode.bincount
  have : c.codewords.map vsum = c.codewords.map hammingNorm := List.map_congr_left fun v _ => vsum_eq v
  rw [this]
  by_cases hw : w < n + 1
  · rw [List.getD_eq_getElem _ _ (by simpa using hw)]
    simp [hw]
  · rw [List.getD_eq_default _ _ (by simpa using Nat.le_of_not_lt hw), if_neg hw]

theorem range_filter_second (N : Nat) (p : Nat → Bool) (h0 : p 0 = true) (d : Nat) :
    ((List.range (N + 1)).filter p)[1]? = some d ↔
      p d = true ∧ 0 < d ∧ d < N + 1 ∧ ∀ w, 0 < w → w < d → p w = false := by
  rw [List.range_succ_eq_map, List.filter_cons, if_pos h0, List.getElem?_cons_succ,
    ← List.head?_eq_getElem?, List.head?_filter, List.find?_map]
  constructor
  · intro h
    rw [Option.map_eq_some_iff] at h
    obtain ⟨e, he, rfl⟩ := h
    rw [List.find?_range_eq_some] at he
    obtain ⟨h1, h2, h3⟩ := he
    refine ⟨h1, by omega, by simpa using h2, fun w hw hwe => ?_⟩
    have := h3 (w - 1) (by omega)
    simp only [Function.comp] at this
    rw [show (w - 1).succ = w by omega] at this
    simpa using this
  · rintro ⟨h1, h2, h3, h4⟩
    rw [Option.map_eq_some_iff]
    refine ⟨d - 1, ?_, by omega⟩
    rw [List.find?_range_eq_some]
    refine ⟨?_, by simp; omega, fun j hj => ?_⟩
    · simp only [Function.comp]; rwa [show (d - 1).succ = d by omega]
    · simp only [Function.comp, Bool.not_eq_true']
      exact h4 _ (by omega) (by omega)

theorem range_filter_second_none (N : Nat) (p : Nat → Bool) (h0 : p 0 = true)
    (h : ((List.range (N + 1)).filter p)[1]? = none) : ∀ w, 0 < w → w < N + 1 → p w = false := by
  intro w hw hlt
  by_contra hc
  rw [List.range_succ_eq_map, List.filter_cons, if_pos h0, List.getElem?_cons_succ,
    ← List.head?_eq_getElem?, List.head?_eq_none_iff, List.filter_eq_nil_iff] at h
  exact h w (List.mem_map.mpr ⟨w - 1, by simp; omega, by omega⟩) (by simpa using hc)

theorem norm_le (v : BVec n) : hammingNorm v ≤ n := by
  simpa using hammingNorm_le_card_fintype (x := v)

/-- some codeword has weight `w` -/
theorem wd_nonzero (c : LinCode k m n) (w : Nat) :
    decide ((c.weightDistribution).getD w 0 ≠ 0) = true ↔ ∃ u, hammingNorm (c.encode u) = w := by
  rw [decide_eq_true_eq, weightDistribution_get]
  constructor
  · intro h
    have h1 : w < n + 1 := by
      by_contra hc
      rw [if_neg hc] at h
      exact h rfl
    rw [if_pos h1] at h
    have := List.count_pos_iff.mp (Nat.pos_of_ne_zero h)
    obtain ⟨v, hv, rfl⟩ := List.mem_map.mp this
    obtain ⟨u, rfl⟩ := (codewords_mem c v).mp hv
    exact ⟨u, rfl⟩
  · rintro ⟨u, rfl⟩
    rw [if_pos (Nat.lt_succ_of_le (norm_le _))]
    exact (List.count_pos_iff.mpr (List.mem_map.mpr ⟨_, (codewords_mem c _).mpr ⟨u, rfl⟩, rfl⟩)).ne'

/-- `minimum_distance` is the least weight of a non-zero codeword. -/
theorem minimumDistance_spec (c : LinCode k m n) (h : c.Lawful) (d : Nat) :
    c.minimumDistance = some d ↔
      (∃ u, u ≠ 0 ∧ hammingNorm (c.encode u) = d) ∧ ∀ u, u ≠ 0 → d ≤ hammingNorm (c.encode u) := by
  have hlen : c.weightDistribution.length = n + 1 := by simp [LinCode.weightDistribution, LinCode.bincount]
  have h0 : decide ((c.weightDistribution).getD 0 0 ≠ 0) = true :=
    (wd_nonzero c 0).mpr ⟨0, by rw [h.encode_zero, hammingNorm_zero]⟩
  have hz : ∀ u, u ≠ 0 ↔ 0 < hammingNorm (c.encode u) := by
    intro u
    rw [hammingNorm_pos_iff]
    constructor
    · intro hu e; exact hu (h.encode_injective (e.trans h.encode_zero.symm))
    · rintro hu rfl; exact hu h.encode_zero
  unfold LinCode.minimumDistance LinCode.flatnonzero
  rw [hlen, range_filter_second n (fun i => decide ((c.weightDistribution).getD i 0 ≠ 0)) h0]
  constructor
  · rintro ⟨h1, h2, h3, h4⟩
    obtain ⟨u, hu⟩ := (wd_nonzero c d).mp h1
    refine ⟨⟨u, (hz u).mpr (by omega), hu⟩, fun u' hu' => ?_⟩
    by_contra hc
    have := h4 _ ((hz u').mp hu') (by omega)
    have h5 := (wd_nonzero c (hammingNorm (c.encode u'))).mpr ⟨u', rfl⟩
    rw [this] at h5
    simp at h5
  · rintro ⟨⟨u, hu, rfl⟩, h2⟩
    refine ⟨(wd_nonzero c _).mpr ⟨u, rfl⟩, (hz u).mp hu, Nat.lt_succ_of_le (norm_le _), fun w hw hlt => ?_⟩
    by_contra hc
    have hc' : decide ((c.weightDistribution).getD w 0 ≠ 0) = true := by simpa using hc
    obtain ⟨u', hu'⟩ := (wd_nonzero c w).mp hc'
    have := h2 u' ((hz u').mpr (by omega))
    omega

theorem minimumDistance_exists (c : LinCode k m n) (h : c.Lawful) (hk : 1 ≤ k) : ∃ d, c.minimumDistance = some d := by
  have hex : ∃ d, ∃ u, u ≠ 0 ∧ hammingNorm (c.encode u) = d :=
    ⟨_, fun _ => 1, fun e => by
      have := congrFun e ⟨0, hk⟩
      simp at this, rfl⟩
  classical
  refine ⟨Nat.find hex, (minimumDistance_spec c h _).mpr ⟨Nat.find_spec hex, fun u hu => ?_⟩⟩
  exact Nat.find_min' hex ⟨u, hu, rfl⟩

theorem argminOn_spec {α K : Type} [LinearOrder K] (f : α → K) (x0 : α) (xs : List α) :
    argminOn f x0 xs ∈ x0 :: xs ∧ ∀ y ∈ x0 :: xs, f (argminOn f x0 xs) ≤ f y := by
  unfold argminOn
  induction xs generalizing x0 with
  | nil => simp
  | cons a xs ih =>
    rw [List.foldl_cons]
    by_cases hlt : f a < f x0
    · rw [if_pos hlt]
      obtain ⟨h1, h2⟩ := ih a
      refine ⟨List.mem_cons_of_mem _ h1, fun y hy => ?_⟩
      rcases List.mem_cons.mp hy with rfl | hy
      · exact le_trans (h2 a (by simp)) hlt.le
      · exact h2 y hy
    · rw [if_neg hlt]
      obtain ⟨h1, h2⟩ := ih x0
      refine ⟨?_, fun y hy => ?_⟩
      · rcases List.mem_cons.mp h1 with h1 | h1
        · rw [h1]; simp
        · simp [h1]
      · rcases List.mem_cons.mp hy with rfl | hy
        · exact h2 _ (by simp)
        · rcases List.mem_cons.mp hy with rfl | hy
          · exact le_trans (h2 x0 (by simp)) (not_lt.mp hlt)
          · exact h2 y (by simp [hy])

/-- Unique decoding inside half the minimum distance. -/
theorem unique_decoding (c : LinCode k m n) (h : c.Lawful) (d : Nat) (hd : c.minimumDistance = some d)
    (u u' : BVec k) (e : BVec n) (he : hammingNorm e ≤ (d - 1) / 2)
    (hle : hammingDist (c.encode u + e) (c.encode u') ≤ hammingDist (c.encode u + e) (c.encode u)) : u' = u := by
  by_contra hne
  obtain ⟨⟨u0, hu0, hd0⟩, hmin⟩ := (minimumDistance_spec c h d).mp hd
  have hdpos : 0 < d := by
    rw [← hd0, hammingNorm_pos_iff]
    intro e0
    exact hu0 (h.encode_injective (e0.trans h.encode_zero.symm))
  have h1 : hammingDist (c.encode u + e) (c.encode u) = hammingNorm e := by
    rw [hammingDist_eq_norm_add, add_comm (c.encode u), bvec_add_add]
  have h2 : d ≤ hammingDist (c.encode u) (c.encode u') := by
    rw [hammingDist_eq_norm_add, ← h.encode_add]
    apply hmin
    intro e0
    apply hne
    have := congrArg (· + u') e0
    simp only [bvec_add_add, zero_add] at this
    exact this.symm
  have h3 := hammingDist_triangle_left (c.encode u) (c.encode u') (c.encode u + e)
  rw [h1] at h3 hle
  omega

end Komm
