import Verif.Lemmas.BlockFamilies
import Verif.Props.C41_C48_BlockCodes

/-! C49: repetition, single-parity-check and Cordaro–Wagner codes.  The closed-form overrides of
`minimum_distance`, `codeword_weight_distribution` and `coset_leader_weight_distribution` are shown to agree with the
generic computation of the base class on the same code. -/
namespace Komm

variable {n : Nat}

/-- `RepetitionCode(n)`: exactly the two constant words; minimum distance `n`. -/
theorem C49_repetition (hn : 1 ≤ n) :
    ∃ c, repetitionCode n = some c ∧ c.Lawful ∧
      (∀ v, (∃ u, c.encode u = v) ↔ v = (fun _ => 0) ∨ v = (fun _ => 1)) ∧
      c.minimumDistance = some (repetitionMinimumDistance n) ∧ repetitionMinimumDistance n = n := by
  obtain ⟨c, h1, h2, h3⟩ := C41_generator (onesMat 1 n) (by
    rw [linearIndependent_unique_iff]
    intro e
    exact one_ne_zero (α := ZMod 2) (congrFun e ⟨0, hn⟩))
  have henc : ∀ u j, c.encode u j = u 0 := by
    intro u j
    rw [h3.encode_eq, h2]; simp [onesMat]
  have hcw : ∀ v, (∃ u, c.encode u = v) ↔ v = (fun _ => 0) ∨ v = (fun _ => 1) := by
    intro v
    constructor
    · rintro ⟨u, rfl⟩
      rcases zmod2_cases (u 0) with e | e
      · left; funext j; rw [henc, e]
      · right; funext j; rw [henc, e]
    · rintro (rfl | rfl)
      · exact ⟨0, by funext j; rw [henc]; rfl⟩
      · exact ⟨1, by funext j; rw [henc]; rfl⟩
  refine ⟨c, ?_, h3, hcw, ?_, rfl⟩
  · rw [repetitionCode, if_neg (by omega), h1]
  · rw [minimumDistance_spec c h3]
    have hw : ∀ u, u ≠ 0 → hammingNorm (c.encode u) = n := by
      intro u hu
      have : u 0 = 1 := by
        rcases zmod2_cases (u 0) with e | e
        · exact absurd (funext fun i => by rw [Subsingleton.elim i 0, e]; rfl) hu
        · exact e
      have : c.encode u = 1 := by funext j; rw [henc, this]; rfl
      rw [this, hammingNorm_one]
    exact ⟨⟨1, one_ne_zero, hw 1 one_ne_zero⟩, fun u hu => (hw u hu).ge⟩

theorem C49_repetition_rejects : repetitionCode 0 = none := rfl

/-- The closed form of the coset leader weight distribution of the repetition code agrees with the generic search. -/
theorem C49_repetition_leaders (hn : 2 ≤ n) (fuel : Nat) (hf : n ≤ fuel) :
    ∃ c, repetitionCode n = some c ∧
      c.leaderWeightDistribution fuel = some (repetitionLeaderWeightDistribution n) := by
  obtain ⟨c, h1, h2, h3, -⟩ := C49_repetition (n := n) (by omega)
  refine ⟨c, h1, ?_⟩
  rw [h2.leaderWeightDistribution_spec (by omega) fuel hf, Option.some_inj]
  -- weight of the coset of v
  have hcw : ∀ v : BVec n, c.cw (c.syn v) = min (hammingNorm v) (n - hammingNorm v) := by
    intro v
    apply le_antisymm
    · apply le_min
      · exact LinCode.cw_le v
      · rw [← hammingNorm_compl]
        have : c.syn (v + 1) = c.syn v := by
          rw [LinCode.syn, h2.check_add, (h2.check_zero 1).mpr ((h3 1).mpr (Or.inr rfl)), add_zero]; rfl
        rw [← this]; exact LinCode.cw_le _
    · obtain ⟨v', e1, e2⟩ := h2.cw_attained (c.syn v) (vecToNat_lt _)
      rw [← e2]
      have hz : c.check (v + v') = 0 := by
        rw [h2.check_add, vecToNat_inj e1, bvec_add_self]
      rcases (h3 _).mp ((h2.check_zero _).mp hz) with e | e
      · have : v = v' := by
          have := congrArg (· + v') e
          simp only [bvec_add_add] at this
          rw [this]; funext j; simp
        rw [this]; exact min_le_left _ _
      · have : v' = v + 1 := by
          have e' : v + v' = 1 := e
          rw [← e', ← add_assoc, bvec_add_self, zero_add]
        rw [this, hammingNorm_compl]; exact min_le_right _ _
  have hcount : ∀ w ≤ n, c.cosetsOfWeight w =
      if w < (n + 1) / 2 then n.choose w else if n % 2 = 0 ∧ w = n / 2 then n.choose (n / 2) / 2 else 0 := by
    intro w hw
    have h2k := h2.cosetsOfWeight_mul w
    simp only [hcw, pow_one] at h2k
    by_cases ha : w < (n + 1) / 2
    · rw [if_pos ha]
      have : (Finset.univ.filter fun v : BVec n => min (hammingNorm v) (n - hammingNorm v) = w) =
          (Finset.univ.filter fun v : BVec n => hammingNorm v = w) ∪
            (Finset.univ.filter fun v : BVec n => hammingNorm v = n - w) := by
        ext v
        have := norm_le v
        simp only [Finset.mem_filter, Finset.mem_univ, true_and, Finset.mem_union]
        omega
      rw [this, Finset.card_union_of_disjoint, card_norm, card_norm, Nat.choose_symm hw] at h2k
      · omega
      · rw [Finset.disjoint_left]
        intro v h5 h6
        simp only [Finset.mem_filter, Finset.mem_univ, true_and] at h5 h6
        omega
    · rw [if_neg ha]
      by_cases hb : n % 2 = 0 ∧ w = n / 2
      · rw [if_pos hb, ← hb.2]
        have : (Finset.univ.filter fun v : BVec n => min (hammingNorm v) (n - hammingNorm v) = w) =
          (Finset.univ.filter fun v : BVec n => hammingNorm v = w) := by
          ext v
          have := norm_le v
          simp only [Finset.mem_filter, Finset.mem_univ, true_and]
          omega
        rw [this, card_norm] at h2k
        omega
      · rw [if_neg hb]
        have : (Finset.univ.filter fun v : BVec n => min (hammingNorm v) (n - hammingNorm v) = w) = ∅ := by
          rw [Finset.filter_eq_empty_iff]
          intro v _
          have := norm_le v
          omega
        rw [this, Finset.card_empty] at h2k
        omega
  have hlen : ((List.range ((n + 1) / 2)).foldl (fun d w => d.set w (n.choose w)) (List.replicate (n + 1) 0)).length =
      n + 1 := (foldl_set_get n.choose (fun i => i) _ (n + 1) 0 (by omega) (fun _ _ _ _ h => h)).2
  apply List.ext_getElem?
  intro w
  by_cases hw : w < n + 1
  · rw [List.getElem?_map, List.getElem?_range hw, Option.map_some, hcount w (by omega),
      repetitionLeaderWeightDistribution]
    by_cases hp : n % 2 = 0
    · rw [if_pos hp, List.getElem?_set, hlen]
      by_cases hh : n / 2 = w
      · rw [if_pos hh, if_pos (show n / 2 < n + 1 by omega), if_neg (show ¬ w < (n + 1) / 2 by omega),
          if_pos ⟨hp, hh.symm⟩]
      · rw [if_neg hh, foldl_set_range n.choose _ _ w hw, if_neg (show ¬ (n % 2 = 0 ∧ w = n / 2) by omega)]
    · rw [if_neg hp, foldl_set_range n.choose _ _ w hw, if_neg (show ¬ (n % 2 = 0 ∧ w = n / 2) by omega)]
  · rw [List.getElem?_eq_none (by simp; omega), List.getElem?_eq_none]
    rw [repetitionLeaderWeightDistribution]
    split
    · rw [List.length_set, hlen]; omega
    · rw [hlen]; omega

example : repetitionLeaderWeightDistribution 16 =
    [1, 16, 120, 560, 1820, 4368, 8008, 11440, 6435, 0, 0, 0, 0, 0, 0, 0, 0] := by decide +kernel
example : (repetitionCode 5).map LinCode.checkMatrix =
    some ![![1, 1, 0, 0, 0], ![1, 0, 1, 0, 0], ![1, 0, 0, 1, 0], ![1, 0, 0, 0, 1]] := by decide +kernel

/-- `SingleParityCheckCode(n)`: exactly the words of even weight; the weight distribution override is correct, and for
`n ≥ 2` the minimum distance is 2 (for `n = 1` the only codeword is zero). -/
theorem C49_single_parity_check (hn : 1 ≤ n) :
    ∃ c, singleParityCheckCode n = some c ∧ c.Lawful ∧
      (∀ v, (∃ u, c.encode u = v) ↔ Even (hammingNorm v)) ∧
      c.weightDistribution = singleParityCheckWeightDistribution n ∧
      (2 ≤ n → c.minimumDistance = some (singleParityCheckMinimumDistance n)) ∧
      singleParityCheckMinimumDistance n = 2 := by
  obtain ⟨c, h1, h2, -, h3, h4⟩ := C41_check (onesMat 1 n) (by
    rw [linearIndependent_unique_iff]
    intro e
    exact one_ne_zero (α := ZMod 2) (congrFun e ⟨0, hn⟩))
  have hcw : ∀ v, (∃ u, c.encode u = v) ↔ Even (hammingNorm v) := by
    intro v
    rw [h4, ← sum_zero_iff_even]
    simp [onesMat]
  refine ⟨c, ?_, h3, hcw, ?_, fun hn2 => ?_, rfl⟩
  · rw [singleParityCheckCode, if_neg (by omega), h1]
  · classical
    rw [weightDistribution_eq c h3]
    have hlen : ((List.range (n / 2 + 1)).foldl (fun d t => d.set (2 * t) (n.choose (2 * t)))
        (List.replicate (n + 1) 0)).length = n + 1 :=
      (foldl_set_get (fun t => n.choose (2 * t)) (fun t => 2 * t) _ (n + 1) 0 (by omega)
        (fun _ _ _ _ h => by simpa using h)).2
    apply List.ext_getElem?
    intro w
    by_cases hw : w < n + 1
    · rw [List.getElem?_map, List.getElem?_range hw, Option.map_some, singleParityCheckWeightDistribution,
        (foldl_set_get (fun t => n.choose (2 * t)) (fun t => 2 * t) _ (n + 1) w hw
        (fun _ _ _ _ h => by simpa using h)).1]
      congr 1
      by_cases he : Even w
      · have hx : ∃ i < n / 2 + 1, 2 * i = w := by
          obtain ⟨i, hi⟩ := he
          exact ⟨i, by omega, by omega⟩
        rw [dif_pos hx, hx.choose_spec.2, ← card_norm]
        congr 1
        ext v
        simp only [Finset.mem_filter, Finset.mem_univ, true_and, h3.check_zero, hcw]
        constructor
        · exact fun a => a.2
        · intro a; exact ⟨a ▸ he, a⟩
      · have hx : ¬ ∃ i < n / 2 + 1, 2 * i = w := by
          rintro ⟨i, _, hi⟩; exact he ⟨i, by omega⟩
        rw [dif_neg hx, Finset.card_eq_zero, Finset.filter_eq_empty_iff]
        rintro v - ⟨a, b⟩
        rw [h3.check_zero, hcw, b] at a
        exact he a
    · rw [List.getElem?_eq_none (by simp; omega), List.getElem?_eq_none]
      rw [singleParityCheckWeightDistribution, hlen]; omega
  · rw [minimumDistance_spec' c h3]
    constructor
    · have hnorm : hammingNorm (Pi.single ⟨0, by omega⟩ 1 + Pi.single ⟨1, by omega⟩ 1 : BVec n) = 2 := by
        have : (Finset.univ.filter fun j => (Pi.single ⟨0, by omega⟩ 1 + Pi.single ⟨1, by omega⟩ 1 : BVec n) j ≠ 0) =
            {⟨0, by omega⟩, ⟨1, by omega⟩} := by
          ext j
          simp only [Finset.mem_filter, Finset.mem_univ, true_and, Finset.mem_insert, Finset.mem_singleton,
            Pi.add_apply, Pi.single_apply]
          by_cases a : j = ⟨0, by omega⟩
          · subst a; simp
          · by_cases b : j = ⟨1, by omega⟩
            · subst b; simp
            · simp [a, b]
        unfold hammingNorm
        rw [this, Finset.card_pair]
        intro e
        simpa using congrArg Fin.val e
      refine ⟨_, ?_, (h3.check_zero _).mpr ((hcw _).mpr ?_), hnorm⟩
      · intro e; rw [e, hammingNorm_zero] at hnorm; omega
      · rw [hnorm]; decide
    · intro v hv hv0
      have he := (hcw v).mp ((h3.check_zero v).mp hv0)
      have hp := hammingNorm_pos_iff.mpr hv
      obtain ⟨t, ht⟩ := he
      change 2 ≤ _
      omega

example : singleParityCheckWeightDistribution 5 = [1, 0, 10, 0, 5, 0] := by decide +kernel

/-- `CordaroWagnerCode(n)`, `n ≥ 2`: dimension two, minimum distance `⌈2n/3⌉ - 1`. -/
theorem C49_cordaro_wagner (hn : 2 ≤ n) :
    ∃ c, cordaroWagnerCode n = some c ∧ c.generator = cordaroWagnerGenerator n ∧ c.Lawful ∧
      c.minimumDistance = some (cordaroWagnerMinimumDistance n) ∧
      (cordaroWagnerMinimumDistance n : Int) = ⌈(2 * n / 3 : ℚ)⌉ - 1 := by
  set d := cordaroWagnerDistance n with hd
  set q := (n + 1) / 3 with hq
  have hG : ∀ (i : Fin 2) (j : Fin n), cordaroWagnerGenerator n i j =
      if (j : Nat) < d - q then (if i = 0 then 1 else 0)
      else if (j : Nat) < d then (if i = 0 then 0 else 1) else 1 := by
    intro i j
    have : d - q + q = d := by unfold cordaroWagnerDistance at hd; omega
    unfold cordaroWagnerGenerator
    simp only [← hd, ← hq, this]
  have hnorm : ∀ u : BVec 2, u ≠ 0 → 
      hammingNorm (fun j => ∑ i, u i * cordaroWagnerGenerator n i j) =
        if u 0 = 0 then n - (d - q) else if u 1 = 0 then n - q else d := by
    intro u hu
    have hE : (fun j => ∑ i, u i * cordaroWagnerGenerator n i j) =
        fun j : Fin n => if (j : Nat) < d - q then u 0 else if (j : Nat) < d then u 1 else u 0 + u 1 := by
      funext j
      rw [Fin.sum_univ_two, hG, hG]
      by_cases a : (j : Nat) < d - q
      · simp [a]
      · by_cases b : (j : Nat) < d <;> simp [a, b]
    rw [hE]
    have hdq : d - q ≤ n ∧ d ≤ n ∧ q ≤ d := by unfold cordaroWagnerDistance at hd; omega
    have h11 : (1 : ZMod 2) + 1 = 0 := by decide
    have h10 : (1 : ZMod 2) ≠ 0 := by decide
    unfold hammingNorm
    rcases zmod2_cases (u 0) with e0 | e0 <;> rcases zmod2_cases (u 1) with e1 | e1 <;> rw [e0, e1]
    · exact absurd (funext fun i => by fin_cases i <;> assumption) hu
    · rw [if_pos rfl, ← card_fin_ge (n := n) (d - q) hdq.1]
      congr 1
      ext j
      simp only [Finset.mem_filter, Finset.mem_univ, true_and]
      by_cases a : (j : Nat) < d - q
      · simp only [a, if_true]; constructor
        · intro h; exact absurd rfl h
        · omega
      · by_cases b : (j : Nat) < d <;> simp [a, b] <;> omega
    · rw [if_neg h10, if_pos rfl]
      have h1 := card_fin_lt (n := n) (d - q) hdq.1
      have h2 := card_fin_ge (n := n) d hdq.2.1
      have : (Finset.univ.filter fun j : Fin n =>
          (if (j : Nat) < d - q then (1 : ZMod 2) else if (j : Nat) < d then 0 else 1 + 0) ≠ 0) =
          (Finset.univ.filter fun j : Fin n => (j : Nat) < d - q) ∪
            (Finset.univ.filter fun j : Fin n => d ≤ (j : Nat)) := by
        ext j
        simp only [Finset.mem_filter, Finset.mem_univ, true_and, Finset.mem_union]
        by_cases a : (j : Nat) < d - q
        · simp [a]
        · by_cases b : (j : Nat) < d <;> simp [a, b] <;> omega
      rw [this, Finset.card_union_of_disjoint, h1, h2]
      · omega
      · rw [Finset.disjoint_left]
        intro j a b
        simp only [Finset.mem_filter, Finset.mem_univ, true_and] at a b
        omega
    · rw [if_neg h10, if_neg h10]
      refine Eq.trans ?_ (card_fin_lt (n := n) d hdq.2.1)
      congr 1
      ext j
      simp only [Finset.mem_filter, Finset.mem_univ, true_and]
      by_cases a : (j : Nat) < d - q
      · simp [a]; omega
      · by_cases b : (j : Nat) < d
        · simp [a, b]
        · simp [a, b, h11]
  have hdpos : 1 ≤ d ∧ d ≤ n - q ∧ d ≤ n - (d - q) := by unfold cordaroWagnerDistance at hd; omega
  obtain ⟨c, h1, h2, h3⟩ := C41_generator (cordaroWagnerGenerator n) (by
    rw [Fintype.linearIndependent_iff]
    intro u hu
    by_contra hne
    have hu0 : u ≠ 0 := fun e => hne fun i => by rw [e]; rfl
    have h0 := hnorm u hu0
    have hz : (fun j => ∑ i, u i * cordaroWagnerGenerator n i j) = 0 := by
      funext j
      have := congrFun hu j
      simpa using this
    rw [hz, hammingNorm_zero] at h0
    split at h0
    · omega
    · split at h0 <;> omega)
  refine ⟨c, by rw [cordaroWagnerCode, if_neg (by omega), h1], h2, h3, ?_, ?_⟩
  · rw [minimumDistance_spec c h3]
    have henc : ∀ u, c.encode u = fun j => ∑ i, u i * cordaroWagnerGenerator n i j := by
      intro u; funext j; rw [h3.encode_eq, h2]
    change _ ∧ ∀ u, u ≠ 0 → d ≤ _
    constructor
    · refine ⟨1, one_ne_zero, ?_⟩
      rw [henc, hnorm 1 one_ne_zero, if_neg (by simp), if_neg (by simp)]
      rfl
    · intro u hu
      rw [henc, hnorm u hu]
      split
      · omega
      · split <;> omega
  · unfold cordaroWagnerMinimumDistance cordaroWagnerDistance
    have h0 : (⌈(2 * n / 3 : ℚ)⌉ : Int) = (((2 * n + 2) / 3 : Nat) : Int) := by
      rw [Int.ceil_eq_iff]
      have h5 : 3 * ((2 * n + 2) / 3) ≤ 2 * n + 2 := Nat.mul_div_le _ _
      have h6 : 2 * n ≤ 3 * ((2 * n + 2) / 3) := by omega
      generalize (2 * n + 2) / 3 = e at h5 h6 ⊢
      have h5' : (3 * e : ℚ) ≤ 2 * n + 2 := by exact_mod_cast h5
      have h6' : (2 * n : ℚ) ≤ 3 * e := by exact_mod_cast h6
      rw [Int.cast_natCast]
      constructor
      · rw [lt_div_iff₀ (by norm_num)]
        linarith
      · rw [div_le_iff₀ (by norm_num)]
        linarith
    rw [h0]
    omega

theorem C49_cordaro_wagner_rejects : ∀ n < 2, cordaroWagnerCode n = none := by
  intro n hn
  rw [cordaroWagnerCode, if_pos (by omega)]

example : cordaroWagnerGenerator 11 = ![![1, 1, 1, 0, 0, 0, 0, 1, 1, 1, 1], ![0, 0, 0, 1, 1, 1, 1, 1, 1, 1, 1]] ∧
    cordaroWagnerMinimumDistance 11 = 7 := by
  refine ⟨?_, rfl⟩
  funext i j
  revert i j
  decide +kernel

end Komm
