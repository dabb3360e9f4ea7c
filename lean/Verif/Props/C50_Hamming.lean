import Verif.Lemmas.Hamming
import Verif.Props.C41_C48_BlockCodes

/-! C50: Hamming and simplex codes. -/
namespace Komm

/-- `HammingCode(mu)` for `mu ≥ 2`: a lawful systematic code of length `2^mu - 1`; every non-zero `mu`-tuple is a column
of the check matrix exactly once (and zero is not). -/
theorem C50_hamming_columns (mu : Nat) (hmu : 2 ≤ mu) :
    ∃ c, hammingCode mu = some c ∧ c.Lawful ∧ 2 ^ mu - mu - 1 + mu = 2 ^ mu - 1 ∧
      (∀ x : BVec mu, x ≠ 0 → ∃! j, (fun i => c.checkMatrix i j) = x) ∧
      (∀ j, (fun i => c.checkMatrix i j) ≠ 0) := by
  have hk : mu + 1 ≤ 2 ^ mu := mu.lt_two_pow_self
  refine ⟨_, by rw [hammingCode, if_neg (by omega)], left_lawful _, by omega, ?_⟩
  have hcast : ∀ t : Fin (2 ^ mu - mu - 1), (fun i => (systematicLeft (hammingParity mu)).checkMatrix i
      (Fin.castAdd mu t)) = hammingParity mu t := fun t => funext fun i => (left_column _ i).1 t
  have hnat : ∀ s : Fin mu, (fun i => (systematicLeft (hammingParity mu)).checkMatrix i (Fin.natAdd _ s)) =
      Pi.single s 1 := fun s => funext fun i => by rw [(left_column _ i).2 s, Pi.single_apply]; simp only [eq_comm]
  have h2 : ∀ t, 2 ≤ hammingNorm (hammingParity mu t) := fun t => (hammingParity_range _).mp ⟨t, rfl⟩
  have hinj : ∀ j j', (fun i => (systematicLeft (hammingParity mu)).checkMatrix i j) =
      (fun i => (systematicLeft (hammingParity mu)).checkMatrix i j') → j = j' := by
    intro j j'
    refine Fin.addCases (fun t => ?_) (fun s => ?_) j <;> refine Fin.addCases (fun t' => ?_) (fun s' => ?_) j'
    · rw [hcast, hcast]; intro e; rw [hammingParity_injective mu e]
    · rw [hcast, hnat]; intro e
      have := h2 t; rw [e, norm_single] at this; omega
    · rw [hcast, hnat]; intro e
      have := h2 t'; rw [← e, norm_single] at this; omega
    · rw [hnat, hnat]; intro e
      have : s = s' := by
        by_contra hne
        have h := congrFun e s
        rw [Pi.single_eq_same, Pi.single_eq_of_ne hne] at h
        exact one_ne_zero h
      rw [this]
  constructor
  · intro x hx
    have hp := hammingNorm_pos_iff.mpr hx
    by_cases h : 2 ≤ hammingNorm x
    · obtain ⟨t, rfl⟩ := (hammingParity_range x).mpr h
      exact ⟨_, hcast t, fun j' hj' => hinj _ _ (hj'.trans (hcast t).symm)⟩
    · rcases small_norm x hx (by omega) with ⟨s, rfl⟩ | ⟨i, j, hij, rfl⟩
      · exact ⟨_, hnat s, fun j' hj' => hinj _ _ (hj'.trans (hnat s).symm)⟩
      · exfalso
        apply h
        rw [← hammingDist_eq_norm_add]
        have hd : Pi.single i 1 ≠ (Pi.single j 1 : BVec mu) := by
          intro e
          have h := congrFun e i
          rw [Pi.single_eq_same, Pi.single_eq_of_ne hij] at h
          exact one_ne_zero h
        have : hammingDist (Pi.single i 1) (Pi.single j 1 : BVec mu) = 2 := by
          rw [hammingDist_eq_norm_add]
          unfold hammingNorm
          rw [Finset.card_eq_two]
          refine ⟨i, j, hij, ?_⟩
          ext t
          simp only [Finset.mem_filter, Finset.mem_univ, true_and, Finset.mem_insert, Finset.mem_singleton,
            Pi.add_apply, Pi.single_apply]
          by_cases a : t = i
          · subst a; simp [hij]
          · simp [a]
        omega
  · intro j
    refine Fin.addCases (fun t => ?_) (fun s => ?_) j
    · rw [hcast]; intro e
      have := h2 t; rw [e, hammingNorm_zero] at this; omega
    · rw [hnat]; intro e
      have := norm_single s; rw [e, hammingNorm_zero] at this; omega

/-- The minimum distance is 3. -/
theorem C50_hamming_distance (mu : Nat) (hmu : 2 ≤ mu) :
    ∃ c, hammingCode mu = some c ∧ c.minimumDistance = some (hammingMinimumDistance false) ∧
      hammingMinimumDistance false = 3 := by
  obtain ⟨c, h1, h2, -, h3, h4⟩ := C50_hamming_columns mu hmu
  refine ⟨c, h1, ?_, rfl⟩
  change c.minimumDistance = some 3
  have hge : ∀ v, v ≠ 0 → c.check v = 0 → 3 ≤ hammingNorm v := fun v hv hc =>
    distance_ge_three h2 h4 (fun j j' e => by
      obtain ⟨i, _, hi⟩ := h3 _ (h4 j')
      rw [hi j e, hi j' rfl]) v hv hc
  rw [minimumDistance_spec' c h2]
  refine ⟨?_, hge⟩
  let e0 : BVec mu := Pi.single ⟨0, by omega⟩ 1
  let e1 : BVec mu := Pi.single ⟨1, by omega⟩ 1
  have hne0 : e0 ≠ 0 := by intro e; have := norm_single (⟨0, by omega⟩ : Fin mu); rw [show Pi.single _ 1 = e0 from rfl, e, hammingNorm_zero] at this; omega
  have hne1 : e1 ≠ 0 := by intro e; have := norm_single (⟨1, by omega⟩ : Fin mu); rw [show Pi.single _ 1 = e1 from rfl, e, hammingNorm_zero] at this; omega
  have hne2 : e0 + e1 ≠ 0 := by
    intro e
    have h := congrFun e ⟨0, by omega⟩
    simp only [e0, e1, Pi.add_apply, Pi.single_eq_same, Pi.zero_apply] at h
    rw [Pi.single_eq_of_ne (by intro e; simpa using congrArg Fin.val e), add_zero] at h
    exact one_ne_zero h
  obtain ⟨a, ha, -⟩ := h3 e0 hne0
  obtain ⟨b, hb, -⟩ := h3 e1 hne1
  obtain ⟨d, hd, -⟩ := h3 (e0 + e1) hne2
  have hab : a ≠ b := by
    rintro rfl
    apply hne2
    rw [← ha, ← hb, bvec_add_self]
  have hchk : c.check (Pi.single a 1 + Pi.single b 1 + Pi.single d 1) = 0 := by
    rw [h2.check_add, h2.check_add, check_single h2, check_single h2, check_single h2, ha, hb, hd, bvec_add_self]
  have hne : (Pi.single a 1 + Pi.single b 1 + Pi.single d 1 : BVec _) ≠ 0 := by
    intro e
    have h5 : (Pi.single a 1 + Pi.single b 1 : BVec _) = Pi.single d 1 := by
      have := congrArg (· + Pi.single d 1) e
      simp only [bvec_add_add, zero_add] at this
      exact this
    by_cases hda : d = a
    · have h := congrFun h5 b
      rw [Pi.add_apply, Pi.single_eq_of_ne (Ne.symm hab), Pi.single_eq_same,
        Pi.single_eq_of_ne (by rw [hda]; exact Ne.symm hab), zero_add] at h
      exact one_ne_zero h
    · have h := congrFun h5 a
      rw [Pi.add_apply, Pi.single_eq_same, Pi.single_eq_of_ne hab, Pi.single_eq_of_ne (Ne.symm hda), add_zero] at h
      exact one_ne_zero h
  refine ⟨_, hne, hchk, ?_⟩
  have h6 := hge _ hne hchk
  have h7 : hammingNorm (Pi.single a 1 + Pi.single b 1 + Pi.single d 1 : BVec _) ≤ 3 := by
    rw [← hammingDist_eq_norm_add]
    have t1 := hammingDist_triangle (Pi.single a 1 + Pi.single b 1 : BVec _) 0 (Pi.single d 1)
    rw [hammingDist_zero_right, hammingDist_zero_left, norm_single, ← hammingDist_eq_norm_add] at t1
    have t2 := hammingDist_triangle (Pi.single a 1 : BVec (2 ^ mu - mu - 1 + mu)) 0 (Pi.single b 1)
    rw [hammingDist_zero_right, hammingDist_zero_left, norm_single, norm_single] at t2
    omega
  omega

/-- Hamming codes are perfect: every word is within distance one of exactly one codeword. -/
theorem C50_hamming_perfect (mu : Nat) (hmu : 2 ≤ mu) :
    ∃ c, hammingCode mu = some c ∧ ∀ r, ∃! u, hammingDist r (c.encode u) ≤ 1 := by
  obtain ⟨c, h1, h2, h3, -⟩ := C50_hamming_columns mu hmu
  obtain ⟨c', h1', hd, -⟩ := C50_hamming_distance mu hmu
  rw [h1, Option.some_inj] at h1'
  subst h1'
  refine ⟨c, h1, h2.perfect 1 ((minimumDistance_spec c h2 3).mp hd).2 ?_⟩
  have : 1 ≤ 2 ^ mu := Nat.one_le_two_pow
  simp [Finset.sum_range_succ]
  omega

/-- The extended Hamming code has minimum distance 4 and only even-weight codewords. -/
theorem C50_hamming_extended (mu : Nat) (hmu : 2 ≤ mu) :
    ∃ c, hammingCodeExt mu = some c ∧ c.Lawful ∧ 2 ^ mu - mu - 1 + (mu + 1) = 2 ^ mu ∧
      c.minimumDistance = some (hammingMinimumDistance true) ∧ hammingMinimumDistance true = 4 ∧
      ∀ u, Even (hammingNorm (c.encode u)) := by
  have hk : mu + 1 ≤ 2 ^ mu := mu.lt_two_pow_self
  obtain ⟨c', h1, h2, -⟩ := C50_hamming_distance mu hmu
  rw [hammingCode, if_neg (by omega), Option.some_inj] at h1
  subst h1
  refine ⟨_, by rw [hammingCodeExt, if_neg (by omega)], left_lawful _, by omega, extended_distance _ 3 h2 rfl, rfl,
    fun u => ?_⟩
  rw [extended_norm, Nat.even_iff]; omega

theorem C50_hamming_rejects : ∀ mu < 2, hammingCode mu = none ∧ hammingCodeExt mu = none ∧ simplexCode mu = none ∧
    simplexCodeExt mu = none := by
  intro mu h
  simp only [hammingCode, hammingCodeExt, simplexCode, simplexCodeExt]
  rw [if_pos (by omega), if_pos (by omega), if_pos (by omega), if_pos (by omega)]
  exact ⟨rfl, rfl, rfl, rfl⟩

/-- weight of the parity part of a simplex codeword -/
private theorem simplex_parity (kappa : Nat) (f : BVec kappa → ZMod 2) :
    hammingNorm (fun i => f (hammingParity kappa i)) =
      (Finset.univ.filter fun x : BVec kappa => 2 ≤ hammingNorm x ∧ f x ≠ 0).card := by
  unfold hammingNorm
  rw [← Finset.card_map ⟨hammingParity kappa, hammingParity_injective kappa⟩]
  congr 1
  ext x
  simp only [Finset.mem_map, Finset.mem_filter, Finset.mem_univ, true_and, Function.Embedding.coeFn_mk]
  constructor
  · rintro ⟨i, hi, rfl⟩
    exact ⟨(hammingParity_range _).mp ⟨i, rfl⟩, hi⟩
  · rintro ⟨h1, h2⟩
    obtain ⟨i, rfl⟩ := (hammingParity_range x).mpr h1
    exact ⟨i, h2, rfl⟩

private theorem weight_one_count (kappa : Nat) (f : BVec kappa → ZMod 2) :
    hammingNorm (fun s : Fin kappa => f (Pi.single s 1)) =
      (Finset.univ.filter fun x : BVec kappa => hammingNorm x = 1 ∧ f x ≠ 0).card := by
  have hinj : Function.Injective (fun s : Fin kappa => (Pi.single s 1 : BVec kappa)) := by
    intro s s' e
    by_contra hne
    have h := congrFun e s
    simp only [Pi.single_eq_same] at h
    rw [Pi.single_eq_of_ne hne] at h
    exact one_ne_zero h
  unfold hammingNorm
  rw [← Finset.card_map ⟨_, hinj⟩]
  congr 1
  ext x
  simp only [Finset.mem_map, Finset.mem_filter, Finset.mem_univ, true_and, Function.Embedding.coeFn_mk]
  constructor
  · rintro ⟨s, hs, rfl⟩
    exact ⟨norm_single s, hs⟩
  · rintro ⟨h1, h2⟩
    have hx : x ≠ 0 := by rintro rfl; have h1' : hammingNorm (0 : BVec kappa) = 1 := h1; simp at h1'
    have h1' : hammingNorm x = 1 := h1
    obtain ⟨s, hs⟩ := Finset.card_eq_one.mp h1
    refine ⟨s, ?_, ?_⟩
    · have : x = Pi.single s 1 := by
        funext i
        rw [Pi.single_apply]
        have hi : i ∈ (Finset.univ.filter fun i => x i ≠ 0) ↔ i = s := by rw [hs, Finset.mem_singleton]
        simp only [Finset.mem_filter, Finset.mem_univ, true_and] at hi
        by_cases a : i = s
        · rw [if_pos a]; exact zmod2_ne_zero (hi.mpr a)
        · rw [if_neg a]; by_contra hc; exact a (hi.mp hc)
      rw [← this]; exact h2
    · funext i
      rw [Pi.single_apply]
      have hi : i ∈ (Finset.univ.filter fun i => x i ≠ 0) ↔ i = s := by rw [hs, Finset.mem_singleton]
      simp only [Finset.mem_filter, Finset.mem_univ, true_and] at hi
      by_cases a : i = s
      · rw [if_pos a]; exact (zmod2_ne_zero (hi.mpr a)).symm
      · rw [if_neg a]; by_contra hc; exact a (hi.mp (Ne.symm hc))

/-- Every non-zero codeword of `SimplexCode(kappa)` has weight `2^(kappa-1)`. -/
theorem C50_simplex (kappa : Nat) (hk : 2 ≤ kappa) :
    ∃ c, simplexCode kappa = some c ∧ c.Lawful ∧ kappa + (2 ^ kappa - kappa - 1) = 2 ^ kappa - 1 ∧
      (∀ u, u ≠ 0 → hammingNorm (c.encode u) = 2 ^ (kappa - 1)) ∧
      c.minimumDistance = some (simplexMinimumDistance kappa) ∧ simplexMinimumDistance kappa = 2 ^ (kappa - 1) := by
  have hlt : kappa + 1 ≤ 2 ^ kappa := kappa.lt_two_pow_self
  have hw : ∀ u : BVec kappa, u ≠ 0 →
      hammingNorm ((systematicLeft (transposeMat (hammingParity kappa))).encode u) = 2 ^ (kappa - 1) := by
    intro u hu
    rw [left_norm]
    let f : BVec kappa → ZMod 2 := fun x => ∑ s, u s * x s
    have e1 : (fun i => ∑ s, u s * transposeMat (hammingParity kappa) s i) = fun i => f (hammingParity kappa i) := rfl
    have e2 : u = fun s => f (Pi.single s 1) := by
      funext s
      simp only [f]
      rw [Finset.sum_eq_single s]
      · simp
      · intro b _ hb; simp [Pi.single_apply, hb]
      · simp
    rw [e1, simplex_parity kappa f]
    nth_rw 1 [e2]
    rw [weight_one_count kappa f, ← Finset.card_union_of_disjoint]
    · have h1 := card_inner u hu 1
      have : (Finset.univ.filter fun x : BVec kappa => hammingNorm x = 1 ∧ f x ≠ 0) ∪
          (Finset.univ.filter fun x : BVec kappa => 2 ≤ hammingNorm x ∧ f x ≠ 0) =
          Finset.univ.filter fun x : BVec kappa => ∑ s, u s * x s = 1 := by
        ext x
        simp only [Finset.mem_union, Finset.mem_filter, Finset.mem_univ, true_and]
        constructor
        · rintro (⟨_, h⟩ | ⟨_, h⟩) <;> exact zmod2_ne_zero h
        · intro h
          have hx : x ≠ 0 := by rintro rfl; simp at h
          have := hammingNorm_pos_iff.mpr hx
          have hf : f x ≠ 0 := by simp only [f]; rw [h]; decide
          by_cases h2 : 2 ≤ hammingNorm x
          · exact Or.inr ⟨h2, hf⟩
          · exact Or.inl ⟨by omega, hf⟩
      rw [this]
      have h2 : 2 * 2 ^ (kappa - 1) = 2 ^ kappa := by rw [← pow_succ', show kappa - 1 + 1 = kappa by omega]
      omega
    · rw [Finset.disjoint_left]; intro x a b
      simp only [Finset.mem_filter, Finset.mem_univ, true_and] at a b
      omega
  refine ⟨_, by rw [simplexCode, if_neg (by omega)], left_lawful _, by omega, hw, ?_, rfl⟩
  rw [minimumDistance_spec _ (left_lawful _)]
  have hne : (Pi.single (⟨0, by omega⟩ : Fin kappa) 1 : BVec kappa) ≠ 0 := by
    intro e; have := norm_single (⟨0, by omega⟩ : Fin kappa); rw [e, hammingNorm_zero] at this; omega
  exact ⟨⟨_, hne, hw _ hne⟩, fun u hu => (hw u hu).ge⟩

/-- The simplex code is the dual of the Hamming code (with information and parity positions exchanged): every codeword of
one is orthogonal to every codeword of the other, and the dimensions add up to the length. -/
theorem C50_dual (mu : Nat) (hmu : 2 ≤ mu) :
    ∃ c s, hammingCode mu = some c ∧ simplexCode mu = some s ∧
      (∀ u w, (∑ t : Fin (2 ^ mu - mu - 1), c.encode u (Fin.castAdd mu t) * s.encode w (Fin.natAdd mu t)) +
        (∑ t : Fin mu, c.encode u (Fin.natAdd _ t) * s.encode w (Fin.castAdd _ t)) = 0) ∧
      (2 ^ mu - mu - 1) + mu = 2 ^ mu - 1 := by
  have hk : mu + 1 ≤ 2 ^ mu := mu.lt_two_pow_self
  refine ⟨_, _, by rw [hammingCode, if_neg (by omega)], by rw [simplexCode, if_neg (by omega)], fun u w => ?_, by omega⟩
  obtain ⟨a1, a2⟩ := left_encode (hammingParity mu) u
  obtain ⟨b1, b2⟩ := left_encode (transposeMat (hammingParity mu)) w
  simp only [a1, a2, b1, b2, transposeMat, Finset.mul_sum, Finset.sum_mul]
  rw [Finset.sum_comm, ← Finset.sum_add_distrib]
  apply Finset.sum_eq_zero
  intro t _
  rw [← Finset.sum_add_distrib]
  apply Finset.sum_eq_zero
  intro i _
  have : u i * (w t * hammingParity mu i t) = u i * hammingParity mu i t * w t := by ring
  rw [this, CharTwo.add_self_eq_zero]

/-- `SimplexCode(kappa, extended=True)`: every non-zero codeword has weight `2^(kappa-1)` or `2^kappa`; minimum distance
`2^(kappa-1)`. -/
theorem C50_simplex_extended (kappa : Nat) (hk : 2 ≤ kappa) :
    ∃ c, simplexCodeExt kappa = some c ∧ c.Lawful ∧ kappa + 1 + (2 ^ kappa - kappa - 1) = 2 ^ kappa ∧
      (∀ u, u ≠ 0 → hammingNorm (c.encode u) = 2 ^ (kappa - 1) ∨ hammingNorm (c.encode u) = 2 ^ kappa) ∧
      c.minimumDistance = some (simplexMinimumDistance kappa) := by
  have hlt : kappa + 1 ≤ 2 ^ kappa := kappa.lt_two_pow_self
  have h2k : 2 * 2 ^ (kappa - 1) = 2 ^ kappa := by rw [← pow_succ', show kappa - 1 + 1 = kappa by omega]
  have hw : ∀ u : BVec (kappa + 1),
      hammingNorm ((systematicLeft (transposeMat (extendedParity (hammingParity kappa)))).encode u) =
      (Finset.univ.filter fun x : BVec kappa =>
        ∑ s : Fin kappa, (u (Fin.castAdd 1 s) + u (Fin.last kappa)) * x s = 1 + u (Fin.last kappa)).card := by
    intro u
    rw [left_norm, norm_split (a := kappa) (b := 1) u]
    let b := u (Fin.last kappa)
    let f : BVec kappa → ZMod 2 := fun x => (∑ s : Fin kappa, (u (Fin.castAdd 1 s) + b) * x s) + b
    have e1 : (fun i => ∑ s, u s * transposeMat (extendedParity (hammingParity kappa)) s i) =
        fun i => f (hammingParity kappa i) := by
      funext i
      rw [Fin.sum_univ_castSucc]
      simp only [transposeMat, extendedParity, f]
      have : ¬ ((Fin.last kappa : Fin (kappa + 1)) : Nat) < kappa := by simp
      rw [dif_neg this, mul_add, mul_one, Finset.mul_sum]
      simp only [Fin.val_castSucc, Fin.is_lt, dif_pos, Fin.eta, add_mul, Finset.sum_add_distrib]
      change _ + (b + _) = _
      rw [add_comm b, ← add_assoc]
      rfl
    have e2 : (fun s : Fin kappa => u (Fin.castAdd 1 s)) = fun s => f (Pi.single s 1) := by
      funext s
      simp only [f]
      rw [Finset.sum_eq_single s]
      · simp only [Pi.single_eq_same, mul_one]
        rw [add_assoc, CharTwo.add_self_eq_zero, add_zero]
      · intro b _ hb; simp [Pi.single_apply, hb]
      · simp
    have e3 : hammingNorm (fun s : Fin 1 => u (Fin.natAdd kappa s)) =
        (Finset.univ.filter fun x : BVec kappa => hammingNorm x = 0 ∧ f x ≠ 0).card := by
      have hn : ∀ s : Fin 1, u (Fin.natAdd kappa s) = b := by
        intro s; congr 1; apply Fin.ext; simp
      simp only [hn]
      have hf0 : f 0 = b := by simp [f]
      rcases zmod2_cases b with hb | hb
      · rw [hb]
        have : (Finset.univ.filter fun x : BVec kappa => hammingNorm x = 0 ∧ f x ≠ 0) = ∅ := by
          rw [Finset.filter_eq_empty_iff]
          rintro x - ⟨h1, h2⟩
          rw [hammingNorm_eq_zero] at h1
          rw [h1, hf0] at h2; exact h2 hb
        rw [this]; simp [hammingNorm]
      · rw [hb]
        have : (Finset.univ.filter fun x : BVec kappa => hammingNorm x = 0 ∧ f x ≠ 0) = {0} := by
          ext x
          simp only [Finset.mem_filter, Finset.mem_univ, true_and, Finset.mem_singleton, hammingNorm_eq_zero]
          constructor
          · exact fun h => h.1
          · rintro rfl; exact ⟨rfl, by rw [hf0, hb]; decide⟩
        rw [this]; simp [hammingNorm]
    rw [e1, e2, e3, simplex_parity kappa f, weight_one_count kappa f, ← Finset.card_union_of_disjoint,
      ← Finset.card_union_of_disjoint]
    · congr 1
      ext x
      simp only [Finset.mem_union, Finset.mem_filter, Finset.mem_univ, true_and]
      have key : f x ≠ 0 ↔ ∑ s : Fin kappa, (u (Fin.castAdd 1 s) + u (Fin.last kappa)) * x s =
          1 + u (Fin.last kappa) := by
        exact (by decide : ∀ a b : ZMod 2, a + b ≠ 0 ↔ a = 1 + b) _ _
      rw [← key]
      have : hammingNorm x = 1 ∨ hammingNorm x = 0 ∨ 2 ≤ hammingNorm x := by omega
      tauto
    · rw [Finset.disjoint_left]; intro x a b
      simp only [Finset.mem_filter, Finset.mem_univ, true_and, Finset.mem_union] at a b
      omega
    · rw [Finset.disjoint_left]; intro x a b
      simp only [Finset.mem_filter, Finset.mem_univ, true_and] at a b
      omega
  have hall : ∀ u : BVec (kappa + 1), u ≠ 0 →
      hammingNorm ((systematicLeft (transposeMat (extendedParity (hammingParity kappa)))).encode u) = 2 ^ (kappa - 1) ∨
      hammingNorm ((systematicLeft (transposeMat (extendedParity (hammingParity kappa)))).encode u) = 2 ^ kappa := by
    intro u hu
    rw [hw]
    by_cases ha : (fun s : Fin kappa => u (Fin.castAdd 1 s) + u (Fin.last kappa)) = 0
    · right
      have hb : u (Fin.last kappa) = 1 := by
        apply zmod2_ne_zero
        intro h0
        apply hu
        funext j
        refine Fin.lastCases h0 (fun s => ?_) j
        have := congrFun ha s
        simp only [h0, add_zero] at this
        exact this
      have : ∀ x : BVec kappa, ∑ s : Fin kappa, (u (Fin.castAdd 1 s) + u (Fin.last kappa)) * x s =
          1 + u (Fin.last kappa) := by
        intro x
        rw [hb, show (1 : ZMod 2) + 1 = 0 by decide]
        apply Finset.sum_eq_zero
        intro s _
        have := congrFun ha s
        simp only [hb, Pi.zero_apply] at this
        rw [this, zero_mul]
      simp only [this, Finset.filter_true, Finset.card_univ, Fintype.card_fun, ZMod.card, Fintype.card_fin]
    · left
      have := card_inner _ ha (1 + u (Fin.last kappa))
      omega
  refine ⟨_, by rw [simplexCodeExt, if_neg (by omega)], left_lawful _, by omega, hall, ?_⟩
  rw [minimumDistance_spec _ (left_lawful _)]
  have h0 : 0 < 2 ^ (kappa - 1) := Nat.two_pow_pos _
  constructor
  · let u : BVec (kappa + 1) := Pi.single ⟨0, by omega⟩ 1
    have hne : u ≠ 0 := by
      intro e; have := norm_single (⟨0, by omega⟩ : Fin (kappa + 1)); rw [show Pi.single _ 1 = u from rfl, e, hammingNorm_zero] at this; omega
    refine ⟨u, hne, ?_⟩
    rw [hw]
    have hl : u (Fin.last kappa) = 0 := by
      simp only [u]
      rw [Pi.single_eq_of_ne]
      intro e; have := congrArg Fin.val e; simp at this; omega
    have ha : (fun s : Fin kappa => u (Fin.castAdd 1 s) + u (Fin.last kappa)) ≠ 0 := by
      intro e
      have h := congrFun e ⟨0, by omega⟩
      rw [hl, add_zero] at h
      have h1 : u (Fin.castAdd 1 ⟨0, by omega⟩) = 1 := Pi.single_eq_same (M := fun _ => ZMod 2) _ _
      rw [h1] at h
      exact one_ne_zero h
    have := card_inner _ ha (1 + u (Fin.last kappa))
    unfold simplexMinimumDistance
    omega
  · intro u hu
    unfold simplexMinimumDistance
    rcases hall u hu with e | e <;> omega

example : (hammingCode 3).map LinCode.checkMatrix = some ![![1, 1, 0, 1, 1, 0, 0], ![1, 0, 1, 1, 0, 1, 0],
    ![0, 1, 1, 1, 0, 0, 1]] := by decide +kernel
example : (hammingCodeExt 3).map LinCode.checkMatrix = some ![![1, 1, 0, 1, 1, 0, 0, 0], ![1, 0, 1, 1, 0, 1, 0, 0],
    ![0, 1, 1, 1, 0, 0, 1, 0], ![1, 1, 1, 0, 0, 0, 0, 1]] := by decide +kernel
example : (simplexCode 3).bind LinCode.minimumDistance = some 4 := by decide +kernel

end Komm
