import Verif.Props.C41_C48_BlockCodes
import Verif.Props.C50_Hamming
import Verif.Props.C111_BlockError
/-! C158: codes that differ by the order of the places or by the choice of the generator rows. -/
namespace Komm

variable {k m n : Nat}

/-- The codewords of `c'` are those of `c` with the places reordered: place `j` of the word of `c'` is place `σ j` of the word of `c`. -/
def EquivalentVia (σ : Equiv.Perm (Fin n)) (c c' : LinCode k m n) : Prop :=
  ∀ v : BVec n, (∃ u, c'.encode u = fun j => v (σ j)) ↔ ∃ u, c.encode u = v

theorem hammingNorm_perm (σ : Equiv.Perm (Fin n)) (v : BVec n) : hammingNorm (fun j => v (σ j)) = hammingNorm v := by
  unfold hammingNorm
  refine Finset.card_bij (fun j _ => σ j) (fun j hj => by simpa using hj) (fun a _ b _ e => σ.injective e) fun j hj => ⟨σ.symm j, by simpa using hj, by simp⟩

theorem weightDistribution_equivalent (σ : Equiv.Perm (Fin n)) (c c' : LinCode k m n) (h : c.Lawful) (h' : c'.Lawful) (e : EquivalentVia σ c c') :
    c'.weightDistribution = c.weightDistribution := by
  have hp : c'.codewords.Perm (c.codewords.map fun v j => v (σ j)) := by
    refine (List.perm_ext_iff_of_nodup (codewords_nodup c' h') ((codewords_nodup c h).map fun a b hab => ?_)).mpr fun w => ?_
    · funext j
      have := congrFun hab (σ.symm j)
      simpa using this
    · rw [codewords_mem, List.mem_map]
      constructor
      · rintro ⟨u, hu⟩
        have hw : w = fun j => (fun i => w (σ.symm i)) (σ j) := by funext j; simp
        obtain ⟨u', hu'⟩ := (e fun i => w (σ.symm i)).mp ⟨u, by rw [hu]; exact hw⟩
        exact ⟨_, (codewords_mem c _).mpr ⟨u', hu'⟩, hw.symm⟩
      · rintro ⟨v, hv, rfl⟩
        exact (e v).mpr ((codewords_mem c v).mp hv)
  unfold LinCode.weightDistribution LinCode.bincount
  refine List.map_congr_left fun w _ => ?_
  have := (hp.map vsum).count_eq w
  rw [this, List.map_map]
  congr 2
  funext v
  exact Equiv.sum_comp σ fun j => (v j).val

/-- The distance from the word `r` to the nearest codeword is `w`. -/
def DistanceToCode (c : LinCode k m n) (r : BVec n) (w : Nat) : Prop :=
  (∃ u, hammingDist r (c.encode u) = w) ∧ ∀ u, w ≤ hammingDist r (c.encode u)

open Classical in
/-- `coset_leader_weight_distribution()` counts, for each `w`, the received words at distance `w` from the code, in units of `2^k`. -/
theorem C158_word_distances (c : LinCode k m n) (h : c.Lawful) (hm : 1 ≤ m) (fuel : Nat) (hf : n ≤ fuel) :
    ∃ D, c.leaderWeightDistribution fuel = some D ∧ D.length = n + 1 ∧
      ∀ w ≤ n, 2 ^ k * D.getD w 0 = (Finset.univ.filter fun r : BVec n => DistanceToCode c r w).card := by
  obtain ⟨T, D, h1, h2, h3, h4, -⟩ := C44_weight_distribution c h hm fuel hf
  obtain ⟨T', h1', h5⟩ := C44_coset_leaders c h hm fuel hf
  obtain rfl : T' = T := Option.some_inj.mp (h1'.symm.trans h1)
  refine ⟨D, h2, h3, fun w hw => ?_⟩
  have hD : D.getD w 0 = ((Finset.range (2 ^ m)).filter fun s => hammingNorm (T' s) = w).card := by
    rw [List.getD_eq_getElem?_getD, h4 w hw, Option.getD_some, List.countP_eq_length_filter, ← List.toFinset_card_of_nodup (List.nodup_range.filter _)]
    congr 1
    ext s
    simp
  -- a word is at distance `w` exactly when the leader of its coset has weight `w`
  have hiff : ∀ r, DistanceToCode c r w ↔ hammingNorm (T' (vecToNat (c.check r))) = w := by
    intro r
    obtain ⟨g1, g2⟩ := h5 _ (vecToNat_lt (c.check r))
    rw [natToVec_vecToNat] at g1 g2
    have hz : c.check (r + T' (vecToNat (c.check r))) = 0 := by rw [h.check_add, g1, bvec_add_self]
    obtain ⟨u, hu⟩ := (h.check_zero _).mp hz
    have hd : hammingDist r (c.encode u) = hammingNorm (T' (vecToNat (c.check r))) := by
      rw [hu, hammingDist_eq_norm_add, ← add_assoc, bvec_add_self, zero_add]
    have hle : ∀ u', hammingNorm (T' (vecToNat (c.check r))) ≤ hammingDist r (c.encode u') := by
      intro u'
      rw [hammingDist_eq_norm_add]
      exact g2 _ (by rw [h.check_add, h.check_encode, add_zero])
    constructor
    · rintro ⟨⟨u', hu'⟩, ha⟩
      exact le_antisymm (hu' ▸ hle u') (hd ▸ ha u)
    · rintro rfl
      exact ⟨⟨u, hd⟩, hle⟩
  simp only [hiff]
  -- each coset has `2^k` words
  rw [hD, Finset.card_eq_sum_card_fiberwise (f := fun r : BVec n => vecToNat (c.check r))
    (t := (Finset.range (2 ^ m)).filter fun s => hammingNorm (T' s) = w) (fun r hr => by
      simp only [Finset.coe_filter, Finset.mem_univ, true_and, Set.mem_setOf_eq] at hr
      simpa using ⟨vecToNat_lt _, hr⟩)]
  rw [Finset.sum_const_nat (m := 2 ^ k), mul_comm]
  intro s hs
  obtain ⟨hs1, hs2⟩ := Finset.mem_filter.mp hs
  have hs1 := Finset.mem_range.mp hs1
  have : ((Finset.univ.filter fun r : BVec n => hammingNorm (T' (vecToNat (c.check r))) = w).filter fun r => vecToNat (c.check r) = s) =
      Finset.univ.image fun u : BVec k => T' s + c.encode u := by
    ext r
    simp only [Finset.mem_filter, Finset.mem_univ, true_and, Finset.mem_image]
    constructor
    · rintro ⟨-, rfl⟩
      have g1 := (h5 _ hs1).1
      rw [natToVec_vecToNat] at g1
      obtain ⟨u, hu⟩ := (h.check_zero (T' (vecToNat (c.check r)) + r)).mp (by rw [h.check_add, g1, bvec_add_self])
      exact ⟨u, by rw [hu, ← add_assoc, bvec_add_self, zero_add]⟩
    · rintro ⟨u, rfl⟩
      have : vecToNat (c.check (T' s + c.encode u)) = s := by
        rw [h.check_add, h.check_encode, add_zero, (h5 s hs1).1, vecToNat_natToVec s hs1]
      rw [this]
      exact ⟨hs2, rfl⟩
  rw [this, Finset.card_image_of_injective _ fun a b hab => h.encode_injective (add_left_cancel hab)]
  simp [ZMod.card]

/-- Reordering the places of a code changes none of its numbers. -/
theorem C158_equivalent (σ : Equiv.Perm (Fin n)) (c c' : LinCode k m n) (h : c.Lawful) (h' : c'.Lawful) (e : EquivalentVia σ c c') :
    c'.weightDistribution = c.weightDistribution ∧ c'.minimumDistance = c.minimumDistance ∧ c'.packingRadius = c.packingRadius ∧
    ∀ fuel, 1 ≤ m → n ≤ fuel → c'.leaderWeightDistribution fuel = c.leaderWeightDistribution fuel ∧ c'.coveringRadius fuel = c.coveringRadius fuel := by
  classical
  have hw := weightDistribution_equivalent σ c c' h h' e
  have hd : c'.minimumDistance = c.minimumDistance := by rw [LinCode.minimumDistance, hw]; rfl
  refine ⟨hw, hd, by rw [LinCode.packingRadius, hd]; rfl, fun fuel hm hf => ?_⟩
  have hl : c'.leaderWeightDistribution fuel = c.leaderWeightDistribution fuel := by
    obtain ⟨D, g1, g2, g3⟩ := C158_word_distances c h hm fuel hf
    obtain ⟨D', g1', g2', g3'⟩ := C158_word_distances c' h' hm fuel hf
    rw [g1, g1']
    congr 1
    refine List.ext_getElem (by rw [g2, g2']) fun w hw' hw => ?_
    have hc : (Finset.univ.filter fun r : BVec n => DistanceToCode c' r w).card = (Finset.univ.filter fun r : BVec n => DistanceToCode c r w).card := by
      have key : ∀ r : BVec n, DistanceToCode c r w ↔ DistanceToCode c' (fun j => r (σ j)) w := by
        have hdist : ∀ r v : BVec n, hammingDist (fun j => r (σ j)) (fun j => v (σ j)) = hammingDist r v := by
          intro r v
          rw [hammingDist_eq_norm_add, hammingDist_eq_norm_add]
          exact hammingNorm_perm σ (r + v)
        have fwd : ∀ u, ∃ u', c'.encode u' = fun j => c.encode u (σ j) := fun u => (e _).mpr ⟨u, rfl⟩
        have bwd : ∀ u', ∃ u, c'.encode u' = fun j => c.encode u (σ j) := by
          intro u'
          have hw : c'.encode u' = fun j => (fun i => c'.encode u' (σ.symm i)) (σ j) := by funext j; simp
          obtain ⟨u, hu⟩ := (e fun i => c'.encode u' (σ.symm i)).mp ⟨u', hw⟩
          exact ⟨u, by rw [hu]; exact hw⟩
        intro r
        constructor
        · rintro ⟨⟨u, hu⟩, ha⟩
          obtain ⟨u', hu'⟩ := fwd u
          refine ⟨⟨u', by rw [hu', hdist, hu]⟩, fun x => ?_⟩
          obtain ⟨y, hy⟩ := bwd x
          rw [hy, hdist]; exact ha y
        · rintro ⟨⟨u', hu'⟩, ha⟩
          obtain ⟨u, hu⟩ := bwd u'
          refine ⟨⟨u, by rw [← hu', hu, hdist]⟩, fun x => ?_⟩
          obtain ⟨y, hy⟩ := fwd x
          rw [← hdist, ← hy]; exact ha y
      refine (Finset.card_bij (fun r _ => fun j => r (σ j)) (fun r hr => ?_) (fun a _ b _ hab => ?_) fun r hr => ?_).symm
      · simpa using (key r).mp (by simpa using hr)
      · funext j
        have := congrFun hab (σ.symm j)
        simpa using this
      · have hr' : (fun j => (fun i => r (σ.symm i)) (σ j)) = r := by funext j; simp
        refine ⟨fun i => r (σ.symm i), ?_, hr'⟩
        simp only [Finset.mem_filter, Finset.mem_univ, true_and] at hr ⊢
        exact (key _).mpr (hr'.symm ▸ hr)
    have hw1 : w < n + 1 := g2 ▸ hw
    have a := g3 w (by omega)
    have b := g3' w (by omega)
    rw [← hc, ← b, List.getD_eq_getElem _ _ hw, List.getD_eq_getElem _ _ hw'] at a
    exact (Nat.eq_of_mul_eq_mul_left (by positivity) a).symm
  exact ⟨hl, by rw [LinCode.coveringRadius, hl]; rfl⟩

/-- The probabilities over the binary symmetric channel agree as well: of an undetected error, and of a right decision of the syndrome table decoder. -/
theorem C158_error_probabilities (σ : Equiv.Perm (Fin n)) (c c' : LinCode k m n) (h : c.Lawful) (h' : c'.Lawful) (e : EquivalentVia σ c c')
    (p : ℝ) (hp : validProbability p = true) (msg msg' : BVec k) :
    (uniformDraws n).real {u | bscReceived p (c'.encode msg') u ≠ c'.encode msg' ∧ c'.check (bscReceived p (c'.encode msg') u) = 0} =
      (uniformDraws n).real {u | bscReceived p (c.encode msg) u ≠ c.encode msg ∧ c.check (bscReceived p (c.encode msg) u) = 0} ∧
    ∀ fuel, 1 ≤ m → n ≤ fuel → ∃ T T', c.cosetLeaders fuel = some T ∧ c'.cosetLeaders fuel = some T' ∧
      (uniformDraws n).real {u | syndromeTableDecode c' T' (bscReceived p (c'.encode msg') u) = msg'} =
        (uniformDraws n).real {u | syndromeTableDecode c T (bscReceived p (c.encode msg) u) = msg} := by
  obtain ⟨hw, -, -, hl⟩ := C158_equivalent σ c c' h h' e
  refine ⟨by rw [C111_undetected c h p hp, C111_undetected c' h' p hp, hw], fun fuel hm hf => ?_⟩
  obtain ⟨T, D, h1, h2, h3⟩ := C111_syndrome_table c h hm fuel hf p hp
  obtain ⟨T', D', h1', h2', h3'⟩ := C111_syndrome_table c' h' hm fuel hf p hp
  refine ⟨T, T', h1, h1', ?_⟩
  obtain rfl : D' = D := Option.some_inj.mp (h2'.symm.trans ((hl fuel hm hf).1.trans h2))
  rw [h3, h3']

theorem codewords_span (G : BMat k n) (c : LinCode k m n) (h : c.Lawful) (hg : c.generator = G) (v : BVec n) :
    (∃ u, c.encode u = v) ↔ v ∈ Submodule.span (ZMod 2) (Set.range G) := by
  rw [Submodule.mem_span_range_iff_exists_fun]
  refine exists_congr fun u => ?_
  rw [show c.encode u = ∑ i, u i • G i from ?_]
  funext j
  rw [h.encode_eq, hg]
  simp

/-- `BlockCode(generator_matrix=…)` with other rows that span the same space, or with the columns reordered. -/
theorem C158_generator (σ : Equiv.Perm (Fin n)) (G G' : BMat k n) (hG : LinearIndependent (ZMod 2) G) (hG' : LinearIndependent (ZMod 2) G')
    (hs : Submodule.span (ZMod 2) (Set.range G') = Submodule.span (ZMod 2) (Set.range fun i j => G i (σ j))) :
    ∃ c c', blockCodeOfGenerator G = some c ∧ blockCodeOfGenerator G' = some c' ∧ c.Lawful ∧ c'.Lawful ∧ EquivalentVia σ c c' := by
  obtain ⟨c, h1, h2, h3⟩ := C41_generator G hG
  obtain ⟨c', h1', h2', h3'⟩ := C41_generator G' hG'
  refine ⟨c, c', h1, h1', h3, h3', fun v => ?_⟩
  rw [codewords_span G' c' h3' h2', hs, Submodule.mem_span_range_iff_exists_fun]
  refine exists_congr fun u => ?_
  have he : c.encode u = ∑ i, u i • G i := by
    funext j
    rw [h3.encode_eq, h2]
    simp
  rw [he]
  constructor
  · intro hv
    funext j
    have := congrFun hv (σ.symm j)
    simpa using this
  · rintro rfl
    funext j
    simp

/-- `BlockCode(check_matrix=…)` with the columns reordered. -/
theorem C158_check (σ : Equiv.Perm (Fin n)) (H : BMat m n) (hH : LinearIndependent (ZMod 2) H) :
    ∃ c c', blockCodeOfCheck H = some c ∧ blockCodeOfCheck (fun i j => H i (σ j)) = some c' ∧ c.Lawful ∧ c'.Lawful ∧ EquivalentVia σ c c' := by
  have hH' : LinearIndependent (ZMod 2) fun i j => H i (σ j) := by
    rw [Fintype.linearIndependent_iff] at hH ⊢
    intro g hg
    refine hH g ?_
    funext j
    have := congrFun hg (σ.symm j)
    simpa using this
  obtain ⟨c, h1, h2, -, h3, h4⟩ := C41_check H hH
  obtain ⟨c', h1', h2', -, h3', h4'⟩ := C41_check _ hH'
  refine ⟨c, c', h1, h1', h3, h3', fun v => ?_⟩
  rw [h4, h4']
  exact forall_congr' fun i => by rw [Equiv.sum_comp σ fun j => H i j * v j]

/-- The information set of a `SystematicBlockCode` only reorders the places. -/
theorem C158_information_set (P : BMat k m) (info info' : List Nat) (c c' : LinCode k m (k + m)) (hc : systematicNew P info = some c)
    (hc' : systematicNew P info' = some c') : ∃ σ, EquivalentVia σ c c' := by
  have key : ∀ info c, systematicNew P info = some c → ∃ f : Fin k ⊕ Fin m → Fin (k + m), Function.Bijective f ∧
      (∀ u t, c.encode u (f (.inl t)) = u t) ∧ ∀ u s, c.encode u (f (.inr s)) = ∑ i, u i * P i s := by
    intro info c hc
    obtain ⟨h0, h1, h2, h3⟩ := (systematicNew_spec P info).mp ⟨c, hc⟩
    have hs := (isSplit_iff (k := k) (m := m) info).mpr ⟨h1, h2, h3⟩
    have hcc : c = systematicObj P info (paritySet (k + m) info) := by
      unfold systematicNew at hc
      split at hc
      · simp at hc
      · split at hc
        · simp at hc
        · exact (Option.some_inj.mp hc).symm
    subst hcc
    refine ⟨Sum.elim hs.I hs.P, ?_, fun u t => systematic_encode_I hs P u t, fun u s => systematic_encode_P hs P u s⟩
    rw [Fintype.bijective_iff_surjective_and_card]
    refine ⟨fun j => ?_, by simp⟩
    rcases hs.cover j with ⟨t, ht⟩ | ⟨s, hs'⟩
    · exact ⟨.inl t, ht⟩
    · exact ⟨.inr s, hs'⟩
  obtain ⟨f, f1, f2, f3⟩ := key info c hc
  obtain ⟨f', f1', f2', f3'⟩ := key info' c' hc'
  refine ⟨(Equiv.ofBijective f' f1').symm.trans (Equiv.ofBijective f f1), fun v => exists_congr fun u => ?_⟩
  have hval : ∀ x, c'.encode u (f' x) = c.encode u (f x) := by
    rintro (t | s)
    · rw [f2, f2']
    · rw [f3, f3']
  constructor
  · intro hv
    funext j
    obtain ⟨x, rfl⟩ := f1.2 j
    rw [← hval, hv]
    have : (Equiv.ofBijective f' f1').symm (f' x) = x := Equiv.ofBijective_symm_apply_apply f' f1' x
    simp [this]
  · rintro rfl
    funext j
    obtain ⟨x, rfl⟩ := f1'.2 j
    have : (Equiv.ofBijective f' f1').symm (f' x) = x := Equiv.ofBijective_symm_apply_apply f' f1' x
    rw [hval]
    simp [this]

/-- Every code of redundancy `mu` and length `2^mu - 1` whose check columns are all the nonzero words is a reordered `HammingCode(mu)`. -/
theorem C158_hamming_unique (mu : Nat) (hmu : 2 ≤ mu) (c : LinCode (2 ^ mu - mu - 1) mu (2 ^ mu - mu - 1 + mu)) (h : c.Lawful)
    (hcol : ∀ j, (fun i => c.checkMatrix i j) ≠ 0) (hinj : Function.Injective fun j i => c.checkMatrix i j) :
    ∃ ham σ, hammingCode mu = some ham ∧ EquivalentVia σ ham c := by
  obtain ⟨ham, g1, g2, -, g3, -⟩ := C50_hamming_columns mu hmu
  choose f hf hf' using fun j => g3 (fun i => c.checkMatrix i j) (hcol j)
  have hfi : Function.Injective f := by
    intro a b hab
    refine hinj ?_
    have ha : (fun i => ham.checkMatrix i (f a)) = fun i => c.checkMatrix i a := hf a
    have hb : (fun i => ham.checkMatrix i (f b)) = fun i => c.checkMatrix i b := hf b
    show (fun i => c.checkMatrix i a) = fun i => c.checkMatrix i b
    rw [← ha, ← hb, hab]
  refine ⟨ham, Equiv.ofBijective f (Finite.injective_iff_bijective.mp hfi), g1, fun v => ?_⟩
  rw [← h.check_zero, ← g2.check_zero, funext_iff, funext_iff]
  refine forall_congr' fun i => ?_
  rw [h.check_eq, g2.check_eq, ← Equiv.sum_comp (Equiv.ofBijective f (Finite.injective_iff_bijective.mp hfi)) fun j => v j * ham.checkMatrix i j]
  refine Eq.congr (Finset.sum_congr rfl fun j _ => ?_) rfl
  have : ham.checkMatrix i (f j) = c.checkMatrix i j := congrFun (hf j) i
  simp only [Equiv.ofBijective_apply, this]

/-- Non-vacuity: the (6, 3) code and its mirror image are two different codes; two information sets. -/
example : ∃ c c', blockCodeOfGenerator exG = some c ∧ blockCodeOfGenerator (fun i j => exG i j.rev) = some c' ∧ EquivalentVia Fin.revPerm c c' ∧
    (fun i j => exG i (Fin.rev j)) ≠ exG ∧ c'.minimumDistance = some 3 ∧ c'.leaderWeightDistribution 6 = some [1, 6, 1, 0, 0, 0, 0] := by
  have hG : LinearIndependent (ZMod 2) exG := by
    rw [Fintype.linearIndependent_iff]
    decide +kernel
  have hG' : LinearIndependent (ZMod 2) fun i j => exG i (Fin.rev j) := by
    rw [Fintype.linearIndependent_iff]
    decide +kernel
  obtain ⟨c, c', h1, h2, h3, h4, h5⟩ := C158_generator Fin.revPerm exG _ hG hG' rfl
  obtain ⟨-, hd, -, hl⟩ := C158_equivalent _ c c' h3 h4 h5
  have e1 : (blockCodeOfGenerator exG).bind (fun c => c.minimumDistance) = some 3 := by decide +kernel
  have e2 : (blockCodeOfGenerator exG).bind (fun c => c.leaderWeightDistribution 6) = some [1, 6, 1, 0, 0, 0, 0] := by decide +kernel
  rw [h1] at e1 e2
  exact ⟨c, c', h1, h2, h5, by decide +kernel, by rw [hd]; exact e1, by rw [(hl 6 (by norm_num) le_rfl).1]; exact e2⟩
example : ∃ c c', systematicNew (![![0, 1, 1], ![1, 0, 1], ![1, 1, 0]] : BMat 3 3) [0, 2, 4] = some c ∧
    systematicNew (![![0, 1, 1], ![1, 0, 1], ![1, 1, 0]] : BMat 3 3) [5, 1, 0] = some c' := ⟨_, _, rfl, rfl⟩

end Komm
