import Verif.Props.C41_C48_BlockCodes
import Verif.Props.C50_Hamming
import Verif.Props.C54_Lexicode
import Verif.Lemmas.CodeCounting
import Mathlib.LinearAlgebra.FiniteDimensional.Basic
import Mathlib.LinearAlgebra.Basis.VectorSpace
import Mathlib.Algebra.BigOperators.Ring.Finset
import Mathlib.Tactic.Ring
import Mathlib.Tactic.Linarith
/-! C112: weight distributions of dual codes.  C113: bounds on the parameters of every code. -/
namespace Komm

variable {k m n : Nat}

/-! ### MacWilliams -/

/-- `(-1)^b` for a bit. -/
def sgn (b : ZMod 2) : ℤ := if b = 0 then 1 else -1

theorem sgn_add (a b : ZMod 2) : sgn (a + b) = sgn a * sgn b := by revert a b; decide

theorem sgn_sum {ι : Type} [Fintype ι] (f : ι → ZMod 2) : sgn (∑ i, f i) = ∏ i, sgn (f i) := by
  classical
  have : ∀ s : Finset ι, sgn (∑ i ∈ s, f i) = ∏ i ∈ s, sgn (f i) := by
    intro s
    induction s using Finset.induction_on with
    | empty => rfl
    | insert a s ha ih => rw [Finset.sum_insert ha, Finset.prod_insert ha, sgn_add, ih]
  exact this Finset.univ

theorem sum_pi_prod (g : Fin n → ZMod 2 → ℤ) : ∑ v : BVec n, ∏ j, g j (v j) = ∏ j, ∑ a, g j a := by
  rw [Finset.prod_univ_sum, Fintype.piFinset_univ]

theorem zmod2_sum (f : ZMod 2 → ℤ) : ∑ a, f a = f 0 + f 1 := Fin.sum_univ_two f

/-- A character sum over all messages. -/
theorem msg_char_sum (a : BVec k) : ∑ u : BVec k, sgn (∑ i, u i * a i) = if a = 0 then 2 ^ k else 0 := by
  simp only [sgn_sum]
  rw [sum_pi_prod fun i x => sgn (x * a i)]
  simp only [zmod2_sum, zero_mul, one_mul]
  split
  · rename_i h; subst h; simp [sgn]
  · rename_i h
    obtain ⟨i, hi⟩ := Function.ne_iff.mp h
    refine Finset.prod_eq_zero (Finset.mem_univ i) ?_
    have hi' : a i ≠ 0 := hi
    have : sgn (a i) = -1 := by rw [sgn, if_neg hi']
    rw [this]; rfl

/-- The product form of `y^w x^(n-w)`. -/
theorem weight_prod (x y : ℤ) (v : BVec n) : ∏ j, (if v j = 0 then x else y) = y ^ hammingNorm v * x ^ (n - hammingNorm v) := by
  rw [Finset.prod_ite, Finset.prod_const, Finset.prod_const, mul_comm]
  have c1 : (Finset.univ.filter fun j : Fin n => ¬ v j = 0).card = hammingNorm v := rfl
  have c2 : (Finset.univ.filter fun j : Fin n => v j = 0).card = n - hammingNorm v := by
    have := Finset.card_filter_add_card_filter_not (s := (Finset.univ : Finset (Fin n))) (fun j => v j = 0)
    rw [Finset.card_univ, Fintype.card_fin, c1] at this
    omega
  rw [c1, c2]

/-- The weight enumerator read off `codeword_weight_distribution()`. -/
def weightEnumerator (dist : List Nat) (n : Nat) (x y : ℤ) : ℤ := ∑ w ∈ Finset.range (n + 1), (dist.getD w 0 : ℤ) * (y ^ w * x ^ (n - w))

theorem weightEnumerator_eq (c : LinCode k m n) (h : c.Lawful) (x y : ℤ) :
    weightEnumerator c.weightDistribution n x y = ∑ u : BVec k, y ^ hammingNorm (c.encode u) * x ^ (n - hammingNorm (c.encode u)) := by
  classical
  have hw : ∀ w ∈ Finset.range (n + 1), (c.weightDistribution.getD w 0) = (Finset.univ.filter fun u : BVec k => hammingNorm (c.encode u) = w).card := by
    intro w hw
    rw [weightDistribution_get, if_pos (Finset.mem_range.mp hw), List.count, List.countP_map, List.countP_eq_length_filter,
      ← List.toFinset_card_of_nodup ((codewords_nodup c h).filter _), ← Finset.card_image_of_injective _ h.encode_injective]
    congr 1
    ext v
    simp only [List.mem_toFinset, List.mem_filter, codewords_mem, Finset.mem_image, Finset.mem_filter, Finset.mem_univ, true_and, Function.comp, beq_iff_eq]
    constructor
    · rintro ⟨⟨u, rfl⟩, hu⟩; exact ⟨u, hu, rfl⟩
    · rintro ⟨u, hu, rfl⟩; exact ⟨⟨u, rfl⟩, hu⟩
  rw [weightEnumerator, Finset.sum_congr rfl fun w hw' => by rw [hw w hw']]
  rw [← Finset.sum_fiberwise_of_maps_to (t := Finset.range (n + 1)) (g := fun u : BVec k => hammingNorm (c.encode u))
    fun u _ => Finset.mem_range.mpr (Nat.lt_succ_of_le ((hammingNorm_le_card_fintype).trans_eq (Fintype.card_fin n)))]
  refine Finset.sum_congr rfl fun w _ => ?_
  rw [Finset.sum_congr rfl (g := fun _ => y ^ w * x ^ (n - w)) fun e he => by rw [(Finset.mem_filter.mp he).2], Finset.sum_const, nsmul_eq_mul]

/-- MacWilliams' identity: the weight distributions of a code and of its dual (the words orthogonal to all its codewords) determine one another. -/
theorem C112_macwilliams {k' m' : Nat} (c : LinCode k m n) (h : c.Lawful) (c' : LinCode k' m' n) (h' : c'.Lawful)
    (hdual : ∀ v, (∃ u, c'.encode u = v) ↔ ∀ u, ∑ j, c.encode u j * v j = 0) (x y : ℤ) :
    2 ^ k * weightEnumerator c'.weightDistribution n x y = weightEnumerator c.weightDistribution n (x + y) (x - y) := by
  classical
  rw [weightEnumerator_eq c h, weightEnumerator_eq c' h']
  -- the dual sum as a sum over all words
  have s1 : ∑ u : BVec k', y ^ hammingNorm (c'.encode u) * x ^ (n - hammingNorm (c'.encode u)) =
      ∑ v ∈ Finset.univ.filter fun v : BVec n => ∀ u, ∑ j, c.encode u j * v j = 0, y ^ hammingNorm v * x ^ (n - hammingNorm v) := by
    refine Finset.sum_bij (fun u _ => c'.encode u) ?_ (fun a _ b _ e => h'.encode_injective e) ?_ fun _ _ => rfl
    · intro u _
      exact Finset.mem_filter.mpr ⟨Finset.mem_univ _, (hdual _).mp ⟨u, rfl⟩⟩
    · intro v hv
      obtain ⟨u, hu⟩ := (hdual v).mpr (Finset.mem_filter.mp hv).2
      exact ⟨u, Finset.mem_univ _, hu⟩
  have s2 : ∀ v : BVec n, (∑ u : BVec k, sgn (∑ j, c.encode u j * v j)) = if ∀ u, ∑ j, c.encode u j * v j = 0 then 2 ^ k else 0 := by
    intro v
    have e : ∀ u : BVec k, ∑ j, c.encode u j * v j = ∑ i, u i * (∑ j, c.generator i j * v j) := by
      intro u
      simp only [h.encode_eq, Finset.sum_mul, Finset.mul_sum]
      rw [Finset.sum_comm]
      exact Finset.sum_congr rfl fun i _ => Finset.sum_congr rfl fun j _ => by ring
    simp only [e]
    rw [msg_char_sum fun i => ∑ j, c.generator i j * v j]
    refine if_congr ⟨fun h0 u => ?_, fun h0 => ?_⟩ rfl rfl
    · exact Finset.sum_eq_zero fun i _ => by rw [congrFun h0 i]; exact mul_zero _
    · funext i
      have := h0 (Pi.single i 1)
      rw [Finset.sum_eq_single i] at this
      · simpa using this
      · intro b _ hb; simp [hb]
      · simp
  have s3 : ∀ u : BVec k, (x - y) ^ hammingNorm (c.encode u) * (x + y) ^ (n - hammingNorm (c.encode u)) =
      ∑ v : BVec n, sgn (∑ j, c.encode u j * v j) * (y ^ hammingNorm v * x ^ (n - hammingNorm v)) := by
    intro u
    rw [← weight_prod]
    simp only [← weight_prod, sgn_sum, ← Finset.prod_mul_distrib]
    rw [sum_pi_prod fun j a => sgn (c.encode u j * a) * if a = 0 then x else y]
    refine Finset.prod_congr rfl fun j _ => ?_
    have e1 : (if (1 : ZMod 2) = 0 then x else y) = y := if_neg (by decide)
    rw [zmod2_sum, mul_zero, mul_one, e1]
    by_cases hj : c.encode u j = 0
    · rw [if_pos hj, hj]; simp [sgn]
    · rw [if_neg hj]; simp [sgn, hj]; ring
  simp only [s3]
  rw [Finset.sum_comm, s1, Finset.mul_sum, Finset.sum_filter]
  refine Finset.sum_congr rfl fun v _ => ?_
  rw [← Finset.sum_mul, s2]
  split <;> simp

/-- The same for the two codes built from one matrix, as generator and as check matrix. -/
theorem C112_generator_check (G : BMat k n) (hG : LinearIndependent (ZMod 2) G) :
    ∃ c d, blockCodeOfGenerator G = some c ∧ blockCodeOfCheck G = some d ∧ ∀ x y,
      2 ^ k * weightEnumerator d.weightDistribution n x y = weightEnumerator c.weightDistribution n (x + y) (x - y) := by
  obtain ⟨c, h1, h2, h3⟩ := C41_generator G hG
  obtain ⟨d, g1, -, -, g3, g4⟩ := C41_check G hG
  refine ⟨c, d, h1, g1, fun x y => C112_macwilliams c h3 d g3 (fun v => ?_) x y⟩
  rw [g4]
  constructor
  · intro hv u
    simp only [h3.encode_eq, h2, Finset.sum_mul]
    rw [Finset.sum_comm]
    refine Finset.sum_eq_zero fun i _ => ?_
    have e : ∀ j, u i * G i j * v j = u i * (G i j * v j) := fun j => mul_assoc _ _ _
    simp only [e]
    rw [← Finset.mul_sum, hv i, mul_zero]
  · intro hv i
    have := hv (Pi.single i 1)
    simp only [h3.encode_eq, h2] at this
    rw [← this]
    refine Finset.sum_congr rfl fun j _ => ?_
    rw [Finset.sum_eq_single i]
    · simp
    · intro b _ hb; simp [hb]
    · simp

/-- Non-vacuity: the (5, 2) code of the documentation and the code with the matrices exchanged. -/
example : (blockCodeOfGenerator docG).map LinCode.weightDistribution = some [1, 0, 0, 2, 1, 0] ∧
    (blockCodeOfCheck docG).map LinCode.weightDistribution = some [1, 0, 2, 4, 1, 0] ∧
    2 ^ 2 * weightEnumerator [1, 0, 2, 4, 1, 0] 5 1 2 = weightEnumerator [1, 0, 0, 2, 1, 0] 5 3 (-1) := by decide +kernel

/-! ### Bounds -/

/-- `⌈d / 2^i⌉` -/
def ceilHalf (d i : Nat) : Nat := (d + 2 ^ i - 1) / 2 ^ i

theorem ceilHalf_succ (d i : Nat) : ceilHalf ((d + 1) / 2) i = ceilHalf d (i + 1) := by
  have h1 : 1 ≤ 2 ^ i := Nat.one_le_two_pow
  rw [ceilHalf, ceilHalf, pow_succ', ← Nat.div_div_eq_div_mul]
  congr 1
  omega

theorem ceilHalf_mono {d d' : Nat} (h : d ≤ d') (i : Nat) : ceilHalf d i ≤ ceilHalf d' i := Nat.div_le_div_right (by omega)

theorem griesmer_gen (k : Nat) : ∀ {ι V : Type} [Fintype ι] [AddCommGroup V] [Module (ZMod 2) V] [FiniteDimensional (ZMod 2) V]
    (E : V →ₗ[ZMod 2] (ι → ZMod 2)) (d : Nat), 1 ≤ d → Module.finrank (ZMod 2) V = k → (∀ v, v ≠ 0 → d ≤ hammingNorm (E v)) →
    ∑ i ∈ Finset.range k, ceilHalf d i ≤ Fintype.card ι := by
  classical
  induction k with
  | zero => intros; simp
  | succ k ih =>
    intro ι V _ _ _ _ E d hd hk hw
    haveI : Nontrivial V := Module.nontrivial_of_finrank_pos (R := ZMod 2) (by omega)
    -- a word of least weight
    obtain ⟨x0, hx0⟩ := exists_ne (0 : V)
    have hex : ∃ w, ∃ v, v ≠ 0 ∧ hammingNorm (E v) = w := ⟨_, x0, hx0, rfl⟩
    obtain ⟨v0, hv0, hw0⟩ := Nat.find_spec hex
    have hmin : ∀ v, v ≠ 0 → hammingNorm (E v0) ≤ hammingNorm (E v) := fun v hv => by
      rw [hw0]; exact Nat.find_min' hex ⟨v, hv, rfl⟩
    set D := hammingNorm (E v0) with hD
    have hdD : d ≤ D := hw v0 hv0
    obtain ⟨W, hW⟩ := Submodule.exists_isCompl (Submodule.span (ZMod 2) {v0})
    have hdim : Module.finrank (ZMod 2) W = k := by
      have h1 := Submodule.finrank_add_eq_of_isCompl hW
      rw [finrank_span_singleton hv0] at h1
      omega
    let Z := {j : ι // E v0 j = 0}
    let R : (ι → ZMod 2) →ₗ[ZMod 2] (Z → ZMod 2) := LinearMap.funLeft (ZMod 2) (ZMod 2) Subtype.val
    have hcardZ : Fintype.card Z = Fintype.card ι - D := by
      rw [Fintype.card_subtype]
      have := Finset.card_filter_add_card_filter_not (s := (Finset.univ : Finset ι)) (fun j => E v0 j = 0)
      rw [Finset.card_univ] at this
      have hD' : (Finset.univ.filter fun j : ι => ¬ E v0 j = 0).card = D := rfl
      omega
    have hDle : D ≤ Fintype.card ι := hammingNorm_le_card_fintype
    have hres : ∀ w : W, w ≠ 0 → (D + 1) / 2 ≤ hammingNorm ((R ∘ₗ E ∘ₗ W.subtype) w) := by
      intro w hw
      have hwv : (w : V) ≠ 0 := fun h => hw (Subtype.ext h)
      have hwv2 : (w : V) + v0 ≠ 0 := by
        intro h
        have h2 : v0 = -(w : V) := (neg_eq_of_add_eq_zero_right h).symm
        have h3 : v0 ∈ W := by rw [h2]; exact W.neg_mem w.2
        have h4 : v0 ∈ Submodule.span (ZMod 2) {v0} ⊓ W := ⟨Submodule.mem_span_singleton_self v0, h3⟩
        rw [hW.inf_eq_bot] at h4
        exact hv0 ((Submodule.mem_bot _).mp h4)
      have a1 := hmin _ hwv
      have a2 := hmin _ hwv2
      -- split the weights
      have e0 : hammingNorm ((R ∘ₗ E ∘ₗ W.subtype) w) = (Finset.univ.filter fun j : ι => E v0 j = 0 ∧ E (w : V) j ≠ 0).card := by
        rw [hammingNorm, ← Fintype.card_subtype, ← Fintype.card_subtype]
        refine Fintype.card_congr ⟨fun j => ⟨j.1.1, j.1.2, j.2⟩, fun j => ⟨⟨j.1, j.2.1⟩, j.2.2⟩, fun _ => rfl, fun _ => rfl⟩
      set b := (Finset.univ.filter fun j : ι => E v0 j = 0 ∧ E (w : V) j ≠ 0).card with hb
      set a := (Finset.univ.filter fun j : ι => E v0 j ≠ 0 ∧ E (w : V) j ≠ 0).card with ha
      set a' := (Finset.univ.filter fun j : ι => E v0 j ≠ 0 ∧ E (w : V) j = 0).card with ha'
      have w1 : hammingNorm (E (w : V)) = a + b := by
        rw [hammingNorm, ha, hb, ← Finset.card_union_of_disjoint]
        · congr 1; ext j; simp; tauto
        · exact Finset.disjoint_filter.mpr fun j _ h1 h2 => h1.1 h2.1
      have w2 : D = a + a' := by
        rw [hD, hammingNorm, ha, ha', ← Finset.card_union_of_disjoint]
        · congr 1; ext j; simp; tauto
        · exact Finset.disjoint_filter.mpr fun j _ h1 h2 => h1.2 h2.2
      have w3 : hammingNorm (E ((w : V) + v0)) = a' + b := by
        rw [hammingNorm, ha', hb, ← Finset.card_union_of_disjoint]
        · congr 1
          ext j
          simp only [Finset.mem_filter, Finset.mem_univ, true_and, Finset.mem_union, map_add, Pi.add_apply]
          have key : ∀ p q : ZMod 2, p + q ≠ 0 ↔ (q ≠ 0 ∧ p = 0) ∨ (q = 0 ∧ p ≠ 0) := by decide
          exact key _ _
        · exact Finset.disjoint_filter.mpr fun j _ h1 h2 => h1.1 h2.1
      rw [w3, w2] at a2
      rw [w1] at a1
      rw [e0]
      omega
    have := ih (R ∘ₗ E ∘ₗ W.subtype) ((D + 1) / 2) (by omega) hdim hres
    rw [hcardZ] at this
    rw [Finset.sum_range_succ']
    have h0 : ceilHalf d 0 ≤ D := by simpa [ceilHalf] using hdD
    have h2 : ∑ i ∈ Finset.range k, ceilHalf d (i + 1) ≤ ∑ i ∈ Finset.range k, ceilHalf ((D + 1) / 2) i :=
      Finset.sum_le_sum fun i _ => by rw [ceilHalf_succ]; exact ceilHalf_mono hdD _
    omega

/-- Griesmer's bound. -/
theorem C113_griesmer (c : LinCode k m n) (h : c.Lawful) (d : Nat) (hd : c.minimumDistance = some d) : ∑ i ∈ Finset.range k, ceilHalf d i ≤ n := by
  obtain ⟨⟨u, hu, hw⟩, hmin⟩ := (minimumDistance_spec c h d).mp hd
  have hd1 : 1 ≤ d := by
    rw [← hw, Nat.one_le_iff_ne_zero, ne_eq, hammingNorm_eq_zero]
    intro h0
    exact hu (h.encode_injective (h0.trans h.encode_zero.symm))
  let E : BVec k →ₗ[ZMod 2] BVec n :=
    { toFun := c.encode
      map_add' := h.encode_add
      map_smul' := fun a v => by
        funext i
        simp only [h.encode_eq, Pi.smul_apply, smul_eq_mul, RingHom.id_apply, Finset.mul_sum, mul_assoc] }
  have := griesmer_gen k E d hd1 (by simp) hmin
  simpa using this

/-- Singleton's bound. -/
theorem C113_singleton (c : LinCode k m n) (h : c.Lawful) (d : Nat) (hd : c.minimumDistance = some d) : d ≤ m + 1 := by
  have hg := C113_griesmer c h d hd
  have hdim := h.dim
  obtain ⟨⟨u, hu, hw⟩, hmin⟩ := (minimumDistance_spec c h d).mp hd
  have hd1 : 1 ≤ d := by
    rw [← hw, Nat.one_le_iff_ne_zero, ne_eq, hammingNorm_eq_zero]
    intro h0
    exact hu (h.encode_injective (h0.trans h.encode_zero.symm))
  obtain ⟨k', rfl⟩ : ∃ k', k = k' + 1 := by
    cases k with
    | zero => exact absurd (Subsingleton.elim u 0) hu
    | succ k' => exact ⟨k', rfl⟩
  rw [Finset.sum_range_succ'] at hg
  have h1 : ∑ i ∈ Finset.range k', 1 ≤ ∑ i ∈ Finset.range k', ceilHalf d (i + 1) := Finset.sum_le_sum fun i _ => by
    rw [ceilHalf, Nat.le_div_iff_mul_le (Nat.two_pow_pos _)]; omega
  have h0 : ceilHalf d 0 = d := by simp [ceilHalf]
  simp at h1
  omega

/-- Plotkin's bound. -/
theorem C113_plotkin (c : LinCode k m n) (h : c.Lawful) (d : Nat) (hd : c.minimumDistance = some d) : (2 ^ k - 1) * (2 * d) ≤ 2 ^ k * n := by
  have hg := C113_griesmer c h d hd
  have h1 : ∀ i, d ≤ 2 ^ i * ceilHalf d i := fun i => by
    have := Nat.lt_mul_div_succ (d + 2 ^ i - 1) (Nat.two_pow_pos i)
    rw [ceilHalf]
    rw [mul_add] at this
    omega
  have h2 : ∀ k, (2 ^ k - 1) * (2 * d) ≤ 2 ^ k * ∑ i ∈ Finset.range k, ceilHalf d i := by
    intro k
    induction k with
    | zero => simp
    | succ k ih =>
      rw [Finset.sum_range_succ, mul_add]
      have e1 := h1 k
      have hp : 1 ≤ 2 ^ k := Nat.one_le_two_pow
      have e2 : (2 ^ (k + 1) - 1) * (2 * d) = 2 * ((2 ^ k - 1) * (2 * d)) + 2 * d := by
        obtain ⟨q, hq⟩ := Nat.exists_eq_add_of_le hp
        rw [pow_succ, hq, show (1 + q) * 2 - 1 = 2 * q + 1 by omega, show 1 + q - 1 = q by omega]
        ring
      rw [e2, pow_succ]
      calc 2 * ((2 ^ k - 1) * (2 * d)) + 2 * d ≤ 2 * (2 ^ k * ∑ i ∈ Finset.range k, ceilHalf d i) + 2 * (2 ^ k * ceilHalf d k) := by omega
        _ = _ := by ring
  exact (h2 k).trans (Nat.mul_le_mul_left _ hg)

theorem ball_card (n t : Nat) : (Finset.univ.filter fun v : BVec n => hammingNorm v ≤ t).card = ∑ w ∈ Finset.range (t + 1), n.choose w := by
  rw [Finset.card_eq_sum_card_fiberwise (f := hammingNorm) (t := Finset.range (t + 1))]
  · apply Finset.sum_congr rfl
    intro w hw
    rw [← card_norm n w]
    congr 1
    ext v
    simp only [Finset.mem_filter, Finset.mem_univ, true_and]
    have := Finset.mem_range.mp hw
    omega
  · intro v hv
    simp only [Finset.coe_filter, Finset.mem_univ, true_and, Set.mem_setOf_eq] at hv
    simp only [Finset.coe_range, Set.mem_Iio]; omega

/-- The sphere-packing (Hamming) bound. -/
theorem C113_sphere_packing (c : LinCode k m n) (h : c.Lawful) (t : Nat) (ht : c.packingRadius = some t) :
    ∑ w ∈ Finset.range (t + 1), n.choose w ≤ 2 ^ m := by
  classical
  obtain ⟨d, hd, rfl⟩ := Option.map_eq_some_iff.mp ht
  rw [← ball_card]
  have h2 : Fintype.card (BVec m) = 2 ^ m := by rw [Fintype.card_fun]; simp
  rw [← h2, ← Finset.card_univ]
  refine Finset.card_le_card_of_injOn c.check (fun _ _ => Finset.mem_coe.mpr (Finset.mem_univ _)) ?_
  intro a ha b hb hab
  simp only [Finset.coe_filter, Finset.mem_univ, true_and, Set.mem_setOf_eq] at ha hb
  obtain ⟨⟨u0, hu0, hw0⟩, hmin⟩ := (minimumDistance_spec c h d).mp hd
  have hd1 : d ≠ 0 := by
    rw [← hw0, ne_eq, hammingNorm_eq_zero]
    intro h0
    exact hu0 (h.encode_injective (h0.trans h.encode_zero.symm))
  obtain ⟨u, hu⟩ := (h.check_zero (a + b)).mp (by rw [h.check_add, hab, bvec_add_self])
  by_cases hu0 : u = 0
  · rw [hu0, h.encode_zero] at hu
    rw [← bvec_add_add a b, ← hu, zero_add]
  · have h1 := hmin u hu0
    rw [hu, ← hammingDist_eq_norm_add] at h1
    have := hammingDist_triangle a 0 b
    rw [hammingDist_zero_right, hammingDist_zero_left] at this
    omega

/-- The covering radius is at least the packing radius and at most the redundancy, and satisfies the sphere-covering bound. -/
theorem C113_covering (c : LinCode k m n) (h : c.Lawful) (hm : 1 ≤ m) (fuel : Nat) (hf : n ≤ fuel) :
    ∃ ρ, c.coveringRadius fuel = some ρ ∧ ρ ≤ m ∧ 2 ^ m ≤ ∑ w ∈ Finset.range (ρ + 1), n.choose w ∧ ∀ t, c.packingRadius = some t → t ≤ ρ := by
  classical
  obtain ⟨ρ, h1, h2, r0, h3⟩ := C48_covering_radius c h hm fuel hf
  refine ⟨ρ, h1, ?_, ?_, ?_⟩
  · -- a leader of weight above m could be shortened
    obtain ⟨T, hT, hT2⟩ := C44_coset_leaders c h hm fuel hf
    obtain ⟨b1, b2⟩ := hT2 (vecToNat (c.check r0)) (vecToNat_lt _)
    rw [natToVec_vecToNat] at b1 b2
    set e := T (vecToNat (c.check r0)) with he
    have hρ : ρ ≤ hammingNorm e := by
      obtain ⟨u, hu⟩ := (h.check_zero (r0 + e)).mp (by rw [h.check_add, b1, bvec_add_self])
      have := h3 u
      rwa [hammingDist_eq_norm_add, hu, ← add_assoc, bvec_add_self, zero_add] at this
    refine hρ.trans ?_
    by_contra hlt
    let S := {j : Fin n // e j ≠ 0}
    let ext : (S → ZMod 2) → BVec n := fun a j => if hj : e j ≠ 0 then a ⟨j, hj⟩ else 0
    have hcard : Fintype.card (BVec m) < Fintype.card (S → ZMod 2) := by
      rw [Fintype.card_fun, Fintype.card_fun, ZMod.card, Fintype.card_fin]
      refine Nat.pow_lt_pow_right (by norm_num) ?_
      rw [Fintype.card_subtype]
      exact not_le.mp hlt
    obtain ⟨a, b, hab, hc⟩ := Fintype.exists_ne_map_eq_of_card_lt (fun a => c.check (ext a)) hcard
    have hf0 : c.check (ext a + ext b) = 0 := by
      have hc' : c.check (ext a) = c.check (ext b) := hc
      rw [h.check_add, hc', bvec_add_self]
    have hle := b2 (e + (ext a + ext b)) (by rw [h.check_add, hf0, add_zero, b1])
    -- strictly lighter
    refine absurd hle (not_le.mpr ?_)
    obtain ⟨s, hs⟩ := Function.ne_iff.mp hab
    refine Finset.card_lt_card ⟨?_, ?_⟩
    · intro j hj
      simp only [Finset.mem_filter, Finset.mem_univ, true_and, Pi.add_apply] at hj ⊢
      intro h0
      apply hj
      simp [ext, h0]
    · intro hsub
      have hj : s.1 ∈ Finset.univ.filter fun j => e j ≠ 0 := Finset.mem_filter.mpr ⟨Finset.mem_univ _, s.2⟩
      have := (Finset.mem_filter.mp (hsub hj)).2
      have es : ∀ a : S → ZMod 2, ext a s.1 = a s := fun a => by simp only [ext]; rw [dif_pos s.2]
      rw [Pi.add_apply, Pi.add_apply, es, es] at this
      have key : ∀ p q x : ZMod 2, x ≠ 0 → p ≠ q → x + (p + q) = 0 := by decide
      exact this (key _ _ _ s.2 hs)
  · rw [← ball_card]
    have h2' : Fintype.card (BVec m) = 2 ^ m := by rw [Fintype.card_fun]; simp
    rw [← h2', ← Finset.card_univ]
    refine Finset.card_le_card_of_surjOn c.check ?_
    intro s _
    obtain ⟨r, hr⟩ := h.check_surjective s
    obtain ⟨u, hu⟩ := h2 r
    refine ⟨r + c.encode u, ?_, ?_⟩
    · simp only [Finset.coe_filter, Finset.mem_univ, true_and, Set.mem_setOf_eq]
      rwa [← hammingDist_eq_norm_add]
    · rw [h.check_add, h.check_encode, add_zero, hr]
  · intro t ht
    by_contra hlt
    obtain ⟨d, hd, rfl⟩ := Option.map_eq_some_iff.mp ht
    obtain ⟨⟨u0, hu0, hw0⟩, hmin⟩ := (minimumDistance_spec c h d).mp hd
    -- a word at distance (d - 1) / 2 of the codeword 0, inside the support of a word of least weight
    obtain ⟨S, hS1, hS2⟩ := Finset.exists_subset_card_eq (s := Finset.univ.filter fun j => c.encode u0 j ≠ 0) (n := (d - 1) / 2)
      (by change (d - 1) / 2 ≤ hammingNorm (c.encode u0); rw [hw0]; omega)
    set r : BVec n := fun j => if j ∈ S then 1 else 0 with hr
    have hrw : hammingNorm r = (d - 1) / 2 := by
      rw [← hS2, hammingNorm]
      congr 1
      ext j
      simp [hr]
    obtain ⟨u, hu⟩ := h2 r
    have hd0 : d ≠ 0 := by
      rw [← hw0, ne_eq, hammingNorm_eq_zero]
      intro h0
      exact hu0 (h.encode_injective (h0.trans h.encode_zero.symm))
    by_cases huz : u = 0
    · rw [huz, h.encode_zero, hammingDist_zero_right, hrw] at hu
      omega
    · have a1 := hmin u huz
      have a2 := hammingDist_triangle 0 r (c.encode u)
      simp only [hammingDist_zero_left, hrw] at a2
      omega

/-- The Gilbert bound: the lexicode of length `n` and distance `d` has at least `2^n / V(n, d-1)` codewords. -/
theorem C113_gilbert {d : Nat} (hd : 1 ≤ d) (hn : d ≤ n) : ∃ c, lexicode n d = some c ∧ 2 ^ n ≤ c.codewords.length * ∑ w ∈ Finset.range d, n.choose w := by
  classical
  obtain ⟨c, h1, h2, -⟩ := C54_greedy hd hn
  obtain ⟨c', h1', -, -, h3⟩ := C54_distance hd hn
  obtain rfl : c' = c := Option.some_inj.mp (h1'.symm.trans h1)
  refine ⟨c', h1, ?_⟩
  obtain ⟨d', rfl⟩ : ∃ d', d = d' + 1 := ⟨d - 1, by omega⟩
  rw [(C41_codewords c' h2).2.1]
  have hc : Fintype.card (BVec n) = 2 ^ n := by rw [Fintype.card_fun]; simp
  rw [← hc, ← ball_card, ← Finset.card_univ]
  have hk : ∀ k, (Finset.univ : Finset (BVec k)).card = 2 ^ k := fun k => by rw [Finset.card_univ, Fintype.card_fun]; simp
  rw [← hk, ← Finset.card_product]
  refine Finset.card_le_card_of_surjOn (fun p => c'.encode p.1 + p.2) ?_
  intro v _
  obtain ⟨u, hu⟩ := h3 v
  refine ⟨(u, v + c'.encode u), ?_, ?_⟩
  · simp only [Finset.coe_product, Set.mem_prod, Finset.coe_univ, Set.mem_univ, true_and, Finset.coe_filter, Finset.mem_univ, Set.mem_setOf_eq]
    rw [← hammingDist_eq_norm_add]; simpa using hu
  · show c'.encode u + (v + c'.encode u) = v
    rw [add_comm, bvec_add_add]

/-- Non-vacuity. -/
example : ∃ c : LinCode 3 3 6, blockCodeOfGenerator exG = some c ∧ c.Lawful ∧ c.minimumDistance = some 3 ∧ c.packingRadius = some 1 ∧ c.coveringRadius 6 = some 2 ∧
    ∑ i ∈ Finset.range 3, ceilHalf 3 i = 6 := by
  obtain ⟨c, h1, h2, h3⟩ := C41_generator exG (by
    rw [linearIndependent_iff_card_eq_finrank_span, Fintype.card_fin, Set.finrank, ← rank_spec]; decide +kernel)
  have key : (blockCodeOfGenerator exG).bind (fun c => some (c.minimumDistance, c.packingRadius, c.coveringRadius 6)) = some (some 3, some 1, some 2) := by decide +kernel
  rw [h1] at key
  simp only [Option.bind_some, Option.some_inj, Prod.mk.injEq] at key
  exact ⟨c, h1, h3, key.1, key.2.1, key.2.2, by decide⟩

end Komm
