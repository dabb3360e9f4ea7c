import Verif.Spec.BlockCode
import Verif.Lemmas.Matrices2
import Verif.Lemmas.BitOps
import Verif.Lemmas.Blockwise
import Verif.Lemmas.Labelings
import Mathlib.LinearAlgebra.Dimension.Free
import Mathlib.LinearAlgebra.FiniteDimensional.Basic
import Mathlib.LinearAlgebra.Dimension.LinearMap
import Mathlib.LinearAlgebra.Matrix.Rank
import Mathlib.Algebra.Field.ZMod
namespace Komm

variable {k m n : Nat}

/-! ### integers and vectors -/

theorem zmod2_val (x : ZMod 2) : x.val = if x = 0 then 0 else 1 := by revert x; decide

theorem vecToNat_lt (v : BVec m) : vecToNat v < 2 ^ m := by
  have := bitsToInt_lt .lsbFirst (List.ofFn fun i => (v i).val)
  simpa [vecToNat] using this

theorem vecToNat_testBit (v : BVec m) (i : Nat) : (vecToNat v).testBit i = decide (vget v i ≠ 0) := by
  unfold vecToNat bitsToInt
  rw [packLE_testBit]
  by_cases h : i < m
  · simp only [vget, h, dif_pos]
    rw [List.getD_eq_getElem _ _ (by simpa using h)]
    simp only [List.getElem_ofFn]
    generalize v ⟨i, h⟩ = x
    revert x; decide
  · simp only [vget, h, dif_neg, not_false_eq_true]
    rw [List.getD_eq_default _ _ (by simpa using Nat.le_of_not_lt h)]
    simp

theorem natToVec_apply (m s : Nat) (i : Fin m) : natToVec m s i = if s.testBit i then 1 else 0 := by
  unfold natToVec
  rw [intToBits_lsb_getD]
  by_cases h : s.testBit i <;> simp [h]

theorem natToVec_vecToNat (v : BVec m) : natToVec m (vecToNat v) = v := by
  funext i
  rw [natToVec_apply, vecToNat_testBit]
  simp only [vget, i.is_lt, dif_pos, Fin.eta]
  rcases zmod2_cases (v i) with h | h <;> simp [h]

theorem vecToNat_natToVec (s : Nat) (h : s < 2 ^ m) : vecToNat (natToVec m s) = s := by
  apply Nat.eq_of_testBit_eq
  intro i
  rw [vecToNat_testBit]
  by_cases hi : i < m
  · simp only [vget, hi, dif_pos]
    rw [natToVec_apply]
    cases s.testBit i <;> simp
  · simp only [vget, hi, dif_neg, not_false_eq_true]
    rw [Nat.testBit_lt_two_pow (lt_of_lt_of_le h (Nat.pow_le_pow_right (by omega) (by omega)))]
    simp

theorem vecToNat_add (u v : BVec m) : vecToNat (u + v) = vecToNat u ^^^ vecToNat v := by
  apply Nat.eq_of_testBit_eq
  intro i
  rw [Nat.testBit_xor, vecToNat_testBit, vecToNat_testBit, vecToNat_testBit]
  by_cases hi : i < m
  · simp only [vget, hi, dif_pos, Pi.add_apply]
    generalize u ⟨i, hi⟩ = x
    generalize v ⟨i, hi⟩ = y
    revert x y; decide
  · simp [vget, hi]

theorem vecToNat_zero : vecToNat (0 : BVec m) = 0 := by
  apply Nat.eq_of_testBit_eq
  intro i
  rw [vecToNat_testBit]
  simp [vget]

theorem vecToNat_inj {u v : BVec m} (h : vecToNat u = vecToNat v) : u = v := by
  rw [← natToVec_vecToNat u, h, natToVec_vecToNat]

theorem vsum_eq (v : BVec n) : vsum v = hammingNorm v := by
  unfold vsum hammingNorm
  rw [Finset.card_filter]
  apply Finset.sum_congr rfl
  intro i _
  rw [zmod2_val]
  by_cases h : v i = 0 <;> simp [h]

theorem bvec_add_self (v : BVec n) : v + v = 0 := by
  funext i
  exact CharTwo.add_self_eq_zero (v i)

theorem bvec_neg (v : BVec n) : -v = v := by
  rw [neg_eq_iff_add_eq_zero, bvec_add_self]

theorem bvec_sub (u v : BVec n) : u - v = u + v := by rw [sub_eq_add_neg, bvec_neg]

theorem bvec_add_add (u v : BVec n) : u + v + v = u := by rw [add_assoc, bvec_add_self, add_zero]

theorem hammingDist_eq_norm_add (u v : BVec n) : hammingDist u v = hammingNorm (u + v) := by
  rw [hammingDist_eq_hammingNorm, bvec_neg]

/-! ### consequences of the contract -/

namespace LinCode.Lawful

variable {c : LinCode k m n} (h : c.Lawful)
include h

theorem encode_add (u v : BVec k) : c.encode (u + v) = c.encode u + c.encode v := by
  funext j
  simp only [h.encode_eq, Pi.add_apply, add_mul, Finset.sum_add_distrib]

theorem encode_zero : c.encode 0 = 0 := by
  funext j; simp [h.encode_eq]

theorem encode_injective : Function.Injective c.encode := fun u v e => by
  rw [← h.project_encode u, e, h.project_encode]

theorem check_add (u v : BVec n) : c.check (u + v) = c.check u + c.check v := by
  funext j
  simp only [h.check_eq, Pi.add_apply, add_mul, Finset.sum_add_distrib]

theorem check_encode (u : BVec k) : c.check (c.encode u) = 0 := (h.check_zero _).mpr ⟨u, rfl⟩

theorem check_surjective : Function.Surjective c.check := by
  let f : BVec n →ₗ[ZMod 2] BVec m :=
    { toFun := c.check
      map_add' := h.check_add
      map_smul' := fun a v => by
        funext i
        simp only [h.check_eq, Pi.smul_apply, smul_eq_mul, RingHom.id_apply, Finset.mul_sum, mul_assoc] }
  let g : BVec k →ₗ[ZMod 2] BVec n :=
    { toFun := c.encode
      map_add' := h.encode_add
      map_smul' := fun a v => by
        funext i
        simp only [h.encode_eq, Pi.smul_apply, smul_eq_mul, RingHom.id_apply, Finset.mul_sum, mul_assoc] }
  have hker : LinearMap.ker f = LinearMap.range g := by
    ext v
    rw [LinearMap.mem_ker, LinearMap.mem_range]
    exact h.check_zero v
  have h1 := LinearMap.finrank_range_add_finrank_ker f
  have h2 : Module.finrank (ZMod 2) (LinearMap.range g) = k := by
    rw [LinearMap.finrank_range_of_inj h.encode_injective]; simp
  rw [hker, h2, Module.finrank_fin_fun] at h1
  have hd := h.dim
  have h3 : LinearMap.range f = ⊤ := Submodule.eq_top_of_finrank_eq (by
    rw [Module.finrank_fin_fun]
    have h4 : Module.finrank (ZMod 2) (LinearMap.range f) = m := by omega
    exact h4)
  exact LinearMap.range_eq_top.mp h3

end LinCode.Lawful

/-! ### the constructors satisfy the contract -/

theorem vecMat_matMul {a b c : Nat} (u : BVec a) (A : BMat a b) (B : BMat b c) :
    vecMat (vecMat u A) B = vecMat u (matMul A B) := by
  rw [vecMat_eq, vecMat_eq, vecMat_eq, of_matMul, Matrix.vecMul_vecMul]

theorem vecMat_eye (u : BVec k) : vecMat u (eye k) = u := by
  rw [vecMat_eq, of_eye, Matrix.vecMul_one]

theorem mem_span_rows' {A : BMat k n} {v : BVec n} :
    v ∈ Submodule.span (ZMod 2) (Set.range A) ↔ ∃ u : BVec k, vecMat u A = v := by
  rw [mem_span_rows]
  constructor
  · rintro ⟨u, rfl⟩; exact ⟨u, by funext j; simp [vecMat, Finset.sum_apply]⟩
  · rintro ⟨u, rfl⟩; exact ⟨u, by funext j; simp [vecMat, Finset.sum_apply]⟩

theorem vecMat_smul (a : ZMod 2) (u : BVec k) (A : BMat k n) : vecMat (a • u) A = a • vecMat u A := by
  funext j; simp [vecMat, Finset.mul_sum, mul_assoc]

theorem vecMat_add (u v : BVec k) (A : BMat k n) : vecMat (u + v) A = vecMat u A + vecMat v A := by
  funext j; simp [vecMat, add_mul, Finset.sum_add_distrib]

/-- The double orthogonal: if the rows of `N` are a basis of the null space of `M` and `M` has full rank then the null
space of `N` is the row space of `M`. -/
theorem null_null {M : BMat k n} (hM : rank M = k) {N : BMat (n - k) n} (hN : LinearIndependent (ZMod 2) N)
    (hker : ∀ v : BVec n, v ∈ Submodule.span (ZMod 2) (Set.range N) ↔ ∀ i, ∑ j, M i j * v j = 0) (v : BVec n) :
    (∀ i, ∑ j, v j * N i j = 0) ↔ v ∈ Submodule.span (ZMod 2) (Set.range M) := by
  have hkn : k ≤ n := by
    have h1 := rank_spec M
    rw [hM] at h1
    have h2 := Submodule.finrank_le (Submodule.span (ZMod 2) (Set.range M))
    rw [← h1, Module.finrank_fin_fun] at h2
    exact h2
  let f : BVec n →ₗ[ZMod 2] BVec (n - k) :=
    { toFun := fun v i => ∑ j, v j * N i j
      map_add' := fun a b => by funext i; simp [add_mul, Finset.sum_add_distrib]
      map_smul' := fun a b => by funext i; simp [Finset.mul_sum, mul_assoc] }
  have hle : Submodule.span (ZMod 2) (Set.range M) ≤ LinearMap.ker f := by
    rw [Submodule.span_le]
    rintro _ ⟨i, rfl⟩
    rw [SetLike.mem_coe, LinearMap.mem_ker]
    funext t
    exact (hker (N t)).mp (Submodule.subset_span ⟨t, rfl⟩) i
  have hfr : Module.finrank (ZMod 2) (LinearMap.range f) = n - k := by
    have : f = Matrix.toLin' (Matrix.of N) := by
      ext1 j
      ext i
      simp [f, Matrix.toLin'_apply, Matrix.mulVec, dotProduct, Pi.single_apply]
    rw [this]
    change (Matrix.of N).rank = n - k
    rw [Matrix.rank_eq_finrank_span_row]
    have h2 : Module.finrank (ZMod 2) (Submodule.span (ZMod 2) (Set.range N)) = n - k := by
      rw [finrank_span_eq_card hN, Fintype.card_fin]
    exact h2
  have h1 := LinearMap.finrank_range_add_finrank_ker f
  rw [hfr, Module.finrank_fin_fun] at h1
  have h4 : Module.finrank (ZMod 2) (LinearMap.ker f) = k := by omega
  have heq : Submodule.span (ZMod 2) (Set.range M) = LinearMap.ker f :=
    Submodule.eq_of_le_of_finrank_eq hle (by rw [← rank_spec, hM]; exact h4.symm)
  rw [heq, LinearMap.mem_ker]
  constructor
  · intro h; funext i; exact h i
  · intro h i; exact congrFun h i

theorem ofGenerator_lawful (G : BMat k n) (hG : rank G = k) :
    ∃ c, blockCodeOfGenerator G = some c ∧ c.generator = G ∧ c.Lawful := by
  obtain ⟨N, h1, h2, h3⟩ := (nullMatrix_spec G).2 hG
  refine ⟨LinCode.ofMatrices G (pseudoInverse G) N, ?_, rfl, ?_⟩
  · unfold blockCodeOfGenerator
    rw [h1]; rfl
  · have hkn : k ≤ n := by
      have e1 := rank_spec G
      rw [hG] at e1
      have e2 := Submodule.finrank_le (Submodule.span (ZMod 2) (Set.range G))
      rw [← e1, Module.finrank_fin_fun] at e2
      exact e2
    refine ⟨by omega, fun u j => rfl, fun v i => rfl, fun u => ?_, fun v => ?_⟩
    · change vecMat (vecMat u G) (pseudoInverse G) = u
      rw [vecMat_matMul, pseudoInverse_spec G hG, vecMat_eye]
    · have := null_null hG h2 h3 v
      rw [mem_span_rows'] at this
      rw [← show (∃ u, vecMat u G = v) ↔ ∃ u, (LinCode.ofMatrices G (pseudoInverse G) N).encode u = v from Iff.rfl,
        ← this]
      constructor
      · intro h i; exact congrFun h i
      · intro h; funext i; exact h i

theorem ofCheck_lawful (H : BMat m n) (hH : rank H = m) :
    ∃ c, blockCodeOfCheck H = some c ∧ c.checkMatrix = H ∧ IsRREF c.generator ∧ c.Lawful := by
  obtain ⟨N, h1, h2, h3⟩ := (nullMatrix_spec H).2 hH
  have hspan := rowEquiv_span (rref_rowEquiv N)
  have hrank : rank (rref N) = n - m := by
    rw [rank_spec, hspan, finrank_span_eq_card h2, Fintype.card_fin]
  refine ⟨LinCode.ofMatrices (rref N) (pseudoInverse (rref N)) H, ?_, rfl, rref_isRREF N, ?_⟩
  · unfold blockCodeOfCheck
    rw [h1]; rfl
  · have hkn : m ≤ n := by
      have e1 := rank_spec H
      rw [hH] at e1
      have e2 := Submodule.finrank_le (Submodule.span (ZMod 2) (Set.range H))
      rw [← e1, Module.finrank_fin_fun] at e2
      exact e2
    refine ⟨by omega, fun u j => rfl, fun v i => rfl, fun u => ?_, fun v => ?_⟩
    · change vecMat (vecMat u (rref N)) (pseudoInverse (rref N)) = u
      rw [vecMat_matMul, pseudoInverse_spec _ hrank, vecMat_eye]
    · have := h3 v
      rw [← hspan, mem_span_rows'] at this
      rw [← show (∃ u, vecMat u (rref N) = v) ↔
        ∃ u, (LinCode.ofMatrices (rref N) (pseudoInverse (rref N)) H).encode u = v from Iff.rfl, this]
      constructor
      · intro h i
        have := congrFun h i
        simp only [LinCode.ofMatrices, Pi.zero_apply] at this
        rw [← this]
        exact Finset.sum_congr rfl fun j _ => mul_comm _ _
      · intro h
        funext i
        simp only [LinCode.ofMatrices, Pi.zero_apply]
        rw [← h i]
        exact Finset.sum_congr rfl fun j _ => mul_comm _ _

/-! ### systematic codes -/

/-- `info` lists `k` distinct positions below `k + m` and `par` the other `m`, in increasing order. -/
structure IsSplit (k m : Nat) (info par : List Nat) : Prop where
  ilen : info.length = k
  plen : par.length = m
  ilt : ∀ j ∈ info, j < k + m
  par_eq : par = paritySet (k + m) info

theorem paritySet_nodup (n : Nat) (info : List Nat) : (paritySet n info).Nodup := List.nodup_range.filter _

theorem mem_paritySet (n : Nat) (info : List Nat) (j : Nat) : j ∈ paritySet n info ↔ j < n ∧ j ∉ info := by
  simp [paritySet]

theorem paritySet_length (info : List Nat) (hlt : ∀ j ∈ info, j < n) :
    (paritySet n info).length + info.dedup.length = n := by
  have h1 : (paritySet n info).toFinset ∪ info.dedup.toFinset = Finset.range n := by
    ext j
    simp only [Finset.mem_union, List.mem_toFinset, mem_paritySet, List.mem_dedup, Finset.mem_range]
    constructor
    · rintro (h | h)
      · exact h.1
      · exact hlt j h
    · intro h
      by_cases hj : j ∈ info
      · exact Or.inr hj
      · exact Or.inl ⟨h, hj⟩
  have h2 : Disjoint (paritySet n info).toFinset info.dedup.toFinset := by
    rw [Finset.disjoint_left]
    intro j hj hj'
    simp only [List.mem_toFinset, mem_paritySet, List.mem_dedup] at hj hj'
    exact hj.2 hj'
  have := Finset.card_union_of_disjoint h2
  rw [h1, Finset.card_range, List.toFinset_card_of_nodup (paritySet_nodup n info),
    List.toFinset_card_of_nodup (List.nodup_dedup info)] at this
  omega

theorem IsSplit.nodup {info par : List Nat} (h : IsSplit k m info par) : info.Nodup := by
  have h1 := paritySet_length info h.ilt
  rw [← h.par_eq, h.plen] at h1
  have h2 : info.dedup.length = info.length := by rw [h.ilen]; omega
  rw [← (List.dedup_sublist info).eq_of_length h2]
  exact List.nodup_dedup _

theorem isSplit_iff (info : List Nat) :
    IsSplit k m info (paritySet (k + m) info) ↔ info.length = k ∧ info.Nodup ∧ ∀ j ∈ info, j < k + m := by
  constructor
  · intro h; exact ⟨h.ilen, h.nodup, h.ilt⟩
  · rintro ⟨h1, h2, h3⟩
    refine ⟨h1, ?_, h3, rfl⟩
    have := paritySet_length info h3
    rw [h2.dedup] at this
    omega

section
variable {info par : List Nat} (h : IsSplit k m info par)
include h

/-- position of message symbol `t` -/
def IsSplit.I (t : Fin k) : Fin (k + m) := ⟨info[t]'(by rw [h.ilen]; exact t.is_lt), h.ilt _ (List.getElem_mem _)⟩

/-- position of parity symbol `s` -/
def IsSplit.P (s : Fin m) : Fin (k + m) :=
  ⟨par[s]'(by rw [h.plen]; exact s.is_lt), by
    have : par[s]'(by rw [h.plen]; exact s.is_lt) ∈ paritySet (k + m) info := by
      have := List.getElem_mem (l := par) (n := s) (by rw [h.plen]; exact s.is_lt)
      exact h.par_eq ▸ this
    exact ((mem_paritySet _ _ _).mp this).1⟩

theorem IsSplit.I_mem (t : Fin k) : ((h.I t : Fin (k + m)) : Nat) ∈ info := List.getElem_mem _

theorem IsSplit.P_not_mem (s : Fin m) : ((h.P s : Fin (k + m)) : Nat) ∉ info := by
  have : ((h.P s : Fin (k + m)) : Nat) ∈ paritySet (k + m) info := by
    have := List.getElem_mem (l := par) (n := s) (by rw [h.plen]; exact s.is_lt)
    exact h.par_eq ▸ this
  exact ((mem_paritySet _ _ _).mp this).2

theorem IsSplit.I_idx (t : Fin k) : info.idxOf ((h.I t : Fin (k + m)) : Nat) = t :=
  List.Nodup.idxOf_getElem h.nodup _ _

theorem IsSplit.P_idx (s : Fin m) : par.idxOf ((h.P s : Fin (k + m)) : Nat) = s := by
  have : par.Nodup := by rw [h.par_eq]; exact paritySet_nodup _ _
  exact List.Nodup.idxOf_getElem this _ _

theorem IsSplit.cover (j : Fin (k + m)) : (∃ t, h.I t = j) ∨ ∃ s, h.P s = j := by
  by_cases hj : (j : Nat) ∈ info
  · obtain ⟨i, hi, e⟩ := List.mem_iff_getElem.mp hj
    exact Or.inl ⟨⟨i, by rw [← h.ilen]; exact hi⟩, Fin.ext e⟩
  · have : (j : Nat) ∈ par := by rw [h.par_eq]; exact (mem_paritySet _ _ _).mpr ⟨j.is_lt, hj⟩
    obtain ⟨i, hi, e⟩ := List.mem_iff_getElem.mp this
    exact Or.inr ⟨⟨i, by rw [← h.plen]; exact hi⟩, Fin.ext e⟩

theorem IsSplit.sum (f : Fin (k + m) → ZMod 2) : ∑ j, f j = ∑ t, f (h.I t) + ∑ s, f (h.P s) := by
  let e : Fin k ⊕ Fin m → Fin (k + m) := Sum.elim h.I h.P
  have hbij : Function.Bijective e := by
    rw [Fintype.bijective_iff_surjective_and_card]
    constructor
    · intro j
      rcases h.cover j with ⟨t, ht⟩ | ⟨s, hs⟩
      · exact ⟨Sum.inl t, ht⟩
      · exact ⟨Sum.inr s, hs⟩
    · simp
  rw [← Function.Bijective.sum_comp hbij f, Fintype.sum_sum_type]
  rfl

theorem IsSplit.vget_info (v : BVec (k + m)) (t : Fin k) : vget v (info.getD t 0) = v (h.I t) := by
  have ht : (t : Nat) < info.length := by rw [h.ilen]; exact t.is_lt
  rw [List.getD_eq_getElem _ _ ht]
  unfold vget
  rw [dif_pos (h.ilt _ (List.getElem_mem _))]
  rfl

theorem IsSplit.vget_par (v : BVec (k + m)) (s : Fin m) : vget v (par.getD s 0) = v (h.P s) := by
  have hs : (s : Nat) < par.length := by rw [h.plen]; exact s.is_lt
  rw [List.getD_eq_getElem _ _ hs]
  unfold vget
  rw [dif_pos (show par[(s : Nat)] < k + m from (h.P s).is_lt)]
  rfl

theorem vget_fin {a : Nat} (u : BVec a) (t : Fin a) : vget u (t : Nat) = u t := by
  simp [vget]

theorem systematic_encode_I (P : BMat k m) (u : BVec k) (t : Fin k) :
    (systematicObj P info par).encode u (h.I t) = u t := by
  simp only [systematicObj]
  rw [if_pos (h.I_mem t), h.I_idx, vget_fin h]

theorem systematic_encode_P (P : BMat k m) (u : BVec k) (s : Fin m) :
    (systematicObj P info par).encode u (h.P s) = ∑ i, u i * P i s := by
  simp only [systematicObj]
  rw [if_neg (h.P_not_mem s), h.P_idx, vget_fin h]
  rfl

theorem systematic_lawful (P : BMat k m) : (systematicObj P info par).Lawful := by
  have hproj : ∀ v t, (systematicObj P info par).project v t = v (h.I t) := fun v t => by
    simp only [systematicObj]; exact h.vget_info v t
  have hchk : ∀ v s, (systematicObj P info par).check v s = ∑ i, v (h.I i) * P i s + v (h.P s) := fun v s => by
    simp only [systematicObj, vecMat, h.vget_info, h.vget_par]
  refine ⟨rfl, ?_, ?_, ?_, ?_⟩
  · intro u j
    rcases h.cover j with ⟨t, rfl⟩ | ⟨s, rfl⟩
    · rw [systematic_encode_I h]
      simp only [systematicObj]
      simp only [if_pos (h.I_mem t), h.I_idx]
      rw [Finset.sum_eq_single t]
      · simp
      · intro i _ hi
        rw [if_neg (fun e => hi (Fin.ext e.symm)), mul_zero]
      · intro e; exact absurd (Finset.mem_univ t) e
    · rw [systematic_encode_P h]
      simp only [systematicObj]
      simp only [if_neg (h.P_not_mem s), h.P_idx, vget_fin h]
  · intro v s
    rw [hchk, h.sum fun j => v j * (systematicObj P info par).checkMatrix s j]
    congr 1
    · apply Finset.sum_congr rfl
      intro t _
      simp only [systematicObj]
      rw [if_pos (h.I_mem t), h.I_idx, vget_fin h]
    · rw [Finset.sum_eq_single s]
      · simp only [systematicObj]
        rw [if_neg (h.P_not_mem s), if_pos (h.P_idx s), mul_one]
      · intro s' _ hs
        simp only [systematicObj]
        rw [if_neg (h.P_not_mem s'), if_neg (fun e => hs (Fin.ext (by rw [← e, h.P_idx]))), mul_zero]
      · intro e; exact absurd (Finset.mem_univ s) e
  · intro u
    funext t
    rw [hproj, systematic_encode_I h]
  · intro v
    constructor
    · intro hv
      refine ⟨fun t => v (h.I t), ?_⟩
      funext j
      rcases h.cover j with ⟨t, rfl⟩ | ⟨s, rfl⟩
      · rw [systematic_encode_I h]
      · rw [systematic_encode_P h]
        have := congrFun hv s
        rw [hchk, Pi.zero_apply] at this
        exact CharTwo.add_eq_zero.mp this
    · rintro ⟨u, rfl⟩
      funext s
      rw [hchk, Pi.zero_apply, systematic_encode_P h]
      simp only [systematic_encode_I h]
      exact CharTwo.add_self_eq_zero _

end

theorem systematicNew_spec (P : BMat k m) (info : List Nat) :
    (∃ c, systematicNew P info = some c) ↔ info ≠ [] ∧ info.length = k ∧ info.Nodup ∧ ∀ j ∈ info, j < k + m := by
  unfold systematicNew
  constructor
  · rintro ⟨c, hc⟩
    split at hc
    · simp at hc
    · rename_i h1
      push Not at h1
      split at hc
      · simp at hc
      · rename_i h2
        push Not at h2
        have : IsSplit k m info (paritySet (k + m) info) := ⟨h1.1, h2.2, h2.1, rfl⟩
        exact ⟨h1.2.1, h1.1, this.nodup, h2.1⟩
  · rintro ⟨h0, h1, h2, h3⟩
    have hs := (isSplit_iff (k := k) (m := m) info).mpr ⟨h1, h2, h3⟩
    rw [if_neg, if_neg]
    · exact ⟨_, rfl⟩
    · push Not
      exact ⟨h3, hs.plen⟩
    · push Not
      exact ⟨h1, h0, fun j hj => by have := h3 j hj; omega⟩

theorem isSplit_left : IsSplit k m (List.range k) (paritySet (k + m) (List.range k)) :=
  (isSplit_iff _).mpr ⟨by simp, List.nodup_range, fun j hj => by have := List.mem_range.mp hj; omega⟩

theorem isSplit_right :
    IsSplit k m ((List.range k).map (m + ·)) (paritySet (k + m) ((List.range k).map (m + ·))) :=
  (isSplit_iff _).mpr ⟨by simp, List.nodup_range.map fun a b e => by simpa using e, fun j hj => by
    obtain ⟨i, hi, rfl⟩ := List.mem_map.mp hj
    have := List.mem_range.mp hi
    omega⟩

end Komm
