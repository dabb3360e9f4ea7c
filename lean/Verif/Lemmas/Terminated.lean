import Verif.Model.Terminated
import Verif.Lemmas.ConvSeries
import Verif.Lemmas.PseudoInverse
import Mathlib.LinearAlgebra.Matrix.Charpoly.Basic
import Mathlib.LinearAlgebra.Matrix.Charpoly.Coeff
namespace Komm
open scoped BigOperators

theorem of_matPow {σ : Nat} (A : BMat σ σ) (j : Nat) : Matrix.of (matPow A j) = (Matrix.of A) ^ j := by
  induction j with
  | zero => rw [matPow, of_eye, pow_zero]
  | succ j ih => rw [matPow, of_matMul, ih, pow_succ]

namespace StateSpace
variable {k n σ : Nat} (c : StateSpace k n σ)

/-- The blocks of a message vector. -/
def blocks (T : Nat) (u : BVec (T * k)) : List (BVec k) := List.ofFn fun t : Fin T => fun i : Fin k => u (finProdFinEquiv (t, i))

theorem blocks_length (T : Nat) (u : BVec (T * k)) : (blocks T u).length = T := by simp [blocks]

theorem flat_blocks (T : Nat) (u : BVec (T * k)) : flat (blocks T u) = List.ofFn u := by
  rw [List.ofFn_mul, flat, blocks, List.map_ofFn]
  congr 1
  apply List.ofFn_inj.mpr
  funext t
  show List.ofFn _ = _
  congr 1
  funext i
  congr 1
  apply Fin.ext
  simp [finProdFinEquiv, mul_comm, add_comm]

theorem vecMat_stacked (T top : Nat) (u : BVec (T * k)) :
    vecMat u (c.stackedPowers T top) =
      ∑ t : Fin T, vecMat (fun i : Fin k => u (finProdFinEquiv (t, i))) (matMul c.B (matPow c.A (top - t))) := by
  funext s
  rw [vecMat, ← Equiv.sum_comp finProdFinEquiv, Fintype.sum_prod_type, Finset.sum_apply]
  apply Finset.sum_congr rfl
  intro t _
  rw [vecMat]
  apply Finset.sum_congr rfl
  intro i _
  rw [stackedPowers, Equiv.symm_apply_apply]

theorem run_ofFn (s : BVec σ) (T : Nat) (u : ℕ → BVec k) :
    c.run s (List.ofFn fun t : Fin T => u t) =
      vecMat s (matPow c.A T) + ∑ t ∈ Finset.range T, vecMat (u t) (matMul c.B (matPow c.A (T - 1 - t))) := by
  induction T with
  | zero => simp [run, matPow, vecMat_eye]
  | succ T ih =>
    rw [ofFn_snoc u, run_append, ih]
    show c.next _ (u T) = _
    rw [next, Finset.sum_range_succ, vecMat_add, matPow, vecMat_matMul, add_assoc]
    congr 1
    rw [show T + 1 - 1 - T = 0 by omega, matPow]
    congr 1
    · have : ∀ (S : Finset ℕ) (f : ℕ → BVec σ), vecMat (∑ t ∈ S, f t) c.A = ∑ t ∈ S, vecMat (f t) c.A := by
        intro S f
        rw [vecMat_eq]
        simp only [vecMat_eq]
        rw [Matrix.sum_vecMul]
      rw [this]
      apply Finset.sum_congr rfl
      intro t ht
      have := Finset.mem_range.mp ht
      rw [show T + 1 - 1 - t = (T - 1 - t) + 1 by omega, matPow, ← vecMat_matMul, ← vecMat_matMul, ← vecMat_matMul]
    · rw [← vecMat_matMul, vecMat_eye]

theorem run_blocks (s : BVec σ) (T : Nat) (u : BVec (T * k)) :
    c.run s (blocks T u) = vecMat s (matPow c.A T) + vecMat u (c.stackedPowers T (T - 1)) := by
  let f : ℕ → BVec k := fun t => if h : t < T then fun i : Fin k => u (finProdFinEquiv (⟨t, h⟩, i)) else 0
  have e : blocks T u = List.ofFn fun t : Fin T => f t := by
    rw [blocks]
    congr 1
    funext t
    simp only [f, dif_pos t.is_lt]
  rw [e, run_ofFn, vecMat_stacked, ← Fin.sum_univ_eq_sum_range (fun t => vecMat (f t) (matMul c.B (matPow c.A (T - 1 - t)))) T]
  congr 1
  apply Finset.sum_congr rfl
  intro t _
  simp only [f, dif_pos t.is_lt]

/-- Every state reachable with more than `μ` blocks is reachable with `μ` blocks. -/
def ControllableIn (μ : Nat) : Prop :=
  ∀ (j : Nat) (i : Fin k), μ ≤ j →
    matMul c.B (matPow c.A j) i ∈ Submodule.span (ZMod 2) (Set.range (c.tailMatrix μ))

theorem tail_row (μ j : Nat) (hj : j < μ) (i : Fin k) : ∃ r, c.tailMatrix μ r = matMul c.B (matPow c.A j) i := by
  refine ⟨finProdFinEquiv (⟨μ - 1 - j, by omega⟩, i), ?_⟩
  rw [tailMatrix, stackedPowers, Equiv.symm_apply_apply]
  show matMul c.B (matPow c.A (μ - 1 - (μ - 1 - j))) i = _
  rw [show μ - 1 - (μ - 1 - j) = j by omega]

theorem info_mem {μ : Nat} (hc : c.ControllableIn μ) (h : Nat) (u : BVec (h * k)) :
    vecMat u (c.infoMatrix h μ) ∈ Submodule.span (ZMod 2) (Set.range (c.tailMatrix μ)) := by
  have : vecMat u (c.infoMatrix h μ) = ∑ r, u r • c.infoMatrix h μ r := by
    funext s; rw [vecMat, Finset.sum_apply]; rfl
  rw [this]
  apply Submodule.sum_mem
  intro r _
  apply Submodule.smul_mem
  rw [infoMatrix, stackedPowers]
  apply hc
  have := (finProdFinEquiv.symm r).1.is_lt
  omega

/-- The tail drives the state to zero. -/
theorem zero_tail {μ : Nat} (hc : c.ControllableIn μ) (h : Nat) (u : BVec (h * k)) :
    c.run 0 (blocks h u ++ blocks μ (vecMat u (c.tailProjector h μ))) = 0 := by
  obtain ⟨w, hw⟩ := mem_span_rows'.mp (c.info_mem hc h u)
  have e1 : c.run 0 (blocks h u) = vecMat u (c.stackedPowers h (h - 1)) := by
    rw [run_blocks]
    have : vecMat (0 : BVec σ) (matPow c.A h) = 0 := by funext s; simp [vecMat]
    rw [this, zero_add]
  have e2 : vecMat (vecMat u (c.stackedPowers h (h - 1))) (matPow c.A μ) = vecMat u (c.infoMatrix h μ) := by
    rw [infoMatrix, vecMat_stacked, vecMat_stacked]
    have : ∀ (f : Fin h → BVec σ), vecMat (∑ t, f t) (matPow c.A μ) = ∑ t, vecMat (f t) (matPow c.A μ) := by
      intro f
      simp only [vecMat_eq]
      rw [Matrix.sum_vecMul]
    rw [this]
    apply Finset.sum_congr rfl
    intro t _
    rw [vecMat_matMul]
    refine congrArg (vecMat _) (of_inj ?_)
    rw [of_matMul, of_matMul, of_matMul, of_matPow, of_matPow, of_matPow, Matrix.mul_assoc, ← pow_add]
    congr 2
    have := t.is_lt
    omega
  have hz := congrArg (vecMat w) (pseudoInverse_generalised (c.tailMatrix μ))
  rw [← vecMat_matMul, ← vecMat_matMul] at hz
  rw [run_append, e1, run_blocks, e2, tailProjector, ← tailMatrix, ← vecMat_matMul, ← hw, hz, bvec_add_self]

/-- By Cayley–Hamilton, `σ` blocks are always enough. -/
theorem controllable_of_le {μ : Nat} (h : σ ≤ μ) : c.ControllableIn μ := by
  intro j i _
  by_cases hσ : σ = 0
  · subst hσ
    rw [show matMul c.B (matPow c.A j) i = 0 from funext fun s => s.elim0]
    exact Submodule.zero_mem _
  have hp := Matrix.pow_eq_aeval_mod_charpoly (Matrix.of c.A) j
  set R := (Polynomial.X ^ j %ₘ (Matrix.of c.A).charpoly) with hR
  have hdeg : R.degree < (σ : WithBot ℕ) := by
    have := Polynomial.degree_modByMonic_lt (Polynomial.X ^ j) (Matrix.charpoly_monic (Matrix.of c.A))
    rwa [Matrix.charpoly_degree_eq_dim, Fintype.card_fin] at this
  have e : matMul c.B (matPow c.A j) i = ∑ m ∈ Finset.range σ, R.coeff m • matMul c.B (matPow c.A m) i := by
    have e1 : Matrix.of (matMul c.B (matPow c.A j)) =
        ∑ m ∈ Finset.range σ, R.coeff m • Matrix.of (matMul c.B (matPow c.A m)) := by
      rw [of_matMul, of_matPow, hp, Polynomial.aeval_eq_sum_range' (n := σ)]
      · rw [Matrix.mul_sum]
        apply Finset.sum_congr rfl
        intro m _
        rw [Matrix.mul_smul, of_matMul, of_matPow]
      · by_cases h0 : R = 0
        · rw [h0, Polynomial.natDegree_zero]
          omega
        · exact (Polynomial.natDegree_lt_iff_degree_lt h0).mpr hdeg
    funext s
    have := congrFun (congrFun e1 i) s
    rw [Matrix.sum_apply] at this
    rw [Finset.sum_apply]
    exact this
  rw [e]
  apply Submodule.sum_mem
  intro m hm
  apply Submodule.smul_mem
  obtain ⟨r, hr⟩ := c.tail_row μ m (by have := Finset.mem_range.mp hm; omega) i
  rw [← hr]
  exact Submodule.subset_span ⟨r, rfl⟩

/-- The span of the rows of `B A^j`, `j < m`. -/
def reach (m : Nat) : Submodule (ZMod 2) (BVec σ) :=
  Submodule.span (ZMod 2) {v | ∃ j, j < m ∧ ∃ i, v = matMul c.B (matPow c.A j) i}

theorem reach_mono {m m' : Nat} (h : m ≤ m') : c.reach m ≤ c.reach m' := by
  apply Submodule.span_mono
  rintro v ⟨j, hj, i, rfl⟩
  exact ⟨j, by omega, i, rfl⟩

theorem reach_step {m : Nat} {v : BVec σ} (hv : v ∈ c.reach m) : vecMat v c.A ∈ c.reach (m + 1) := by
  induction hv using Submodule.span_induction with
  | mem v h =>
    obtain ⟨j, hj, i, rfl⟩ := h
    apply Submodule.subset_span
    refine ⟨j + 1, by omega, i, ?_⟩
    funext s
    have : ∀ (M : BMat k σ), vecMat (M i) c.A = matMul M c.A i := fun M => rfl
    rw [this]
    have e : matMul (matMul c.B (matPow c.A j)) c.A = matMul c.B (matPow c.A (j + 1)) := by
      apply of_inj
      rw [matPow, of_matMul, of_matMul, of_matMul, of_matMul, Matrix.mul_assoc]
    rw [e]
  | zero =>
    rw [show vecMat (0 : BVec σ) c.A = 0 by funext s; simp [vecMat]]
    exact Submodule.zero_mem _
  | add x y _ _ hx hy => rw [vecMat_add]; exact Submodule.add_mem _ hx hy
  | smul a x _ hx => rw [vecMat_smul]; exact Submodule.smul_mem _ _ hx

theorem reach_le_tail (μ : Nat) : c.reach μ ≤ Submodule.span (ZMod 2) (Set.range (c.tailMatrix μ)) := by
  rw [reach, Submodule.span_le]
  rintro v ⟨j, hj, i, rfl⟩
  obtain ⟨r, hr⟩ := c.tail_row μ j hj i
  rw [← hr]
  exact Submodule.subset_span ⟨r, rfl⟩

theorem controllable_of_single {μ : Nat} (h : ∀ s : Fin σ, (Pi.single s 1 : BVec σ) ∈ c.reach μ) : c.ControllableIn μ := by
  intro j i _
  apply c.reach_le_tail
  rw [← Finset.univ_sum_single (matMul c.B (matPow c.A j) i)]
  apply Submodule.sum_mem
  intro s _
  have : (Pi.single s (matMul c.B (matPow c.A j) i s) : BVec σ) =
      matMul c.B (matPow c.A j) i s • (Pi.single s 1 : BVec σ) := by
    rw [← Pi.single_smul, smul_eq_mul, mul_one]
  rw [this]
  exact Submodule.smul_mem _ _ (h s)

theorem vecMat_single (s : Fin σ) (A : BMat σ σ) : vecMat (Pi.single s 1) A = A s := by
  rw [vecMat_eq, Matrix.single_one_vecMul]; rfl

/-! ### tail-biting -/

theorem tailBiting_state (h : Nat) (u : BVec (h * k)) (s0 : BVec σ) :
    c.run s0 (blocks h u) = s0 ↔ vecMat s0 (fun i j => matPow c.A h i j + eye σ i j) = c.run 0 (blocks h u) := by
  have e : vecMat s0 (fun i j => matPow c.A h i j + eye σ i j) = vecMat s0 (matPow c.A h) + s0 := by
    funext j
    have := congrFun (vecMat_eye s0) j
    simp only [vecMat, mul_add, Finset.sum_add_distrib, Pi.add_apply] at this ⊢
    rw [this]
  have e0 : vecMat (0 : BVec σ) (matPow c.A h) = 0 := by funext s; simp [vecMat]
  rw [e, run_blocks, run_blocks, e0, zero_add]
  constructor
  · intro hh
    have := congrArg (fun z => z + vecMat s0 (matPow c.A h)) hh
    rw [add_comm (vecMat s0 (matPow c.A h)), bvec_add_add] at this
    rw [this, add_comm]
  · intro hh
    rw [← hh, ← add_assoc, bvec_add_self, zero_add]

/-- The state chosen by the tail-biting strategy works exactly when some state works. -/
theorem tailBiting_iff (h : Nat) (u : BVec (h * k)) :
    c.run (vecMat (c.run 0 (blocks h u)) (c.zsMultiplier h)) (blocks h u) =
        vecMat (c.run 0 (blocks h u)) (c.zsMultiplier h) ↔
      ∃ s0, c.run s0 (blocks h u) = s0 := by
  constructor
  · intro hh; exact ⟨_, hh⟩
  · rintro ⟨s0, hs0⟩
    rw [tailBiting_state] at hs0 ⊢
    rw [← hs0, zsMultiplier]
    have hz := congrArg (vecMat s0) (pseudoInverse_generalised (fun i j => matPow c.A h i j + eye σ i j))
    rw [← vecMat_matMul, ← vecMat_matMul] at hz
    exact hz

end StateSpace

namespace ConvCode
variable {k n : Nat} (c : ConvCode k n)

theorem pos_inj {i i' : Fin k} {r : Fin (c.constraintLength i)} {r' : Fin (c.constraintLength i')}
    (h : c.pos i r = c.pos i' r') : i = i' ∧ (r : Nat) = r' := by
  have := (finSigmaFinEquiv (n := c.constraintLength)).injective h
  cases this
  exact ⟨rfl, rfl⟩

theorem single_pos_apply (i i' : Fin k) (r : Fin (c.constraintLength i)) (r' : Fin (c.constraintLength i')) :
    (Pi.single (c.pos i r) 1 : BVec c.degree) (c.pos i' r') = if i = i' ∧ (r : Nat) = r' then 1 else 0 := by
  by_cases h : i = i' ∧ (r : Nat) = r'
  · obtain ⟨rfl, h2⟩ := h
    have : r = r' := Fin.ext h2
    subst this
    simp
  · rw [if_neg h, Pi.single_eq_of_ne]
    intro h'
    exact h (let q := c.pos_inj h'; ⟨q.1.symm, q.2.symm⟩)

theorem B_single (i : Fin k) (r : Fin (c.constraintLength i)) (hr : (r : Nat) = 0) :
    c.stateSpace.B i = Pi.single (c.pos i r) 1 := by
  funext s
  obtain ⟨i', r', rfl⟩ := c.pos_surj s
  rw [B_pos, single_pos_apply]
  by_cases h : i = i'
  · subst h
    rw [if_pos rfl, blockB, hr]
    simp [eq_comm]
  · rw [if_neg h, if_neg (fun h' => h h'.1)]

theorem A_single (i : Fin k) (r r0 r1 : Fin (c.constraintLength i)) (h0 : (r0 : Nat) = 0) (h1 : (r1 : Nat) = r + 1) :
    (Pi.single (c.pos i r1) 1 : BVec c.degree) =
      c.stateSpace.A (c.pos i r) + c.alpha i (r + 1) • (Pi.single (c.pos i r0) 1 : BVec c.degree) := by
  funext s
  obtain ⟨i', r', rfl⟩ := c.pos_surj s
  rw [Pi.add_apply, Pi.smul_apply, A_pos, single_pos_apply, single_pos_apply]
  by_cases h : i = i'
  · subst h
    rw [dif_pos rfl, blockA]
    by_cases hr : (r' : Nat) = 0
    · rw [if_neg (by omega), if_pos hr, if_pos (by simp; omega), smul_eq_mul, mul_one]
      exact (CharTwo.add_self_eq_zero (c.alpha i (r + 1))).symm
    · simp only [true_and, Fin.val_cast]
      rw [if_neg hr, if_neg (c := (r0 : Nat) = r') (by omega), smul_zero, add_zero]
      by_cases h2 : (r1 : Nat) = r'
      · rw [if_pos h2, if_pos (by omega)]
      · rw [if_neg h2, if_neg (by omega)]
  · rw [dif_neg h, if_neg (fun h' => h h'.1), if_neg (fun h' => h h'.1), smul_zero, add_zero]

theorem single_reach (i : Fin k) (m : Nat) (hm : m < c.constraintLength i) :
    (Pi.single (c.pos i ⟨m, hm⟩) 1 : BVec c.degree) ∈ c.stateSpace.reach (m + 1) := by
  induction m with
  | zero =>
    apply Submodule.subset_span
    refine ⟨0, by omega, i, ?_⟩
    rw [← c.B_single i ⟨0, hm⟩ rfl]
    have : matMul c.stateSpace.B (matPow c.stateSpace.A 0) = c.stateSpace.B := by
      apply of_inj; rw [of_matMul, matPow, of_eye, Matrix.mul_one]
    rw [this]
  | succ m ih =>
    rw [c.A_single i ⟨m, by omega⟩ ⟨0, by omega⟩ ⟨m + 1, hm⟩ rfl rfl]
    apply Submodule.add_mem
    · rw [← StateSpace.vecMat_single (c.pos i ⟨m, by omega⟩) c.stateSpace.A]
      exact c.stateSpace.reach_step (ih (by omega))
    · apply Submodule.smul_mem
      apply c.stateSpace.reach_mono (show 1 ≤ m + 1 + 1 by omega)
      have := c.B_single i ⟨0, by omega⟩ rfl
      rw [← this]
      apply Submodule.subset_span
      refine ⟨0, by omega, i, ?_⟩
      have : matMul c.stateSpace.B (matPow c.stateSpace.A 0) = c.stateSpace.B := by
        apply of_inj; rw [of_matMul, matPow, of_eye, Matrix.mul_one]
      rw [this]

theorem foldl_max_nat (l : List Nat) (a : Nat) : a ≤ l.foldl max a ∧ ∀ x ∈ l, x ≤ l.foldl max a := by
  induction l generalizing a with
  | nil => simp
  | cons y l ih =>
    obtain ⟨h1, h2⟩ := ih (max a y)
    rw [List.foldl_cons]
    refine ⟨le_trans (le_max_left _ _) h1, ?_⟩
    intro x hx
    rcases List.mem_cons.mp hx with rfl | hx
    · exact le_trans (le_max_right _ _) h1
    · exact h2 x hx

theorem controllable : c.stateSpace.ControllableIn c.memoryOrder := by
  apply StateSpace.controllable_of_single
  intro s
  obtain ⟨i, r, rfl⟩ := c.pos_surj s
  apply c.stateSpace.reach_mono _ (c.single_reach i r r.is_lt)
  have : c.constraintLength i ≤ c.memoryOrder := (foldl_max_nat _ 0).2 _ (List.mem_map.mpr ⟨i, List.mem_finRange i, rfl⟩)
  omega

end ConvCode
end Komm
