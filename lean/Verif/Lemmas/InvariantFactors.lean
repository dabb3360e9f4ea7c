import Verif.Model.Catastrophic
import Verif.Lemmas.Poly
import Mathlib.LinearAlgebra.Matrix.ToLin
import Mathlib.Algebra.BigOperators.Fin
/-! What `invariant_factors` guarantees: one stage is a change of bases, and the returned list is related to the row space. -/
namespace Komm
open Polynomial
namespace PMat
variable {k n : Nat}

/-- The linear map `w ↦ w M` on rows of polynomials. -/
noncomputable def rowMap (M : PMat k n) : (Fin k → (ZMod 2)[X]) →ₗ[(ZMod 2)[X]] (Fin n → (ZMod 2)[X]) where
  toFun w j := ∑ i, w i * toPoly (M i j)
  map_add' u v := by funext j; simp [add_mul, Finset.sum_add_distrib]
  map_smul' r v := by funext j; simp [Finset.mul_sum, mul_assoc]

theorem rowMap_apply (M : PMat k n) (w : Fin k → (ZMod 2)[X]) (j : Fin n) : rowMap M w j = ∑ i, w i * toPoly (M i j) := rfl

/-- The matrices define the same map up to changes of bases of both sides. -/
def Equivalent (M N : PMat k n) : Prop :=
  ∃ (e : (Fin k → (ZMod 2)[X]) ≃ₗ[(ZMod 2)[X]] (Fin k → (ZMod 2)[X]))
    (e' : (Fin n → (ZMod 2)[X]) ≃ₗ[(ZMod 2)[X]] (Fin n → (ZMod 2)[X])), ∀ w, rowMap N w = e' (rowMap M (e w))

theorem Equivalent.refl (M : PMat k n) : Equivalent M M := ⟨.refl _ _, .refl _ _, fun _ => rfl⟩

theorem Equivalent.trans {M N O : PMat k n} (h : Equivalent M N) (h' : Equivalent N O) : Equivalent M O := by
  obtain ⟨e, f, h⟩ := h
  obtain ⟨e', f', h'⟩ := h'
  exact ⟨e'.trans e, f.trans f', fun w => by simp [h', h]⟩

theorem equivalent_swapRow (M : PMat (k + 1) n) (i : Fin (k + 1)) : Equivalent M (swapRow M i) := by
  refine ⟨LinearEquiv.funCongrLeft _ _ (Equiv.swap 0 i), .refl _ _, fun w => ?_⟩
  funext j
  simp only [LinearEquiv.refl_apply, rowMap_apply, swapRow, LinearEquiv.funCongrLeft_apply, LinearMap.funLeft_apply]
  exact Fintype.sum_equiv (Equiv.swap 0 i) _ _ fun r => by simp

theorem equivalent_swapCol (M : PMat k (n + 1)) (j : Fin (n + 1)) : Equivalent M (swapCol M j) := by
  refine ⟨.refl _ _, LinearEquiv.funCongrLeft _ _ (Equiv.swap 0 j), fun w => ?_⟩
  funext s
  simp only [LinearEquiv.refl_apply, rowMap_apply, swapCol, LinearEquiv.funCongrLeft_apply, LinearMap.funLeft_apply]

/-- `y_j ↦ y_j + q_j y_0`. -/
noncomputable def addFirst (q : Fin n → (ZMod 2)[X]) : (Fin (n + 1) → (ZMod 2)[X]) →ₗ[(ZMod 2)[X]] (Fin (n + 1) → (ZMod 2)[X]) where
  toFun y := Fin.cons (y 0) fun j => y j.succ + q j * y 0
  map_add' u v := by
    funext j; refine Fin.cases ?_ (fun j => ?_) j
    · simp
    · simp; ring
  map_smul' r v := by
    funext j; refine Fin.cases ?_ (fun j => ?_) j
    · simp
    · simp; ring

theorem addFirst_involutive (q : Fin n → (ZMod 2)[X]) : Function.Involutive (addFirst q) := by
  intro y
  funext j; refine Fin.cases ?_ (fun j => ?_) j
  · simp [addFirst]
  · simp [addFirst, add_assoc, zmod2_poly_add_self]

theorem equivalent_addCols (M : PMat k (n + 1)) (q : Fin n → Nat) : Equivalent M (addCols M q) := by
  refine ⟨.refl _ _, LinearEquiv.ofInvolutive (addFirst fun j => toPoly (q j)) (addFirst_involutive _), fun w => ?_⟩
  funext s
  refine Fin.cases ?_ (fun s => ?_) s
  · simp [LinearEquiv.coe_ofInvolutive, addFirst, rowMap_apply, addCols]
  · simp [LinearEquiv.coe_ofInvolutive, addFirst, rowMap_apply, addCols, mul_add, Finset.sum_add_distrib, Finset.mul_sum]
    exact Finset.sum_congr rfl fun i _ => by ring

/-- `w_0 ↦ w_0 + Σ q_i w_i`. -/
noncomputable def addToFirst (q : Fin k → (ZMod 2)[X]) : (Fin (k + 1) → (ZMod 2)[X]) →ₗ[(ZMod 2)[X]] (Fin (k + 1) → (ZMod 2)[X]) where
  toFun w := Fin.cons (w 0 + ∑ i, q i * w i.succ) fun i => w i.succ
  map_add' u v := by
    funext j; refine Fin.cases ?_ (fun j => ?_) j
    · simp [mul_add, Finset.sum_add_distrib]; ring
    · simp
  map_smul' r v := by
    funext j; refine Fin.cases ?_ (fun j => ?_) j
    · simp [mul_add, Finset.mul_sum]; exact Finset.sum_congr rfl fun i _ => by ring
    · simp

theorem addToFirst_involutive (q : Fin k → (ZMod 2)[X]) : Function.Involutive (addToFirst q) := by
  intro y
  funext j; refine Fin.cases ?_ (fun j => ?_) j
  · simp [addToFirst, add_assoc, zmod2_poly_add_self]
  · simp [addToFirst]

theorem equivalent_addRows (M : PMat (k + 1) n) (q : Fin k → Nat) : Equivalent M (addRows M q) := by
  refine ⟨LinearEquiv.ofInvolutive (addToFirst fun j => toPoly (q j)) (addToFirst_involutive _), .refl _ _, fun w => ?_⟩
  funext s
  simp only [LinearEquiv.coe_ofInvolutive, LinearEquiv.refl_apply, rowMap_apply, Fin.sum_univ_succ, addToFirst, addRows,
    LinearMap.coe_mk, AddHom.coe_mk, Fin.cons_zero, Fin.cons_succ, Fin.cases_zero, Fin.cases_succ, BP.toPoly_add, BP.toPoly_mul]
  simp only [mul_add, add_mul, Finset.sum_add_distrib, Finset.sum_mul]
  rw [add_assoc, add_comm (∑ i : Fin k, toPoly (q i) * w i.succ * toPoly (M 0 s))]
  congr 2
  exact Finset.sum_congr rfl fun i _ => by ring

theorem mod_eq (a : Nat) {b : Nat} (hb : b ≠ 0) : BP.add a (BP.mul (BP.div a b) b) = BP.mod a b := by
  apply toPoly_injective
  have h := (BP.toPoly_div_mod a b hb)
  rw [BP.toPoly_add, BP.toPoly_mul, BP.toPoly_div a hb, BP.toPoly_mod a hb]
  have := EuclideanDomain.div_add_mod (toPoly a) (toPoly b)
  calc toPoly a + toPoly a / toPoly b * toPoly b
      = (toPoly b * (toPoly a / toPoly b) + toPoly a % toPoly b) + toPoly a / toPoly b * toPoly b := by rw [this]
    _ = toPoly a % toPoly b + (toPoly a / toPoly b * toPoly b + toPoly a / toPoly b * toPoly b) := by ring
    _ = toPoly a % toPoly b := by rw [zmod2_poly_add_self, add_zero]

theorem mod_of_zero {b : Nat} (hb : b ≠ 0) : BP.mod 0 b = 0 := by
  apply toPoly_injective
  rw [BP.toPoly_mod 0 hb]; simp

/-- Step E2a: an equivalent matrix with `a0` in the corner dividing the first row. -/
theorem loopCols_spec (fuel : Nat) (M : PMat (k + 1) (n + 1)) (a0 : Nat) (ha : a0 ≠ 0) (h00 : M 0 0 = a0)
    (hf : bitLength a0 ≤ fuel) :
    Equivalent M (loopCols fuel M a0).1 ∧ (loopCols fuel M a0).2 ≠ 0 ∧ (loopCols fuel M a0).1 0 0 = (loopCols fuel M a0).2 ∧
      ∀ j : Fin n, BP.mod ((loopCols fuel M a0).1 0 j.succ) (loopCols fuel M a0).2 = 0 := by
  induction fuel generalizing M a0 with
  | zero => exact absurd (bitLength_eq_zero.mp (Nat.le_zero.mp hf)) ha
  | succ fuel ih =>
    rw [loopCols]
    cases hfi : (List.finRange n).find? fun j : Fin n => decide (M 0 j.succ ≠ 0 ∧ BP.mod (M 0 j.succ) a0 ≠ 0) with
    | none =>
      refine ⟨.refl _, ha, h00, fun j => ?_⟩
      have := List.find?_eq_none.mp hfi j (List.mem_finRange j)
      simp only [decide_eq_true_eq, not_and, not_not] at this
      show BP.mod (M 0 j.succ) a0 = 0
      by_cases h0 : M 0 j.succ = 0
      · rw [h0, mod_of_zero ha]
      · exact this h0
    | some j =>
      have hj := List.find?_some hfi
      simp only [decide_eq_true_eq] at hj
      obtain ⟨_, hr⟩ := hj
      have hlt := BP.bitLength_mod_lt (M 0 j.succ) ha
      have := ih (swapCol (addCols M fun j' => if j' = j then BP.div (M 0 j.succ) a0 else 0) j.succ)
        (BP.mod (M 0 j.succ) a0) hr (by
          simp [swapCol, addCols, h00, mod_eq _ ha]) (by omega)
      exact ⟨((equivalent_addCols _ _).trans (equivalent_swapCol _ _)).trans this.1, this.2⟩

/-- Step E2b: an equivalent matrix with `a0` in the corner dividing the first column. -/
theorem loopRows_spec (fuel : Nat) (M : PMat (k + 1) (n + 1)) (a0 : Nat) (ha : a0 ≠ 0) (h00 : M 0 0 = a0)
    (hf : bitLength a0 ≤ fuel) :
    Equivalent M (loopRows fuel M a0).1 ∧ (loopRows fuel M a0).2 ≠ 0 ∧ (loopRows fuel M a0).1 0 0 = (loopRows fuel M a0).2 ∧
      ∀ i : Fin k, BP.mod ((loopRows fuel M a0).1 i.succ 0) (loopRows fuel M a0).2 = 0 := by
  induction fuel generalizing M a0 with
  | zero => exact absurd (bitLength_eq_zero.mp (Nat.le_zero.mp hf)) ha
  | succ fuel ih =>
    rw [loopRows]
    cases hfi : (List.finRange k).find? fun i : Fin k => decide (M i.succ 0 ≠ 0 ∧ BP.mod (M i.succ 0) a0 ≠ 0) with
    | none =>
      refine ⟨.refl _, ha, h00, fun j => ?_⟩
      have := List.find?_eq_none.mp hfi j (List.mem_finRange j)
      simp only [decide_eq_true_eq, not_and, not_not] at this
      show BP.mod (M j.succ 0) a0 = 0
      by_cases h0 : M j.succ 0 = 0
      · rw [h0, mod_of_zero ha]
      · exact this h0
    | some i =>
      have hj := List.find?_some hfi
      simp only [decide_eq_true_eq] at hj
      obtain ⟨_, hr⟩ := hj
      have hlt := BP.bitLength_mod_lt (M i.succ 0) ha
      have := ih (swapRow (addRows M fun j' => if j' = i then BP.div (M i.succ 0) a0 else 0) i.succ)
        (BP.mod (M i.succ 0) a0) hr (by
          simp [swapRow, addRows, h00, mod_eq _ ha]) (by omega)
      exact ⟨((equivalent_addRows _ _).trans (equivalent_swapRow _ _)).trans this.1, this.2⟩

theorem loopRows_one (fuel : Nat) (M : PMat 1 (n + 1)) (a0 : Nat) : loopRows fuel M a0 = (M, a0) := by
  cases fuel <;> rfl

/-- One stage: an equivalent matrix with `a0 ≠ 0` in the corner and zeros below it; for a single row, zeros beside it too. -/
theorem stage_spec (M : PMat (k + 1) (n + 1)) (p : Fin (k + 1) × Fin (n + 1)) (hp : M p.1 p.2 ≠ 0) :
    Equivalent M (stage M p).1 ∧ (stage M p).2 ≠ 0 ∧ (stage M p).1 0 0 = (stage M p).2 ∧
      (∀ i : Fin k, (stage M p).1 i.succ 0 = 0) ∧ (k = 0 → ∀ j : Fin n, (stage M p).1 0 j.succ = 0) := by
  obtain ⟨e1, n1, c1, d1⟩ := loopCols_spec (bitLength (M p.1 p.2)) (swapCol (swapRow M p.1) p.2) (M p.1 p.2) hp
    (by simp [swapCol, swapRow]) le_rfl
  set r1 := loopCols (bitLength (M p.1 p.2)) (swapCol (swapRow M p.1) p.2) (M p.1 p.2) with hr1
  obtain ⟨e2, n2, c2, d2⟩ := loopRows_spec (bitLength r1.2) r1.1 r1.2 n1 c1 le_rfl
  set r2 := loopRows (bitLength r1.2) r1.1 r1.2 with hr2
  have hs : stage M p = (clearCol (clearRow r2.1 r2.2) r2.2, r2.2) := rfl
  rw [hs]
  refine ⟨?_, n2, ?_, fun i => ?_, ?_⟩
  · exact (((((equivalent_swapRow _ _).trans (equivalent_swapCol _ _)).trans e1).trans e2).trans
      (equivalent_addCols _ _)).trans (equivalent_addRows _ _)
  · simp [clearCol, clearRow, addRows, addCols, c2]
  · simp only [clearCol, clearRow, addRows, addCols, Fin.cases_succ, Fin.cases_zero, c2, mod_eq _ n2]
    exact d2 i
  · rintro rfl j
    have h21 : r2 = r1 := by rw [hr2, loopRows_one]
    rw [← h21] at d1
    simp only [clearCol, clearRow, addRows, addCols, Fin.cases_succ, Fin.cases_zero, c2, mod_eq _ n2]
    exact d1 j

/-- The search of step E1 finds a non-zero entry, unless there is none. -/
theorem leastEntry_spec (M : PMat k n) :
    (leastEntry M = none → ∀ i j, M i j = 0) ∧ ∀ p, leastEntry M = some p → M p.1 p.2 ≠ 0 := by
  have key : ∀ (l : List (Fin k × Fin n)) (b : Option (Fin k × Fin n)), (∀ p, b = some p → M p.1 p.2 ≠ 0) →
      ∀ r, l.foldl (fun best p =>
        if M p.1 p.2 = 0 then best
        else match best with
          | none => some p
          | some b => if BP.degree (M p.1 p.2) < BP.degree (M b.1 b.2) then some p else some b) b = r →
      (r = none → b = none ∧ ∀ p ∈ l, M p.1 p.2 = 0) ∧ ∀ p, r = some p → M p.1 p.2 ≠ 0 := by
    intro l
    induction l with
    | nil => rintro b hb r rfl; exact ⟨fun h => ⟨h, by simp⟩, hb⟩
    | cons p l ih =>
      intro b hb r hr
      rw [List.foldl_cons] at hr
      by_cases h0 : M p.1 p.2 = 0
      · rw [if_pos h0] at hr
        obtain ⟨h1, h2⟩ := ih b hb r hr
        refine ⟨fun h => ⟨(h1 h).1, ?_⟩, h2⟩
        intro p' hp'
        rcases List.mem_cons.mp hp' with rfl | hp'
        · exact h0
        · exact (h1 h).2 p' hp'
      · rw [if_neg h0] at hr
        cases b with
        | none =>
          obtain ⟨h1, h2⟩ := ih (some p) (by rintro _ ⟨⟩; exact h0) r hr
          exact ⟨fun h => absurd (h1 h).1 (by simp), h2⟩
        | some b =>
          obtain ⟨h1, h2⟩ := ih (if BP.degree (M p.1 p.2) < BP.degree (M b.1 b.2) then some p else some b) (by
            intro p' hp'
            split at hp'
            · cases hp'; exact h0
            · cases hp'; exact hb _ rfl) r hr
          refine ⟨fun h => absurd (h1 h).1 (by split <;> simp), h2⟩
  obtain ⟨h1, h2⟩ := key _ none (by simp) (leastEntry M) rfl
  refine ⟨fun h i j => (h1 h).2 (i, j) ?_, h2⟩
  simp

theorem rowMap_of_stage (N : PMat (k + 1) (n + 1)) (h0 : ∀ i : Fin k, N i.succ 0 = 0) (w : Fin (k + 1) → (ZMod 2)[X]) :
    rowMap N w 0 = w 0 * toPoly (N 0 0) ∧
    ∀ j : Fin n, rowMap N w j.succ = w 0 * toPoly (N 0 j.succ) +
      rowMap (fun (i : Fin k) (j : Fin n) => N i.succ j.succ) (fun i => w i.succ) j := by
  constructor
  · rw [rowMap_apply, Fin.sum_univ_succ]; simp [h0]
  · intro j
    rw [rowMap_apply, rowMap_apply, Fin.sum_univ_succ]

/-- With more rows than columns (or none of the columns), the rows are dependent; the code raises `ValueError`. -/
theorem invariantFactors_none (k n : Nat) (M : PMat k n) : invariantFactors k n M = none ↔ n < k := by
  induction k generalizing n with
  | zero => simp [invariantFactors]
  | succ k ih =>
    cases n with
    | zero => simp [invariantFactors]
    | succ n =>
      rw [invariantFactors]
      by_cases h : k + 1 > n + 1
      · rw [if_pos h]; simp; omega
      · rw [if_neg h]
        have hn : ¬ n + 1 < k + 1 := h
        cases hle : leastEntry M with
        | none => simpa using hn
        | some p =>
          simp only [Option.map_eq_none_iff, ih]
          omega

theorem invariantFactors_length_le (k n : Nat) (M : PMat k n) {fs : List Nat} (h : invariantFactors k n M = some fs) :
    fs.length ≤ k := by
  induction k generalizing n fs with
  | zero => simp [invariantFactors] at h; simp [h]
  | succ k ih =>
    cases n with
    | zero => simp [invariantFactors] at h
    | succ n =>
      rw [invariantFactors] at h
      split at h
      · cases h
      · split at h
        · cases h; simp
        · obtain ⟨gs, hg, rfl⟩ := Option.map_eq_some_iff.mp h
          simpa using ih n _ hg

/-- No factor is zero. -/
theorem invariantFactors_ne_zero (k n : Nat) (M : PMat k n) {fs : List Nat} (h : invariantFactors k n M = some fs) :
    ∀ f ∈ fs, f ≠ 0 := by
  induction k generalizing n fs with
  | zero => simp [invariantFactors] at h; simp [h]
  | succ k ih =>
    cases n with
    | zero => simp [invariantFactors] at h
    | succ n =>
      rw [invariantFactors] at h
      split at h
      · cases h
      · split at h
        · cases h; simp
        · rename_i p hp
          obtain ⟨gs, hg, rfl⟩ := Option.map_eq_some_iff.mp h
          intro f hf
          rcases List.mem_cons.mp hf with rfl | hf
          · exact (stage_spec M p ((leastEntry_spec M).2 p hp)).2.1
          · exact ih n _ hg f hf

/-- Fewer factors than rows: the rows are linearly dependent. -/
theorem invariantFactors_short (k n : Nat) (M : PMat k n) {fs : List Nat} (h : invariantFactors k n M = some fs)
    (hl : fs.length < k) : ∃ w ≠ 0, rowMap M w = 0 := by
  induction k generalizing n fs with
  | zero => omega
  | succ k ih =>
    cases n with
    | zero => simp [invariantFactors] at h
    | succ n =>
      rw [invariantFactors] at h
      split at h
      · cases h
      · split at h
        · rename_i hz
          have hz := (leastEntry_spec M).1 hz
          refine ⟨fun _ => 1, fun h => one_ne_zero (congrFun h 0), ?_⟩
          funext j
          simp [rowMap_apply, hz]
        · rename_i p hp
          obtain ⟨gs, hg, rfl⟩ := Option.map_eq_some_iff.mp h
          obtain ⟨w, hw, hw0⟩ := ih n _ hg (by simpa using hl)
          obtain ⟨⟨e, e', he⟩, _, _, h0, _⟩ := stage_spec M p ((leastEntry_spec M).2 p hp)
          set w' : Fin (k + 1) → (ZMod 2)[X] := Fin.cons 0 w
          have hN : rowMap (stage M p).1 w' = 0 := by
            obtain ⟨h1, h2⟩ := rowMap_of_stage (stage M p).1 h0 w'
            funext j
            refine Fin.cases ?_ (fun j => ?_) j
            · rw [h1]; simp [w']
            · rw [h2 j]
              have : (fun i : Fin k => w' i.succ) = w := by funext i; simp [w']
              rw [this, hw0]; simp [w']
          refine ⟨e w', ?_, ?_⟩
          · intro h0
            apply hw
            have : w' = 0 := by simpa using h0
            funext i
            have := congrFun this i.succ
            simpa [w'] using this
          · rw [he] at hN
            simpa using hN

/-- As many factors as rows: the matrix has a right inverse up to the product of the factors. -/
theorem invariantFactors_prod (k n : Nat) (M : PMat k n) {fs : List Nat} (h : invariantFactors k n M = some fs)
    (hl : fs.length = k) : ∃ κ : (Fin n → (ZMod 2)[X]) →ₗ[(ZMod 2)[X]] (Fin k → (ZMod 2)[X]),
      ∀ w, κ (rowMap M w) = (fs.map toPoly).prod • w := by
  induction k generalizing n fs with
  | zero => exact ⟨0, fun w => Subsingleton.elim _ _⟩
  | succ k ih =>
    cases n with
    | zero => simp [invariantFactors] at h
    | succ n =>
      rw [invariantFactors] at h
      split at h
      · cases h
      · split at h
        · cases h; simp at hl
        · rename_i p hp
          obtain ⟨gs, hg, rfl⟩ := Option.map_eq_some_iff.mp h
          obtain ⟨κ, hκ⟩ := ih n _ hg (by simpa using hl)
          obtain ⟨⟨e, e', he⟩, _, hc, h0, _⟩ := stage_spec M p ((leastEntry_spec M).2 p hp)
          set N := (stage M p).1
          set a := toPoly (stage M p).2
          set d := (gs.map toPoly).prod
          let κN : (Fin (n + 1) → (ZMod 2)[X]) →ₗ[(ZMod 2)[X]] (Fin (k + 1) → (ZMod 2)[X]) :=
            { toFun := fun y => Fin.cons (d * y 0) (κ fun j => a * y j.succ + y 0 * toPoly (N 0 j.succ))
              map_add' := fun u v => by
                have : (fun j : Fin n => a * (u + v) j.succ + (u + v) 0 * toPoly (N 0 j.succ)) =
                    (fun j : Fin n => a * u j.succ + u 0 * toPoly (N 0 j.succ)) +
                    (fun j : Fin n => a * v j.succ + v 0 * toPoly (N 0 j.succ)) := by
                  funext j; simp; ring
                rw [this, map_add]
                funext i; refine Fin.cases ?_ (fun i => ?_) i
                · simp; ring
                · simp
              map_smul' := fun r v => by
                have : (fun j : Fin n => a * (r • v) j.succ + (r • v) 0 * toPoly (N 0 j.succ)) =
                    r • (fun j : Fin n => a * v j.succ + v 0 * toPoly (N 0 j.succ)) := by
                  funext j; simp; ring
                rw [this, map_smul]
                funext i; refine Fin.cases ?_ (fun i => ?_) i
                · simp; ring
                · simp }
          have hN : ∀ w, κN (rowMap N w) = (a * d) • w := by
            intro w
            obtain ⟨h1, h2⟩ := rowMap_of_stage N h0 w
            have hy : (fun j : Fin n => a * rowMap N w j.succ + rowMap N w 0 * toPoly (N 0 j.succ)) =
                a • rowMap (fun (i : Fin k) (j : Fin n) => N i.succ j.succ) (fun i => w i.succ) := by
              funext j
              rw [h1, h2 j, hc]
              simp only [Pi.smul_apply, smul_eq_mul]
              rw [mul_add, add_right_comm]
              have : a * (w 0 * toPoly (N 0 j.succ)) + w 0 * a * toPoly (N 0 j.succ) = 0 := by
                rw [← mul_assoc, mul_comm a, zmod2_poly_add_self]
              rw [this, zero_add]
            show (Fin.cons (d * rowMap N w 0) (κ fun j => a * rowMap N w j.succ + rowMap N w 0 * toPoly (N 0 j.succ)) :
              Fin (k + 1) → (ZMod 2)[X]) = _
            rw [hy, map_smul, hκ]
            funext i; refine Fin.cases ?_ (fun i => ?_) i
            · simp [h1, hc, a]; ring
            · simp [mul_assoc]
          refine ⟨e.toLinearMap ∘ₗ κN ∘ₗ e'.toLinearMap, fun w => ?_⟩
          have := hN (e.symm w)
          rw [he] at this
          simp only [LinearEquiv.apply_symm_apply] at this
          simp [this, a, d]

/-- As many factors as rows: some row vector which is not a multiple of anything (`φ w = 1`) is mapped to a multiple of the last
factor. -/
theorem invariantFactors_last (k n : Nat) (M : PMat k n) {fs : List Nat} (h : invariantFactors k n M = some fs)
    (hl : fs.length = k) (hk : 0 < k) : ∃ (w : Fin k → (ZMod 2)[X]) (φ : (Fin k → (ZMod 2)[X]) →ₗ[(ZMod 2)[X]] (ZMod 2)[X])
      (c : Fin n → (ZMod 2)[X]), φ w = 1 ∧ rowMap M w = toPoly (fs.getLastD 0) • c := by
  induction k generalizing n fs with
  | zero => omega
  | succ k ih =>
    cases n with
    | zero => simp [invariantFactors] at h
    | succ n =>
      rw [invariantFactors] at h
      split at h
      · cases h
      · split at h
        · cases h; simp at hl
        · rename_i p hp
          obtain ⟨gs, hg, rfl⟩ := Option.map_eq_some_iff.mp h
          obtain ⟨⟨e, e', he⟩, _, hc, h0, h0'⟩ := stage_spec M p ((leastEntry_spec M).2 p hp)
          have back : (∃ (w : Fin (k + 1) → (ZMod 2)[X]) (φ : (Fin (k + 1) → (ZMod 2)[X]) →ₗ[(ZMod 2)[X]] (ZMod 2)[X])
              (c : Fin (n + 1) → (ZMod 2)[X]), φ w = 1 ∧
                rowMap (stage M p).1 w = toPoly (((stage M p).2 :: gs).getLastD 0) • c) →
              ∃ (w : Fin (k + 1) → (ZMod 2)[X]) (φ : (Fin (k + 1) → (ZMod 2)[X]) →ₗ[(ZMod 2)[X]] (ZMod 2)[X])
              (c : Fin (n + 1) → (ZMod 2)[X]), φ w = 1 ∧ rowMap M w = toPoly (((stage M p).2 :: gs).getLastD 0) • c := by
            rintro ⟨w, φ, c, hφ, hw⟩
            refine ⟨e w, φ ∘ₗ e.symm.toLinearMap, e'.symm c, by simp [hφ], ?_⟩
            rw [he] at hw
            rw [← map_smul, ← hw, LinearEquiv.symm_apply_apply]
          apply back
          rcases Nat.eq_zero_or_pos k with rfl | hk'
          · have hgs : gs = [] := List.eq_nil_of_length_eq_zero (by simpa using hl)
            subst hgs
            refine ⟨fun _ => 1, LinearMap.proj 0, Fin.cons 1 0, rfl, ?_⟩
            obtain ⟨h1, h2⟩ := rowMap_of_stage (stage M p).1 h0 fun _ => 1
            funext j
            refine Fin.cases ?_ (fun j => ?_) j
            · rw [h1]; simp [hc]
            · rw [h2, h0' rfl j]; simp [rowMap_apply]
          · obtain ⟨w, φ, c, hφ, hw⟩ := ih n _ hg (by simpa using hl) hk'
            refine ⟨Fin.cons 0 w, φ ∘ₗ LinearMap.pi fun i : Fin k => LinearMap.proj i.succ, Fin.cons 0 c, ?_, ?_⟩
            · have : (LinearMap.pi fun i : Fin k => LinearMap.proj (R := (ZMod 2)[X]) (φ := fun _ : Fin (k + 1) => (ZMod 2)[X]) i.succ)
                  (Fin.cons 0 w) = w := by funext i; simp
              rw [LinearMap.comp_apply, this, hφ]
            · obtain ⟨h1, h2⟩ := rowMap_of_stage (stage M p).1 h0 (Fin.cons 0 w)
              have hne : gs ≠ [] := by
                rintro rfl; simp at hl; omega
              have hlast : ((stage M p).2 :: gs).getLastD 0 = gs.getLastD 0 := by
                cases gs with
                | nil => exact absurd rfl hne
                | cons g gs => simp
              rw [hlast]
              funext j
              refine Fin.cases ?_ (fun j => ?_) j
              · rw [h1]; simp
              · rw [h2]
                have : (fun i : Fin k => (Fin.cons 0 w : Fin (k + 1) → (ZMod 2)[X]) i.succ) = w := by funext i; simp
                rw [this, hw]; simp

end PMat
end Komm
