import Verif.Props.C91_Boxplus
import Verif.Lemmas.Polar
import Mathlib.Logic.Equiv.Fin.Basic
import Mathlib.Algebra.BigOperators.Fin
namespace Komm
open scoped BigOperators

/-! ### halves of a vector -/
section halves
variable {α : Type} {d : Nat}

/-- Positions of the two halves. -/
def halfEquiv (d : Nat) : Fin (2 ^ d) ⊕ Fin (2 ^ d) ≃ Fin (2 ^ (d + 1)) :=
  finSumFinEquiv.trans (finCongr (by rw [pow_succ]; omega))

def lo (v : Fin (2 ^ (d + 1)) → α) : Fin (2 ^ d) → α := fun i => v (halfEquiv d (.inl i))
def hi (v : Fin (2 ^ (d + 1)) → α) : Fin (2 ^ d) → α := fun i => v (halfEquiv d (.inr i))
def join (a b : Fin (2 ^ d) → α) : Fin (2 ^ (d + 1)) → α := fun x => Sum.elim a b ((halfEquiv d).symm x)

theorem half_inl (i : Fin (2 ^ d)) : (halfEquiv d (.inl i) : Nat) = i := rfl
theorem half_inr (i : Fin (2 ^ d)) : (halfEquiv d (.inr i) : Nat) = 2 ^ d + i := rfl

@[simp] theorem lo_join (a b : Fin (2 ^ d) → α) : lo (join a b) = a := by funext i; simp [lo, join]
@[simp] theorem hi_join (a b : Fin (2 ^ d) → α) : hi (join a b) = b := by funext i; simp [hi, join]
@[simp] theorem join_inl (a b : Fin (2 ^ d) → α) (i) : join a b (halfEquiv d (.inl i)) = a i := by simp [join]
@[simp] theorem join_inr (a b : Fin (2 ^ d) → α) (i) : join a b (halfEquiv d (.inr i)) = b i := by simp [join]

theorem join_lo_hi (v : Fin (2 ^ (d + 1)) → α) : join (lo v) (hi v) = v := by
  funext x
  obtain ⟨y, rfl⟩ := (halfEquiv d).surjective x
  cases y <;> simp [lo, hi]

theorem ofFn_join (a b : Fin (2 ^ d) → α) : List.ofFn (join a b) = List.ofFn a ++ List.ofFn b := by
  apply List.ext_getElem
  · simp [pow_succ]; omega
  · intro i h1 h2
    rw [List.getElem_append]
    simp only [List.length_ofFn] at h1 ⊢
    split
    · rename_i h
      rw [List.getElem_ofFn, List.getElem_ofFn]
      exact join_inl a b ⟨i, h⟩
    · rename_i h
      rw [List.getElem_ofFn, List.getElem_ofFn]
      have hi : i - 2 ^ d < 2 ^ d := by rw [pow_succ] at h1; omega
      rw [← join_inr a b ⟨i - 2 ^ d, hi⟩]
      congr 1
      apply Fin.ext
      rw [half_inr]
      simp only
      omega

theorem ofFn_halves (v : Fin (2 ^ (d + 1)) → α) : List.ofFn v = List.ofFn (lo v) ++ List.ofFn (hi v) := by
  rw [← ofFn_join, join_lo_hi]

theorem take_half (v : Fin (2 ^ (d + 1)) → α) : (List.ofFn v).take ((List.ofFn v).length / 2) = List.ofFn (lo v) := by
  rw [List.length_ofFn, show 2 ^ (d + 1) / 2 = 2 ^ d by rw [pow_succ]; omega, ofFn_halves, List.take_left' (by simp)]

theorem drop_half (v : Fin (2 ^ (d + 1)) → α) : (List.ofFn v).drop ((List.ofFn v).length / 2) = List.ofFn (hi v) := by
  rw [List.length_ofFn, show 2 ^ (d + 1) / 2 = 2 ^ d by rw [pow_succ]; omega, ofFn_halves, List.drop_left' (by simp)]

theorem sum_halves {M : Type} [AddCommMonoid M] (f : Fin (2 ^ (d + 1)) → M) :
    ∑ x, f x = ∑ i, f (halfEquiv d (.inl i)) + ∑ i, f (halfEquiv d (.inr i)) := by
  rw [← Equiv.sum_comp (halfEquiv d), Fintype.sum_sum_type]

end halves

/-! ### the transform by halves -/

/-- The butterfly, recursively: `(a, b) ↦ (T a + T b, T b)`. -/
def polarT : (d : Nat) → BVec (2 ^ d) → BVec (2 ^ d)
  | 0, u => u
  | d + 1, u => join (polarT d (lo u) + polarT d (hi u)) (polarT d (hi u))

theorem polarHadamard_top (d : Nat) : ∀ x j a b : Nat, x < 2 ^ d → j < 2 ^ d → a < 2 → b < 2 →
    polarHadamard (d + 1) (a * 2 ^ d + x) (b * 2 ^ d + j) = polarHadamard d x j * (polarKernel.getD a []).getD b 0 := by
  induction d with
  | zero =>
    intro x j a b hx hj ha hb
    have hx : x = 0 := by simpa using hx
    have hj : j = 0 := by simpa using hj
    subst hx hj
    simp only [polarHadamard, pow_zero, mul_one, add_zero, Nat.mod_eq_of_lt ha, Nat.mod_eq_of_lt hb]
  | succ d ih =>
    intro x j a b hx hj ha hb
    rw [polarHadamard, show polarHadamard (d + 1) x j = polarHadamard d (x / 2) (j / 2) * (polarKernel.getD (x % 2) []).getD (j % 2) 0
      from rfl]
    have e1 : (a * 2 ^ (d + 1) + x) / 2 = a * 2 ^ d + x / 2 := by rw [pow_succ, ← mul_assoc]; omega
    have e2 : (b * 2 ^ (d + 1) + j) / 2 = b * 2 ^ d + j / 2 := by rw [pow_succ, ← mul_assoc]; omega
    have e3 : (a * 2 ^ (d + 1) + x) % 2 = x % 2 := by rw [pow_succ, ← mul_assoc]; omega
    have e4 : (b * 2 ^ (d + 1) + j) % 2 = j % 2 := by rw [pow_succ, ← mul_assoc]; omega
    rw [e1, e2, e3, e4, ih _ _ a b (by rw [pow_succ] at hx; omega) (by rw [pow_succ] at hj; omega) ha hb]
    ring

theorem polarT_eq (d : Nat) (u : BVec (2 ^ d)) (j : Fin (2 ^ d)) : polarT d u j = ∑ x, u x * polarHadamard d x j := by
  induction d with
  | zero =>
    have : j = 0 := by apply Fin.ext; simp
    subst this
    rw [polarT]
    simp [polarHadamard]
  | succ d ih =>
    rw [polarT, sum_halves]
    obtain ⟨y, rfl⟩ := (halfEquiv d).surjective j
    have t00 := fun (x j : Fin (2 ^ d)) => polarHadamard_top d x j 0 0 x.2 j.2 (by norm_num) (by norm_num)
    have t01 := fun (x j : Fin (2 ^ d)) => polarHadamard_top d x j 0 1 x.2 j.2 (by norm_num) (by norm_num)
    have t10 := fun (x j : Fin (2 ^ d)) => polarHadamard_top d x j 1 0 x.2 j.2 (by norm_num) (by norm_num)
    have t11 := fun (x j : Fin (2 ^ d)) => polarHadamard_top d x j 1 1 x.2 j.2 (by norm_num) (by norm_num)
    simp only [zero_mul, one_mul, zero_add] at t00 t01 t10 t11
    cases y with
    | inl i =>
      rw [join_inl, Pi.add_apply, ih, ih]
      congr 1
      · apply Finset.sum_congr rfl
        intro x _
        rw [half_inl, half_inl, t00]
        simp [polarKernel, lo]
      · apply Finset.sum_congr rfl
        intro x _
        rw [half_inr, half_inl, t10]
        simp [polarKernel, hi]
    | inr i =>
      rw [join_inr, ih]
      rw [Finset.sum_eq_zero (s := Finset.univ) (f := fun x => u (halfEquiv d (.inl x)) * _), zero_add]
      · apply Finset.sum_congr rfl
        intro x _
        rw [half_inr, half_inr, t11]
        simp [polarKernel, hi]
      · intro x _
        rw [half_inl, half_inr, t01]
        simp [polarKernel]

theorem polarT_transform (d : Nat) (u : BVec (2 ^ d)) : polarT d u = polarTransform d u := by
  funext j
  rw [polarT_eq, polarTransform_eq]

theorem polarT_invol (d : Nat) (u : BVec (2 ^ d)) : polarT d (polarT d u) = u := by
  rw [polarT_transform, polarT_transform, polarTransform_invol]

/-! ### the decoder by halves -/

open Classical in
noncomputable def scRec (frozen : List Nat) : (d : Nat) → Nat → (Fin (2 ^ d) → ℝ) → (Fin (2 ^ d) → ℝ) × BVec (2 ^ d)
  | 0, idx, msg => (msg, fun i => if idx ∈ frozen then 0 else if msg i < 0 then 1 else 0)
  | d + 1, idx, msg =>
    let L := scRec frozen d (idx * 2) fun i => boxplus (lo msg i) (hi msg i)
    let R := scRec frozen d (idx * 2 + 1) fun i => hi msg i + (-1) ^ (polarT d L.2 i).val * lo msg i
    (join L.1 R.1, join L.2 R.2)

open Classical in
/-- The same with a scalar operation `f` and an addition `add`. -/
noncomputable def scRecF (f add : ℝ → ℝ → ℝ) (frozen : List Nat) : (d : Nat) → Nat → (Fin (2 ^ d) → ℝ) → (Fin (2 ^ d) → ℝ) × BVec (2 ^ d)
  | 0, idx, msg => (msg, fun i => if idx ∈ frozen then 0 else if msg i < 0 then 1 else 0)
  | d + 1, idx, msg =>
    let L := scRecF f add frozen d (idx * 2) fun i => f (lo msg i) (hi msg i)
    let R := scRecF f add frozen d (idx * 2 + 1) fun i => add (hi msg i) ((-1) ^ (polarT d L.2 i).val * lo msg i)
    (join L.1 R.1, join L.2 R.2)

theorem scRecF_exact (frozen : List Nat) : ∀ (d idx : Nat) (msg : Fin (2 ^ d) → ℝ), scRecF boxplus (fun x y => x + y) frozen d idx msg = scRec frozen d idx msg := by
  intro d
  induction d with
  | zero => intro idx msg; rw [scRecF, scRec]
  | succ d ih => intro idx msg; rw [scRecF, scRec]; simp only [ih]

section loop
variable (f add : ℝ → ℝ → ℝ)

/-- Node `x` is below (or is) node `(depth, idx)`. -/
def Below (depth idx : Nat) (x : Nat × Nat) : Prop := depth ≤ x.1 ∧ x.2 / 2 ^ (x.1 - depth) = idx

theorem below_child {depth idx b : Nat} (hb : b < 2) {x : Nat × Nat} (h : Below (depth + 1) (idx * 2 + b) x) :
    Below depth idx x := by
  obtain ⟨h1, h2⟩ := h
  refine ⟨by omega, ?_⟩
  have e : x.1 - depth = (x.1 - (depth + 1)) + 1 := by omega
  rw [e, pow_succ, ← Nat.div_div_eq_div_mul, h2]
  omega

theorem below_self (depth idx : Nat) : Below depth idx (depth, idx) := by
  simp [Below]

theorem scLoop_succ (mu : Nat) (frozen : List Nat) (fuel : Nat) (s s' : SCState) (hd : 0 ≤ s.depth) (h : scStep f add mu frozen s = some s') :
    scLoop f add mu frozen (fuel + 1) s = scLoop f add mu frozen fuel s' := by
  rw [scLoop, if_pos hd, h, Option.bind_some]

theorem scLoop_node (mu : Nat) (frozen : List Nat) : ∀ (d depth idx : Nat) (msg : Fin (2 ^ d) → ℝ) (s : SCState),
    depth + d = mu → s.depth = depth → s.index = idx → s.beliefs (depth, idx) = some (List.ofFn msg) →
    (∀ x, Below depth idx x → s.decisions x = none) →
    ∃ s', (∀ fuel, scLoop f add mu frozen (fuel + (4 * 2 ^ d - 3)) s = scLoop f add mu frozen fuel s') ∧
      s'.depth = (depth : Int) - 1 ∧ s'.index = idx / 2 ∧
      s'.decisions (depth, idx) = some (List.ofFn (polarT d (scRecF f add frozen d idx msg).2)) ∧
      (∀ i : Fin (2 ^ d), s'.beliefs (mu, idx * 2 ^ d + i) = some [(scRecF f add frozen d idx msg).1 i]) ∧
      (∀ x, ¬ Below depth idx x → s'.decisions x = s.decisions x ∧ s'.beliefs x = s.beliefs x) ∧
      s'.beliefs (depth, idx) = s.beliefs (depth, idx) := by
  intro d
  induction d with
  | zero =>
    intro depth idx msg s hd h1 h2 h3 h4
    obtain ⟨sd, si, sb, sdec⟩ := s
    simp only at h1 h2 h3 h4
    subst h1 h2
    have hmu : depth = mu := by omega
    subst hmu
    have hpos : (0 : Int) ≤ (depth : Int) := by omega
    have hmsg : List.ofFn msg = [msg 0] := by
      rw [List.ofFn_succ]; rfl
    by_cases hf : si ∈ frozen
    · refine ⟨⟨(depth : Int) - 1, si / 2, sb, dictSet sdec (depth, si) [0]⟩, ?_, rfl, rfl, ?_, ?_, ?_, rfl⟩
      · intro fuel
        apply scLoop_succ _ _ _ _ _ _ _ hpos
        rw [scStep]
        simp only [Int.toNat_natCast, if_true, hf]
      · simp only [dictSet, if_true, polarT, scRecF, hf]
        rw [List.ofFn_succ]; rfl
      · intro i
        have : i = 0 := by apply Fin.ext; simp
        subst this
        simp only [pow_zero, mul_one]
        rw [show si + ((0 : Fin (2 ^ 0)) : Nat) = si from rfl, h3, hmsg]
        rfl
      · intro x hx
        refine ⟨?_, rfl⟩
        simp only [dictSet]
        rw [if_neg]
        rintro rfl
        exact hx (below_self _ _)
    · refine ⟨⟨(depth : Int) - 1, si / 2, sb, dictSet sdec (depth, si) [if msg 0 < 0 then 1 else 0]⟩, ?_, rfl, rfl, ?_, ?_, ?_, rfl⟩
      · intro fuel
        apply scLoop_succ _ _ _ _ _ _ _ hpos
        rw [scStep]
        simp only [Int.toNat_natCast, if_true, hf, if_false, h3, Option.bind_some, hmsg, List.map_cons, List.map_nil]
      · simp only [dictSet, if_true, polarT, scRecF, hf, if_false]
        rw [List.ofFn_succ]
        congr!
      · intro i
        have : i = 0 := by apply Fin.ext; simp
        subst this
        simp only [pow_zero, mul_one]
        rw [show si + ((0 : Fin (2 ^ 0)) : Nat) = si from rfl, h3, hmsg]
        rfl
      · intro x hx
        refine ⟨?_, rfl⟩
        simp only [dictSet]
        rw [if_neg]
        rintro rfl
        exact hx (below_self _ _)
  | succ d ih =>
    intro depth idx msg s hd h1 h2 h3 h4
    obtain ⟨sd, si, sb, sdec⟩ := s
    simp only at h1 h2 h3 h4
    subst h1 h2
    have hne : depth ≠ mu := by omega
    have hpos : (0 : Int) ≤ (depth : Int) := by omega
    have hL : ∀ x, Below (depth + 1) (si * 2) x → Below depth si x := fun x hx => below_child (b := 0) (by norm_num) hx
    have hR : ∀ x, Below (depth + 1) (si * 2 + 1) x → Below depth si x := fun x hx => below_child (b := 1) (by norm_num) hx
    have hLR : ∀ x, Below (depth + 1) (si * 2) x → ¬ Below (depth + 1) (si * 2 + 1) x := by
      rintro x ⟨-, a⟩ ⟨-, b⟩; omega
    have hAL : ¬ Below (depth + 1) (si * 2) (depth, si) := fun h => by have := h.1; simp at this
    have hAR : ¬ Below (depth + 1) (si * 2 + 1) (depth, si) := fun h => by have := h.1; simp at this
    have dL : sdec (depth + 1, si * 2) = none := h4 _ (hL _ (below_self _ _))
    have dR : sdec (depth + 1, si * 2 + 1) = none := h4 _ (hR _ (below_self _ _))
    -- step L
    set fv : Fin (2 ^ d) → ℝ := fun i => f (lo msg i) (hi msg i) with hf
    have hfl : boxplusArrayF f (List.ofFn (lo msg)) (List.ofFn (hi msg)) = some (List.ofFn fv) := by
      rw [boxplusArrayF, if_neg (by simp)]
      congr 1
      apply List.ext_getElem
      · simp
      · intro i a b; simp [hf]
    set s1 : SCState := ⟨(depth : Int) + 1, si * 2, dictSet sb (depth + 1, si * 2) (List.ofFn fv), sdec⟩ with hs1
    have step1 : scStep f add mu frozen ⟨(depth : Int), si, sb, sdec⟩ = some s1 := by
      rw [scStep]
      simp only [Int.toNat_natCast, if_neg hne, h3, Option.bind_some, dL, take_half, drop_half, hfl]
      rfl
    obtain ⟨s2, l1, l2, l3, l4, l5, l6, -⟩ := ih (depth + 1) (si * 2) fv s1 (by omega) (by rw [hs1]; simp) rfl (by simp [hs1, dictSet])
      (fun x hx => h4 x (hL x hx))
    set L := scRecF f add frozen d (si * 2) fv with hLdef
    have a2 : s2.beliefs (depth, si) = some (List.ofFn msg) := by
      rw [(l6 _ hAL).2, hs1]
      simp only [dictSet]
      rw [if_neg (by simp), h3]
    have r2 : s2.decisions (depth + 1, si * 2 + 1) = none := by
      rw [(l6 _ (fun h => hLR _ h (below_self _ _))).1, hs1]
      exact dR
    obtain ⟨s2d, s2i, s2b, s2dec⟩ := s2
    simp only at l2 l3 l4 l5 l6 a2 r2
    have e2d : s2d = (depth : Int) := by rw [l2]; push_cast; ring
    have e2i : s2i = si := by rw [l3]; omega
    subst e2d e2i
    -- step R
    set g : Fin (2 ^ d) → ℝ := fun i => add (hi msg i) ((-1) ^ (polarT d L.2 i).val * lo msg i) with hg
    have hgl : scG add (List.ofFn (lo msg)) (List.ofFn (hi msg)) (List.ofFn (polarT d L.2)) = List.ofFn g := by
      rw [scG]
      apply List.ext_getElem
      · simp
      · intro i a b; simp [hg]
    set s3 : SCState := ⟨(depth : Int) + 1, s2i * 2 + 1, dictSet s2b (depth + 1, s2i * 2 + 1) (List.ofFn g), s2dec⟩ with hs3
    have step2 : scStep f add mu frozen ⟨(depth : Int), s2i, s2b, s2dec⟩ = some s3 := by
      rw [scStep]
      simp only [Int.toNat_natCast, if_neg hne, a2, Option.bind_some, l4, r2, take_half, drop_half, hgl]
      rfl
    obtain ⟨s4, r1, r2', r3, r4, r5, r6, -⟩ := ih (depth + 1) (s2i * 2 + 1) g s3 (by omega) (by rw [hs3]; simp) rfl
      (by simp [hs3, dictSet]) (fun x hx => by
        exact (l6 x (fun h => hLR x h hx)).1.trans (h4 x (hR x hx)))
    set R := scRecF f add frozen d (s2i * 2 + 1) g with hRdef
    have a4 : s4.beliefs (depth, s2i) = some (List.ofFn msg) := by
      rw [(r6 _ hAR).2, hs3]
      simp only [dictSet]
      rw [if_neg (by simp), a2]
    have d4 : s4.decisions (depth + 1, s2i * 2) = some (List.ofFn (polarT d L.2)) := by
      rw [(r6 _ (hLR _ (below_self _ _))).1, hs3]
      exact l4
    obtain ⟨s4d, s4i, s4b, s4dec⟩ := s4
    simp only at r2' r3 r4 r5 r6 a4 d4
    have e4d : s4d = (depth : Int) := by rw [r2']; push_cast; ring
    have e4i : s4i = s2i := by rw [r3]; omega
    subst e4d e4i
    -- step U
    have hz : List.zipWith (fun (x : ZMod 2) (y : ZMod 2) => x + y) (List.ofFn (polarT d L.2)) (List.ofFn (polarT d R.2)) ++
        List.ofFn (polarT d R.2) = List.ofFn (polarT (d + 1) (join L.2 R.2)) := by
      rw [polarT, ofFn_join, lo_join, hi_join]
      congr 1
      apply List.ext_getElem
      · simp
      · intro i a b; simp
    have hrec : scRecF f add frozen (d + 1) s4i msg = (join L.1 R.1, join L.2 R.2) := by rw [scRecF]
    refine ⟨⟨(depth : Int) - 1, s4i / 2, s4b, dictSet s4dec (depth, s4i) (List.ofFn (polarT (d + 1) (join L.2 R.2)))⟩, ?_, rfl, rfl,
      ?_, ?_, ?_, ?_⟩
    · intro fuel
      have hp : 1 ≤ 2 ^ d := Nat.one_le_two_pow
      have : fuel + (4 * 2 ^ (d + 1) - 3) = (fuel + 1 + (4 * 2 ^ d - 3)) + 1 + (4 * 2 ^ d - 3) + 1 := by
        rw [pow_succ]; omega
      rw [this, scLoop_succ _ _ _ _ _ _ _ hpos step1, l1, scLoop_succ _ _ _ _ _ _ _ hpos step2, r1]
      apply scLoop_succ _ _ _ _ _ _ _ hpos
      rw [scStep]
      simp only [Int.toNat_natCast, if_neg hne, a4, Option.bind_some, d4, r4, hz]
    · rw [hrec]
      simp [dictSet]
    · intro x
      obtain ⟨y, rfl⟩ := (halfEquiv d).surjective x
      rw [hrec]
      cases y with
      | inl i =>
        have : s4i * 2 ^ (d + 1) + (halfEquiv d (.inl i) : Nat) = s4i * 2 * 2 ^ d + i := by rw [half_inl, pow_succ]; ring
        simp only [join_inl]
        rw [this]
        have hb : Below (depth + 1) (s4i * 2) (mu, s4i * 2 * 2 ^ d + i) := by
          refine ⟨by omega, ?_⟩
          simp only
          rw [show mu - (depth + 1) = d by omega, mul_comm, Nat.mul_add_div (by positivity), Nat.div_eq_of_lt i.2, add_zero]
        rw [(r6 _ (hLR _ hb)).2, hs3]
        simp only [dictSet]
        rw [if_neg, l5]
        intro e
        rw [Prod.mk.injEq] at e
        have hd0 : d = 0 := by omega
        subst hd0
        have := i.2
        omega
      | inr i =>
        have : s4i * 2 ^ (d + 1) + (halfEquiv d (.inr i) : Nat) = (s4i * 2 + 1) * 2 ^ d + i := by rw [half_inr, pow_succ]; ring
        simp only [join_inr]
        rw [this, r5]
    · intro x hx
      have n1 : ¬ Below (depth + 1) (s4i * 2) x := fun h => hx (hL x h)
      have n2 : ¬ Below (depth + 1) (s4i * 2 + 1) x := fun h => hx (hR x h)
      have n3 : x ≠ (depth, s4i) := by rintro rfl; exact hx (below_self _ _)
      have n4 : x ≠ (depth + 1, s4i * 2) := by rintro rfl; exact n1 (below_self _ _)
      have n5 : x ≠ (depth + 1, s4i * 2 + 1) := by rintro rfl; exact n2 (below_self _ _)
      constructor
      · simp only [dictSet]
        rw [if_neg n3, (r6 x n2).1, hs3]
        simp only
        rw [(l6 x n1).1]
      · simp only
        rw [(r6 x n2).2, hs3]
        simp only [dictSet]
        rw [if_neg n5, (l6 x n1).2, hs1]
        simp only [dictSet]
        rw [if_neg n4]
    · simp only
      rw [a4, h3]

theorem scBlockF_eq (mu : Nat) (frozen : List Nat) (li : Fin (2 ^ mu) → ℝ) :
    scBlockF f add mu frozen (List.ofFn li) = some ((List.finRange (polarActive mu frozen).length).map fun i : Fin _ =>
      (scRecF f add frozen mu 0 li).1 ⟨(polarActive mu frozen)[i], polarActive_lt i⟩) := by
  obtain ⟨s', h1, h2, h3, -, h5, -, -⟩ := scLoop_node f add mu frozen mu 0 0 li
    ⟨0, 0, dictSet (fun _ => none) (0, 0) (List.ofFn li), fun _ => none⟩ (by omega) rfl rfl (by simp [dictSet]) (fun _ _ => rfl)
  have hp : 1 ≤ 2 ^ mu := Nat.one_le_two_pow
  have hloop := h1 3
  rw [show 3 + (4 * 2 ^ mu - 3) = 4 * 2 ^ mu by omega, scLoop, if_neg (by rw [h2]; simp)] at hloop
  rw [scBlockF, hloop, Option.bind_some]
  have hall : ∀ (A : List Nat) (hA : ∀ i ∈ A, i < 2 ^ mu),
      (A.mapM fun i : Nat => (s'.beliefs (mu, i)).bind fun l : List ℝ => l[0]?) =
      some ((List.finRange A.length).map fun i : Fin _ => (scRecF f add frozen mu 0 li).1 ⟨A[i], hA _ (List.getElem_mem _)⟩) := by
    intro A hA
    induction A with
    | nil => rfl
    | cons a A ih =>
      have h5a := h5 ⟨a, hA a (by simp)⟩
      simp only [zero_mul, zero_add] at h5a
      rw [List.mapM_cons, h5a, ih (fun i hi => hA i (by simp [hi]))]
      simp only [Option.bind_some, List.getElem?_cons_zero, List.length_cons, List.finRange_succ, List.map_cons, List.map_map]
      rfl
  exact hall _ fun i hi => by
    rw [polarActive, List.mem_filter, List.mem_range] at hi
    exact hi.1

end loop

theorem scBlock_eq (mu : Nat) (frozen : List Nat) (li : Fin (2 ^ mu) → ℝ) :
    scBlock mu frozen (List.ofFn li) = some ((List.finRange (polarActive mu frozen).length).map fun i : Fin _ =>
      (scRec frozen mu 0 li).1 ⟨(polarActive mu frozen)[i], polarActive_lt i⟩) := by
  rw [scBlock, scBlockF_eq, scRecF_exact]

end Komm
