import Verif.Model.DoubleViterbi
import Verif.Lemmas.TrellisDecoders
import Mathlib.Tactic.Linarith
import Mathlib.Tactic.Ring
/-! Viterbi decoding with rounded metrics. -/
namespace Komm
open StateSpace
open scoped BigOperators

namespace Double

theorem val_add (a b : Double) : (a + b).val = rnd (a.val + b.val) := rfl
theorem val_zero : (0 : Double).val = 0 := rfl
theorem le_iff {a b : Double} : a ≤ b ↔ a.val ≤ b.val := Iff.rfl
theorem lt_iff {a b : Double} : a < b ↔ a.val < b.val := Iff.rfl
theorem ext {a b : Double} (h : a.val = b.val) : a = b := Subtype.ext h

theorem add_mono (a b c : Double) (h : a ≤ b) : a + c ≤ b + c := by
  rw [le_iff, val_add, val_add]
  have := le_iff.mp h
  exact rnd_mono (by linarith)

theorem zero_add' (a : Double) : 0 + a = a := ext (by rw [val_add, val_zero, zero_add]; exact rnd_of_isDouble a.2)
theorem add_zero' (a : Double) : a + 0 = a := ext (by rw [val_add, val_zero, add_zero]; exact rnd_of_isDouble a.2)

theorem val_ofInt (k : ℤ) (h : |k| ≤ 2 ^ 53) : (ofInt k).val = k := rnd_of_isDouble (isDouble_int k h)

theorem add_error (a b : Double) : |(a + b).val - (a.val + b.val)| ≤ |a.val + b.val| / 2 ^ 53 := rnd_add_error a.2 b.2

end Double

/-! ### sums in any order -/

theorem SumOf.of_nil {l : List Double} {v : Double} (h : SumOf l v) : l = [] → v = 0 := by
  induction h with
  | nil => intro _; rfl
  | one x => intro h; simp at h
  | add _ _ ih1 ih2 =>
    intro h
    obtain ⟨h1, h2⟩ := List.append_eq_nil_iff.mp h
    rw [ih1 h1, ih2 h2, Double.zero_add']
  | perm hp _ ih =>
    intro h
    subst h
    exact ih hp.eq_nil

/-- Total of the magnitudes. -/
noncomputable def absSum (l : List Double) : ℝ := (l.map fun x : Double => |x.val|).sum
/-- Exact sum. -/
noncomputable def realSum (l : List Double) : ℝ := (l.map fun x : Double => x.val).sum

theorem absSum_append (l l' : List Double) : absSum (l ++ l') = absSum l + absSum l' := by simp [absSum]
theorem realSum_append (l l' : List Double) : realSum (l ++ l') = realSum l + realSum l' := by simp [realSum]
theorem absSum_nonneg (l : List Double) : 0 ≤ absSum l := List.sum_nonneg (by simp)

theorem abs_realSum_le (l : List Double) : |realSum l| ≤ absSum l := by
  induction l with
  | nil => simp [absSum, realSum]
  | cons x l ih =>
    have : realSum (x :: l) = x.val + realSum l := by simp [realSum]
    have h2 : absSum (x :: l) = |x.val| + absSum l := by simp [absSum]
    rw [this, h2]
    exact (abs_add_le _ _).trans (by linarith)

/-- The error of a sum of doubles, whatever the order. -/
theorem SumOf.error {l : List Double} {v : Double} (h : SumOf l v) :
    |v.val - realSum l| ≤ ((1 + 1 / 2 ^ 53) ^ l.length - 1) * absSum l := by
  induction h with
  | nil => simp [realSum, absSum, Double.val_zero]
  | one x =>
    have : (0 : ℝ) ≤ ((1 + 1 / 2 ^ 53) ^ [x].length - 1) * absSum [x] := by
      apply mul_nonneg _ (absSum_nonneg _)
      norm_num
    simpa [realSum] using this
  | @add l l' a b h1 h2 ih1 ih2 =>
    rcases List.eq_nil_or_concat l with rfl | ⟨_, _, hc⟩
    · rw [h1.of_nil rfl, Double.zero_add']; exact ih2
    rcases List.eq_nil_or_concat l' with rfl | ⟨_, _, hc'⟩
    · rw [h2.of_nil rfl, Double.add_zero', List.append_nil]; exact ih1
    have hl : 1 ≤ l.length := by rw [hc]; simp
    have hl' : 1 ≤ l'.length := by rw [hc']; simp
    rw [realSum_append, absSum_append, List.length_append]
    have he := Double.add_error a b
    have hA := absSum_nonneg l
    have hA' := absSum_nonneg l'
    have hR := abs_realSum_le l
    have hR' := abs_realSum_le l'
    have hp1 : (1 : ℝ) ≤ (1 + 1 / 2 ^ 53) ^ l.length := one_le_pow₀ (by norm_num)
    have hp2 : (1 : ℝ) ≤ (1 + 1 / 2 ^ 53) ^ l'.length := one_le_pow₀ (by norm_num)
    have e1 : (1 + 1 / 2 ^ 53 : ℝ) ^ l.length * (1 + 1 / 2 ^ 53) ≤ (1 + 1 / 2 ^ 53) ^ (l.length + l'.length) := by
      rw [← pow_succ]; exact pow_le_pow_right₀ (by norm_num) (by omega)
    have e2 : (1 + 1 / 2 ^ 53 : ℝ) ^ l'.length * (1 + 1 / 2 ^ 53) ≤ (1 + 1 / 2 ^ 53) ^ (l.length + l'.length) := by
      rw [← pow_succ]; exact pow_le_pow_right₀ (by norm_num) (by omega)
    have hu : (1 + 1 / 2 ^ 53 : ℝ) = 1 + 1 / 2 ^ 53 := rfl
    generalize (1 + 1 / 2 ^ 53 : ℝ) ^ (l.length + l'.length) = q at *
    generalize (1 + 1 / 2 ^ 53 : ℝ) ^ l.length = p1 at *
    generalize (1 + 1 / 2 ^ 53 : ℝ) ^ l'.length = p2 at *
    generalize realSum l = R at *
    generalize realSum l' = R' at *
    generalize absSum l = A at *
    generalize absSum l' = A' at *
    generalize (a + b).val = w at *
    have h3 : |a.val + b.val - (R + R')| ≤ (p1 - 1) * A + (p2 - 1) * A' := by
      rw [show a.val + b.val - (R + R') = (a.val - R) + (b.val - R') by ring]
      exact (abs_add_le _ _).trans (add_le_add ih1 ih2)
    have h4 : |a.val + b.val| ≤ p1 * A + p2 * A' := by
      rw [show a.val + b.val = (a.val + b.val - (R + R')) + (R + R') by ring]
      refine (abs_add_le _ _).trans ?_
      have := abs_add_le R R'
      nlinarith
    rw [show w - (R + R') = (w - (a.val + b.val)) + (a.val + b.val - (R + R')) by ring]
    refine (abs_add_le _ _).trans ?_
    have h5 : |w - (a.val + b.val)| ≤ (p1 * A + p2 * A') * (1 / 2 ^ 53) := by
      refine he.trans ?_
      rw [div_eq_mul_one_div]
      exact mul_le_mul_of_nonneg_right h4 (by positivity)
    have g1 : p1 * (1 + 1 / 2 ^ 53) * A ≤ q * A := mul_le_mul_of_nonneg_right e1 hA
    have g2 : p2 * (1 + 1 / 2 ^ 53) * A' ≤ q * A' := mul_le_mul_of_nonneg_right e2 hA'
    linarith
  | perm hp _ ih =>
    have e1 : realSum _ = realSum _ := (hp.map fun x : Double => x.val).sum_eq
    have e2 : absSum _ = absSum _ := (hp.map fun x : Double => |x.val|).sum_eq
    rw [← e1, ← e2, ← hp.length_eq]
    exact ih

theorem realSum_int (l : List Double) (hl : ∀ x ∈ l, ∃ k : ℤ, x.val = k) : ∃ k : ℤ, realSum l = k := by
  induction l with
  | nil => exact ⟨0, by simp [realSum]⟩
  | cons x l ih =>
    obtain ⟨i, hi⟩ := hl x (by simp)
    obtain ⟨j, hj⟩ := ih fun y hy => hl y (by simp [hy])
    have : realSum (x :: l) = x.val + realSum l := by simp [realSum]
    exact ⟨i + j, by rw [this, hi, hj]; push_cast; rfl⟩

/-- Integers are summed exactly while they stay within 53 bits. -/
theorem SumOf.exact {l : List Double} {v : Double} (h : SumOf l v) :
    (∀ x ∈ l, ∃ k : ℤ, x.val = k) → absSum l ≤ 2 ^ 53 → v.val = realSum l := by
  induction h with
  | nil => intro _ _; simp [realSum, Double.val_zero]
  | one x => intro _ _; simp [realSum]
  | @add l l' a b _ _ ih1 ih2 =>
    intro hi hb
    rw [absSum_append] at hb
    have hA := absSum_nonneg l
    have hA' := absSum_nonneg l'
    have g1 := ih1 (fun x hx => hi x (by simp [hx])) (by linarith)
    have g2 := ih2 (fun x hx => hi x (by simp [hx])) (by linarith)
    obtain ⟨j, hj⟩ := realSum_int (l ++ l') hi
    have hab := abs_realSum_le (l ++ l')
    rw [absSum_append] at hab
    rw [Double.val_add, g1, g2, ← realSum_append, hj, rnd_of_isDouble]
    apply isDouble_int
    rw [hj, ← Int.cast_abs] at hab
    have : ((|j| : ℤ) : ℝ) ≤ ((2 ^ 53 : ℤ) : ℝ) := by push_cast; push_cast at hab; linarith
    exact_mod_cast this
  | perm hp _ ih =>
    intro hi hb
    have e1 : realSum _ = realSum _ := (hp.map fun x : Double => x.val).sum_eq
    have e2 : absSum _ = absSum _ := (hp.map fun x : Double => |x.val|).sum_eq
    rw [← e1]
    exact ih (fun x hx => hi x (hp.mem_iff.mp hx)) (by rw [e2]; exact hb)

/-! ### the recursion over any ordered arithmetic with monotone addition -/

theorem withTop_add_mono {K : Type} [Add K] [LinearOrder K] (hm : ∀ a b c : K, a ≤ b → a + c ≤ b + c) {x y : WithTop K} (c : K)
    (h : x ≤ y) : x + (c : WithTop K) ≤ y + (c : WithTop K) := by
  induction y using WithTop.recTopCoe with
  | top => rw [WithTop.top_add]; exact le_top
  | coe b =>
    induction x using WithTop.recTopCoe with
    | top => exact absurd (top_le_iff.mp h) (WithTop.coe_ne_top)
    | coe a =>
      rw [← WithTop.coe_add, ← WithTop.coe_add]
      exact WithTop.coe_le_coe.mpr (hm _ _ _ (WithTop.coe_le_coe.mp h))

namespace Mealy
variable {S X : Nat} {K Z : Type} [Add K] [LinearOrder K]

/-- The metric of a trajectory as the recursion accumulates it: from the left, each addition rounded. -/
def foldCost (M : Mealy S X) (metric : Nat → Z → K) (a : WithTop K) (s : Fin S) (xs : List (Fin X)) (zs : List Z) : WithTop K :=
  (List.zipWith metric (M.outs s xs) zs).foldl (fun (acc : WithTop K) (c : K) => acc + (c : WithTop K)) a

theorem foldCost_snoc (M : Mealy S X) (metric : Nat → Z → K) (a : WithTop K) (s : Fin S) (xs : List (Fin X)) (x : Fin X) (zs : List Z) (z : Z)
    (h : xs.length = zs.length) :
    M.foldCost metric a s (xs ++ [x]) (zs ++ [z]) =
      M.foldCost metric a s xs zs + ((metric (M.out (M.run s xs) x) z : K) : WithTop K) := by
  unfold foldCost
  rw [outs_append, List.zipWith_append (by rw [outs_length, h]), List.foldl_append]
  simp [outs]

variable [NeZero S]

theorem viterbiForward_fold (hm : ∀ a b c : K, a ≤ b → a + c ≤ b + c) (M : Mealy S X) (hM : M.NoParallel) (metric : Nat → Z → K)
    (init : Fin S → WithTop K) (zs : List Z) (s : Fin S) :
    (∀ s0 xs, xs.length = zs.length → M.run s0 xs = s → (M.viterbiForward metric init zs).1 s ≤ M.foldCost metric (init s0) s0 xs zs) ∧
    ((M.viterbiForward metric init zs).1 s = ⊤ ∨ ∃ s0 xs, xs.length = zs.length ∧ M.run s0 xs = s ∧
      (M.viterbiForward metric init zs).1 s = M.foldCost metric (init s0) s0 xs zs ∧
      M.backtrack (M.viterbiForward metric init zs).2 s = xs.map fun x : Fin X => ((x : Nat) : Int)) := by
  induction zs using List.reverseRecOn generalizing s with
  | nil =>
    constructor
    · intro s0 xs hl hr
      have : xs = [] := by simpa using hl
      subst this
      rw [← hr]
      simp [viterbiForward, run, foldCost, outs]
    · right
      exact ⟨s, [], rfl, rfl, by simp [viterbiForward, foldCost, outs], rfl⟩
  | append_singleton zs z ih =>
    rw [viterbiForward_snoc]
    obtain ⟨t1, t2⟩ := trellisStep_spec M metric (M.viterbiForward metric init zs).1 z s
    constructor
    · intro s0 xs hl hr
      obtain ⟨xs', x, rfl⟩ : ∃ xs' x, xs = xs' ++ [x] := by
        rcases List.eq_nil_or_concat xs with h | ⟨xs', x, h⟩
        · rw [h] at hl; simp at hl
        · exact ⟨xs', x, by rw [h]; simp⟩
      have hl' : xs'.length = zs.length := by simpa using hl
      rw [run_append] at hr
      have h1 := t1 (M.run s0 xs') x hr
      have h2 := (ih (M.run s0 xs')).1 s0 xs' hl' rfl
      rw [foldCost_snoc _ _ _ _ _ _ _ _ hl']
      exact h1.trans (withTop_add_mono hm _ h2)
    · rcases t2 with t2 | ⟨x, hx, he⟩
      · exact Or.inl t2
      · simp only
        set c := (M.trellisStep metric (M.viterbiForward metric init zs).1 z).2 s with hc
        rcases (ih c).2 with h | ⟨s0, xs, hl, hr, hm', hb⟩
        · left; rw [he, h, WithTop.top_add]
        · right
          refine ⟨s0, xs ++ [x], by simp [hl], by rw [run_append, hr]; exact hx, ?_, ?_⟩
          · rw [he, hm', foldCost_snoc _ _ _ _ _ _ _ _ hl, hr]
          · rw [backtrack, ← hc, hb, List.map_append, List.map_singleton]
            congr 2
            have := inputEdges_eq M hM c x
            rw [hx] at this
            exact this

theorem foldl_coe (l : List K) (a : K) :
    l.foldl (fun (acc : WithTop K) (c : K) => acc + (c : WithTop K)) (a : WithTop K) = ((l.foldl (fun acc c => acc + c) a : K) : WithTop K) := by
  induction l generalizing a with
  | nil => rfl
  | cons x l ih => rw [List.foldl_cons, List.foldl_cons, ← ih]; rfl

theorem foldl_top (l : List K) : l.foldl (fun (acc : WithTop K) (c : K) => acc + (c : WithTop K)) ⊤ = ⊤ := by
  induction l with
  | nil => rfl
  | cons x l ih => rw [List.foldl_cons, WithTop.top_add, ih]

end Mealy

namespace StateSpace
variable {k n σ : Nat} (c : StateSpace k n σ) {K Z : Type} [Add K] [Zero K] [LinearOrder K]

/-- The metric the recursion gives to the path of the input blocks `us` from the zero state. -/
def pathCost (metric : Nat → List Z → K) (us : List (BVec k)) (zs : List (List Z)) : K :=
  (List.zipWith metric ((c.outs 0 us).map fun v : BVec n => vecToNat v) zs).foldl (fun acc x => acc + x) 0

theorem viterbi_fold (hm : ∀ a b c : K, a ≤ b → a + c ≤ b + c) (hp : c.finiteStateMachine.NoParallel) (metric : Nat → List Z → K)
    (zs : List (List Z)) (s : BVec σ) :
    haveI : NeZero (2 ^ σ) := ⟨(Nat.two_pow_pos σ).ne'⟩
    (∀ us : List (BVec k), us.length = zs.length → c.run 0 us = s →
      (c.finiteStateMachine.viterbi metric (Terminated.initialMetrics σ) zs).2 (code s) ≤ ((c.pathCost metric us zs : K) : WithTop K)) ∧
    ((c.finiteStateMachine.viterbi metric (Terminated.initialMetrics σ) zs).2 (code s) = ⊤ ∨
      ∃ us : List (BVec k), us.length = zs.length ∧ c.run 0 us = s ∧
        (c.finiteStateMachine.viterbi metric (Terminated.initialMetrics σ) zs).1 (code s) =
          (us.map fun u : BVec k => (((code u : Fin (2 ^ k)) : Nat) : Int)) ∧
        (c.finiteStateMachine.viterbi metric (Terminated.initialMetrics σ) zs).2 (code s) = ((c.pathCost metric us zs : K) : WithTop K)) := by
  haveI : NeZero (2 ^ σ) := ⟨(Nat.two_pow_pos σ).ne'⟩
  obtain ⟨h1, h2⟩ := Mealy.viterbiForward_fold hm c.finiteStateMachine hp metric (Terminated.initialMetrics σ) zs (code s)
  have hcost : ∀ us : List (BVec k), c.finiteStateMachine.foldCost metric (Terminated.initialMetrics σ (code (0 : BVec σ))) (code 0)
      (us.map fun u : BVec k => code u) zs = ((c.pathCost metric us zs : K) : WithTop K) := by
    intro us
    rw [Terminated.initialMetrics, if_pos (by rw [code_zero]), Mealy.foldCost, fsm_outs, pathCost]
    exact Mealy.foldl_coe _ _
  constructor
  · intro us hl hr
    have := h1 (code 0) (us.map fun u : BVec k => code u) (by simpa using hl) (by rw [fsm_run, hr])
    rw [hcost] at this
    exact this
  · rcases h2 with h | ⟨s0, xs, hl, hr, hc, hb⟩
    · exact Or.inl h
    · obtain ⟨us, rfl⟩ := exists_code xs
      obtain ⟨s0, rfl⟩ := code_surj s0
      by_cases hs0 : s0 = 0
      · subst hs0
        rw [fsm_run] at hr
        right
        refine ⟨us, by simpa using hl, code_inj hr, ?_, by rw [← hcost]; exact hc⟩
        exact hb.trans (by rw [List.map_map]; rfl)
      · left
        have : (code s0 : Nat) ≠ 0 := by
          intro h0
          apply hs0
          apply vecToNat_inj
          rw [vecToNat_zero]
          exact h0
        refine hc.trans ?_
        rw [Terminated.initialMetrics, if_neg this, Mealy.foldCost, Mealy.foldl_top]

theorem direct_fold (hm : ∀ a b c : K, a ≤ b → a + c ≤ b + c) (hp : c.finiteStateMachine.NoParallel) (metric : Nat → List Z → K)
    (hn : 0 < n) (μ h : Nat) (r : List Z) (hr : r.length = h * n) :
    ∃ us : List (BVec k), us.length = h ∧
      (Terminated.mk c μ h .directTruncation).viterbiBlock metric r = some (flat us) ∧
      ∀ us' : List (BVec k), us'.length = h → c.pathCost metric us (chunks n r) ≤ c.pathCost metric us' (chunks n r) := by
  haveI : NeZero (2 ^ σ) := ⟨(Nat.two_pow_pos σ).ne'⟩
  have hmod : r.length % n = 0 := by rw [hr]; simp
  have hl := chunks_length' n hn h r hr
  set best := Mealy.argminState (c.finiteStateMachine.viterbi metric (Terminated.initialMetrics σ) (chunks n r)).2 with hb
  have hmin := argminState_spec (c.finiteStateMachine.viterbi metric (Terminated.initialMetrics σ) (chunks n r)).2
  rw [← hb] at hmin
  obtain ⟨s, hs⟩ := code_surj best
  have hall : ∀ us' : List (BVec k), us'.length = h →
      (c.finiteStateMachine.viterbi metric (Terminated.initialMetrics σ) (chunks n r)).2 best ≤
        ((c.pathCost metric us' (chunks n r) : K) : WithTop K) := by
    intro us' hu'
    refine le_trans (hmin (code (c.run 0 us'))) ?_
    exact (viterbi_fold c hm hp metric (chunks n r) (c.run 0 us')).1 us' (by rw [hu', hl]) rfl
  rcases (viterbi_fold c hm hp metric (chunks n r) s).2 with ht | ⟨us, hu1, hu2, hu3, hu4⟩
  · exfalso
    have := hall (List.replicate h 0) (by simp)
    rw [← hs, ht, top_le_iff] at this
    exact WithTop.coe_ne_top this
  refine ⟨us, by rw [hu1, hl], ?_, ?_⟩
  · rw [Terminated.viterbiBlock, if_neg (by omega)]
    simp only [Terminated.viterbiPostProcess, Option.map_some]
    rw [← hb, ← hs, hu3, symbolBits_flatten]
  · intro us' hu'
    have := hall us' hu'
    rw [← hs, hu4] at this
    exact WithTop.coe_le_coe.mp this

theorem zero_fold (hm : ∀ a b c : K, a ≤ b → a + c ≤ b + c) (hp : c.finiteStateMachine.NoParallel) (metric : Nat → List Z → K)
    (hn : 0 < n) (μ h : Nat) (hμ : 1 ≤ μ) (r : List Z) (hr : r.length = (h + μ) * n) :
    ∃ us tail : List (BVec k), us.length = h ∧ tail.length = μ ∧ c.run 0 (us ++ tail) = 0 ∧
      (Terminated.mk c μ h .zeroTermination).viterbiBlock metric r = some (flat us) ∧
      ∀ ws : List (BVec k), ws.length = h + μ → c.run 0 ws = 0 →
        c.pathCost metric (us ++ tail) (chunks n r) ≤ c.pathCost metric ws (chunks n r) := by
  haveI : NeZero (2 ^ σ) := ⟨(Nat.two_pow_pos σ).ne'⟩
  have hmod : r.length % n = 0 := by rw [hr]; simp
  have hl := chunks_length' n hn (h + μ) r hr
  obtain ⟨hle, h2⟩ := viterbi_fold c hm hp metric (chunks n r) 0
  rcases h2 with ht | ⟨ws, hw1, hw2, hw3, hw4⟩
  · exfalso
    have := hle (List.replicate (h + μ) 0) (by rw [List.length_replicate, hl]) (c.run_zero _)
    rw [ht, top_le_iff] at this
    exact WithTop.coe_ne_top this
  rw [hl] at hw1
  refine ⟨ws.take h, ws.drop h, by simp [hw1], by simp [hw1], by rw [List.take_append_drop]; exact hw2, ?_, ?_⟩
  · rw [Terminated.viterbiBlock, if_neg (by omega)]
    simp only [Terminated.viterbiPostProcess, Option.map_some, Terminated.dropTail]
    rw [if_neg (by omega)]
    rw [show (0 : Fin (2 ^ σ)) = code 0 from (code_zero (m := σ)).symm, hw3]
    rw [List.length_map, hw1, Nat.add_sub_cancel, ← List.map_take, symbolBits_flatten]
  · intro ws' h1 h2
    rw [List.take_append_drop]
    have := hle ws' (by rw [h1, hl]) h2
    rw [hw4] at this
    exact WithTop.coe_le_coe.mp this

end StateSpace
end Komm

/-! ### agreement with exact arithmetic while all metrics are integers of at most 53 bits -/
namespace Komm
open StateSpace

theorem foldl_two {α β γ : Type} (R : α → β → Prop) (f : α → γ → α) (g : β → γ → β) (hs : ∀ a b c, R a b → R (f a c) (g b c)) (l : List γ)
    (a : α) (b : β) (h : R a b) : R (l.foldl f a) (l.foldl g b) := by
  induction l generalizing a b with
  | nil => exact h
  | cons x l ih => exact ih _ _ (hs _ _ _ h)

section close
variable {K : Type} [Add K] [LinearOrder K] (f : K → ℝ)

/-- Both infinite, or the same integer of magnitude at most `B`. -/
def Close (B : ℝ) (a : WithTop K) (b : WithTop Double) : Prop :=
  (a = ⊤ ∧ b = ⊤) ∨ ∃ (x : K) (y : Double) (k : ℤ), a = (x : WithTop K) ∧ b = (y : WithTop Double) ∧ f x = k ∧ y.val = k ∧ |(k : ℝ)| ≤ B

omit [Add K] in
theorem Close.lt_iff {f : K → ℝ} (hf : StrictMono f) {B B' : ℝ} {a a' : WithTop K} {b b' : WithTop Double} (h : Close f B a b)
    (h' : Close f B' a' b') : a < a' ↔ b < b' := by
  rcases h with ⟨rfl, rfl⟩ | ⟨x, y, i, rfl, rfl, hx, hy, _⟩
  · simp
  · rcases h' with ⟨rfl, rfl⟩ | ⟨x', y', j, rfl, rfl, hx', hy', _⟩
    · simp [WithTop.coe_lt_top]
    · rw [WithTop.coe_lt_coe, WithTop.coe_lt_coe, ← hf.lt_iff_lt, Double.lt_iff, hx, hx', hy, hy']

omit [LinearOrder K] in
theorem Close.add {f : K → ℝ} (hadd : ∀ a b, f (a + b) = f a + f b) {B β : ℝ} (hB : B + β ≤ 2 ^ 53) {a : WithTop K} {b : WithTop Double}
    (h : Close f B a b) (c : K) (d : Double) (j : ℤ) (hc : f c = j) (hd : d.val = j) (hj : |(j : ℝ)| ≤ β) :
    Close f (B + β) (a + (c : WithTop K)) (b + (d : WithTop Double)) := by
  rcases h with ⟨rfl, rfl⟩ | ⟨x, y, i, rfl, rfl, hx, hy, hi⟩
  · left; simp
  · right
    have hb : |((i + j : ℤ) : ℝ)| ≤ B + β := by
      push_cast
      exact (abs_add_le _ _).trans (add_le_add hi hj)
    refine ⟨x + c, y + d, i + j, rfl, rfl, by rw [hadd, hx, hc]; push_cast; rfl, ?_, hb⟩
    rw [Double.val_add, hy, hd, ← Int.cast_add, rnd_of_isDouble]
    apply isDouble_int
    rw [← Int.cast_abs] at hb
    have : ((|i + j| : ℤ) : ℝ) ≤ ((2 ^ 53 : ℤ) : ℝ) := by push_cast; push_cast at hb; linarith
    exact_mod_cast this

namespace Mealy
variable {S X : Nat} {Z Z' : Type} [NeZero S]

theorem trellisStep_close {f : K → ℝ} (hf : StrictMono f) (hadd : ∀ a b, f (a + b) = f a + f b) (M : Mealy S X) (metric : Nat → Z → K)
    (metric' : Nat → Z' → Double) {B β : ℝ} (hB : B + β ≤ 2 ^ 53) (z : Z) (z' : Z')
    (hz : ∀ s x, ∃ j : ℤ, f (metric (M.out s x) z) = j ∧ (metric' (M.out s x) z').val = j ∧ |(j : ℝ)| ≤ β) (m : Fin S → WithTop K)
    (m' : Fin S → WithTop Double) (hm : ∀ s, Close f B (m s) (m' s)) :
    (∀ s, Close f (B + β) ((M.trellisStep metric m z).1 s) ((M.trellisStep metric' m' z').1 s)) ∧
      (M.trellisStep metric m z).2 = (M.trellisStep metric' m' z').2 := by
  unfold trellisStep
  refine foldl_two (fun (p : (Fin S → WithTop K) × (Fin S → Fin S)) (q : (Fin S → WithTop Double) × (Fin S → Fin S)) =>
    (∀ s, Close f (B + β) (p.1 s) (q.1 s)) ∧ p.2 = q.2) _ _ ?_ _ _ _ ⟨fun s => Or.inl ⟨rfl, rfl⟩, rfl⟩
  intro p q s0 hpq
  refine foldl_two (fun (p : (Fin S → WithTop K) × (Fin S → Fin S)) (q : (Fin S → WithTop Double) × (Fin S → Fin S)) =>
    (∀ s, Close f (B + β) (p.1 s) (q.1 s)) ∧ p.2 = q.2) _ _ ?_ _ _ _ hpq
  intro p q x hpq
  obtain ⟨j, hj1, hj2, hj3⟩ := hz s0 x
  have hc := Close.add hadd hB (hm s0) _ _ j hj1 hj2 hj3
  have hlt := Close.lt_iff hf hc (hpq.1 (M.next s0 x))
  simp only
  by_cases h : m s0 + ((metric (M.out s0 x) z : K) : WithTop K) < p.1 (M.next s0 x)
  · rw [if_pos h, if_pos (hlt.mp h)]
    refine ⟨fun s => ?_, by simp only [hpq.2]⟩
    by_cases hs : s = M.next s0 x
    · subst hs; simp only [Function.update_self]; exact hc
    · simp only [Function.update_of_ne hs]; exact hpq.1 s
  · rw [if_neg h, if_neg fun h' => h (hlt.mpr h')]
    exact hpq

theorem argminState_close {f : K → ℝ} (hf : StrictMono f) {B : ℝ} (m : Fin S → WithTop K) (m' : Fin S → WithTop Double)
    (hm : ∀ s, Close f B (m s) (m' s)) : argminState m = argminState m' := by
  unfold argminState
  refine foldl_two (fun a b => a = b) _ _ ?_ _ _ _ rfl
  rintro a _ s rfl
  have := Close.lt_iff hf (hm s) (hm a)
  by_cases h : m s < m a
  · rw [if_pos h, if_pos (this.mp h)]
  · rw [if_neg h, if_neg fun h' => h (this.mpr h')]

theorem viterbiForward_close {f : K → ℝ} (hf : StrictMono f) (hadd : ∀ a b, f (a + b) = f a + f b) (M : Mealy S X) (metric : Nat → Z → K)
    (metric' : Nat → Z' → Double) (e : Z' → Z) (β : Z' → ℝ) (hβ : ∀ z, 0 ≤ β z) {B : ℝ} (init : Fin S → WithTop K)
    (init' : Fin S → WithTop Double) (hi : ∀ s, Close f B (init s) (init' s)) (zs : List Z')
    (hz : ∀ z ∈ zs, ∀ s x, ∃ j : ℤ, f (metric (M.out s x) (e z)) = j ∧ (metric' (M.out s x) z).val = j ∧ |(j : ℝ)| ≤ β z)
    (hB : B + (zs.map β).sum ≤ 2 ^ 53) :
    (∀ s, Close f (B + (zs.map β).sum) ((M.viterbiForward metric init (zs.map e)).1 s) ((M.viterbiForward metric' init' zs).1 s)) ∧
      (M.viterbiForward metric init (zs.map e)).2 = (M.viterbiForward metric' init' zs).2 := by
  induction zs using List.reverseRecOn with
  | nil => simpa [viterbiForward] using hi
  | append_singleton zs z ih =>
    rw [List.map_append, List.sum_append, List.map_singleton, List.sum_singleton, ← add_assoc] at hB
    obtain ⟨h1, h2⟩ := ih (fun z' hz' => hz z' (by simp [hz'])) (by have := hβ z; linarith)
    rw [List.map_append (f := e), List.map_singleton, viterbiForward_snoc, viterbiForward_snoc, List.map_append (f := β), List.sum_append, List.map_singleton,
      List.sum_singleton, ← add_assoc]
    obtain ⟨g1, g2⟩ := trellisStep_close hf hadd M metric metric' hB (e z) z (hz z (by simp)) _ _ h1
    exact ⟨g1, by simp only [g2, h2]⟩

/-- Same paths, and metrics that are the same integers. -/
def MemClose (f : K → ℝ) (B : ℝ) (m : Memory S K) (m' : Memory S Double) : Prop :=
  m.paths = m'.paths ∧ ∀ s, Close f B (m.metrics s) (m'.metrics s)

theorem streaming_close {f : K → ℝ} (hf : StrictMono f) (hadd : ∀ a b, f (a + b) = f a + f b) (M : Mealy S X) (metric : Nat → Z → K)
    (metric' : Nat → Z' → Double) (e : Z' → Z) (β : Z' → ℝ) (hβ : ∀ z, 0 ≤ β z) {B : ℝ} (m : Memory S K)
    (m' : Memory S Double) (hi : MemClose f B m m') (zs : List Z')
    (hz : ∀ z ∈ zs, ∀ s x, ∃ j : ℤ, f (metric (M.out s x) (e z)) = j ∧ (metric' (M.out s x) z).val = j ∧ |(j : ℝ)| ≤ β z)
    (hB : B + (zs.map β).sum ≤ 2 ^ 53) :
    (M.viterbiStreaming metric (zs.map e) m).1 = (M.viterbiStreaming metric' zs m').1 ∧
      MemClose f (B + (zs.map β).sum) (M.viterbiStreaming metric (zs.map e) m).2 (M.viterbiStreaming metric' zs m').2 := by
  induction zs using List.reverseRecOn with
  | nil => simpa [viterbiStreaming] using hi
  | append_singleton zs z ih =>
    rw [List.map_append, List.sum_append, List.map_singleton, List.sum_singleton, ← add_assoc] at hB
    obtain ⟨h1, h2, h3⟩ := ih (fun z' hz' => hz z' (by simp [hz'])) (by have := hβ z; linarith)
    rw [List.map_append (f := β), List.sum_append, List.map_singleton, List.sum_singleton, ← add_assoc, List.map_append, List.map_singleton]
    have e1 : ∀ {K : Type} [Add K] [LinearOrder K] {Z : Type} (metric : Nat → Z → K) (as : List Z) (b : Z) (m : Memory S K),
        M.viterbiStreaming metric (as ++ [b]) m = ((M.viterbiStreaming metric as m).1 ++ [(M.streamStep metric (M.viterbiStreaming metric as m).2 b).1],
          (M.streamStep metric (M.viterbiStreaming metric as m).2 b).2) := by
      intro K _ _ Z metric as b m
      simp only [viterbiStreaming, List.foldl_append, List.foldl_cons, List.foldl_nil]
    rw [e1, e1]
    obtain ⟨g1, g2⟩ := trellisStep_close hf hadd M metric metric' hB (e z) z (hz z (by simp)) _ _ h3
    have g3 := argminState_close hf _ _ g1
    refine ⟨?_, ?_, ?_⟩
    · simp only [streamStep, h1, g3, h2]
    · simp only [streamStep, h2, g2]
    · exact g1

end Mealy
end close

theorem initial_close {K : Type} [Add K] [Zero K] [LinearOrder K] {f : K → ℝ} (h0 : f 0 = 0) {σ : Nat} (s : Fin (2 ^ σ)) :
    Close f 0 (Terminated.initialMetrics (K := K) σ s) (Terminated.initialMetrics (K := Double) σ s) := by
  unfold Terminated.initialMetrics
  by_cases h : (s : Nat) = 0
  · rw [if_pos h, if_pos h]
    exact Or.inr ⟨0, 0, 0, rfl, rfl, by rw [h0]; simp, by rw [Double.val_zero]; simp, by simp⟩
  · rw [if_neg h, if_neg h]; exact Or.inl ⟨rfl, rfl⟩

theorem viterbiBlock_close {k n σ : Nat} {K Z Z' : Type} [Add K] [Zero K] [LinearOrder K] {f : K → ℝ} (hf : StrictMono f)
    (hadd : ∀ a b, f (a + b) = f a + f b) (h0 : f 0 = 0) (t : Terminated k n σ) (metric : Nat → List Z → K) (metric' : Nat → List Z' → Double)
    (e : Z' → Z) (β : List Z' → ℝ) (hβ : ∀ z, 0 ≤ β z) (r : List Z')
    (hz : ∀ z ∈ chunks n r, ∀ s x, ∃ j : ℤ, f (metric (t.code.finiteStateMachine.out s x) (z.map e)) = j ∧
      (metric' (t.code.finiteStateMachine.out s x) z).val = j ∧ |(j : ℝ)| ≤ β z)
    (hB : ((chunks n r).map β).sum ≤ 2 ^ 53) :
    t.viterbiBlock metric (r.map e) = t.viterbiBlock metric' r := by
  haveI : NeZero (2 ^ σ) := ⟨(Nat.two_pow_pos σ).ne'⟩
  unfold Terminated.viterbiBlock
  rw [List.length_map]
  by_cases hc : n = 0 ∨ r.length % n ≠ 0
  · rw [if_pos hc, if_pos hc]
  rw [if_neg hc, if_neg hc, chunks_map]
  obtain ⟨h1, h2⟩ := Mealy.viterbiForward_close (B := 0) hf hadd t.code.finiteStateMachine metric metric' (List.map e) β hβ
    (Terminated.initialMetrics σ) (Terminated.initialMetrics σ) (fun s => initial_close h0 s) (chunks n r) hz (by rw [zero_add]; exact hB)
  have h3 := Mealy.argminState_close hf _ _ h1
  have e1 : (t.code.finiteStateMachine.viterbi metric (Terminated.initialMetrics σ) ((chunks n r).map (List.map e))).1 =
      (t.code.finiteStateMachine.viterbi metric' (Terminated.initialMetrics σ) (chunks n r)).1 := by
    simp only [Mealy.viterbi, h2]
  simp only [Terminated.viterbiPostProcess]
  rw [e1]
  cases t.mode with
  | directTruncation =>
    simp only [Option.map_some]
    have : Mealy.argminState (t.code.finiteStateMachine.viterbi metric (Terminated.initialMetrics σ) ((chunks n r).map (List.map e))).2 =
      Mealy.argminState (t.code.finiteStateMachine.viterbi metric' (Terminated.initialMetrics σ) (chunks n r)).2 := h3
    rw [this]
  | zeroTermination => rfl
  | tailBiting => rfl

end Komm
