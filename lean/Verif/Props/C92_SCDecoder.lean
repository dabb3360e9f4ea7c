import Verif.Lemmas.SCDecoder
import Verif.Props.C55_Polar
import Verif.Props.C90_BCJR
import Mathlib.Algebra.BigOperators.Ring.Finset
/-! C92: successive cancellation decoding of polar codes. -/
namespace Komm
open scoped BigOperators
variable {mu : Nat} {frozen : List Nat}

/-! ### specification -/

/-- The vectors that agree with `past` before position `i` and have bit `b` there. -/
def agreeing {N : Nat} (past : BVec N) (i : Fin N) (b : ZMod 2) : Finset (BVec N) :=
  Finset.univ.filter fun u => (∀ j, j < i → u j = past j) ∧ u i = b

/-- The successive-cancellation log-ratio of bit `i`: the total likelihood of the transforms of all the inputs that agree with the past
and have a zero in position `i`, over the same with a one. -/
noncomputable def scLogRatio {N : Nat} (T : BVec N → BVec N) (p : Fin N → ZMod 2 → ℝ) (past : BVec N) (i : Fin N) : ℝ :=
  Real.log ((∑ u ∈ agreeing past i 0, ∏ j, p j (T u j)) / (∑ u ∈ agreeing past i 1, ∏ j, p j (T u j)))

/-! ### the weights -/

/-- The weight of a word. -/
noncomputable def wordWeight {N : Nat} (l : Fin N → ℝ) (x : BVec N) : ℝ := Real.exp ((∑ j, (-1) ^ (x j).val * l j) / 2)

theorem wordWeight_pos {N : Nat} (l : Fin N → ℝ) (x : BVec N) : 0 < wordWeight l x := Real.exp_pos _

theorem wordWeight_prod {N : Nat} (l : Fin N → ℝ) (x : BVec N) : wordWeight l x = ∏ j, Real.exp ((-1) ^ (x j).val * l j / 2) := by
  rw [wordWeight, Finset.sum_div, Real.exp_sum]

theorem wordWeight_join {d : Nat} (l : Fin (2 ^ (d + 1)) → ℝ) (a b : BVec (2 ^ d)) :
    wordWeight l (join a b) = wordWeight (lo l) a * wordWeight (hi l) b := by
  rw [wordWeight, sum_halves, add_div, Real.exp_add]
  simp only [join_inl, join_inr]
  rfl

theorem sign_add (a b : ZMod 2) : ((-1 : ℝ)) ^ (a + b).val = (-1) ^ a.val * (-1) ^ b.val := by
  rcases zmod2_cases a with rfl | rfl <;> rcases zmod2_cases b with rfl | rfl
  · simp
  · simp
  · simp
  · rw [show ((1 : ZMod 2) + 1) = 0 by decide, show (1 : ZMod 2).val = 1 from rfl, ZMod.val_zero]; norm_num

/-- Right half: the decisions of the left half are known. -/
theorem weight_right {d : Nat} (l : Fin (2 ^ (d + 1)) → ℝ) (a b : BVec (2 ^ d)) :
    wordWeight l (join (a + b) b) = wordWeight (fun i => hi l i + (-1) ^ (a i).val * lo l i) b := by
  rw [wordWeight_join, wordWeight, wordWeight, wordWeight, ← Real.exp_add, ← add_div, ← Finset.sum_add_distrib]
  congr 2
  apply Finset.sum_congr rfl
  intro i _
  rw [Pi.add_apply, sign_add]
  ring

theorem sum_zmod2 (f : ZMod 2 → ℝ) : ∑ b, f b = f 0 + f 1 := by
  rw [show (Finset.univ : Finset (ZMod 2)) = {0, 1} from rfl, Finset.sum_pair (by decide)]

/-- Left half: the sum over the words of the right half. -/
theorem weight_left {d : Nat} (l : Fin (2 ^ (d + 1)) → ℝ) : ∃ κ : ℝ, 0 < κ ∧ ∀ a : BVec (2 ^ d),
    ∑ b : BVec (2 ^ d), wordWeight l (join (a + b) b) = κ * wordWeight (fun i => boxplus (lo l i) (hi l i)) a := by
  set P : Fin (2 ^ d) → ℝ := fun i => Real.exp ((lo l i + hi l i) / 2) + Real.exp (-(lo l i + hi l i) / 2)
  set Q : Fin (2 ^ d) → ℝ := fun i => Real.exp ((lo l i - hi l i) / 2) + Real.exp (-(lo l i - hi l i) / 2)
  have hP : ∀ i, 0 < P i := fun i => by positivity
  have hQ : ∀ i, 0 < Q i := fun i => by positivity
  refine ⟨∏ i, Real.exp ((Real.log (P i) + Real.log (Q i)) / 2), Finset.prod_pos fun i _ => Real.exp_pos _, fun a => ?_⟩
  have e1 : ∀ b : BVec (2 ^ d), wordWeight l (join (a + b) b) =
      ∏ i, Real.exp (((-1) ^ (a i + b i).val * lo l i + (-1) ^ (b i).val * hi l i) / 2) := by
    intro b
    rw [wordWeight_join, wordWeight_prod, wordWeight_prod, ← Finset.prod_mul_distrib]
    apply Finset.prod_congr rfl
    intro i _
    rw [← Real.exp_add, Pi.add_apply, ← add_div]
  have e2 : ∑ b : BVec (2 ^ d), ∏ i, Real.exp (((-1) ^ (a i + b i).val * lo l i + (-1) ^ (b i).val * hi l i) / 2) =
      ∏ i, ∑ c : ZMod 2, Real.exp (((-1) ^ (a i + c).val * lo l i + (-1) ^ c.val * hi l i) / 2) :=
    (Fintype.prod_sum fun (i : Fin (2 ^ d)) (c : ZMod 2) =>
      Real.exp (((-1) ^ (a i + c).val * lo l i + (-1) ^ c.val * hi l i) / 2)).symm
  rw [Finset.sum_congr rfl fun b _ => e1 b, e2, wordWeight_prod, ← Finset.prod_mul_distrib]
  apply Finset.prod_congr rfl
  intro i _
  rw [sum_zmod2, ← Real.exp_add, boxplus_eq]
  change _ = Real.exp ((Real.log (P i) + Real.log (Q i)) / 2 + (-1) ^ (a i).val * (Real.log (P i) - Real.log (Q i)) / 2)
  have v1 : (1 : ZMod 2).val = 1 := rfl
  rcases zmod2_cases (a i) with h | h
  · rw [h, show (Real.log (P i) + Real.log (Q i)) / 2 + (-1) ^ (0 : ZMod 2).val * (Real.log (P i) - Real.log (Q i)) / 2 = Real.log (P i)
      by rw [ZMod.val_zero]; ring, Real.exp_log (hP i)]
    simp only [P, zero_add, ZMod.val_zero, v1]
    congr 2 <;> ring
  · rw [h, show (Real.log (P i) + Real.log (Q i)) / 2 + (-1) ^ (1 : ZMod 2).val * (Real.log (P i) - Real.log (Q i)) / 2 = Real.log (Q i)
      by rw [v1]; ring, Real.exp_log (hQ i)]
    simp only [Q, add_zero, ZMod.val_zero, v1, show ((1 : ZMod 2) + 1) = 0 by decide]
    rw [add_comm]
    congr 2 <;> ring

/-! ### the recursion computes the log-ratios -/

theorem agreeing_inl {d : Nat} (past : BVec (2 ^ (d + 1))) (i : Fin (2 ^ d)) (b : ZMod 2) (u : BVec (2 ^ (d + 1))) :
    u ∈ agreeing past (halfEquiv d (.inl i)) b ↔ lo u ∈ agreeing (lo past) i b := by
  rw [agreeing, agreeing, Finset.mem_filter, Finset.mem_filter]
  simp only [Finset.mem_univ, true_and]
  refine and_congr ⟨fun h j hj => h _ ?_, fun h j hj => ?_⟩ Iff.rfl
  · rw [Fin.lt_def, half_inl, half_inl]; exact hj
  · obtain ⟨y, rfl⟩ := (halfEquiv d).surjective j
    cases y with
    | inl j => exact h j (by rw [Fin.lt_def, half_inl, half_inl] at hj; exact hj)
    | inr j =>
      rw [Fin.lt_def, half_inl, half_inr] at hj
      have := i.2
      omega

theorem agreeing_inr {d : Nat} (past : BVec (2 ^ (d + 1))) (i : Fin (2 ^ d)) (b : ZMod 2) (u : BVec (2 ^ (d + 1))) :
    u ∈ agreeing past (halfEquiv d (.inr i)) b ↔ lo u = lo past ∧ hi u ∈ agreeing (hi past) i b := by
  rw [agreeing, agreeing, Finset.mem_filter, Finset.mem_filter]
  simp only [Finset.mem_univ, true_and]
  rw [← and_assoc]
  refine and_congr ⟨fun h => ⟨?_, fun j hj => h _ ?_⟩, fun h j hj => ?_⟩ Iff.rfl
  · funext j
    apply h
    rw [Fin.lt_def, half_inl, half_inr]
    have := j.2
    omega
  · rw [Fin.lt_def, half_inr, half_inr]
    rw [Fin.lt_def] at hj
    omega
  · obtain ⟨y, rfl⟩ := (halfEquiv d).surjective j
    cases y with
    | inl j => exact congrFun h.1 j
    | inr j =>
      apply h.2
      rw [Fin.lt_def, half_inr, half_inr] at hj
      rw [Fin.lt_def]
      omega

/-- Vectors as pairs of halves. -/
def joinEquiv (d : Nat) : BVec (2 ^ d) × BVec (2 ^ d) ≃ BVec (2 ^ (d + 1)) where
  toFun x := join x.1 x.2
  invFun u := (lo u, hi u)
  left_inv x := by simp
  right_inv u := join_lo_hi u

theorem sum_join {d : Nat} (f : BVec (2 ^ (d + 1)) → ℝ) : ∑ u, f u = ∑ a : BVec (2 ^ d), ∑ b : BVec (2 ^ d), f (join a b) := by
  rw [← Equiv.sum_comp (joinEquiv d), Fintype.sum_prod_type]
  rfl

theorem sum_mem {α : Type} [Fintype α] [DecidableEq α] (s : Finset α) (f : α → ℝ) : ∑ u ∈ s, f u = ∑ u, if u ∈ s then f u else 0 := by
  simp [Finset.sum_ite_mem]

/-- The transform is a permutation of the vectors. -/
def transformEquiv (d : Nat) : BVec (2 ^ d) ≃ BVec (2 ^ d) := ⟨polarT d, polarT d, polarT_invol d, polarT_invol d⟩

theorem scRec_spec : ∀ (d idx : Nat) (msg : Fin (2 ^ d) → ℝ) (i : Fin (2 ^ d)),
    (scRec frozen d idx msg).1 i =
      Real.log ((∑ u ∈ agreeing (scRec frozen d idx msg).2 i 0, wordWeight msg (polarT d u)) /
        (∑ u ∈ agreeing (scRec frozen d idx msg).2 i 1, wordWeight msg (polarT d u))) := by
  intro d
  induction d with
  | zero =>
    intro idx msg i
    haveI : Subsingleton (Fin (2 ^ 0)) := inferInstanceAs (Subsingleton (Fin 1))
    have hone : ∀ (past : BVec (2 ^ 0)) (b : ZMod 2), agreeing past i b = {fun _ => b} := by
      intro past b
      ext u
      rw [agreeing, Finset.mem_filter, Finset.mem_singleton]
      simp only [Finset.mem_univ, true_and]
      constructor
      · rintro ⟨-, h⟩
        funext j
        rw [Subsingleton.elim j i, h]
      · rintro rfl
        refine ⟨fun j hj => ?_, rfl⟩
        rw [Subsingleton.elim j i] at hj
        exact absurd hj (lt_irrefl _)
    rw [hone, hone, Finset.sum_singleton, Finset.sum_singleton, polarT, polarT, wordWeight, wordWeight, ← Real.exp_sub, Real.log_exp]
    have h1 : ∀ f : Fin (2 ^ 0) → ℝ, ∑ j, f j = f i := by
      intro f
      rw [Fintype.sum_eq_single i]
      intro x hx
      exact absurd (Subsingleton.elim x i) hx
    rw [h1, h1, ZMod.val_zero, show (1 : ZMod 2).val = 1 from rfl, scRec]
    ring
  | succ d ih =>
    intro idx msg x
    rw [scRec]
    set f : Fin (2 ^ d) → ℝ := fun i => boxplus (lo msg i) (hi msg i) with hf
    simp only
    set L := scRec frozen d (idx * 2) f with hL
    set g : Fin (2 ^ d) → ℝ := fun i => hi msg i + (-1) ^ (polarT d L.2 i).val * lo msg i with hg
    set R := scRec frozen d (idx * 2 + 1) g with hR
    obtain ⟨y, rfl⟩ := (halfEquiv d).surjective x
    cases y with
    | inl i =>
      obtain ⟨κ, hκ, hsum⟩ := weight_left msg
      have key : ∀ b : ZMod 2, ∑ u ∈ agreeing (join L.2 R.2) (halfEquiv d (.inl i)) b, wordWeight msg (polarT (d + 1) u) =
          κ * ∑ a ∈ agreeing L.2 i b, wordWeight f (polarT d a) := by
        intro b
        rw [sum_mem, sum_join, sum_mem (agreeing L.2 i b), Finset.mul_sum]
        apply Finset.sum_congr rfl
        intro a _
        simp only [agreeing_inl, lo_join]
        split
        · rw [← hsum, ← Equiv.sum_comp (transformEquiv d)]
          apply Finset.sum_congr rfl
          intro c _
          rw [polarT, lo_join, hi_join, show polarT d (transformEquiv d c) = c from polarT_invol d c]
        · simp
      rw [join_inl, ih, key, key, mul_div_mul_left _ _ hκ.ne']
    | inr i =>
      have key : ∀ b : ZMod 2, ∑ u ∈ agreeing (join L.2 R.2) (halfEquiv d (.inr i)) b, wordWeight msg (polarT (d + 1) u) =
          ∑ a ∈ agreeing R.2 i b, wordWeight g (polarT d a) := by
        intro b
        rw [sum_mem, sum_join, Finset.sum_eq_single L.2]
        · rw [sum_mem (agreeing R.2 i b)]
          apply Finset.sum_congr rfl
          intro c _
          simp only [agreeing_inr, lo_join, hi_join, true_and]
          rw [polarT, lo_join, hi_join, weight_right]
        · intro a _ ha
          apply Finset.sum_eq_zero
          intro c _
          rw [if_neg]
          rw [agreeing_inr, lo_join, lo_join]
          exact fun h => ha h.1
        · simp
      rw [join_inr, ih, key, key]

open Classical in
theorem scRec_decision : ∀ (d idx : Nat) (msg : Fin (2 ^ d) → ℝ) (i : Fin (2 ^ d)),
    (scRec frozen d idx msg).2 i = if idx * 2 ^ d + i ∈ frozen then 0 else if (scRec frozen d idx msg).1 i < 0 then 1 else 0 := by
  intro d
  induction d with
  | zero =>
    intro idx msg i
    have : (i : Nat) = 0 := by simp
    rw [scRec, this]
    simp
  | succ d ih =>
    intro idx msg x
    rw [scRec]
    obtain ⟨y, rfl⟩ := (halfEquiv d).surjective x
    cases y with
    | inl i =>
      simp only [join_inl]
      rw [ih, half_inl, show idx * 2 * 2 ^ d + (i : Nat) = idx * 2 ^ (d + 1) + i by rw [pow_succ]; ring]
    | inr i =>
      simp only [join_inr]
      rw [ih, half_inr, show (idx * 2 + 1) * 2 ^ d + (i : Nat) = idx * 2 ^ (d + 1) + (2 ^ d + i) by rw [pow_succ]; ring]

theorem sign_boxplus (x y : ZMod 2) (a b : ℝ) (ha : 0 < (-1) ^ (x + y).val * a) (hb : 0 < (-1) ^ y.val * b) :
    0 < (-1) ^ x.val * boxplus a b := by
  have hneg : ∀ a b, boxplus (-a) b = -boxplus a b := fun a b => (C91_algebra a b 0).2.1
  have v1 : (1 : ZMod 2).val = 1 := rfl
  have h := mul_pos ha hb
  rw [sign_add] at h
  have hy : ((-1 : ℝ)) ^ y.val * (-1) ^ y.val = 1 := by
    rcases zmod2_cases y with rfl | rfl <;> simp [v1]
  have h2 : 0 < (-1) ^ x.val * a * b := by
    have : (-1) ^ x.val * (-1) ^ y.val * a * ((-1) ^ y.val * b) = ((-1) ^ y.val * (-1) ^ y.val) * ((-1) ^ x.val * a * b) := by ring
    rw [this, hy, one_mul] at h
    exact h
  rcases zmod2_cases x with rfl | rfl
  · rw [ZMod.val_zero, pow_zero, one_mul] at h2 ⊢
    exact (boxplus_pos_iff a b).mpr h2
  · rw [v1, pow_one, neg_one_mul, ] at h2 ⊢
    rw [← hneg]
    exact (boxplus_pos_iff _ b).mpr h2

theorem scRec_noiseless : ∀ (d idx : Nat) (msg : Fin (2 ^ d) → ℝ) (u : BVec (2 ^ d)),
    (∀ i : Fin (2 ^ d), idx * 2 ^ d + i ∈ frozen → u i = 0) → (∀ j, 0 < (-1) ^ (polarT d u j).val * msg j) →
    (scRec frozen d idx msg).2 = u ∧ ∀ i, 0 < (-1) ^ (u i).val * (scRec frozen d idx msg).1 i := by
  intro d
  induction d with
  | zero =>
    intro idx msg u hu hm
    rw [polarT] at hm
    rw [scRec]
    refine ⟨?_, hm⟩
    funext i
    have hi0 : (i : Nat) = 0 := by simp
    have hui := hu i
    rw [hi0] at hui
    simp only [pow_zero, mul_one, add_zero] at hui
    simp only
    split
    · rename_i h; rw [hui h]
    · have := hm i
      rcases zmod2_cases (u i) with h | h
      · rw [h, ZMod.val_zero, pow_zero, one_mul] at this
        rw [if_neg (by linarith), h]
      · rw [h, show (1 : ZMod 2).val = 1 from rfl, pow_one, neg_one_mul] at this
        rw [if_pos (by linarith), h]
  | succ d ih =>
    intro idx msg u hu hm
    have hml : ∀ i, 0 < (-1) ^ (polarT d (lo u) i + polarT d (hi u) i).val * lo msg i := by
      intro i
      have := hm (halfEquiv d (.inl i))
      rw [polarT, join_inl] at this
      exact this
    have hmh : ∀ i, 0 < (-1) ^ (polarT d (hi u) i).val * hi msg i := by
      intro i
      have := hm (halfEquiv d (.inr i))
      rw [polarT, join_inr] at this
      exact this
    obtain ⟨l1, l2⟩ := ih (idx * 2) (fun i => boxplus (lo msg i) (hi msg i)) (lo u) (by
      intro i hi
      apply hu (halfEquiv d (.inl i))
      rw [half_inl, show idx * 2 ^ (d + 1) + (i : Nat) = idx * 2 * 2 ^ d + i by rw [pow_succ]; ring]
      exact hi) (fun j => sign_boxplus _ _ _ _ (hml j) (hmh j))
    obtain ⟨r1, r2⟩ := ih (idx * 2 + 1) (fun i => hi msg i + (-1) ^ (polarT d (lo u) i).val * lo msg i) (hi u) (by
      intro i hi
      apply hu (halfEquiv d (.inr i))
      rw [half_inr, show idx * 2 ^ (d + 1) + (2 ^ d + (i : Nat)) = (idx * 2 + 1) * 2 ^ d + i by rw [pow_succ]; ring]
      exact hi) (fun j => by
        have h1 := hml j
        rw [sign_add] at h1
        rw [mul_add]
        apply add_pos (hmh j)
        calc _ < _ := h1
          _ = _ := by ring)
    rw [scRec]
    simp only [l1]
    refine ⟨by rw [r1, join_lo_hi], fun x => ?_⟩
    obtain ⟨y, rfl⟩ := (halfEquiv d).surjective x
    cases y with
    | inl i => rw [join_inl]; exact l2 i
    | inr i => rw [join_inr]; exact r2 i

/-! ### the theorems -/

theorem scSoft_eq (mu : Nat) (frozen : List Nat) (li : Fin (2 ^ mu) → ℝ) :
    scSoft mu frozen (List.ofFn li) = some (List.ofFn fun i : Fin (polarActive mu frozen).length =>
      (scRec frozen mu 0 li).1 ⟨(polarActive mu frozen)[i], polarActive_lt i⟩) := by
  apply StateSpace.blockwise_one _ (by positivity) _ _ (by simp)
  rw [scBlock_eq, ← List.ofFn_eq_map]

/-- Soft output, log-likelihood ratios of a memoryless channel (with likelihoods `p j b` of bit `b` in position `j`): the decoder never
fails, and there is one vector `past` of decisions — zero in the frozen positions, in the others one exactly when the log-ratio is
negative — such that the output lists, for the active positions, the successive-cancellation log-ratio given the earlier decisions. -/
theorem C92_soft (mu : Nat) (frozen : List Nat) (p : Fin (2 ^ mu) → ZMod 2 → ℝ) (hpos : ∀ j b, 0 < p j b) :
    ∃ past : BVec (2 ^ mu),
      (∀ i : Fin (2 ^ mu), (i : Nat) ∈ frozen → past i = 0) ∧
      (∀ i : Fin (2 ^ mu), (i : Nat) ∉ frozen → (past i = 1 ↔ scLogRatio (polarTransform mu) p past i < 0)) ∧
      scSoft mu frozen (List.ofFn fun j => Real.log (p j 0 / p j 1)) =
        some (List.ofFn fun i : Fin (polarActive mu frozen).length =>
          scLogRatio (polarTransform mu) p past ⟨(polarActive mu frozen)[i], polarActive_lt i⟩) ∧
      scHard mu frozen (List.ofFn fun j => Real.log (p j 0 / p j 1)) =
        some (List.ofFn fun i : Fin (polarActive mu frozen).length => past ⟨(polarActive mu frozen)[i], polarActive_lt i⟩) := by
  classical
  obtain ⟨κ, hκ, hw⟩ := weight_eq p hpos
  set li : Fin (2 ^ mu) → ℝ := fun j => Real.log (p j 0 / p j 1) with hli
  have hL : ∀ i, (scRec frozen mu 0 li).1 i = scLogRatio (polarTransform mu) p (scRec frozen mu 0 li).2 i := by
    intro i
    rw [scRec_spec, scLogRatio]
    have : ∀ u : BVec (2 ^ mu), wordWeight li (polarT mu u) = κ * ∏ j, p j (polarTransform mu u j) := by
      intro u
      rw [wordWeight, hli, hw, polarT_transform]
    rw [Finset.sum_congr rfl fun u _ => this u, Finset.sum_congr rfl fun u _ => this u, ← Finset.mul_sum, ← Finset.mul_sum,
      mul_div_mul_left _ _ hκ.ne']
  have hdec : ∀ i : Fin (2 ^ mu), (scRec frozen mu 0 li).2 i =
      if (i : Nat) ∈ frozen then 0 else if (scRec frozen mu 0 li).1 i < 0 then 1 else 0 := by
    intro i
    have := scRec_decision (frozen := frozen) mu 0 li i
    simpa using this
  refine ⟨(scRec frozen mu 0 li).2, ?_, ?_, ?_, ?_⟩
  · intro i hi
    rw [hdec, if_pos hi]
  · intro i hi
    rw [← hL, hdec, if_neg hi]
    split
    · rename_i h; simp [h]
    · rename_i h
      simp only [h, iff_false]
      exact zero_ne_one
  · rw [scSoft_eq]
    simp only [hL]
  · rw [scHard, scSoft_eq, Option.map_some, List.map_ofFn]
    congr 2
    funext i
    simp only [Function.comp]
    have hm := List.getElem_mem (l := polarActive mu frozen) i.2
    have h2 : (polarActive mu frozen)[i] ∉ frozen := by
      have := (List.mem_filter.mp hm).2
      simpa using this
    rw [hdec ⟨(polarActive mu frozen)[i], polarActive_lt i⟩, if_neg h2]

/-- If every log-likelihood ratio has the sign of the bit that was sent (positive for 0, negative for 1), the message is recovered. -/
theorem C92_noiseless (hmu : 1 ≤ mu) (hlt : ∀ i ∈ frozen, i < 2 ^ mu) (hnd : frozen.Nodup) :
    ∃ c, polarCode mu frozen = some c ∧ ∀ (u : BVec (polarActive mu frozen).length) (li : Fin (2 ^ mu) → ℝ),
      (∀ j, (c.encode u j = 0 → 0 < li j) ∧ (c.encode u j = 1 → li j < 0)) →
      scHard mu frozen (List.ofFn li) = some (List.ofFn u) := by
  classical
  obtain ⟨c, h1, -, -⟩ := C41_generator (polarGenerator mu frozen) polar_independent
  refine ⟨_, by rw [polarCode, if_neg (by omega), if_neg (by simpa using hlt), if_neg (by rw [hnd.dedup]; simp), h1,
    Option.map_some], fun u li hl => ?_⟩
  simp only at hl
  have hrec := scRec_noiseless (frozen := frozen) mu 0 li (polarScatter mu frozen u) (by
    intro i hi
    rw [zero_mul, zero_add] at hi
    exact polarScatter_frozen u i hi) (by
    intro j
    rw [polarT_transform]
    rcases zmod2_cases (polarTransform mu (polarScatter mu frozen u) j) with h | h
    · have := (hl j).1 h
      rw [h, ZMod.val_zero]; linarith
    · have := (hl j).2 h
      rw [h, show (1 : ZMod 2).val = 1 from rfl]; linarith)
  rw [scHard, scSoft_eq, Option.map_some, List.map_ofFn]
  congr 2
  funext i
  simp only [Function.comp]
  have hs := hrec.2 ⟨(polarActive mu frozen)[i], polarActive_lt i⟩
  rw [polarScatter_active] at hs
  rcases zmod2_cases (u i) with h | h
  · rw [h, ZMod.val_zero, pow_zero, one_mul] at hs
    rw [if_neg (by linarith), h]
  · rw [h, show (1 : ZMod 2).val = 1 from rfl, pow_one, neg_one_mul] at hs
    rw [if_pos (by linarith), h]

/-- A stream of several received words is decoded word by word. -/
theorem C92_blockwise (mu : Nat) (frozen : List Nat) (ls : List (Fin (2 ^ mu) → ℝ)) :
    ∃ outs : List (List ℝ), outs.length = ls.length ∧
      (∀ i (h1 : i < ls.length) (h2 : i < outs.length), scSoft mu frozen (List.ofFn ls[i]) = some outs[i] ∧
        outs[i].length = (polarActive mu frozen).length) ∧
      scSoft mu frozen (ls.map fun l : Fin (2 ^ mu) → ℝ => List.ofFn l).flatten = some outs.flatten := by
  refine ⟨ls.map fun l : Fin (2 ^ mu) → ℝ => List.ofFn fun i : Fin (polarActive mu frozen).length =>
      (scRec frozen mu 0 l).1 ⟨(polarActive mu frozen)[i], polarActive_lt i⟩, by simp, ?_, ?_⟩
  · intro i h1 h2
    rw [List.getElem_map]
    exact ⟨scSoft_eq mu frozen ls[i], by simp⟩
  · rw [scSoft, blockwise_flatten (2 ^ mu) (by positivity) (scBlock mu frozen) (fun l => (scBlock mu frozen l).getD []) _ (by simp) (by
      intro l hl
      obtain ⟨r, _, rfl⟩ := List.mem_map.mp hl
      rw [scBlock_eq]; rfl), List.map_map]
    congr 2
    apply List.map_congr_left
    intro l _
    simp only [Function.comp]
    rw [scBlock_eq, Option.getD_some, ← List.ofFn_eq_map]

/-- Words whose length is not a multiple of `2 ^ mu` are refused. -/
theorem C92_length (mu : Nat) (frozen : List Nat) (l : List ℝ) (h : l.length % 2 ^ mu ≠ 0) : scSoft mu frozen l = none := by
  rw [scSoft, blockwise]
  have : 2 ^ mu ≠ 0 := by positivity
  simp [h, this]

/-- A concrete case: `PolarCode(2, frozen=[0])`, log-likelihood ratio `a` for every zero sent and `-b` for every one. -/
example (a b : ℝ) (ha : 0 < a) (hb : 0 < b) : ∃ c, polarCode 2 [0] = some c ∧
    ∀ u, scHard 2 [0] (List.ofFn fun j => if c.encode u j = 0 then a else -b) = some (List.ofFn u) := by
  obtain ⟨c, hc, h⟩ := C92_noiseless (mu := 2) (frozen := [0]) (by norm_num) (by decide) (by decide)
  refine ⟨c, hc, fun u => h u _ fun j => ⟨fun h0 => by rw [if_pos h0]; exact ha, fun h1 => ?_⟩⟩
  rw [if_neg (by rw [h1]; exact one_ne_zero)]
  linarith

/-- A concrete case of the specification: one stage, nothing frozen, received likelihoods 3/4 and 1/4: the first log-ratio is that of the
sum of the two bits. -/
example : agreeing (0 : BVec 2) 0 0 = {![0, 0], ![0, 1]} ∧ agreeing (![1, 0] : BVec 2) 1 1 = {![1, 1]} := by decide

end Komm
