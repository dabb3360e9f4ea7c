import Verif.Lemmas.FiniteStateMachine
namespace Komm
open scoped BigOperators

theorem npExp_bot : npExp ⊥ = 0 := rfl
theorem npExp_coe (x : ℝ) : npExp ((x : ℝ) : WithBot ℝ) = Real.exp x := rfl

theorem npExp_nonneg (a : WithBot ℝ) : 0 ≤ npExp a := by
  cases a with
  | bot => exact le_rfl
  | coe x => exact (Real.exp_pos x).le

theorem npExp_npLog {x : ℝ} (hx : 0 ≤ x) : npExp (npLog x) = x := by
  unfold npLog
  split
  · rename_i h; rw [h]; rfl
  · rename_i h
    rw [npExp_coe, Real.exp_log (lt_of_le_of_ne hx (Ne.symm h))]

theorem npExp_add (a b : WithBot ℝ) : npExp (a + b) = npExp a * npExp b := by
  cases a with
  | bot => rw [WithBot.bot_add, npExp_bot, zero_mul]
  | coe x =>
    cases b with
    | bot => rw [WithBot.add_bot, npExp_bot, mul_zero]
    | coe y => rw [← WithBot.coe_add, npExp_coe, npExp_coe, npExp_coe, Real.exp_add]

theorem npExp_logaddexp (a b : WithBot ℝ) : npExp (logaddexp a b) = npExp a + npExp b := by
  cases a with
  | bot => rw [npExp_bot, zero_add]; cases b <;> rfl
  | coe x =>
    cases b with
    | bot => rw [npExp_bot, add_zero]; rfl
    | coe y =>
      show npExp ((Real.log (Real.exp x + Real.exp y) : ℝ) : WithBot ℝ) = Real.exp x + Real.exp y
      rw [npExp_coe, Real.exp_log (by positivity)]

theorem npExp_reduce {S : Nat} (f : Fin S → WithBot ℝ) : npExp (logaddexpReduce f) = ∑ s, npExp (f s) := by
  unfold logaddexpReduce
  have key : ∀ (l : List (Fin S)) (a : WithBot ℝ),
      npExp (l.foldl (fun acc s => logaddexp acc (f s)) a) = npExp a + (l.map fun s => npExp (f s)).sum := by
    intro l
    induction l with
    | nil => intro a; simp
    | cons s l ih => intro a; rw [List.foldl_cons, ih, npExp_logaddexp, List.map_cons, List.sum_cons, add_assoc]
  rw [key, npExp_bot, zero_add, ← Fin.sum_univ_def]

theorem npExp_eq_zero (a : WithBot ℝ) : npExp a = 0 ↔ a = ⊥ := by
  cases a with
  | bot => simp [npExp_bot]
  | coe x => simp [npExp_coe, Real.exp_ne_zero]

namespace Mealy
variable {S X : Nat}

/-- The probability-domain branch weight. -/
noncomputable def gam {Z : Type} (M : Mealy S X) (metric : Nat → Z → ℝ) (z : Z) (p : Fin X → ℝ) (s0 s1 : Fin S) : ℝ :=
  ∑ x, if M.next s0 x = s1 then p x * Real.exp (metric (M.out s0 x) z) else 0

theorem npExp_logGamma {Z : Type} (M : Mealy S X) (hM : M.NoParallel) (metric : Nat → Z → ℝ) (z : Z) (p : Fin X → ℝ)
    (hp : ∀ x, 0 ≤ p x) (s0 s1 : Fin S) : npExp (M.logGamma metric z p s0 s1) = M.gam metric z p s0 s1 := by
  unfold logGamma gam
  have key : ∀ (l : List (Fin X)) (acc : WithBot ℝ), l.Nodup →
      (acc ≠ ⊥ → ∀ x ∈ l, M.next s0 x ≠ s1) →
      npExp (l.foldl (fun (acc : WithBot ℝ) (x : Fin X) =>
        if M.next s0 x = s1 then npLog (p x) + ((metric (M.out s0 x) z : ℝ) : WithBot ℝ) else acc) acc) =
      npExp acc + (l.map fun x => if M.next s0 x = s1 then p x * Real.exp (metric (M.out s0 x) z) else 0).sum := by
    intro l
    induction l with
    | nil => intro acc _ _; simp
    | cons a l ih =>
      intro acc hnd hacc
      rw [List.nodup_cons] at hnd
      rw [List.foldl_cons, List.map_cons, List.sum_cons]
      by_cases ha : M.next s0 a = s1
      · rw [if_pos ha, if_pos ha, ih _ hnd.2, npExp_add, npExp_coe, npExp_npLog (hp a)]
        · have : acc = ⊥ := by
            by_contra hne
            exact hacc hne a (by simp) ha
          rw [this, npExp_bot]; ring
        · intro _ x hx he
          have := hM s0 a x (ha.trans he.symm)
          rw [this] at hnd
          exact hnd.1 hx
      · rw [if_neg ha, if_neg ha, ih _ hnd.2 (fun h x hx => hacc h x (by simp [hx])), zero_add]
  rw [key _ _ (List.nodup_finRange X) (by simp), npExp_bot, zero_add, ← Fin.sum_univ_def]

/-- probability-domain forward and backward steps -/
noncomputable def aStep (g : Fin S → Fin S → ℝ) (a : Fin S → ℝ) : Fin S → ℝ := fun s1 => ∑ s0, g s0 s1 * a s0
noncomputable def bStep (g : Fin S → Fin S → ℝ) (b : Fin S → ℝ) : Fin S → ℝ := fun s0 => ∑ s1, g s0 s1 * b s1

theorem npExp_alpha (gs : List (Fin S → Fin S → WithBot ℝ)) (a : Fin S → WithBot ℝ) :
    (fun s => npExp (gs.foldl (fun a g => alphaStep g a) a s)) =
      (gs.map fun g s0 s1 => npExp (g s0 s1)).foldl (fun a g => aStep g a) fun s => npExp (a s) := by
  induction gs generalizing a with
  | nil => rfl
  | cons g gs ih =>
    rw [List.foldl_cons, ih, List.map_cons, List.foldl_cons]
    congr 1
    funext s
    rw [alphaStep, npExp_reduce, aStep]
    simp_rw [npExp_add]

theorem npExp_beta (gs : List (Fin S → Fin S → WithBot ℝ)) (b : Fin S → WithBot ℝ) :
    (fun s => npExp (gs.foldr betaStep b s)) =
      (gs.map fun g s0 s1 => npExp (g s0 s1)).foldr bStep fun s => npExp (b s) := by
  induction gs with
  | nil => rfl
  | cons g gs ih =>
    rw [List.foldr_cons, List.map_cons, List.foldr_cons, ← ih]
    funext s
    rw [betaStep, npExp_reduce, bStep]
    simp_rw [npExp_add]

/-- transfer along a prefix -/
theorem forward_transfer (gs : List (Fin S → Fin S → ℝ)) (a b : Fin S → ℝ) :
    ∑ s, (gs.foldl (fun a g => aStep g a) a) s * b s = ∑ s, a s * (gs.foldr bStep b) s := by
  induction gs generalizing a with
  | nil => rfl
  | cons g gs ih =>
    rw [List.foldl_cons, ih, List.foldr_cons]
    unfold aStep bStep
    simp_rw [Finset.sum_mul, Finset.mul_sum]
    rw [Finset.sum_comm]
    apply Finset.sum_congr rfl; intro s _
    apply Finset.sum_congr rfl; intro s' _
    ring

theorem bStep_gam {Z : Type} (M : Mealy S X) (metric : Nat → Z → ℝ) (z : Z) (p : Fin X → ℝ) (b : Fin S → ℝ) (s : Fin S) :
    bStep (M.gam metric z p) b s = ∑ x, p x * Real.exp (metric (M.out s x) z) * b (M.next s x) := by
  unfold bStep gam
  simp_rw [Finset.sum_mul]
  rw [Finset.sum_comm]
  apply Finset.sum_congr rfl; intro x _
  simp_rw [ite_mul, zero_mul]
  rw [Finset.sum_ite_eq]
  simp

/-- The sum over all input sequences is the backward recursion. -/
theorem pathSum {Z : Type} (M : Mealy S X) (metric : Nat → Z → ℝ) (zs : List Z) (prior : Nat → Fin X → ℝ) (final : Fin S → ℝ)
    (s : Fin S) :
    ∑ xs : Fin zs.length → Fin X, (∏ t : Fin zs.length, prior t (xs t)) * Real.exp (M.cost metric s (List.ofFn xs) zs) *
        final (M.run s (List.ofFn xs)) =
      ((zs.mapIdx fun t z => M.gam metric z (prior t)).foldr bStep final) s := by
  induction zs generalizing s prior with
  | nil => simp [cost, outs, run]
  | cons z zs ih =>
    rw [List.mapIdx_cons, List.foldr_cons, bStep_gam]
    have e := (Fin.consEquiv (fun _ : Fin (zs.length + 1) => Fin X)).sum_comp
      (fun xs : Fin (z :: zs).length → Fin X => (∏ t : Fin (z :: zs).length, prior t (xs t)) *
        Real.exp (M.cost metric s (List.ofFn xs) (z :: zs)) * final (M.run s (List.ofFn xs)))
    refine e.symm.trans ?_
    rw [Fintype.sum_prod_type]
    apply Finset.sum_congr rfl
    intro x _
    rw [← ih (fun t => prior (t + 1)), Finset.mul_sum]
    apply Finset.sum_congr rfl
    intro xs _
    have h1 : List.ofFn (Fin.consEquiv (fun _ : Fin (zs.length + 1) => Fin X) (x, xs)) = x :: List.ofFn xs := by
      rw [List.ofFn_succ]; rfl
    have h2 : ∏ t : Fin (z :: zs).length, prior t (Fin.consEquiv (fun _ : Fin (zs.length + 1) => Fin X) (x, xs) t) =
        prior 0 x * ∏ t : Fin zs.length, prior (t + 1) (xs t) := by
      exact Fin.prod_univ_succ (fun t : Fin (zs.length + 1) =>
        prior t (Fin.consEquiv (fun _ : Fin (zs.length + 1) => Fin X) (x, xs) t))
    rw [h1, h2]
    have h3 : M.cost metric s (x :: List.ofFn xs) (z :: zs) =
        metric (M.out s x) z + M.cost metric (M.next s x) (List.ofFn xs) zs := by
      simp [cost, outs]
    rw [h3, Real.exp_add]
    show _ * final (M.run (M.next s x) (List.ofFn xs)) = _
    ring

/-- Sum of all joint weights. -/
theorem total_eq {Z : Type} (M : Mealy S X) (metric : Nat → Z → ℝ) (zs : List Z) (prior : Nat → Fin X → ℝ)
    (init final : Fin S → ℝ) :
    ∑ s, ∑ xs, M.jointWeight metric zs prior init final s xs =
      ∑ s, init s * ((zs.mapIdx fun t z => M.gam metric z (prior t)).foldr bStep final) s := by
  apply Finset.sum_congr rfl
  intro s _
  rw [← pathSum, Finset.mul_sum]
  apply Finset.sum_congr rfl
  intro xs _
  unfold jointWeight; ring

/-- Restricting the sum to input `x` at time `t` is restricting the prior. -/
theorem restrict_eq {Z : Type} (M : Mealy S X) (metric : Nat → Z → ℝ) (zs : List Z) (prior : Nat → Fin X → ℝ)
    (init final : Fin S → ℝ) (t : Fin zs.length) (x : Fin X) (s : Fin S) :
    (∑ xs : Fin zs.length → Fin X, if xs t = x then M.jointWeight metric zs prior init final s xs else 0) =
    ∑ xs, M.jointWeight metric zs (fun t' x' => if t' = t ∧ x' ≠ x then 0 else prior t' x') init final s xs := by
  apply Finset.sum_congr rfl
  intro xs _
  split
  · rename_i h
    unfold jointWeight
    congr 3
    apply Finset.prod_congr rfl
    intro t' _
    beta_reduce
    rw [if_neg]
    rintro ⟨e, hne⟩
    have := Fin.ext e
    rw [this] at hne
    exact hne h
  · rename_i h
    unfold jointWeight
    have hz : ∏ t' : Fin zs.length, (if (t' : Nat) = t ∧ xs t' ≠ x then 0 else prior t' (xs t')) = 0 :=
      Finset.prod_eq_zero (Finset.mem_univ t) (if_pos ⟨rfl, h⟩)
    rw [hz]
    ring

theorem mapIdx_split {α β : Type} (f : Nat → α → β) (l : List α) (t : Nat) (ht : t < l.length) :
    l.mapIdx f = (l.mapIdx f).take t ++ f t l[t] :: (l.mapIdx f).drop (t + 1) := by
  have h : t < (l.mapIdx f).length := by simpa
  conv_lhs => rw [← List.take_append_drop t (l.mapIdx f), List.drop_eq_getElem_cons h]
  rw [List.getElem_mapIdx]

theorem mapIdx_take_congr {α β : Type} (f g : Nat → α → β) (l : List α) (t : Nat) (h : ∀ i, i ≠ t → f i = g i) :
    (l.mapIdx f).take t = (l.mapIdx g).take t ∧ (l.mapIdx f).drop (t + 1) = (l.mapIdx g).drop (t + 1) := by
  constructor
  · apply List.ext_getElem (by simp)
    intro i h1 h2
    have : i < t := by simp at h1; omega
    rw [List.getElem_take, List.getElem_take, List.getElem_mapIdx, List.getElem_mapIdx, h i (by omega)]
  · apply List.ext_getElem (by simp)
    intro i h1 h2
    rw [List.getElem_drop, List.getElem_drop, List.getElem_mapIdx, List.getElem_mapIdx, h _ (by omega)]

theorem amax_spec (l : Fin X → WithBot ℝ) : amax l = ⊥ ↔ ∀ x, l x = ⊥ := by
  unfold amax
  have key : ∀ (m : List (Fin X)) (a : WithBot ℝ), m.foldl (fun acc x => max acc (l x)) a = ⊥ ↔
      a = ⊥ ∧ ∀ x ∈ m, l x = ⊥ := by
    intro m
    induction m with
    | nil => intro a; simp
    | cons x m ih =>
      intro a
      rw [List.foldl_cons, ih, max_eq_bot]
      simp [and_assoc]
  rw [key]
  simp

theorem normalizeRow_spec (l : Fin X → WithBot ℝ) (w : Fin X → ℝ) (hw : ∀ x, npExp (l x) = w x) (T : ℝ)
    (hT : ∑ x, w x = T) (hne : T ≠ 0) : normalizeRow l = some fun x => w x / T := by
  unfold normalizeRow
  have hnb : amax l ≠ ⊥ := by
    intro h
    rw [amax_spec] at h
    apply hne
    rw [← hT]
    apply Finset.sum_eq_zero
    intro x _
    rw [← hw, h x, npExp_bot]
  cases hm : amax l with
  | bot => exact absurd hm hnb
  | coe m =>
    simp only [Option.some.injEq]
    funext x
    simp_rw [npExp_add, npExp_coe, hw, ← Finset.sum_mul, hT]
    rw [mul_div_mul_right _ _ (Real.exp_ne_zero _)]

theorem posteriorRow_spec {Z : Type} (M : Mealy S X) (hM : M.NoParallel) (metric : Nat → Z → ℝ) (zs : List Z)
    (prior : Nat → Fin X → ℝ) (init final : Fin S → ℝ) (hp : ∀ t x, 0 ≤ prior t x) (hi : ∀ s, 0 ≤ init s)
    (hf : ∀ s, 0 ≤ final s) (t : Fin zs.length)
    (hne : ∑ s, ∑ xs, M.jointWeight metric zs prior init final s xs ≠ 0) :
    M.posteriorRow (zs.mapIdx fun t z => M.logGamma metric z (prior t)) (fun s => npLog (init s))
        (fun s => npLog (final s)) t = some fun x =>
      (∑ s, ∑ xs : Fin zs.length → Fin X, if xs t = x then M.jointWeight metric zs prior init final s xs else 0) /
        ∑ s, ∑ xs, M.jointWeight metric zs prior init final s xs := by
  unfold posteriorRow
  simp only
  apply normalizeRow_spec _ (fun x => ∑ s, ∑ xs : Fin zs.length → Fin X,
    if xs t = x then M.jointWeight metric zs prior init final s xs else 0) _ _ _ hne
  · intro x
    rw [npExp_reduce]
    simp_rw [npExp_add, restrict_eq]
    rw [total_eq, mapIdx_split (fun (t' : Nat) (z : Z) => M.gam metric z (fun x' => if t' = t ∧ x' ≠ x then 0 else prior t' x')) zs t t.is_lt]
    obtain ⟨e1, e2⟩ := mapIdx_take_congr
      (fun (t' : Nat) (z : Z) => M.gam metric z (fun x' => if t' = t ∧ x' ≠ x then 0 else prior t' x'))
      (fun (t' : Nat) (z : Z) => M.gam metric z (prior t')) zs t (by
        intro i hi
        funext z
        simp [hi])
    rw [e1, e2, List.foldr_append, ← forward_transfer, List.foldr_cons]
    have ha := npExp_alpha (S := S) ((zs.mapIdx fun t z => M.logGamma metric z (prior t)).take t) (fun s => npLog (init s))
    have hb := npExp_beta (S := S) ((zs.mapIdx fun t z => M.logGamma metric z (prior t)).drop (t + 1))
      (fun s => npLog (final s))
    have hg : (zs.mapIdx fun t z => M.logGamma metric z (prior t)).map (fun g s0 s1 => npExp (g s0 s1)) =
        zs.mapIdx fun t z => M.gam metric z (prior t) := by
      apply List.ext_getElem (by simp)
      intro i h1 h2
      rw [List.getElem_map, List.getElem_mapIdx, List.getElem_mapIdx]
      funext s0 s1
      exact npExp_logGamma M hM metric _ _ (hp i) s0 s1
    rw [List.map_take, hg] at ha
    rw [List.map_drop, hg] at hb
    have hi' : (fun s => npExp (npLog (init s))) = init := by funext s; exact npExp_npLog (hi s)
    have hf' : (fun s => npExp (npLog (final s))) = final := by funext s; exact npExp_npLog (hf s)
    rw [hi'] at ha
    rw [hf'] at hb
    rw [← ha, ← hb]
    apply Finset.sum_congr rfl
    intro s _
    rw [bStep_gam, Finset.sum_eq_single x]
    · rw [if_neg (by simp)]
      have hgam : npExp ((zs.mapIdx fun t z => M.logGamma metric z (prior t)).getD t (fun _ _ => ⊥) s (M.next s x)) =
          prior t x * Real.exp (metric (M.out s x) zs[t]) := by
        rw [List.getD_eq_getElem?_getD, List.getElem?_eq_getElem (by simp), Option.getD_some, List.getElem_mapIdx, npExp_logGamma M hM metric _ _ (hp t), gam,
          Finset.sum_eq_single x]
        · rw [if_pos rfl]; rfl
        · intro x' _ hx'
          rw [if_neg fun e => hx' (hM _ _ _ e)]
        · simp
      rw [hgam]
      simp only [Fin.getElem_fin]
      ring
    · intro x' _ hx'
      rw [if_pos ⟨rfl, hx'⟩]; ring
    · simp
  · rw [Finset.sum_comm]
    apply Finset.sum_congr rfl
    intro s _
    rw [Finset.sum_comm]
    apply Finset.sum_congr rfl
    intro xs _
    rw [Finset.sum_ite_eq]
    simp

end Mealy
end Komm
