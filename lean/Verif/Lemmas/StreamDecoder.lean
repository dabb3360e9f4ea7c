import Verif.Model.StreamDecoder
import Verif.Lemmas.TrellisDecoders
import Verif.Lemmas.FreeDistanceLinear
import Mathlib.Data.Fintype.Pigeonhole
import Mathlib.Tactic.Ring
import Mathlib.Tactic.Linarith
/-! The survivor paths of a good encoder agree with the transmitted path except near their end. -/
namespace Komm.StateSpace
variable {k n σ : Nat}

/-- Number of positions where two lists differ, in the form in which it appears in path costs. -/
def diff (a b : List (ZMod 2)) : Int := (List.zipWith (fun b z : ZMod 2 => if z ≠ b then (1 : Int) else 0) a b).sum

theorem diff_cons (x y : ZMod 2) (a b : List (ZMod 2)) : diff (x :: a) (y :: b) = (if y ≠ x then 1 else 0) + diff a b := rfl

theorem diff_append (a a' b b' : List (ZMod 2)) (h : a.length = b.length) : diff (a ++ a') (b ++ b') = diff a b + diff a' b' :=
  zipWith_sum_append _ _ _ _ _ h

theorem diff_nonneg (a b : List (ZMod 2)) : 0 ≤ diff a b := by
  induction a generalizing b with
  | nil => simp [diff]
  | cons x a ih =>
    cases b with
    | nil => simp [diff]
    | cons y b => rw [diff_cons]; have := ih b; split <;> omega

theorem diff_le (a b : List (ZMod 2)) : diff a b ≤ a.length := by
  induction a generalizing b with
  | nil => simp [diff]
  | cons x a ih =>
    cases b with
    | nil => simp [diff]; omega
    | cons y b => rw [diff_cons, List.length_cons]; have := ih b; push_cast; split <;> omega

theorem diff_triangle (a b r : List (ZMod 2)) (ha : a.length = r.length) (hb : b.length = r.length) :
    ((List.zipWith (· + ·) a b).count 1 : Int) ≤ diff a r + diff b r := by
  induction r generalizing a b with
  | nil =>
    rw [List.length_nil, List.length_eq_zero_iff] at ha hb
    subst ha hb; simp [diff]
  | cons z r ih =>
    obtain ⟨x, a, rfl⟩ := List.exists_cons_of_length_eq_add_one ha
    obtain ⟨y, b, rfl⟩ := List.exists_cons_of_length_eq_add_one hb
    have := ih a b (by simpa using ha) (by simpa using hb)
    rw [diff_cons, diff_cons, List.zipWith_cons_cons, List.count_cons]
    push_cast
    have key : ∀ x y z : ZMod 2, ((if (x + y == 1) = true then 1 else 0 : Int)) ≤ (if z ≠ x then 1 else 0) + (if z ≠ y then 1 else 0) := by
      decide
    have := key x y z
    linarith

/-- The number of ones in a list of blocks. -/
def wt (vs : List (BVec n)) : Nat := (flat vs).count 1

theorem wt_append (a b : List (BVec n)) : wt (a ++ b) = wt a + wt b := by rw [wt, flat_append, List.count_append]; rfl
theorem wt_pos {vs : List (BVec n)} : 0 < wt vs ↔ ∃ v ∈ vs, v ≠ 0 := count_flat_pos vs

theorem wt_triangle (a b r : List (BVec n)) (ha : a.length = r.length) (hb : b.length = r.length) :
    (wt (List.zipWith (fun x y : BVec n => x + y) a b) : Int) ≤ diff (flat a) (flat r) + diff (flat b) (flat r) := by
  rw [wt, ← flat_zipWith]
  exact diff_triangle _ _ _ (by rw [flat_length, flat_length, ha]) (by rw [flat_length, flat_length, hb])

variable (c : StateSpace k n σ)

/-- No closed walk through a non-zero state is weightless. -/
def NoZeroCycle : Prop := ∀ (s : BVec σ) (us : List (BVec k)), s ≠ 0 → us ≠ [] → c.run s us = s → 0 < wt (c.outs s us)

/-- Every state is reached from every state in `ν` steps. -/
def ReachableIn (ν : Nat) : Prop := ∀ s s' : BVec σ, ∃ tl : List (BVec k), tl.length = ν ∧ c.run s tl = s'

/-- A walk of `2^σ` steps over non-zero states has positive weight. -/
theorem NoZeroCycle.window (h : c.NoZeroCycle) (s : BVec σ) (us : List (BVec k)) (hl : 2 ^ σ ≤ us.length)
    (hs : ∀ i, i ≤ us.length → c.run s (us.take i) ≠ 0) : 0 < wt (c.outs s us) := by
  obtain ⟨i, j, hij, he⟩ := Fintype.exists_ne_map_eq_of_card_lt (fun i : Fin (2 ^ σ + 1) => c.run s (us.take i))
    (by rw [Fintype.card_fin]; simp [BVec])
  wlog hlt : i < j generalizing i j with H
  · exact H j i hij.symm he.symm (lt_of_le_of_ne (not_lt.mp hlt) hij.symm)
  have hi := i.is_lt
  have hj := j.is_lt
  have hltn : (i : Nat) < j := hlt
  have e1 : us = us.take i ++ ((us.take j).drop i ++ us.drop j) := by
    have : us.take i = (us.take j).take i := by rw [List.take_take, Nat.min_eq_left hltn.le]
    rw [this, ← List.append_assoc, List.take_append_drop, List.take_append_drop]
  have e2 : us.take j = us.take i ++ (us.take j).drop i := by
    have : us.take i = (us.take j).take i := by rw [List.take_take, Nat.min_eq_left hltn.le]
    rw [this, List.take_append_drop]
  have hrun : c.run (c.run s (us.take i)) ((us.take j).drop i) = c.run s (us.take i) := by
    rw [← run_append, ← e2]
    exact he.symm
  have hne : (us.take j).drop i ≠ [] := by
    intro h0
    have := congrArg List.length h0
    simp at this
    omega
  have := h (c.run s (us.take i)) _ (hs i (by omega)) hne hrun
  rw [e1, outs_append, wt_append, outs_append, wt_append]
  omega

/-- A walk of `m 2^σ` steps over non-zero states has weight at least `m`. -/
theorem NoZeroCycle.weight (h : c.NoZeroCycle) (m : Nat) (s : BVec σ) (us : List (BVec k)) (hl : m * 2 ^ σ ≤ us.length)
    (hs : ∀ i, i ≤ us.length → c.run s (us.take i) ≠ 0) : m ≤ wt (c.outs s us) := by
  induction m generalizing s us with
  | zero => omega
  | succ m ih =>
    have hl' : m * 2 ^ σ + 2 ^ σ ≤ us.length := by rw [← Nat.succ_mul]; exact hl
    have e := List.take_append_drop (2 ^ σ) us
    rw [← e, outs_append, wt_append]
    have h1 := h.window c s (us.take (2 ^ σ)) (by simp; omega) (fun i hi => by
      rw [List.take_take]
      exact hs _ (by simp at hi ⊢; omega))
    have h2 := ih (c.run s (us.take (2 ^ σ))) (us.drop (2 ^ σ)) (by simp; omega) (fun i hi => by
      rw [← run_append]
      have : us.take (2 ^ σ) ++ (us.drop (2 ^ σ)).take i = us.take (2 ^ σ + i) := by rw [List.take_add]
      rw [this]
      exact hs _ (by simp at hi ⊢; omega))
    omega

theorem diff_flat_append (a a' b b' : List (BVec n)) (h : a.length = b.length) :
    diff (flat (a ++ a')) (flat (b ++ b')) = diff (flat a) (flat b) + diff (flat a') (flat b') := by
  rw [flat_append, flat_append, diff_append _ _ _ _ (by rw [flat_length, flat_length, h])]

theorem diff_flat_le (a b : List (BVec n)) : diff (flat a) (flat b) ≤ a.length * n := by
  have := diff_le (flat a) (flat b)
  rw [flat_length] at this
  exact_mod_cast this

/-- Sum of two lists of blocks. -/
def plus (a b : List (BVec k)) : List (BVec k) := List.zipWith (fun x y : BVec k => x + y) a b

theorem plus_length (a b : List (BVec k)) (h : a.length = b.length) : (plus a b).length = a.length := by simp [plus, h]

theorem run_plus (s s' : BVec σ) (a b : List (BVec k)) (h : a.length = b.length) :
    c.run (s + s') (plus a b) = c.run s a + c.run s' b := c.run_add s s' a b h

/-- Blocks `i, …, i + m - 1` of a list. -/
def seg {α : Type} (l : List α) (i m : Nat) : List α := (l.drop i).take m

theorem seg_add {α : Type} (l : List α) (i m m' : Nat) : seg l i (m + m') = seg l i m ++ seg l (i + m) m' := by
  rw [seg, seg, seg, List.take_add, List.drop_drop]

/-- At most `e` errors in every `W` consecutive blocks: at most `e (m / W + 1)` in `m` blocks, and at most `e` if `m ≤ W`. -/
theorem seg_errors (V R : List (BVec n)) (hl : V.length = R.length) (W e : Nat) (hW : 0 < W)
    (h : ∀ i, diff (flat (seg V i W)) (flat (seg R i W)) ≤ e) (i m : Nat) :
    diff (flat (seg V i m)) (flat (seg R i m)) ≤ ((e * (m / W + 1) : Nat) : Int) ∧
      (m ≤ W → diff (flat (seg V i m)) (flat (seg R i m)) ≤ e) := by
  have hlen : ∀ i m, (seg V i m).length = (seg R i m).length := by intro i m; simp [seg, hl]
  have small : ∀ i m, m ≤ W → diff (flat (seg V i m)) (flat (seg R i m)) ≤ e := by
    intro i m hm
    have := h i
    rw [show W = m + (W - m) by omega, seg_add, seg_add, diff_flat_append _ _ _ _ (hlen _ _)] at this
    have := diff_nonneg (flat (seg V (i + m) (W - m))) (flat (seg R (i + m) (W - m)))
    linarith
  refine ⟨?_, small i m⟩
  induction m using Nat.strong_induction_on generalizing i with
  | _ m ih =>
    rcases Nat.lt_or_ge m W with hlt | hge
    · have := small i m hlt.le
      rw [show m / W = 0 from Nat.div_eq_of_lt hlt, zero_add, mul_one]
      exact this
    · obtain ⟨m', rfl⟩ : ∃ m', m = W + m' := ⟨m - W, by omega⟩
      rw [seg_add, seg_add, diff_flat_append _ _ _ _ (hlen _ _), Nat.add_div_left _ hW]
      have h1 := ih m' (by omega) (i + W)
      have h2 := h i
      have e1 : e * ((m' / W).succ + 1) = e + e * (m' / W + 1) := by rw [Nat.succ_eq_add_one]; ring
      rw [e1, Nat.cast_add]
      linarith

theorem run_seg (c : StateSpace k n σ) (us : List (BVec k)) (a m : Nat) :
    c.run (c.run 0 (us.take a)) (seg us a m) = c.run 0 (us.take (a + m)) := by
  rw [← run_append, List.take_add]; rfl

theorem seg_outs (c : StateSpace k n σ) (us : List (BVec k)) (a m : Nat) (ha : a ≤ us.length) :
    c.outs (c.run 0 (us.take a)) (seg us a m) = seg (c.outs 0 us) a m := by
  have e : us = us.take a ++ (seg us a m ++ us.drop (a + m)) := by
    rw [seg, ← List.drop_drop, List.take_append_drop, List.take_append_drop]
  have l1 : (c.outs 0 (us.take a)).length = a := by rw [outs_length, List.length_take]; omega
  conv_rhs => rw [e]
  rw [outs_append, outs_append]
  conv_rhs => rw [seg, List.drop_append, l1, Nat.sub_self, List.drop_zero, List.drop_eq_nil_of_le (by rw [l1]), List.nil_append]
  by_cases hm : m ≤ us.length - a
  · rw [List.take_append_of_le_length (by rw [outs_length]; simp [seg]; omega)]
    exact (List.take_of_length_le (by rw [outs_length]; simp [seg])).symm
  · have : us.drop (a + m) = [] := List.drop_eq_nil_of_le (by omega)
    rw [this]
    simp only [outs, List.append_nil]
    exact (List.take_of_length_le (by rw [outs_length]; simp [seg])).symm

/-- Replacing a stretch of the survivor by the transmitted path and another end cannot make it better. -/
theorem swap_segment (us xs : List (BVec k)) (rs : List (BVec n)) (hu : us.length = rs.length) (hx : xs.length = rs.length)
    (hbest : ∀ ys, ys.length = xs.length → c.run 0 ys = c.run 0 xs →
      diff (flat (c.outs 0 xs)) (flat rs) ≤ diff (flat (c.outs 0 ys)) (flat rs))
    (a m : Nat) (ham : a + m ≤ rs.length) (hm : c.run 0 (us.take a) = c.run 0 (xs.take a))
    (tl : List (BVec k)) (htl : tl.length = rs.length - (a + m)) (htr : c.run (c.run 0 (us.take (a + m))) tl = c.run 0 xs) :
    (wt (c.outs 0 (seg (plus us xs) a m)) : Int) + diff (flat (c.outs (c.run 0 (xs.take (a + m))) (xs.drop (a + m)))) (flat (rs.drop (a + m))) ≤
      2 * diff (flat (seg (c.outs 0 us) a m)) (flat (seg rs a m)) +
        diff (flat (c.outs (c.run 0 (us.take (a + m))) tl)) (flat (rs.drop (a + m))) := by
  have split3 : ∀ {α : Type} (l : List α), l = l.take a ++ (seg l a m ++ l.drop (a + m)) := by
    intro α l
    rw [seg, ← List.drop_drop, List.take_append_drop, List.take_append_drop]
  have lx : (xs.take a).length = (rs.take a).length := by simp [hx]
  have lx1 : (seg xs a m).length = (seg rs a m).length := by simp [seg, hx]
  have lu1 : (seg us a m).length = (seg rs a m).length := by simp [seg, hu]
  have hb := hbest (xs.take a ++ (seg us a m ++ tl)) (by
      simp only [List.length_append, List.length_take, seg, List.length_drop, htl]; omega) (by
    rw [run_append, run_append, ← hm, run_seg, htr])
  have e1 : c.outs 0 xs = c.outs 0 (xs.take a) ++ (c.outs (c.run 0 (xs.take a)) (seg xs a m) ++
      c.outs (c.run 0 (xs.take (a + m))) (xs.drop (a + m))) := by
    rw [← c.run_seg xs a m, ← outs_append, ← outs_append, ← split3]
  have e2 : c.outs 0 (xs.take a ++ (seg us a m ++ tl)) = c.outs 0 (xs.take a) ++ (c.outs (c.run 0 (us.take a)) (seg us a m) ++
      c.outs (c.run 0 (us.take (a + m))) tl) := by
    rw [← c.run_seg us a m, ← outs_append, hm, ← outs_append]
  rw [e1, e2, split3 rs, diff_flat_append _ _ _ _ (by rw [outs_length, lx]), diff_flat_append _ _ _ _ (by rw [outs_length, lx1]),
    diff_flat_append _ _ _ _ (by rw [outs_length, lx]), diff_flat_append _ _ _ _ (by rw [outs_length, lu1])] at hb
  have ht := wt_triangle (c.outs (c.run 0 (us.take a)) (seg us a m)) (c.outs (c.run 0 (xs.take a)) (seg xs a m)) (seg rs a m)
    (by rw [outs_length, lu1]) (by rw [outs_length, lx1])
  rw [← c.outs_add _ _ _ _ (by omega), hm, bvec_add_self] at ht
  have e3 : seg (plus us xs) a m = List.zipWith (fun x y : BVec k => x + y) (seg us a m) (seg xs a m) := by
    rw [seg, seg, seg, plus, List.drop_zipWith, List.take_zipWith]
  rw [e3, ← c.seg_outs us a m (by omega), hm]
  rw [hm] at hb
  linarith

theorem window_bound (P e q l : Nat) (hq : q * (P * (4 * e + 1) + 2) ≤ l) (h1 : 1 ≤ q) : q * (4 * e + 1) * P ≤ l - 2 := by
  have : q * (P * (4 * e + 1) + 2) = q * (4 * e + 1) * P + 2 * q := by ring
  omega

/-- The survivor's input agrees with the transmitted one at every time more than the traceback length ago. -/
theorem survivor_agrees (hp : ∀ u : BVec k, vecMat u c.B = 0 → u = 0) (hz : c.NoZeroCycle) (ν : Nat) (hr : c.ReachableIn ν) (d e : Nat)
    (hd : ∀ us, c.run 0 us = 0 → 0 < wt (c.outs 0 us) → d ≤ wt (c.outs 0 us)) (hde : 2 * e < d)
    (us xs : List (BVec k)) (rs : List (BVec n)) (hu : us.length = rs.length) (hx : xs.length = rs.length)
    (hbest : ∀ ys, ys.length = xs.length → c.run 0 ys = c.run 0 xs →
      diff (flat (c.outs 0 xs)) (flat rs) ≤ diff (flat (c.outs 0 ys)) (flat rs))
    (W : Nat) (hW : W = 2 ^ σ * (4 * e + 1) + 2)
    (he : ∀ i, diff (flat (seg (c.outs 0 us) i W)) (flat (seg rs i W)) ≤ e)
    (p : Nat) (hpT : p + ν + (ν * n + 1) * W ≤ rs.length) : us[p]? = xs[p]? := by
  have hW0 : 0 < W := by omega
  have hWle : W ≤ (ν * n + 1) * W := Nat.le_mul_of_pos_left _ (by omega)
  have herr := seg_errors (c.outs 0 us) rs (by rw [outs_length, hu]) W e hW0 he
  obtain ⟨δ, hδ⟩ : ∃ δ : Nat → BVec σ, ∀ i, δ i = c.run 0 ((plus us xs).take i) := ⟨_, fun _ => rfl⟩
  have hlp : (plus us xs).length = rs.length := by rw [plus_length _ _ (by omega), hu]
  have hsum : ∀ i, c.run 0 (us.take i) = c.run 0 (xs.take i) ↔ δ i = 0 := by
    intro i
    have : δ i = c.run 0 (us.take i) + c.run 0 (xs.take i) := by
      have := c.run_plus 0 0 (us.take i) (xs.take i) (by simp [hu, hx])
      rw [add_zero] at this
      rw [← this, plus, ← List.take_zipWith, hδ]; rfl
    rw [this]
    constructor
    · intro h; rw [h, bvec_add_self]
    · intro h
      have h2 := congrArg (· + c.run 0 (xs.take i)) h
      simp only [add_assoc, bvec_add_self, add_zero, zero_add] at h2
      exact h2
  -- the last time up to `p` at which the two paths meet
  obtain ⟨a, hap, ha0, hamax⟩ : ∃ a, a ≤ p ∧ δ a = 0 ∧ ∀ i, a < i → i ≤ p → δ i ≠ 0 := by
    classical
    refine ⟨Nat.findGreatest (fun a => δ a = 0) p, Nat.findGreatest_le p, ?_, ?_⟩
    · exact Nat.findGreatest_spec (P := fun a => δ a = 0) (Nat.zero_le p) (show δ 0 = 0 by rw [hδ]; rfl)
    · intro i h1 h2 h3
      have := Nat.le_findGreatest (P := fun a => δ a = 0) h2 h3
      omega
  by_contra hne
  have hseg : ∀ m i, i ≤ m → c.run 0 ((seg (plus us xs) a m).take i) = δ (a + i) := by
    intro m i him
    rw [hδ, ← c.run_seg, ← hδ, ha0, seg, seg, List.take_take, Nat.min_eq_left him]
  have hstep : δ (a + 1) ≠ 0 := by
    rcases Nat.lt_or_ge a p with hlt | hge
    · exact hamax (a + 1) (by omega) (by omega)
    · have hpa : a = p := by omega
      subst hpa
      intro h0
      apply hne
      have e1 : (plus us xs).take (a + 1) = (plus us xs).take a ++ [(plus us xs)[a]'(by omega)] := (List.take_concat_get' _ _ _).symm
      rw [hδ, e1, run_append, ← hδ, ha0] at h0
      have h3 : c.next 0 ((plus us xs)[a]'(by omega)) = 0 := h0
      have h4 : vecMat ((plus us xs)[a]'(by omega)) c.B = 0 := by
        rw [next] at h3
        have : vecMat (0 : BVec σ) c.A = 0 := by funext s; simp [vecMat]
        rw [this, zero_add] at h3
        exact h3
      have h5 := hp _ h4
      simp only [plus, List.getElem_zipWith] at h5
      rw [List.getElem?_eq_getElem (by omega), List.getElem?_eq_getElem (by omega)]
      have h6 := congrArg (· + xs[a]'(by omega)) h5
      simp only [add_assoc, bvec_add_self, add_zero, zero_add] at h6
      exact congrArg some h6
  have hm := (hsum a).mpr ha0
  -- a stretch of `m ≥ 2` blocks on which the two paths stay apart has a large weight
  have hwt : ∀ m, 2 ≤ m → a + m ≤ rs.length → (∀ i, 1 ≤ i → i < m → δ (a + i) ≠ 0) → 1 ≤ m / W →
      (m / W) * (4 * e + 1) ≤ wt (c.outs 0 (seg (plus us xs) a m)) := by
    intro m h2 ham hnz hq
    have hl : (seg (plus us xs) a m).length = m := by simp [seg, hlp]; omega
    have hb := window_bound (2 ^ σ) e (m / W) m (by rw [← hW]; exact Nat.div_mul_le_self m W) hq
    obtain ⟨L, hL⟩ : ∃ L, L = seg (plus us xs) a m := ⟨_, rfl⟩
    have hsL := hseg m
    rw [← hL] at hl hsL ⊢
    have e1 : L = L.take 1 ++ ((L.drop 1).take (m - 2) ++ L.drop (m - 1)) := by
      conv_lhs => rw [← List.take_append_drop 1 L, ← List.take_append_drop (m - 2) (L.drop 1), List.drop_drop,
        show 1 + (m - 2) = m - 1 by omega]
    have hw := hz.weight c (m / W * (4 * e + 1)) (c.run 0 (L.take 1)) ((L.drop 1).take (m - 2))
      (by simp [hl]; omega) (by
        intro i hi
        rw [List.length_take, List.length_drop, hl] at hi
        rw [← run_append, List.take_take, Nat.min_eq_left (by omega), ← List.take_add, hsL _ (by omega)]
        exact hnz _ (by omega) (by omega))
    rw [e1, outs_append, wt_append, outs_append, wt_append]
    omega
  have hall : ∀ b, a < b → b ≤ rs.length → δ b ≠ 0 := by
    by_contra hex
    push Not at hex
    classical
    obtain ⟨hab, hbl, hb0⟩ := Nat.find_spec hex
    have hmin : ∀ i, a < i → i < Nat.find hex → δ i ≠ 0 := by
      intro i h1 h2 h3
      exact Nat.find_min hex h2 ⟨h1, by omega, h3⟩
    obtain ⟨m, hmb⟩ : ∃ m, Nat.find hex = a + m := ⟨Nat.find hex - a, by omega⟩
    rw [hmb] at hab hbl hb0 hmin
    have hm2 : 2 ≤ m := by
      by_contra hlt
      have : m = 1 := by omega
      rw [this] at hb0
      exact hstep hb0
    have hsw := c.swap_segment us xs rs hu hx hbest a m hbl hm (xs.drop (a + m)) (by simp [hx])
      (by rw [(hsum (a + m)).mpr hb0, ← run_append, List.take_append_drop])
    rw [(hsum (a + m)).mpr hb0] at hsw
    obtain ⟨he1, he2⟩ := herr a m
    rcases Nat.lt_or_ge W m with hlt | hge
    · have hq : 1 ≤ m / W := (Nat.one_le_div_iff hW0).mpr hlt.le
      have h1 := hwt m hm2 hbl (fun i hi1 hi2 => hmin _ (by omega) (by omega)) hq
      have h2 : (wt (c.outs 0 (seg (plus us xs) a m)) : Int) ≤ 2 * ((e * (m / W + 1) : Nat) : Int) := by linarith
      have h3 : wt (c.outs 0 (seg (plus us xs) a m)) ≤ 2 * (e * (m / W + 1)) := by exact_mod_cast h2
      have h4 : m / W * (4 * e + 1) ≤ 2 * (e * (m / W + 1)) := h1.trans h3
      have h5 : e ≤ e * (m / W) := Nat.le_mul_of_pos_right _ hq
      nlinarith
    · have he3 := he2 hge
      have h2 : (wt (c.outs 0 (seg (plus us xs) a m)) : Int) ≤ 2 * e := by linarith
      have hl : (seg (plus us xs) a m).length = m := by simp [seg, hlp]; omega
      have hclosed : c.run 0 (seg (plus us xs) a m) = 0 := by
        have := hseg m m le_rfl
        rw [List.take_of_length_le (by omega)] at this
        rw [this, hb0]
      have hw0 : wt (c.outs 0 (seg (plus us xs) a m)) = 0 := by
        by_contra hne0
        have := hd _ hclosed (Nat.pos_of_ne_zero hne0)
        omega
      obtain ⟨L, hL⟩ : ∃ L, L = seg (plus us xs) a m := ⟨_, rfl⟩
      have hs1 := hseg m 1 (by omega)
      rw [← hL] at hl hclosed hw0 hs1
      have es := List.take_append_drop 1 L
      have hcyc := hz (c.run 0 (L.take 1)) (L.drop 1 ++ L.take 1) (by rw [hs1]; exact hstep)
        (fun h => by
          have := congrArg List.length h
          simp [hl] at this
          omega) (by rw [← run_append, ← List.append_assoc, es, run_append, hclosed])
      rw [outs_append, wt_append, ← run_append, es, hclosed] at hcyc
      rw [← es, outs_append, wt_append] at hw0
      omega
  -- the two paths stay apart for too long
  obtain ⟨m, hmb⟩ : ∃ m, a + m + ν = rs.length := ⟨rs.length - ν - a, by omega⟩
  obtain ⟨tl, htl, htr⟩ := hr (c.run 0 (us.take (a + m))) (c.run 0 xs)
  have hsw := c.swap_segment us xs rs hu hx hbest a m (by omega) hm tl (by omega) htr
  have hmW : (ν * n + 1) * W ≤ m := by omega
  have hq : ν * n + 1 ≤ m / W := (Nat.le_div_iff_mul_le hW0).mpr hmW
  have h1 := hwt m (by omega) (by omega) (fun i hi1 hi2 => hall _ (by omega) (by omega)) (by omega)
  have n3 := diff_nonneg (flat (c.outs (c.run 0 (xs.take (a + m))) (xs.drop (a + m)))) (flat (rs.drop (a + m)))
  have n4 := diff_flat_le (c.outs (c.run 0 (us.take (a + m))) tl) (rs.drop (a + m))
  rw [outs_length, htl] at n4
  obtain ⟨he1, _⟩ := herr a m
  have h2 : (wt (c.outs 0 (seg (plus us xs) a m)) : Int) ≤ 2 * ((e * (m / W + 1) : Nat) : Int) + ν * n := by linarith
  have h3 : wt (c.outs 0 (seg (plus us xs) a m)) ≤ 2 * (e * (m / W + 1)) + ν * n := by exact_mod_cast h2
  have h4 := h1.trans h3
  have h5 : e ≤ e * (m / W) := Nat.le_mul_of_pos_right _ (by omega)
  nlinarith

end Komm.StateSpace
