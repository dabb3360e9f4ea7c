import Mathlib.Data.Fintype.Card
import Mathlib.Data.Fintype.Pigeonhole
import Mathlib.Data.Fintype.Basic
import Mathlib.Data.Finset.Card
import Mathlib.Order.Interval.Finset.Nat
import Mathlib.Tactic.Ring
import Mathlib.Tactic.Linarith
import Mathlib.Tactic.NormNum
/-! Walks in a finite directed graph, and Wielandt's bound. -/
namespace Komm.Walk
variable {α : Type}

/-- There is a walk with exactly `m` edges from `i` to `j`. -/
def W (r : α → α → Prop) (m : Nat) (i j : α) : Prop := ∃ f : Nat → α, f 0 = i ∧ f m = j ∧ ∀ k < m, r (f k) (f (k + 1))

variable {r : α → α → Prop}

theorem W_zero {i j : α} : W r 0 i j ↔ i = j :=
  ⟨fun ⟨_, h0, h1, _⟩ => h0.symm.trans h1, fun h => ⟨fun _ => i, rfl, h, fun k hk => absurd hk (Nat.not_lt_zero k)⟩⟩

theorem W_one {i j : α} : W r 1 i j ↔ r i j := by
  constructor
  · rintro ⟨f, rfl, rfl, h⟩; exact h 0 (by norm_num)
  · intro h
    refine ⟨fun k => if k = 0 then i else j, rfl, rfl, fun k hk => ?_⟩
    obtain rfl : k = 0 := by omega
    exact h

theorem W.add {a b : Nat} {i k j : α} (h1 : W r a i k) (h2 : W r b k j) : W r (a + b) i j := by
  obtain ⟨f, hf0, hf1, hf⟩ := h1
  obtain ⟨g, hg0, hg1, hg⟩ := h2
  refine ⟨fun t => if t ≤ a then f t else g (t - a), ?_, ?_, ?_⟩
  · simp [hf0]
  · by_cases hb : b = 0
    · subst hb; simp only [Nat.add_zero, le_refl, if_true]; rw [hf1, ← hg0, hg1]
    · dsimp only
      rw [if_neg (by omega), show a + b - a = b by omega, hg1]
  · intro t ht
    dsimp only
    by_cases h1 : t + 1 ≤ a
    · rw [if_pos (by omega), if_pos h1]; exact hf t (by omega)
    · rw [if_neg h1]
      by_cases h2 : t ≤ a
      · obtain rfl : t = a := by omega
        rw [if_pos le_rfl, hf1, ← hg0, show t + 1 - t = 0 + 1 by omega]
        exact hg 0 (by omega)
      · rw [if_neg h2, show t + 1 - a = t - a + 1 by omega]
        exact hg (t - a) (by omega)

theorem W.split {a b : Nat} {i j : α} (h : W r (a + b) i j) : ∃ k, W r a i k ∧ W r b k j := by
  obtain ⟨f, hf0, hf1, hf⟩ := h
  exact ⟨f a, ⟨f, hf0, rfl, fun k hk => hf k (by omega)⟩, ⟨fun t => f (a + t), rfl, hf1, fun k hk => hf (a + k) (by omega)⟩⟩

theorem W_succ {m : Nat} {i j : α} : W r (m + 1) i j ↔ ∃ k, W r m i k ∧ r k j :=
  ⟨fun h => by obtain ⟨k, h1, h2⟩ := h.split; exact ⟨k, h1, W_one.mp h2⟩, fun ⟨_, h1, h2⟩ => h1.add (W_one.mpr h2)⟩

theorem W_succ' {m : Nat} {i j : α} : W r (m + 1) i j ↔ ∃ k, r i k ∧ W r m k j :=
  ⟨fun h => by rw [Nat.add_comm] at h; obtain ⟨k, h1, h2⟩ := h.split; exact ⟨k, W_one.mp h1, h2⟩,
   fun ⟨_, h1, h2⟩ => by rw [Nat.add_comm]; exact (W_one.mpr h1).add h2⟩

/-- The walk between positions `a` and `b`. -/
theorem sub_walk {f : Nat → α} {m : Nat} (hf : ∀ k < m, r (f k) (f (k + 1))) {a b : Nat} (hab : a ≤ b) (hb : b ≤ m) : W r (b - a) (f a) (f b) :=
  ⟨fun t => f (a + t), rfl, by dsimp only; congr 1; omega, fun k hk => hf (a + k) (by omega)⟩

/-- Walks of walks. -/
theorem W_mul {s m : Nat} {i j : α} (h : W (W r s) m i j) : W r (s * m) i j := by
  induction m generalizing j with
  | zero => rw [W_zero] at h; subst h; exact W_zero.mpr rfl
  | succ m ih =>
    obtain ⟨k, h1, h2⟩ := W_succ.mp h
    rw [Nat.mul_succ]
    exact (ih h1).add h2

theorem W_of_mul {s m : Nat} {i j : α} (h : W r (s * m) i j) : W (W r s) m i j := by
  induction m generalizing j with
  | zero => exact W_zero.mpr (W_zero.mp h)
  | succ m ih =>
    rw [Nat.mul_succ] at h
    obtain ⟨k, h1, h2⟩ := h.split
    exact W_succ.mpr ⟨k, ih h1, h2⟩

theorem W_loop {c : α} (h : r c c) (m : Nat) : W r m c c :=
  ⟨fun _ => c, rfl, rfl, fun _ _ => h⟩

section finite
variable [Fintype α] [DecidableEq α]

/-- From `i` the set `C`, if reachable, is reachable in at most `|α| - |C|` steps. -/
theorem reach_set (C : Finset α) (i : α) (h : ∃ m, ∃ c ∈ C, W r m i c) : ∃ m, m + C.card ≤ Fintype.card α ∧ ∃ c ∈ C, W r m i c := by
  classical
  let m := Nat.find h
  obtain ⟨c, hc, f, hf0, hf1, hf⟩ := Nat.find_spec h
  have hmin : ∀ m' < Nat.find h, ¬ ∃ c ∈ C, W r m' i c := fun m' hm' => Nat.find_min h hm'
  refine ⟨Nat.find h, ?_, c, hc, f, hf0, hf1, hf⟩
  have hinj : Set.InjOn f (Finset.range (Nat.find h) : Set Nat) := by
    have key : ∀ a b, a < b → b < Nat.find h → f a ≠ f b := by
      intro a b hab hb he
      apply hmin (a + (Nat.find h - b)) (by omega)
      refine ⟨c, hc, ?_⟩
      have h1 := sub_walk hf (Nat.zero_le a) (by omega : a ≤ Nat.find h)
      have h2 := sub_walk hf (hb.le) le_rfl
      rw [hf0, Nat.sub_zero] at h1
      rw [← he, hf1] at h2
      exact h1.add h2
    intro a ha b hb he
    rw [Finset.mem_coe, Finset.mem_range] at ha hb
    rcases Nat.lt_trichotomy a b with hlt | heq | hgt
    · exact absurd he (key a b hlt hb)
    · exact heq
    · exact absurd he.symm (key b a hgt ha)
  have hdisj : Disjoint ((Finset.range (Nat.find h)).image f) C := by
    rw [Finset.disjoint_left]
    intro v hv hvC
    obtain ⟨a, ha, rfl⟩ := Finset.mem_image.mp hv
    rw [Finset.mem_range] at ha
    apply hmin a ha
    refine ⟨f a, hvC, ?_⟩
    have := sub_walk hf (Nat.zero_le a) ha.le
    rwa [hf0, Nat.sub_zero] at this
  have hcard := Finset.card_le_univ ((Finset.range (Nat.find h)).image f ∪ C)
  rw [Finset.card_union_of_disjoint hdisj, Finset.card_image_of_injOn hinj, Finset.card_range] at hcard
  exact hcard

/-- A reachable vertex is reachable in fewer than `|α|` steps. -/
theorem shorten {i j : α} (h : ∃ m, W r m i j) : ∃ m < Fintype.card α, W r m i j := by
  obtain ⟨m, hm⟩ := h
  obtain ⟨m', h1, c, h2, h3⟩ := reach_set {j} i ⟨m, j, Finset.mem_singleton_self j, hm⟩
  rw [Finset.mem_singleton] at h2
  subst h2
  rw [Finset.card_singleton] at h1
  exact ⟨m', by omega, h3⟩

/-- All vertices joined by walks of length exactly `e`. -/
def Full (r : α → α → Prop) (e : Nat) : Prop := ∀ i j, W r e i j

omit [Fintype α] [DecidableEq α] in
theorem Full.succ {e : Nat} (h : Full r e) (he : 0 < e) : Full r (e + 1) := by
  intro i j
  obtain ⟨e', rfl⟩ : ∃ e', e = e' + 1 := ⟨e - 1, by omega⟩
  obtain ⟨k, h1, _⟩ := W_succ'.mp (h i j)
  exact W_succ'.mpr ⟨k, h1, h k j⟩

omit [Fintype α] [DecidableEq α] in
theorem Full.mono {e e' : Nat} (h : Full r e) (he : 0 < e) (hle : e ≤ e') : Full r e' := by
  induction e', hle using Nat.le_induction with
  | base => exact h
  | succ n hn ih => exact ih.succ (by omega)

omit [Fintype α] in
/-- If every closed walk has length at least `n = |α|`, every closed walk has length a multiple of `n`. -/
theorem closed_multiple [Fintype α] (n : Nat) (hn : n = Fintype.card α) (hmin : ∀ m > 0, ∀ i, W r m i i → n ≤ m) (m : Nat) :
    ∀ i, W r m i i → n ∣ m := by
  induction m using Nat.strong_induction_on with
  | _ m ih =>
    intro i hw
    by_cases hm0 : m = 0
    · subst hm0; exact Nat.dvd_zero n
    have hnm := hmin m (by omega) i hw
    have hnpos : 0 < n := by rw [hn]; exact Fintype.card_pos_iff.mpr ⟨i⟩
    obtain ⟨f, hf0, hf1, hf⟩ := hw
    obtain ⟨a', b', hab, he'⟩ : ∃ a b : Fin (n + 1), a ≠ b ∧ f a = f b := by
      apply Fintype.exists_ne_map_eq_of_card_lt (fun k : Fin (n + 1) => f k)
      rw [Fintype.card_fin]; omega
    obtain ⟨a, b, hlt, hbn, he⟩ : ∃ a b : Nat, a < b ∧ b ≤ n ∧ f a = f b := by
      rcases Nat.lt_or_gt_of_ne (fun h => hab (Fin.ext h)) with h | h
      · exact ⟨a', b', h, by omega, he'⟩
      · exact ⟨b', a', h, by omega, he'.symm⟩
    have h1 := sub_walk hf hlt.le (by omega : b ≤ m)
    rw [← he] at h1
    have h2 := hmin _ (by omega) _ h1
    obtain rfl : a = 0 := by omega
    obtain rfl : b = n := by omega
    have h3 := sub_walk hf hnm le_rfl
    rw [← he, hf1, hf0] at h3
    have := ih (m - b) (by omega) i h3
    have h4 := Nat.dvd_add this (Nat.dvd_refl b)
    rwa [Nat.sub_add_cancel hnm] at h4

/-- Wielandt: if some power is full, the power `(n - 1)² + 1` is full. -/
theorem wielandt [Nonempty α] (h : ∃ e > 0, Full r e) : Full r ((Fintype.card α - 1) ^ 2 + 1) := by
  classical
  obtain ⟨e, he, hfull⟩ := h
  have hn : 0 < Fintype.card α := Fintype.card_pos
  generalize hcard : Fintype.card α = n at hn
  by_cases hn1 : n = 1
  · subst hn1
    obtain ⟨i0, hi0⟩ := Fintype.card_eq_one_iff.mp hcard
    intro i j
    rw [hi0 i, hi0 j]
    obtain ⟨e', rfl⟩ : ∃ e', e = e' + 1 := ⟨e - 1, by omega⟩
    obtain ⟨k, h1, _⟩ := W_succ'.mp (hfull i0 i0)
    rw [hi0 k] at h1
    exact W_loop h1 _
  -- a shortest closed walk
  have hex : ∃ s, 0 < s ∧ ∃ c, W r s c c := ⟨e, he, Classical.arbitrary α, hfull _ _⟩
  obtain ⟨hs0, c0, f, hf0, hf1, hf⟩ := Nat.find_spec hex
  have hmin : ∀ m, 0 < m → (∃ c, W r m c c) → Nat.find hex ≤ m := fun m h1 h2 => Nat.find_min' hex ⟨h1, h2⟩
  generalize Nat.find hex = s at hs0 f hf0 hf1 hf hmin
  have hinj : Set.InjOn f (Finset.range s : Set Nat) := by
    have key : ∀ a b, a < b → b < s → f a ≠ f b := by
      intro a b hab hb hE
      have h1 := sub_walk hf hab.le hb.le
      rw [← hE] at h1
      have := hmin _ (by omega) ⟨_, h1⟩
      omega
    intro a ha b hb hE
    rw [Finset.mem_coe, Finset.mem_range] at ha hb
    rcases Nat.lt_trichotomy a b with hlt | heq | hgt
    · exact absurd hE (key a b hlt hb)
    · exact heq
    · exact absurd hE.symm (key b a hgt ha)
  let C := (Finset.range s).image f
  have hCcard : C.card = s := by rw [Finset.card_image_of_injOn hinj, Finset.card_range]
  have hsn : s ≤ n := by rw [← hCcard, ← hcard]; exact Finset.card_le_univ C
  have hs : s ≤ n - 1 := by
    by_contra hcon
    obtain rfl : s = n := by omega
    have hdiv := closed_multiple (r := r) s hcard.symm (fun m hm i hi => hmin m hm ⟨i, hi⟩)
    have h1 := hdiv e c0 (hfull _ _)
    have h2 := hdiv (e + 1) c0 (hfull.succ he _ _)
    have h3 := (Nat.dvd_add_right h1).mp h2
    have := Nat.le_of_dvd (by norm_num) h3
    omega
  have hCloop : ∀ c ∈ C, W r s c c := by
    intro c hc
    obtain ⟨a, ha, rfl⟩ := Finset.mem_image.mp hc
    rw [Finset.mem_range] at ha
    have h1 := sub_walk hf ha.le le_rfl
    have h2 := sub_walk hf (Nat.zero_le a) ha.le
    rw [hf1, ← hf0] at h1
    have := h1.add h2
    rwa [show s - a + (a - 0) = s by omega] at this
  have hCnext : ∀ c ∈ C, ∃ c' ∈ C, r c c' := by
    intro c hc
    obtain ⟨a, ha, rfl⟩ := Finset.mem_image.mp hc
    rw [Finset.mem_range] at ha
    refine ⟨f (a + 1), ?_, hf a ha⟩
    by_cases h1 : a + 1 < s
    · exact Finset.mem_image.mpr ⟨a + 1, Finset.mem_range.mpr h1, rfl⟩
    · rw [show a + 1 = s by omega, hf1, ← hf0]
      exact Finset.mem_image.mpr ⟨0, Finset.mem_range.mpr hs0, rfl⟩
  have hCwalk : ∀ t, ∀ c ∈ C, ∃ c' ∈ C, W r t c c' := by
    intro t
    induction t with
    | zero => intro c hc; exact ⟨c, hc, W_zero.mpr rfl⟩
    | succ t ih =>
      intro c hc
      obtain ⟨c', h1, h2⟩ := ih c hc
      obtain ⟨c'', h3, h4⟩ := hCnext c' h1
      exact ⟨c'', h3, W_succ.mpr ⟨c', h2, h4⟩⟩
  have hbig : Full r ((n - s) + s * (n - 1)) := by
    intro i j
    obtain ⟨m, hm, c, hc, hw⟩ := reach_set (r := r) C i ⟨e, f 0, Finset.mem_image.mpr ⟨0, Finset.mem_range.mpr hs0, rfl⟩, hfull _ _⟩
    rw [hCcard, hcard] at hm
    obtain ⟨c', hc', hw'⟩ := hCwalk (n - s - m) c hc
    have h1 := hw.add hw'
    rw [show m + (n - s - m) = n - s by omega] at h1
    refine h1.add (W_mul ?_)
    have hloop : W r s c' c' := hCloop c' hc'
    have hreach : ∃ m, W (W r s) m c' j := ⟨e, W_of_mul (hfull.mono he (Nat.le_mul_of_pos_left e hs0) c' j)⟩
    obtain ⟨m', hm', hw''⟩ := shorten hreach
    rw [hcard] at hm'
    have := (W_loop (r := W r s) hloop (n - 1 - m')).add hw''
    rwa [show n - 1 - m' + m' = n - 1 by omega] at this
  have hle : (n - s) + s * (n - 1) ≤ (n - 1) ^ 2 + 1 := by
    obtain ⟨k, rfl⟩ : ∃ k, n = k + 2 := ⟨n - 2, by omega⟩
    obtain ⟨d, hd⟩ : ∃ d, s + d = k + 1 := ⟨k + 1 - s, by omega⟩
    have e1 : k + 2 - s = d + 1 := by omega
    have e2 : k + 2 - 1 = k + 1 := by omega
    rw [e1, e2, ← hd]
    nlinarith
  refine hbig.mono ?_ hle
  have : 0 < s * (n - 1) := Nat.mul_pos hs0 (by omega)
  omega

end finite
end Komm.Walk
