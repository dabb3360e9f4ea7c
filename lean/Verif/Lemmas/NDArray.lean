import Verif.Model.NDArray
import Verif.Lemmas.Blockwise
import Mathlib.Algebra.BigOperators.Group.List.Basic
namespace Komm
variable {α β : Type}

theorem chunks_append_gen (m : Nat) (hm : 0 < m) (a b : List α) (ha : a.length % m = 0) : chunks m (a ++ b) = chunks m a ++ chunks m b := by
  obtain ⟨ls, rfl, h⟩ := exists_rows m a ha
  clear ha
  rw [chunks_flatten m hm ls h]
  induction ls with
  | nil => simp
  | cons r ls ih =>
    rw [List.flatten_cons, List.append_assoc, chunks_append m hm r _ (h r (by simp)), List.cons_append, ih fun x hx => h x (by simp [hx])]

theorem chunks_flatten_rows (m L : Nat) (hm : 0 < m) (hL : L % m = 0) (ls : List (List α)) (h : ∀ r ∈ ls, r.length = L) :
    chunks m ls.flatten = (ls.map (chunks m)).flatten := by
  induction ls with
  | nil => simp [chunks_nil]
  | cons r ls ih =>
    rw [List.flatten_cons, chunks_append_gen m hm r _ (by rw [h r (by simp)]; exact hL), ih fun x hx => h x (by simp [hx])]
    rfl

theorem mapM_append_option (f : α → Option β) (a b : List α) :
    (a ++ b).mapM f = (a.mapM f).bind fun x => (b.mapM f).map fun y => x ++ y := by
  induction a with
  | nil => simp
  | cons x a ih =>
    simp only [List.cons_append, List.mapM_cons, ih, Option.bind_eq_bind, Option.pure_def]
    cases f x <;> simp only [Option.bind_none, Option.bind_some]
    cases List.mapM f a <;> simp only [Option.bind_none, Option.bind_some]
    cases List.mapM f b <;> simp

theorem mapM_flatten_option (f : α → Option β) (ls : List (List α)) :
    ls.flatten.mapM f = (ls.mapM fun r : List α => r.mapM f).map List.flatten := by
  induction ls with
  | nil => simp
  | cons r ls ih =>
    rw [List.flatten_cons, mapM_append_option, ih, List.mapM_cons]
    simp only [Option.bind_eq_bind, Option.pure_def]
    cases List.mapM f r <;> simp only [Option.bind_none, Option.bind_some, Option.map_none]
    cases List.mapM (fun r => List.mapM f r) ls <;> simp

theorem take_drop_flatten (L : Nat) (ls : List (List α)) (h : ∀ r ∈ ls, r.length = L) (p : Nat) (hp : p < ls.length) :
    (ls.flatten.drop (p * L)).take L = ls[p] := by
  induction ls generalizing p with
  | nil => simp at hp
  | cons r ls ih =>
    have hr : r.length = L := h r (by simp)
    cases p with
    | zero => simp [List.flatten_cons, ← hr]
    | succ p =>
      have e : (p + 1) * L = r.length + p * L := by rw [hr, Nat.succ_mul, Nat.add_comm]
      rw [e, List.flatten_cons, List.drop_append, List.drop_eq_nil_of_le (by omega), List.nil_append, Nat.add_sub_cancel_left, List.getElem_cons_succ]
      exact ih (fun x hx => h x (by simp [hx])) p (by simpa using hp)

theorem length_flatten_rows (L : Nat) (ls : List (List α)) (h : ∀ r ∈ ls, r.length = L) : ls.flatten.length = ls.length * L := by
  induction ls with
  | nil => simp
  | cons r ls ih => rw [List.flatten_cons, List.length_append, h r (by simp), ih fun x hx => h x (by simp [hx]), List.length_cons, Nat.succ_mul, Nat.add_comm]

theorem exists_rows_count (P L : Nat) (l : List α) (h : l.length = P * L) : ∃ ls : List (List α), l = ls.flatten ∧ (∀ r ∈ ls, r.length = L) ∧ ls.length = P := by
  induction P generalizing l with
  | zero => exact ⟨[], by simpa using h, by simp, rfl⟩
  | succ P ih =>
    obtain ⟨ls, h1, h2, h3⟩ := ih (l.drop L) (by rw [List.length_drop, h, Nat.succ_mul]; omega)
    refine ⟨l.take L :: ls, by rw [List.flatten_cons, ← h1, List.take_append_drop], ?_, by simp [h3]⟩
    intro r hr
    rcases List.mem_cons.mp hr with rfl | hr
    · rw [List.length_take, h, Nat.succ_mul]; omega
    · exact h2 r hr

theorem mapM_option_eq_some (f : α → Option β) (l : List α) (o : List β) :
    l.mapM f = some o ↔ l.length = o.length ∧ ∀ (i : Nat) (h1 : i < l.length) (h2 : i < o.length), f l[i] = some o[i] := by
  induction l generalizing o with
  | nil => cases o <;> simp
  | cons x l ih =>
    rw [List.mapM_cons]
    simp only [Option.bind_eq_bind, Option.pure_def]
    cases o with
    | nil =>
      cases f x <;> simp only [Option.bind_none, Option.bind_some] <;> cases List.mapM f l <;> simp
    | cons y o =>
      constructor
      · intro h
        rw [Option.bind_eq_some_iff] at h
        obtain ⟨a, ha, h⟩ := h
        rw [Option.bind_eq_some_iff] at h
        obtain ⟨b, hb, h⟩ := h
        simp only [Option.some.injEq, List.cons.injEq] at h
        obtain ⟨rfl, rfl⟩ := h
        obtain ⟨h1, h2⟩ := (ih b).mp hb
        refine ⟨by simp [h1], ?_⟩
        intro i hi hi'
        cases i with
        | zero => simpa using ha
        | succ i => simpa using h2 i (by simpa using hi) (by simpa using hi')
      · rintro ⟨h1, h2⟩
        have ha := h2 0 (by simp) (by simp)
        have hb := (ih o).mpr ⟨by simpa using h1, fun i hi hi' => h2 (i + 1) (Nat.succ_lt_succ hi) (Nat.succ_lt_succ hi')⟩
        simp only [List.getElem_cons_zero] at ha
        rw [ha, hb]
        simp

theorem mapM_option_eq_none (f : α → Option β) (l : List α) : l.mapM f = none ↔ ∃ x ∈ l, f x = none := by
  induction l with
  | nil => simp
  | cons x l ih =>
    rw [List.mapM_cons]
    simp only [Option.bind_eq_bind, Option.pure_def, List.mem_cons, exists_eq_or_imp]
    rw [← ih]
    cases f x <;> simp only [Option.bind_none, Option.bind_some, true_or, reduceCtorEq, false_or]
    cases List.mapM f l <;> simp

end Komm
