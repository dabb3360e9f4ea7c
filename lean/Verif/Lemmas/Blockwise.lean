import Verif.Model.Blockwise
import Mathlib.Data.List.Basic
import Mathlib.Tactic.Ring
import Mathlib.Tactic.Cases
namespace Komm

theorem chunks_nil {α : Type} (m : Nat) : chunks m ([] : List α) = [] := by simp [chunks]

theorem chunks_append {α : Type} (m : Nat) (hm : 0 < m) (a b : List α) (ha : a.length = m) :
    chunks m (a ++ b) = a :: chunks m b := by
  unfold chunks
  have h : (a ++ b).length / m = b.length / m + 1 := by
    rw [List.length_append, ha, Nat.add_comm, Nat.add_div_right _ hm]
  rw [h, List.range_succ_eq_map, List.map_cons, List.map_map]
  congr 1
  · simp [← ha]
  · apply List.map_congr_left
    intro i _
    simp only [Function.comp]
    have : (i.succ) * m = a.length + i * m := by rw [ha, Nat.succ_mul, Nat.add_comm]
    rw [this, List.drop_append, List.drop_eq_nil_of_le (by omega)]
    simp

theorem chunks_flatten {α : Type} (m : Nat) (hm : 0 < m) (ls : List (List α)) (h : ∀ r ∈ ls, r.length = m) :
    chunks m ls.flatten = ls := by
  induction ls with
  | nil => simp [chunks]
  | cons a ls ih =>
    rw [List.flatten_cons, chunks_append m hm a _ (h a (by simp)), ih fun r hr => h r (by simp [hr])]

/-- Splitting off the first row. -/
theorem exists_rows {α : Type} (m : Nat) (l : List α) (hl : l.length % m = 0) :
    ∃ ls : List (List α), l = ls.flatten ∧ ∀ r ∈ ls, r.length = m := by
  rcases Nat.eq_zero_or_pos m with rfl | hm
  · have : l = [] := List.length_eq_zero_iff.mp (by simpa using hl)
    exact ⟨[], by simp [this], by simp⟩
  obtain ⟨k, hk⟩ := Nat.dvd_of_mod_eq_zero hl
  induction k generalizing l with
  | zero => exact ⟨[], by simpa using hk, by simp⟩
  | succ k ih =>
    obtain ⟨ls, h1, h2⟩ := ih (l.drop m) (by rw [List.length_drop, hk, Nat.mul_succ]; simp)
      (by rw [List.length_drop, hk, Nat.mul_succ]; omega)
    refine ⟨l.take m :: ls, by rw [List.flatten_cons, ← h1, List.take_append_drop], ?_⟩
    intro r hr
    rcases List.mem_cons.mp hr with rfl | hr
    · rw [List.length_take, hk, Nat.mul_succ]; omega
    · exact h2 r hr

theorem flatten_chunks {α : Type} (m : Nat) (hm : 0 < m) (l : List α) (hl : l.length % m = 0) :
    (chunks m l).flatten = l := by
  obtain ⟨ls, rfl, h⟩ := exists_rows m l hl
  rw [chunks_flatten m hm ls h]

theorem chunks_row_length {α : Type} (m : Nat) (hm : 0 < m) (l : List α) (hl : l.length % m = 0) :
    ∀ r ∈ chunks m l, r.length = m := by
  obtain ⟨ls, rfl, h⟩ := exists_rows m l hl
  rwa [chunks_flatten m hm ls h]

theorem chunks_row_mem {α : Type} (m : Nat) (l : List α) : ∀ r ∈ chunks m l, ∀ x ∈ r, x ∈ l := by
  intro r hr x hx
  simp only [chunks, List.mem_map] at hr
  obtain ⟨i, _, rfl⟩ := hr
  exact List.mem_of_mem_drop (List.mem_of_mem_take hx)

theorem chunks_map {α β : Type} (m : Nat) (f : α → β) (l : List α) :
    chunks m (l.map f) = (chunks m l).map (List.map f) := by
  simp [chunks, List.map_map, Function.comp_def, List.map_take, List.map_drop]

theorem chunks_ne_nil {α : Type} (m : Nat) (hm : 0 < m) (l : List α) (hl : l.length % m = 0) (hne : l ≠ []) :
    chunks m l ≠ [] := by
  intro h
  have := flatten_chunks m hm l hl
  rw [h] at this
  exact hne this.symm

theorem flatten_length_mod {α : Type} (m : Nat) (ls : List (List α)) (h : ∀ r ∈ ls, r.length = m) :
    ls.flatten.length = m * ls.length := by
  induction ls with
  | nil => simp
  | cons a ls ih =>
    rw [List.flatten_cons, List.length_append, ih fun r hr => h r (by simp [hr]), h a (by simp), List.length_cons]
    ring

theorem mapM_some {α β : Type} (f : α → Option β) (g : α → β) (l : List α) (h : ∀ x ∈ l, f x = some (g x)) :
    l.mapM f = some (l.map g) := by
  induction l with
  | nil => rfl
  | cons a l ih =>
    rw [List.mapM_cons, h a (by simp), ih fun x hx => h x (by simp [hx])]
    rfl

/-- A blockwise function processes a concatenation of blocks block by block. -/
theorem blockwise_flatten {α β : Type} (m : Nat) (hm : 0 < m) (f : List α → Option (List β))
    (g : List α → List β) (ls : List (List α)) (h : ∀ r ∈ ls, r.length = m) (hf : ∀ r ∈ ls, f r = some (g r)) :
    blockwise m f ls.flatten = some (ls.map g).flatten := by
  unfold blockwise
  rw [if_neg (by omega), if_neg (by rw [not_not, flatten_length_mod m ls h, Nat.mul_mod_right]), chunks_flatten m hm ls h,
    mapM_some f g ls hf]
  rfl

end Komm
