import Verif.Model.Resampling
import Mathlib.Data.List.Nodup
import Mathlib.Tactic.Ring
import Mathlib.Tactic.Linarith
/-! C74: sampling-rate conversion. -/
namespace Komm

theorem sliceGo_eq (stop step : Nat) (hs : 0 < step) (fuel i : Nat) (hf : stop ≤ i + fuel) :
    sliceIndices.go stop step fuel i = (List.range ((stop - i + step - 1) / step)).map fun k => i + k * step := by
  induction fuel generalizing i with
  | zero =>
    rw [sliceIndices.go, show stop - i = 0 by omega, Nat.div_eq_of_lt (by omega)]; rfl
  | succ fuel ih =>
    rw [sliceIndices.go]
    split
    · next h =>
      rw [ih (i + step) (by omega)]
      have e : (stop - i + step - 1) / step = (stop - (i + step) + step - 1) / step + 1 := by
        rcases Nat.lt_or_ge stop (i + step) with h1 | h1
        · rw [show stop - (i + step) = 0 by omega, Nat.div_eq_of_lt (show 0 + step - 1 < step by omega)]
          refine Nat.div_eq_of_lt_le ?_ ?_ <;> omega
        · rw [show stop - i + step - 1 = (stop - (i + step) + step - 1) + step by omega, Nat.add_div_right _ hs]
      rw [e, List.range_succ_eq_map, List.map_cons, List.map_map]
      congr 1
      · simp
      · refine List.map_congr_left fun k _ => ?_
        simp only [Function.comp, Nat.succ_eq_add_one]; ring
    · next h => rw [show stop - i = 0 by omega, Nat.div_eq_of_lt (by omega)]; rfl

theorem sliceIndices_eq (start stop step : Nat) (hs : 0 < step) :
    sliceIndices start stop step = (List.range ((stop - start + step - 1) / step)).map fun k => start + k * step :=
  sliceGo_eq stop step hs stop start (by omega)

theorem assignAt_spec {α : Type} (out : List α) (is : List Nat) (vs : List α) (hl : is.length = vs.length) :
    ∃ r, assignAt out is vs = some r ∧ r.length = out.length ∧
      (∀ j, j ∉ is → r[j]? = out[j]?) ∧
      (is.Nodup → (∀ i ∈ is, i < out.length) → ∀ k (hk : k < is.length), r[is[k]]? = vs[k]?) := by
  induction is generalizing out vs with
  | nil =>
    cases vs with
    | nil => exact ⟨out, rfl, rfl, fun _ _ => rfl, fun _ _ k hk => absurd hk (by simp)⟩
    | cons v vs => simp at hl
  | cons i is ih =>
    cases vs with
    | nil => simp at hl
    | cons v vs =>
      obtain ⟨r, h1, h2, h3, h4⟩ := ih (out.set i v) vs (by simpa using hl)
      refine ⟨r, by rw [assignAt, h1], by rw [h2, List.length_set], fun j hj => ?_, fun hnd hlt k hk => ?_⟩
      · rw [List.mem_cons, not_or] at hj
        rw [h3 j hj.2, List.getElem?_set_ne (Ne.symm hj.1)]
      · rw [List.nodup_cons] at hnd
        cases k with
        | zero =>
          have hi : i < out.length := hlt i List.mem_cons_self
          rw [List.getElem_cons_zero, h3 i hnd.1, List.getElem?_set_self hi]; rfl
        | succ k =>
          have := h4 hnd.2 (fun x hx => by rw [List.length_set]; exact hlt x (List.mem_cons_of_mem _ hx)) k (by simpa using hk)
          rw [List.getElem_cons_succ, this]; rfl

theorem slice_count (n L Δ : Nat) (hL : 0 < L) (hΔ : Δ < L) : (n * L - Δ + L - 1) / L = n := by
  rcases Nat.eq_zero_or_pos n with rfl | hn
  · rw [Nat.zero_mul]; exact Nat.div_eq_of_lt (by omega)
  · have : L ≤ n * L := Nat.le_mul_of_pos_left _ hn
    refine Nat.div_eq_of_lt_le (by omega) ?_
    rw [Nat.add_mul]; omega

section
variable {α : Type} [Zero α]

/-- A factor that is not positive and an offset outside `[0, factor)` are rejected, by both functions and for every input; everything else is accepted. -/
theorem C74_rejects (x : List α) (factor offset : Int) :
    (compress x factor offset = none ↔ ¬ (0 ≤ offset ∧ offset < factor)) ∧ (expand x factor offset = none ↔ ¬ (0 ≤ offset ∧ offset < factor)) := by
  by_cases h1 : factor > 0
  · by_cases h2 : 0 ≤ offset ∧ offset < factor
    · refine ⟨by simp [compress, h1, h2], ?_⟩
      have hlen : (sliceIndices offset.toNat (x.length * factor.toNat) factor.toNat).length = x.length := by
        rw [sliceIndices_eq _ _ _ (by omega), List.length_map, List.length_range, slice_count _ _ _ (by omega) (by omega)]
      obtain ⟨r, hr, -⟩ := assignAt_spec (List.replicate (x.length * factor.toNat) (0 : α)) _ x hlen
      simp [expand, h1, h2, hr]
    · simp [compress, expand, h1, h2]
  · have h2 : ¬ (0 ≤ offset ∧ offset < factor) := by omega
    simp only [compress, expand, if_pos h1, h2, not_false_eq_true, iff_self, and_self]

/-- Compression keeps the entries `x[k M + Δ]`, as many as there are. -/
theorem C74_compress (x : List α) (M Δ : Nat) (h : Δ < M) :
    ∃ y, compress x M Δ = some y ∧ ∀ k, y[k]? = x[k * M + Δ]? := by
  have hM : 0 < M := by omega
  refine ⟨_, by rw [compress, if_neg (by omega), if_neg (by omega)], fun k => ?_⟩
  simp only [Int.toNat_natCast]
  rw [sliceIndices_eq _ _ _ hM, List.map_map, List.getElem?_map]
  rcases Nat.lt_or_ge k ((x.length - Δ + M - 1) / M) with hk | hk
  · have hlt : k * M + Δ < x.length := by
      have := (Nat.le_div_iff_mul_le hM).mp (Nat.succ_le_of_lt hk)
      rw [Nat.succ_mul] at this; omega
    rw [List.getElem?_range hk, List.getElem?_eq_getElem hlt]
    simp only [Option.map_some, Function.comp, Nat.add_comm Δ, List.getD_eq_getElem?_getD, List.getElem?_eq_getElem hlt, Option.getD_some]
  · rw [List.getElem?_eq_none (by simpa using hk), Option.map_none, List.getElem?_eq_none]
    have := (Nat.div_le_iff_le_mul_add_pred hM).mp hk
    rw [Nat.mul_comm] at this; omega

/-- Expansion: `L` times as many entries; entry `n` is `x[n div L]` when `n mod L = Δ`, and zero otherwise. -/
theorem C74_expand (x : List α) (L Δ : Nat) (h : Δ < L) :
    ∃ y, expand x L Δ = some y ∧ y.length = x.length * L ∧ ∀ n, n < x.length * L → y[n]? = if n % L = Δ then x[n / L]? else some 0 := by
  have hL : 0 < L := by omega
  have hlen : (sliceIndices Δ (x.length * L) L).length = x.length := by
    rw [sliceIndices_eq _ _ _ hL, List.length_map, List.length_range, slice_count _ _ _ hL h]
  obtain ⟨y, h1, h2, h3, h4⟩ := assignAt_spec (List.replicate (x.length * L) (0 : α)) _ x hlen
  have hmem : ∀ j, j ∈ sliceIndices Δ (x.length * L) L ↔ ∃ k < x.length, Δ + k * L = j := by
    intro j
    rw [sliceIndices_eq _ _ _ hL, slice_count _ _ _ hL h, List.mem_map]
    simp [List.mem_range]
  have hget : ∀ k (hk : k < (sliceIndices Δ (x.length * L) L).length), (sliceIndices Δ (x.length * L) L)[k] = Δ + k * L := by
    intro k hk
    simp only [sliceIndices_eq _ _ _ hL, List.getElem_map, List.getElem_range]
  have hnd : (sliceIndices Δ (x.length * L) L).Nodup := by
    rw [sliceIndices_eq _ _ _ hL]
    refine List.Nodup.map (fun a b hab => ?_) List.nodup_range
    exact Nat.eq_of_mul_eq_mul_right hL (Nat.add_left_cancel hab)
  have hlt : ∀ i ∈ sliceIndices Δ (x.length * L) L, i < (List.replicate (x.length * L) (0 : α)).length := by
    intro i hi
    obtain ⟨k, hk, rfl⟩ := (hmem i).mp hi
    rw [List.length_replicate]
    calc Δ + k * L < L + k * L := by omega
      _ = (k + 1) * L := by ring
      _ ≤ x.length * L := Nat.mul_le_mul_right _ hk
  refine ⟨y, ?_, by rw [h2, List.length_replicate], fun n hn => ?_⟩
  · rw [expand, if_neg (by omega), if_neg (by omega)]
    simpa using h1
  · split
    · next hm =>
      have hk : n / L < x.length := Nat.div_lt_of_lt_mul (by rwa [Nat.mul_comm] at hn)
      have := h4 hnd hlt (n / L) (by rw [hlen]; exact hk)
      rw [hget] at this
      rw [← this]
      congr 1
      have := Nat.div_add_mod n L
      rw [hm, Nat.mul_comm] at this; omega
    · next hm =>
      rw [h3 n ?_, List.getElem?_replicate, if_pos hn]
      rw [hmem]
      rintro ⟨k, -, rfl⟩
      exact hm (by rw [Nat.add_mul_mod_self_right, Nat.mod_eq_of_lt h])

/-- Compression undoes expansion with the same factor and offset. -/
theorem C74_round_trip (x : List α) (L Δ : Nat) (h : Δ < L) :
    ∃ y, expand x L Δ = some y ∧ compress y L Δ = some x := by
  have hL : 0 < L := by omega
  obtain ⟨y, h1, h2, h3⟩ := C74_expand x L Δ h
  obtain ⟨z, h4, h5⟩ := C74_compress y L Δ h
  refine ⟨y, h1, ?_⟩
  rw [h4]
  congr 1
  refine List.ext_getElem? fun k => ?_
  rw [h5 k]
  rcases Nat.lt_or_ge k x.length with hk | hk
  · have hlt : k * L + Δ < x.length * L := by
      calc k * L + Δ < k * L + L := by omega
        _ = (k + 1) * L := by ring
        _ ≤ x.length * L := Nat.mul_le_mul_right _ hk
    rw [h3 _ hlt, if_pos (by rw [Nat.add_comm, Nat.add_mul_mod_self_right, Nat.mod_eq_of_lt h]), Nat.add_comm, Nat.add_mul_div_right _ _ hL,
      Nat.div_eq_of_lt h, Nat.zero_add]
  · rw [List.getElem?_eq_none (l := x) hk, List.getElem?_eq_none]
    rw [h2]
    have := Nat.mul_le_mul_right L hk
    omega

/-- Offsets that differ select only zeros. -/
theorem C74_other_offset (x : List α) (L Δ Δ' : Nat) (h : Δ < L) (h' : Δ' < L) (hne : Δ ≠ Δ') :
    ∃ y, expand x L Δ = some y ∧ compress y L Δ' = some (List.replicate x.length 0) := by
  have hL : 0 < L := by omega
  obtain ⟨y, h1, h2, h3⟩ := C74_expand x L Δ h
  obtain ⟨z, h4, h5⟩ := C74_compress y L Δ' h'
  refine ⟨y, h1, ?_⟩
  rw [h4]
  congr 1
  refine List.ext_getElem? fun k => ?_
  rw [h5 k, List.getElem?_replicate]
  split
  · next hk =>
    have hlt : k * L + Δ' < x.length * L := by
      calc k * L + Δ' < k * L + L := by omega
        _ = (k + 1) * L := by ring
        _ ≤ x.length * L := Nat.mul_le_mul_right _ hk
    rw [h3 _ hlt, if_neg (by rw [Nat.add_comm, Nat.add_mul_mod_self_right, Nat.mod_eq_of_lt h']; exact Ne.symm hne)]
  · next hk =>
    rw [List.getElem?_eq_none]
    rw [h2]
    have := Nat.mul_le_mul_right L (Nat.not_lt.mp hk)
    omega

end

/-! ### Documented cases -/
example : [[11, 12, 13, 14, 15], [16, 17, 18, 19, 20]].map (fun r : List Nat => compress r 3 0) = [some [11, 14], some [16, 19]] := by decide +kernel
example : [[11, 12, 13, 14, 15], [16, 17, 18, 19, 20]].map (fun r : List Nat => compress r 3 1) = [some [12, 15], some [17, 20]] := by decide +kernel
/-- along `axis=0` the slices are rows -/
example : compress [(11, 12), (13, 14), (15, 16), (17, 18), ((19, 20) : Nat × Nat)] 3 0 = some [(11, 12), (17, 18)] := by decide +kernel
example : [[1, 2], [3, 4]].map (fun r : List Nat => expand r 3 1) = [some [0, 1, 0, 0, 2, 0], some [0, 3, 0, 0, 4, 0]] := by decide +kernel
example : compress [1, 2, 3] 0 0 = none ∧ compress [1, 2, 3] 2 2 = none ∧ expand [1, 2] 2 (-1) = none := by decide +kernel

end Komm
