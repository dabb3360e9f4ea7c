import Verif.Lemmas.Canonical
import Mathlib.InformationTheory.Coding.KraftMcMillan
import Mathlib.Algebra.BigOperators.Fin
import Mathlib.Data.Finset.Card

namespace Komm

theorem kraftSum_perm {l l' : List Nat} (h : l.Perm l') (b : Nat) : kraftSum l b = kraftSum l' b :=
  ((h.filter _).map _).sum_eq

theorem kraftSum_pos {l : List Nat} (h : ∀ x ∈ l, x ≠ 0) (b : Nat) :
    kraftSum l b = (l.map fun l => (1 : ℚ) / (b : ℚ) ^ l).sum := by
  unfold kraftSum
  rw [List.filter_eq_self.mpr]
  intro x hx; simpa using Nat.pos_of_ne_zero (h x hx)

theorem fullyCovering_of_kraft {words : List Word} {b : Nat} (hb : 2 ≤ b) (hne : ∀ w ∈ words, w ≠ [])
    (hpf : PrefixFree words) (hsym : ∀ w ∈ words, ∀ a ∈ w, a < b)
    (hk : kraftSum (words.map List.length) b = 1) : FullyCovering words b := by
  have hnd := hpf.nodup hne
  set L := (words.map List.length).foldr max 0 with hL
  have hle : ∀ w ∈ words, w.length ≤ L := fun w hw => le_lmax _ _ (List.mem_map_of_mem hw)
  have hpre : ∀ v ∈ words, ∀ w ∈ words, v <+: w → v = w := by
    intro v hv w hw h
    obtain ⟨i, hi, rfl⟩ := List.getElem_of_mem hv
    obtain ⟨j, hj, rfl⟩ := List.getElem_of_mem hw
    by_contra hc
    exact hpf i j hi hj (by rintro rfl; exact hc rfl) (hne _ hv) (hne _ hw) h
  let ext : Word → Finset Word := fun w => ((allWords b (L - w.length)).map (w ++ ·)).toFinset
  have hcard : ∀ w, (ext w).card = b ^ (L - w.length) := by
    intro w
    rw [List.toFinset_card_of_nodup, List.length_map, allWords_length]
    exact (allWords_nodup _ _).map (fun x y h => List.append_cancel_left h)
  have hdisj : ∀ v ∈ words.toFinset, ∀ w ∈ words.toFinset, v ≠ w → Disjoint (ext v) (ext w) := by
    intro v hv w hw hvw
    rw [Finset.disjoint_left]
    intro x hx1 hx2
    obtain ⟨s, _, rfl⟩ := List.mem_map.mp (List.mem_toFinset.mp hx1)
    obtain ⟨t, _, h⟩ := List.mem_map.mp (List.mem_toFinset.mp hx2)
    have hv := List.mem_toFinset.mp hv
    have hw := List.mem_toFinset.mp hw
    rcases Nat.le_total v.length w.length with hl | hl
    · exact hvw (hpre v hv w hw (List.prefix_of_prefix_length_le ⟨s, rfl⟩ ⟨t, h⟩ hl))
    · exact hvw (hpre w hw v hv (List.prefix_of_prefix_length_le ⟨t, h⟩ ⟨s, rfl⟩ hl)).symm
  have hU : (words.toFinset.biUnion ext).card = b ^ L := by
    rw [Finset.card_biUnion hdisj, Finset.sum_congr rfl (fun w _ => hcard w), List.sum_toFinset _ hnd]
    have hb' : (0 : ℚ) < (b : ℚ) := by exact_mod_cast (by omega : 0 < b)
    have key : ∀ s : List Word, (∀ w ∈ s, w.length ≤ L) →
        ((s.map fun w => b ^ (L - w.length)).sum : ℚ) =
          (b : ℚ) ^ L * ((s.map List.length).map fun l => (1 : ℚ) / (b : ℚ) ^ l).sum := by
      intro s hs
      induction s with
      | nil => simp
      | cons w s ih =>
        simp only [List.map_cons, List.sum_cons, Nat.cast_add, mul_add, ih (fun w hw => hs w (by simp [hw]))]
        congr 1
        rw [Nat.cast_pow, pow_sub₀ _ hb'.ne' (hs w (by simp))]
        field_simp
    have h1 := key words hle
    rw [← kraftSum_pos (by
      intro x hx
      obtain ⟨w, hw, rfl⟩ := List.mem_map.mp hx
      simpa using hne w hw), hk, mul_one] at h1
    exact_mod_cast h1
  have hsub : words.toFinset.biUnion ext ⊆ (allWords b L).toFinset := by
    intro x hx
    obtain ⟨w, hw, hx⟩ := Finset.mem_biUnion.mp hx
    have hw := List.mem_toFinset.mp hw
    obtain ⟨t, ht, rfl⟩ := List.mem_map.mp (List.mem_toFinset.mp hx)
    rw [mem_allWords] at ht
    rw [List.mem_toFinset, mem_allWords]
    refine ⟨by rw [List.length_append, ht.1]; have := hle w hw; omega, ?_⟩
    intro a ha
    rcases List.mem_append.mp ha with ha | ha
    · exact hsym w hw a ha
    · exact ht.2 a ha
  have heq : words.toFinset.biUnion ext = (allWords b L).toFinset := by
    apply Finset.eq_of_subset_of_card_le hsub
    rw [List.toFinset_card_of_nodup (allWords_nodup _ _), allWords_length, hU]
  intro f hf
  have hmem : (List.range L).map f ∈ words.toFinset.biUnion ext := by
    rw [heq, List.mem_toFinset, mem_allWords]
    refine ⟨by simp, ?_⟩
    intro a ha
    obtain ⟨i, _, rfl⟩ := List.mem_map.mp ha
    exact hf i
  obtain ⟨w, hw, hx⟩ := Finset.mem_biUnion.mp hmem
  obtain ⟨t, ht, h⟩ := List.mem_map.mp (List.mem_toFinset.mp hx)
  have hw := List.mem_toFinset.mp hw
  refine ⟨w, hw, hne w hw, ?_⟩
  have := congrArg (List.take w.length) h
  rw [List.take_left, ← List.map_take, List.take_range, min_eq_left (hle w hw)] at this
  exact this

/-- McMillan's inequality for the codes of this model. -/
theorem mcmillan {words : List Word} {b : Nat} (hb : 0 < b) (hnd : words.Nodup)
    (hud : UniquelyParsable words) (hsym : ∀ w ∈ words, ∀ a ∈ w, a < b) :
    ((words.map List.length).map fun l => (1 : ℚ) / (b : ℚ) ^ l).sum ≤ 1 := by
  haveI : NeZero b := ⟨by omega⟩
  let g : Nat → Fin b := Fin.ofNat b
  have hg : ∀ w ∈ words, (w.map g).map Fin.val = w := by
    intro w hw
    rw [List.map_map]
    conv_rhs => rw [← List.map_id w]
    apply List.map_congr_left
    intro a ha
    simp [g, Fin.ofNat, Nat.mod_eq_of_lt (hsym w hw a ha)]
  have hginj : ∀ v ∈ words, ∀ w ∈ words, v.map g = w.map g → v = w := by
    intro v hv w hw h
    rw [← hg v hv, ← hg w hw, h]
  have hnd2 : (words.map (List.map g)).Nodup := by
    rw [List.nodup_map_iff_inj_on hnd]
    exact fun x hx y hy h => hginj x hx y hy h
  have hS : InformationTheory.UniquelyDecodable
      (((words.map (List.map g)).toFinset : Finset (List (Fin b))) : Set (List (Fin b))) := by
    intro L1 L2 h1 h2 h
    have conv : ∀ L : List (List (Fin b)),
        (∀ w ∈ L, w ∈ (((words.map (List.map g)).toFinset : Finset (List (Fin b))) : Set (List (Fin b)))) →
        ∀ w ∈ L.map (List.map Fin.val), w ∈ words := by
      intro L hL w hw
      obtain ⟨x, hx, rfl⟩ := List.mem_map.mp hw
      have := hL x hx
      rw [Finset.mem_coe, List.mem_toFinset] at this
      obtain ⟨y, hy, rfl⟩ := List.mem_map.mp this
      rw [hg y hy]; exact hy
    have h3 := hud _ _ (conv L1 h1) (conv L2 h2) (by rw [← List.map_flatten, ← List.map_flatten, h])
    have hinj : Function.Injective (List.map (Fin.val : Fin b → Nat)) :=
      List.map_injective_iff.mpr Fin.val_injective
    exact List.map_injective_iff.mpr hinj h3
  have hk := InformationTheory.kraft_mcmillan_inequality hS
  rw [List.sum_toFinset _ hnd2] at hk
  have hcast : (((words.map List.length).map fun l => (1 : ℚ) / (b : ℚ) ^ l).sum : ℝ) =
      ((words.map (List.map g)).map fun w => (1 / (Fintype.card (Fin b) : ℝ)) ^ w.length).sum := by
    clear hk hS hnd2 hginj hg hsym hud hnd
    induction words with
    | nil => simp
    | cons w ws ih =>
      simp only [List.map_cons, List.sum_cons, List.length_map, Fintype.card_fin, Rat.cast_add] at ih ⊢
      rw [ih]
      simp
  rw [← hcast] at hk
  exact_mod_cast hk

end Komm
