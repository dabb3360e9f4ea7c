import Verif.Model.BlockFamilies
import Verif.Lemmas.CodeCounting
namespace Komm

variable {k m n : Nat}

theorem minimumDistance_spec' (c : LinCode k m n) (h : c.Lawful) (d : Nat) :
    c.minimumDistance = some d ↔
      (∃ v, v ≠ 0 ∧ c.check v = 0 ∧ hammingNorm v = d) ∧ ∀ v, v ≠ 0 → c.check v = 0 → d ≤ hammingNorm v := by
  rw [minimumDistance_spec c h]
  have hne : ∀ u, u ≠ 0 ↔ c.encode u ≠ 0 := by
    intro u
    rw [not_iff_not]
    exact ⟨fun e => by rw [e, h.encode_zero], fun e => h.encode_injective (e.trans h.encode_zero.symm)⟩
  constructor
  · rintro ⟨⟨u, h1, h2⟩, h3⟩
    refine ⟨⟨_, (hne u).mp h1, h.check_encode u, h2⟩, fun v hv hv0 => ?_⟩
    obtain ⟨u, rfl⟩ := (h.check_zero v).mp hv0
    exact h3 u ((hne u).mpr hv)
  · rintro ⟨⟨v, h1, h2, h3⟩, h4⟩
    obtain ⟨u, rfl⟩ := (h.check_zero v).mp h2
    exact ⟨⟨u, (hne u).mpr h1, h3⟩, fun u hu => h4 _ ((hne u).mp hu) (h.check_encode u)⟩

theorem sum_eq_norm (v : BVec n) : ∑ j, v j = (hammingNorm v : ZMod 2) := by
  rw [← vsum_eq, vsum, Nat.cast_sum]
  apply Finset.sum_congr rfl
  intro j _
  rw [ZMod.natCast_val, ZMod.cast_id]

theorem sum_zero_iff_even (v : BVec n) : ∑ j, v j = 0 ↔ Even (hammingNorm v) := by
  rw [sum_eq_norm, ZMod.natCast_eq_zero_iff_even]

theorem foldl_set_get (f : Nat → Nat) (g : Nat → Nat) (t N : Nat) (w : Nat) (hw : w < N)
    (hg : ∀ i < t, ∀ j < t, g i = g j → i = j) :
    ((List.range t).foldl (fun d i => d.set (g i) (f i)) (List.replicate N 0))[w]? =
      some (if h : ∃ i < t, g i = w then f h.choose else 0) ∧
    ((List.range t).foldl (fun d i => d.set (g i) (f i)) (List.replicate N 0)).length = N := by
  induction t with
  | zero => simp [hw]
  | succ t ih =>
    obtain ⟨ih1, ih2⟩ := ih (fun i hi j hj => hg i (by omega) j (by omega))
    rw [List.range_succ, List.foldl_append]
    simp only [List.foldl_cons, List.foldl_nil, List.length_set]
    refine ⟨?_, ih2⟩
    rw [List.getElem?_set, ih2]
    by_cases hgt : g t = w
    · rw [if_pos hgt, if_pos (by omega), dif_pos ⟨t, by omega, hgt⟩]
      have hx : ∃ i < t + 1, g i = w := ⟨t, by omega, hgt⟩
      have := hx.choose_spec
      rw [hg _ this.1 t (by omega) (this.2.trans hgt.symm)]
    · rw [if_neg hgt, ih1]
      congr 1
      by_cases hx : ∃ i < t, g i = w
      · have hx' : ∃ i < t + 1, g i = w := by obtain ⟨i, a, b⟩ := hx; exact ⟨i, by omega, b⟩
        rw [dif_pos hx, dif_pos hx']
        congr 1
        have a := hx.choose_spec
        have b := hx'.choose_spec
        exact hg _ (by omega) _ b.1 (a.2.trans b.2.symm)
      · have hx' : ¬ ∃ i < t + 1, g i = w := by
          rintro ⟨i, a, b⟩
          by_cases hit : i = t
          · subst hit; exact hgt b
          · exact hx ⟨i, by omega, b⟩
        rw [dif_neg hx, dif_neg hx']

theorem foldl_set_range (f : Nat → Nat) (t N w : Nat) (hw : w < N) :
    ((List.range t).foldl (fun d i => d.set i (f i)) (List.replicate N 0))[w]? = some (if w < t then f w else 0) := by
  rw [(foldl_set_get f (fun i => i) t N w hw (fun _ _ _ _ h => h)).1]
  congr 1
  by_cases h : w < t
  · have hx : ∃ i < t, i = w := ⟨w, h, rfl⟩
    rw [dif_pos hx, if_pos h, hx.choose_spec.2]
  · rw [if_neg h, dif_neg (by rintro ⟨i, a, b⟩; omega)]

theorem card_fin_lt (a : Nat) (ha : a ≤ n) : (Finset.univ.filter fun j : Fin n => (j : Nat) < a).card = a := by
  rw [Finset.card_filter, Fin.sum_univ_eq_sum_range (fun j => if j < a then 1 else 0) n, ← Finset.card_filter]
  have : (Finset.range n).filter (· < a) = Finset.range a := by
    ext x; simp only [Finset.mem_filter, Finset.mem_range]; omega
  rw [this, Finset.card_range]

theorem card_fin_ge (a : Nat) (ha : a ≤ n) : (Finset.univ.filter fun j : Fin n => a ≤ (j : Nat)).card = n - a := by
  have h1 := card_fin_lt (n := n) a ha
  have h2 := Finset.card_filter_add_card_filter_not (s := (Finset.univ : Finset (Fin n))) (fun j => (j : Nat) < a)
  rw [h1, Finset.card_univ, Fintype.card_fin] at h2
  simp only [not_lt] at h2
  omega

theorem hammingNorm_one : hammingNorm (1 : BVec n) = n := by simp [hammingNorm]

theorem hammingNorm_compl (v : BVec n) : hammingNorm (v + 1) = n - hammingNorm v := by
  have h2 := Finset.card_filter_add_card_filter_not (s := (Finset.univ : Finset (Fin n))) (fun j => v j ≠ 0)
  rw [Finset.card_univ, Fintype.card_fin] at h2
  have : hammingNorm (v + 1) = (Finset.univ.filter fun j => ¬ v j ≠ 0).card := by
    unfold hammingNorm
    congr 1
    ext j
    simp only [Finset.mem_filter, Finset.mem_univ, true_and, Pi.add_apply, Pi.one_apply]
    exact (by decide : ∀ x : ZMod 2, x + 1 ≠ 0 ↔ ¬ x ≠ 0) (v j)
  rw [this]
  unfold hammingNorm
  omega

end Komm
