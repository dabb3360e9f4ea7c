import Verif.Lemmas.CosetLeaders
import Verif.Lemmas.BlockDistance
import Mathlib.Data.Nat.Choose.Sum
import Mathlib.Data.Finset.Powerset
namespace Komm

variable {k m n : Nat}

/-- number of words of weight `w` -/
theorem card_norm (n w : Nat) : (Finset.univ.filter fun v : BVec n => hammingNorm v = w).card = n.choose w := by
  have := Finset.card_powersetCard w (Finset.univ : Finset (Fin n))
  rw [Finset.card_univ, Fintype.card_fin] at this
  rw [← this]
  refine Finset.card_bij' (fun v _ => Finset.univ.filter fun i => v i ≠ 0) (fun s _ => fun i => if i ∈ s then 1 else 0) ?_ ?_ ?_ ?_
  · intro v hv
    rw [Finset.mem_powersetCard]
    exact ⟨Finset.subset_univ _, (Finset.mem_filter.mp hv).2⟩
  · intro s hs
    rw [Finset.mem_filter]
    refine ⟨Finset.mem_univ _, ?_⟩
    rw [← (Finset.mem_powersetCard.mp hs).2, hammingNorm]
    congr 1
    ext i
    simp
  · intro v _
    funext i
    simp only [Finset.mem_filter, Finset.mem_univ, true_and]
    split
    · rename_i h; exact (zmod2_ne_zero h).symm
    · rename_i h; exact (not_not.mp h).symm
  · intro s _
    ext i
    simp

/-- `codeword_weight_distribution` counts the codewords of each weight. -/
theorem weightDistribution_eq (c : LinCode k m n) (h : c.Lawful) [DecidablePred fun v => c.check v = 0] :
    c.weightDistribution = (List.range (n + 1)).map fun w =>
      (Finset.univ.filter fun v : BVec n => c.check v = 0 ∧ hammingNorm v = w).card := by
  have hlen : c.weightDistribution.length = n + 1 := by simp [LinCode.weightDistribution, LinCode.bincount]
  apply List.ext_getElem
  · simp [hlen]
  · intro w h1 h2
    have h3 := weightDistribution_get c w
    rw [List.getD_eq_getElem _ _ h1, if_pos (by omega)] at h3
    rw [h3, List.getElem_map, List.getElem_range, List.count, List.countP_map, List.countP_eq_length_filter,
      ← List.toFinset_card_of_nodup ((codewords_nodup c h).filter _)]
    congr 1
    ext v
    simp only [List.mem_toFinset, List.mem_filter, codewords_mem, Finset.mem_filter, Finset.mem_univ, true_and,
      Function.comp, beq_iff_eq]
    rw [h.check_zero]

namespace LinCode
variable {c : LinCode k m n} (h : c.Lawful)
include h

theorem Lawful.fiber_card (s : Nat) (hs : s < 2 ^ m) :
    (Finset.univ.filter fun v : BVec n => c.syn v = s).card = 2 ^ k := by
  obtain ⟨v0, hv0⟩ := h.syn_surj s hs
  have : (Finset.univ.filter fun v : BVec n => c.syn v = s) =
      (Finset.univ : Finset (BVec k)).image (fun u => v0 + c.encode u) := by
    ext v
    simp only [Finset.mem_filter, Finset.mem_univ, true_and, Finset.mem_image]
    constructor
    · intro hv
      have : c.check (v0 + v) = 0 := by
        rw [h.check_add]
        have e : c.check v0 = c.check v := vecToNat_inj (hv0.trans hv.symm)
        rw [e, bvec_add_self]
      obtain ⟨u, hu⟩ := (h.check_zero _).mp this
      exact ⟨u, by rw [hu, ← add_assoc, bvec_add_self, zero_add]⟩
    · rintro ⟨u, rfl⟩
      rw [syn, h.check_add, h.check_encode, add_zero]; exact hv0
  rw [this, Finset.card_image_of_injective _ (fun a b e => h.encode_injective (add_left_cancel e)), Finset.card_univ,
    Fintype.card_fun]
  simp

/-- each coset has `2^k` words -/
theorem Lawful.cosetsOfWeight_mul (w : Nat) :
    2 ^ k * c.cosetsOfWeight w = (Finset.univ.filter fun v : BVec n => c.cw (c.syn v) = w).card := by
  classical
  rw [Finset.card_eq_sum_card_fiberwise (f := c.syn) (t := (Finset.range (2 ^ m)).filter fun s => c.cw s = w)]
  · rw [cosetsOfWeight, Finset.sum_congr rfl (g := fun _ => 2 ^ k)]
    · rw [Finset.sum_const, smul_eq_mul, Nat.mul_comm]
    · intro s hs
      obtain ⟨h1, h2⟩ := Finset.mem_filter.mp hs
      rw [← h.fiber_card s (Finset.mem_range.mp h1), Finset.filter_filter]
      congr 1
      ext v
      simp only [Finset.mem_filter, Finset.mem_univ, true_and]
      constructor
      · exact fun a => a.2
      · intro a; exact ⟨by rw [a, h2], a⟩
  · intro v hv
    have hv := (Finset.mem_filter.mp hv).2
    simp only [Finset.coe_filter, Finset.mem_range, Set.mem_setOf_eq]
    exact ⟨vecToNat_lt _, hv⟩

/-- A `t`-error-correcting code meeting the sphere-packing bound is perfect. -/
theorem Lawful.perfect (t : Nat) (hd : ∀ u, u ≠ 0 → 2 * t + 1 ≤ hammingNorm (c.encode u))
    (hcount : 2 ^ m ≤ ∑ w ∈ Finset.range (t + 1), n.choose w) (r : BVec n) :
    ∃! u, hammingDist r (c.encode u) ≤ t := by
  classical
  -- words of weight at most t have distinct syndromes
  have hinj : ∀ a b : BVec n, hammingNorm a ≤ t → hammingNorm b ≤ t → c.check a = c.check b → a = b := by
    intro a b ha hb hab
    have h0 : c.check (a + b) = 0 := by rw [h.check_add, hab, bvec_add_self]
    obtain ⟨u, hu⟩ := (h.check_zero _).mp h0
    have h1 : hammingNorm (a + b) ≤ 2 * t := by
      rw [← hammingDist_eq_norm_add]
      have := hammingDist_triangle a 0 b
      rw [hammingDist_zero_right, hammingDist_zero_left] at this
      omega
    by_cases hu0 : u = 0
    · rw [hu0, h.encode_zero] at hu
      have := congrArg (· + b) hu.symm
      simp only [bvec_add_add, zero_add] at this
      exact this
    · have := hd u hu0
      rw [hu] at this; omega
  let S := Finset.univ.filter fun v : BVec n => hammingNorm v ≤ t
  have hS : S.card = ∑ w ∈ Finset.range (t + 1), n.choose w := by
    rw [Finset.card_eq_sum_card_fiberwise (f := hammingNorm) (t := Finset.range (t + 1))]
    · apply Finset.sum_congr rfl
      intro w hw
      rw [← card_norm n w]
      congr 1
      ext v
      simp only [S, Finset.mem_filter, Finset.mem_univ, true_and]
      have := Finset.mem_range.mp hw
      omega
    · intro v hv
      simp only [S, Finset.coe_filter, Finset.mem_univ, true_and, Set.mem_setOf_eq] at hv
      simp only [Finset.coe_range, Set.mem_Iio]; omega
  have himg : (S.image c.check) = Finset.univ := by
    apply Finset.eq_univ_of_card
    rw [Finset.card_image_of_injOn]
    · have h1 : S.card ≤ (Finset.univ : Finset (BVec m)).card := by
        rw [← Finset.card_image_of_injOn (s := S) (f := c.check)]
        · exact Finset.card_le_univ _
        · intro a ha b hb e
          exact hinj a b (by simpa [S] using ha) (by simpa [S] using hb) e
      have h2 : Fintype.card (BVec m) = 2 ^ m := by rw [Fintype.card_fun]; simp
      rw [Finset.card_univ] at h1
      omega
    · intro a ha b hb e
      exact hinj a b (by simpa [S] using ha) (by simpa [S] using hb) e
  have hr : c.check r ∈ S.image c.check := by rw [himg]; exact Finset.mem_univ _
  obtain ⟨e, he, her⟩ := Finset.mem_image.mp hr
  obtain ⟨u, hu⟩ := (h.check_zero (r + e)).mp (by rw [h.check_add, her, bvec_add_self])
  refine ⟨u, ?_, fun u' hu' => ?_⟩
  · change hammingDist r (c.encode u) ≤ t
    rw [hammingDist_eq_norm_add, hu, ← add_assoc, bvec_add_self, zero_add]
    simpa [S] using he
  · have h1 : r + c.encode u' = r + c.encode u := by
      apply hinj
      · rw [← hammingDist_eq_norm_add]; exact hu'
      · rw [hu, ← add_assoc, bvec_add_self, zero_add]; simpa [S] using he
      · rw [h.check_add, h.check_add, h.check_encode, h.check_encode]
    exact h.encode_injective (add_left_cancel h1)

end LinCode
end Komm
