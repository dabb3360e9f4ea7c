import Verif.Lemmas.BlockFamilies
/-! Exhaustive kernel-checked enumeration of the span of a list of words, with words as integers. -/
namespace Komm

variable {k m n : Nat}

/-- number of ones among the low `n` bits -/
def popCount : Nat → Nat → Nat
  | 0, _ => 0
  | n + 1, x => x % 2 + popCount n (x / 2)

/-- `P` holds for `acc` plus every element of the span of the rows -/
def allSpan (P : Nat → Bool) : List Nat → Nat → Bool
  | [], acc => P acc
  | r :: rs, acc => allSpan P rs acc && allSpan P rs (acc ^^^ r)

theorem popCount_eq (n x : Nat) : popCount n x = ∑ i ∈ Finset.range n, (x.testBit i).toNat := by
  induction n generalizing x with
  | zero => rfl
  | succ n ih =>
    rw [popCount, ih, Finset.sum_range_succ']
    rw [Nat.add_comm]
    congr 1
    · apply Finset.sum_congr rfl
      intro i _
      rw [Nat.testBit_succ]
    · rw [Nat.testBit_zero]
      rcases Nat.mod_two_eq_zero_or_one x with h | h <;> simp [h]

theorem popCount_vecToNat (v : BVec n) : popCount n (vecToNat v) = hammingNorm v := by
  rw [popCount_eq, ← Fin.sum_univ_eq_sum_range (fun i => ((vecToNat v).testBit i).toNat), hammingNorm, Finset.card_filter]
  apply Finset.sum_congr rfl
  intro i _
  rw [vecToNat_testBit, vget, dif_pos i.is_lt]
  by_cases h : v i = 0 <;> simp [h]

theorem allSpan_spec (P : Nat → Bool) (rows : List (BVec n)) (acc : BVec n)
    (h : allSpan P (rows.map vecToNat) (vecToNat acc) = true) (us : List (ZMod 2)) (hl : us.length = rows.length) :
    P (vecToNat (acc + (List.zipWith (fun a r => a • r) us rows).sum)) = true := by
  induction rows generalizing acc us with
  | nil => simpa [allSpan] using h
  | cons r rs ih =>
    cases us with
    | nil => simp at hl
    | cons a us =>
      rw [List.map_cons, allSpan, Bool.and_eq_true] at h
      simp only [List.zipWith_cons_cons, List.sum_cons]
      rw [← add_assoc]
      rcases zmod2_cases a with e | e
      · rw [e, zero_smul, add_zero]
        exact ih acc h.1 us (by simpa using hl)
      · rw [e, one_smul]
        apply ih (acc + r) _ us (by simpa using hl)
        rw [vecToNat_add]; exact h.2

theorem encode_eq_sum (c : LinCode k m n) (h : c.Lawful) (u : BVec k) :
    c.encode u = (List.zipWith (fun a r => a • r) (List.ofFn u) (List.ofFn c.generator)).sum := by
  have : List.zipWith (fun (a : ZMod 2) (r : BVec n) => a • r) (List.ofFn u) (List.ofFn c.generator) =
      List.ofFn fun i => u i • c.generator i := by
    apply List.ext_getElem
    · simp
    · intro i h1 h2; simp
  rw [this, List.sum_ofFn]
  funext j
  rw [h.encode_eq, Finset.sum_apply]
  rfl

/-- lower bound on the minimum distance by enumeration -/
theorem distance_by_enumeration (c : LinCode k m n) (h : c.Lawful) (d : Nat) (rows : List Nat)
    (hrows : (List.ofFn c.generator).map vecToNat = rows)
    (hspan : allSpan (fun x => x == 0 || Nat.ble d (popCount n x)) rows 0 = true) :
    ∀ u, u ≠ 0 → d ≤ hammingNorm (c.encode u) := by
  intro u hu
  have h1 := allSpan_spec _ (List.ofFn c.generator) 0 (by rw [hrows, vecToNat_zero]; exact hspan) (List.ofFn u) (by simp)
  rw [zero_add, ← encode_eq_sum c h, popCount_vecToNat, Bool.or_eq_true, Nat.ble_eq, beq_iff_eq] at h1
  rcases h1 with h1 | h1
  · exfalso
    rw [← vecToNat_zero (m := n)] at h1
    exact hu (h.encode_injective ((vecToNat_inj h1).trans h.encode_zero.symm))
  · exact h1

end Komm
