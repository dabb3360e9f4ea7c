import Verif.Lemmas.FreeDistanceLinear
import Verif.Props.C60_Convolutional
/-! C66: `free_distance()`.  `freeDistance fuel` is the search cut off after `fuel` iterations of its `while` loop; `none` means that
the cut-off was hit. -/
namespace Komm
open StateSpace
variable {k n σ : Nat}

/-- The weights (numbers of ones) of the output streams of the input streams that bring the encoder from the zero state back to the
zero state, other than the weight 0. -/
def returningWeights (c : StateSpace k n σ) : Set Nat :=
  {w | 0 < w ∧ ∃ input out, c.encodeWithState input 0 = some (out, 0) ∧ out.count 1 = w}

theorem mem_returningWeights (c : StateSpace k n σ) (hk : 0 < k) (w : Nat) :
    w ∈ returningWeights c ↔ 0 < w ∧ ∃ us, c.run 0 us = 0 ∧ (flat (c.outs 0 us)).count 1 = w := by
  constructor
  · rintro ⟨hw, input, out, h, rfl⟩
    refine ⟨hw, ?_⟩
    have hm : input.length % k = 0 := by
      by_contra hc
      rw [(C60_accepts c hk input 0).1 hc] at h
      exact absurd h (by simp)
    obtain ⟨us, rfl⟩ := exists_flat hk input hm
    rw [encodeWithState_flat c hk] at h
    simp only [Option.some.injEq, Prod.mk.injEq] at h
    exact ⟨us, h.2, by rw [h.1]⟩
  · rintro ⟨hw, us, h1, h2⟩
    exact ⟨hw, flat us, flat (c.outs 0 us), by rw [encodeWithState_flat c hk, h1], h2⟩

/-- The search terminates, for every encoder: after finitely many iterations it returns the smallest non-zero weight of a path that
leaves the zero state and returns to it; if there is no such path it raises `RuntimeError` (result `some none`). -/
theorem C66_free_distance (c : StateSpace k n σ) (hk : 0 < k) :
    ∃ r, (∃ N, ∀ fuel, N ≤ fuel → c.freeDistance fuel = some r) ∧
      (∀ d, r = some d ↔ IsLeast (returningWeights c) d) ∧ (r = none ↔ returningWeights c = ∅) := by
  obtain ⟨N, r, hN, h1, h2⟩ := c.freeDistance_spec
  have hl : ∀ d, r = some d → IsLeast (returningWeights c) d := by
    intro d hd
    obtain ⟨g1, ⟨us, g2, g3⟩, g4⟩ := h1 d hd
    constructor
    · rw [mem_returningWeights c hk]
      exact ⟨g1, us, g2, g3⟩
    · intro w hw
      rw [mem_returningWeights c hk] at hw
      obtain ⟨hw0, us, hu, rfl⟩ := hw
      exact g4 us hu hw0
  have he : r = none → returningWeights c = ∅ := by
    intro hn
    rw [Set.eq_empty_iff_forall_notMem]
    intro w hw
    rw [mem_returningWeights c hk] at hw
    obtain ⟨hw0, us, hu, rfl⟩ := hw
    have := h2 hn us hu
    omega
  refine ⟨r, ⟨N, hN⟩, ?_, he, ?_⟩
  · intro d
    refine ⟨hl d, ?_⟩
    intro hd
    cases r with
    | none => rw [he rfl] at hd; exact absurd hd.1 (by simp)
    | some d' => rw [(hl d' rfl).unique hd]
  · intro h
    cases r with
    | none => rfl
    | some d => have := (hl d rfl).1; rw [h] at this; exact absurd this (by simp)

/-- Any completed run (however many iterations were allowed) gave that result. -/
theorem C66_result (c : StateSpace k n σ) (hk : 0 < k) (fuel : Nat) (d : Nat) (h : c.freeDistance fuel = some (some d)) :
    IsLeast (returningWeights c) d := by
  have hm : ∀ fuel fuel' r, fuel ≤ fuel' → c.freeDistance fuel = some r → c.freeDistance fuel' = some r := by
    intro fuel fuel' r hle hr
    haveI : NeZero (2 ^ σ) := ⟨(Nat.two_pow_pos σ).ne'⟩
    have key : ∀ f f' best heap, f ≤ f' → c.finiteStateMachine.freeLoop f best heap = some r →
        c.finiteStateMachine.freeLoop f' best heap = some r := by
      intro f
      induction f with
      | zero => intro f' best heap _ h; exact absurd h (by simp [Mealy.freeLoop])
      | succ f ih =>
        intro f' best heap hle h
        obtain ⟨g, rfl⟩ : ∃ g, f' = g + 1 := ⟨f' - 1, by omega⟩
        rw [Mealy.freeLoop] at h ⊢
        cases hp : Mealy.heapPop heap with
        | none => rw [hp] at h; exact h
        | some q =>
          obtain ⟨⟨w, s⟩, rest⟩ := q
          rw [hp] at h
          simp only at h ⊢
          split
          · rename_i hc; rw [if_pos hc] at h; exact h
          · rename_i hc; rw [if_neg hc] at h; exact ih g _ _ (by omega) h
    exact key fuel fuel' _ _ hle hr
  obtain ⟨r, ⟨N, hN⟩, h1, _⟩ := C66_free_distance c hk
  have e1 := hm fuel (max fuel N) _ (le_max_left _ _) h
  rw [hN _ (le_max_right _ _)] at e1
  exact (h1 d).mp (Option.some.inj e1)

/-- It is the least Hamming distance between two different output streams of the same length that end in the zero state. -/
theorem C66_distance (c : StateSpace k n σ) (fuel : Nat) (d : Nat) (h : c.freeDistance fuel = some (some d))
    (a b oa ob : List (ZMod 2)) (hl : a.length = b.length) (ha : c.encodeWithState a 0 = some (oa, 0))
    (hb : c.encodeWithState b 0 = some (ob, 0)) (hne : oa ≠ ob) :
    d ≤ (List.zipWith (· + ·) oa ob).count 1 := by
  have hk : 0 < k := by
    rw [encodeWithState] at ha
    split at ha
    · exact absurd ha (by simp)
    · rename_i hc
      push Not at hc
      exact Nat.pos_of_ne_zero hc.1
  have hs := C60_linear c a b hl 0 0 0 0 oa ob ha hb
  rw [add_zero] at hs
  refine (C66_result c hk fuel d h).2 ⟨?_, _, _, hs, rfl⟩
  have hlen : oa.length = ob.length := by
    have key : ∀ (l : List (ZMod 2)) o, c.encodeWithState l 0 = some (o, 0) → o.length = l.length / k * n := by
      intro l o hlo
      by_cases hm : l.length % k = 0
      · obtain ⟨o', s', h1, h2⟩ := (C60_accepts c hk l 0).2 hm
        rw [h1] at hlo
        simp only [Option.some.injEq, Prod.mk.injEq] at hlo
        rw [← hlo.1, h2]
      · rw [(C60_accepts c hk l 0).1 hm] at hlo
        exact absurd hlo (by simp)
    rw [key a oa ha, key b ob hb, hl]
  rw [List.count_pos_iff]
  by_contra hno
  apply hne
  apply List.ext_getElem hlen
  intro i h1 h2
  have hz : (List.zipWith (· + ·) oa ob)[i]'(by simp; omega) ≠ 1 := by
    intro e
    apply hno
    rw [← e]
    exact List.getElem_mem _
  rw [List.getElem_zipWith] at hz
  exact (by decide : ∀ x y : ZMod 2, x + y ≠ 1 → x = y) _ _ hz

/-- When no path other than the idle one is weightless, the minimum is over all input streams with a one in them. -/
theorem C66_nonzero_inputs (c : StateSpace k n σ) (hk : 0 < k)
    (hinj : ∀ input out, c.encodeWithState input 0 = some (out, 0) → 1 ∈ input → 1 ∈ out)
    (fuel : Nat) (d : Nat) (h : c.freeDistance fuel = some (some d)) :
    IsLeast {w | ∃ input out, 1 ∈ input ∧ c.encodeWithState input 0 = some (out, 0) ∧ out.count 1 = w} d := by
  obtain ⟨⟨h0, input, out, h1, h2⟩, hle⟩ := C66_result c hk fuel d h
  constructor
  · refine ⟨input, out, ?_, h1, h2⟩
    by_contra hno
    have hz : ∀ x ∈ input, x = 0 := by
      intro x hx
      by_contra hx0
      exact hno ((by decide : ∀ y : ZMod 2, y ≠ 0 → y = 1) x hx0 ▸ hx)
    have hi : input = List.replicate input.length 0 := List.eq_replicate_iff.mpr ⟨rfl, hz⟩
    have hs := C60_linear c input input rfl 0 0 0 0 out out h1 h1
    have hzz : List.zipWith (· + ·) input input = input := by
      apply List.ext_getElem (by simp)
      intro i g1 g2
      rw [List.getElem_zipWith]
      have := hz _ (List.getElem_mem g2)
      rw [this]; rfl
    rw [hzz, add_zero, h1] at hs
    simp only [Option.some.injEq, Prod.mk.injEq, and_true] at hs
    rw [← h2] at h0
    obtain ⟨i, hi, e⟩ := List.mem_iff_getElem.mp (List.count_pos_iff.mp h0)
    have e2 : out[i] = out[i] + out[i] := by
      have : (List.zipWith (· + ·) out out)[i]? = some (out[i] + out[i]) := by
        rw [List.getElem?_eq_getElem (by simp; omega), List.getElem_zipWith]
      rw [← hs, List.getElem?_eq_getElem hi] at this
      exact Option.some.inj this
    rw [e] at e2
    exact absurd e2 (by decide)
  · rintro w ⟨input, out, g1, g2, g3⟩
    refine hle ⟨?_, input, out, g2, g3⟩
    rw [← g3, List.count_pos_iff]
    exact hinj input out g2 g1

/-- Tables 2–6 of the tests (McEliece) and the documented encoders. -/
example : (ConvCode.ofFeedforward (k := 1) (n := 2) ![![0o5, 0o7]]).stateSpace.freeDistance 30 = some (some 5) := by decide +kernel
example : (ConvCode.ofFeedforward (k := 1) (n := 3) ![![0o13, 0o15, 0o17]]).stateSpace.freeDistance 40 = some (some 10) := by
  decide +kernel
example : (ConvCode.ofFeedforward (k := 2) (n := 3) ![![0o1, 0o2, 0o3], ![0o4, 0o1, 0o7]]).stateSpace.freeDistance 60 =
    some (some 4) := by decide +kernel
example : (HighRate.stateSpace ⟨![0o12, 0o15, 0o13, 0o11]⟩).freeDistance 80 = some (some 4) := by decide +kernel
example : (LowRate.stateSpace ⟨![0o5, 0o7, 0o7]⟩ : StateSpace 1 3 _).freeDistance 40 = some (some 8) := by decide +kernel

/-- An encoder without a returning path of positive weight: its output is always zero; the library raises. -/
example : (⟨fun _ _ => 0, fun _ _ => 1, fun _ _ => 0, fun _ _ => 0⟩ : StateSpace 1 1 1).freeDistance 40 = some none := by
  decide +kernel

/-- Linearity matters: for a machine that is not linear the same search can raise although a returning path of positive weight exists.
(No convolutional code of the library is such a machine.)  States 0 → 1 → 2 → 0 with output 1 only on the first step, and a weightless
way from 0 to 2. -/
example : let M : Mealy 3 2 := ⟨fun s x => if (s : Nat) = 0 then (if (x : Nat) = 0 then 1 else 2) else if (s : Nat) = 1 then 2 else 0,
      fun s x => if (s : Nat) = 0 ∧ (x : Nat) = 0 then 1 else 0⟩
    M.freeDistance 40 = some none ∧ M.run 0 [0, 0, 0] = 0 ∧ M.outs 0 [0, 0, 0] = [1, 0, 0] := by decide +kernel

end Komm
