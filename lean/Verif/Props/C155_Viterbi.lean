import Verif.Props.C155_PSKFading
/-! C154 and C155 with a zero-terminated convolutional code and the Viterbi decoder. -/
namespace Komm
open Constellation NDArray Real

/-- The blocks of a rate-one-over-`ν` zero-terminated code and `ViterbiDecoder`: what the chains of C154 and C155 need of them. -/
theorem viterbi_link {ν : Nat} (c : ConvCode 1 ν) (hν0 : 0 < ν) (hq : (toPoly (c.feedback 0)).coeff 0 = 1)
    (hgen : ∃ j, c.feedforward 0 j ≠ 0) (hν : 1 ≤ c.constraintLength 0) (h : Nat) (hh : 1 ≤ h)
    (fuel dfree : Nat) (hdf : c.stateSpace.freeDistance fuel = some (some dfree)) (t : Terminated 1 ν c.degree)
    (htt : t = ⟨c.stateSpace, c.memoryOrder, h, .zeroTermination⟩) (us : List (BVec t.dimension)) :
    0 < t.length ∧ ∃ E : BVec t.dimension → BVec t.length,
      t.encodeBlocks (us.flatMap fun u : BVec t.dimension => List.ofFn u) = some (us.flatMap fun u : BVec t.dimension => List.ofFn (E u)) ∧
      ∀ ws : List (BVec t.length), ws.length = us.length →
        (∀ b (h1 : b < us.length) (h2 : b < ws.length), hammingDist ws[b] (E us[b]) ≤ (dfree - 1) / 2) →
        t.viterbiHard (ws.flatMap fun w : BVec t.length => List.ofFn w) = some (us.flatMap fun u : BVec t.dimension => List.ofFn u) := by
  have hμ : 1 ≤ c.memoryOrder := by
    have : c.constraintLength 0 ≤ c.memoryOrder :=
      (ConvCode.foldl_max_nat _ 0).2 _ (List.mem_map.mpr ⟨0, List.mem_finRange 0, rfl⟩)
    omega
  have hlen : t.length = (h + c.memoryOrder) * ν ∧ t.dimension = h * 1 := by
    obtain ⟨_, _, _, _, _, _, _, _, a, b⟩ := zeroTermination_spec c.stateSpace (by norm_num) c.memoryOrder h hμ hh c.controllable t htt 0
    exact ⟨a, b⟩
  have henc : ∀ u : BVec t.dimension, ∃ v : BVec t.length, t.encode u = some (List.ofFn v) := by
    intro u
    obtain ⟨_, out, _, _, _, _, g5, g6, g7, _⟩ := zeroTermination_spec c.stateSpace (by norm_num) c.memoryOrder h hμ hh c.controllable t htt u
    refine ⟨vecOfList t.length out, ?_⟩
    rw [g5]
    congr 1
    apply List.ext_getElem
    · rw [List.length_ofFn, g6, g7]
    · intro i i1 i2
      rw [List.getElem_ofFn, vecOfList, List.getD_eq_getElem _ _ i1]
  choose E hE using henc
  have ht0 : 0 < t.length := by rw [hlen.1]; positivity
  have hk0 : 0 < t.dimension := by rw [hlen.2]; omega
  have hdpos : 0 < dfree := (C66_result c.stateSpace (by norm_num) fuel dfree hdf).1.1
  refine ⟨ht0, E, ?_, ?_⟩
  · have hvl : ∀ u : BVec t.dimension, vecOfList t.dimension (List.ofFn u) = u := words_ofFn
    rw [List.flatMap_def, Terminated.encodeBlocks,
      blockwise_flatten t.dimension hk0 _ (fun row => List.ofFn (E (vecOfList t.dimension row)))]
    · rw [List.flatMap_def, List.map_map]
      congr 2
      apply List.map_congr_left
      intro u _
      simp only [Function.comp_apply, hvl]
    · intro r hr; obtain ⟨w, _, rfl⟩ := List.mem_map.mp hr; simp
    · intro r hr
      obtain ⟨w, hw, rfl⟩ := List.mem_map.mp hr
      rw [hvl, hE]
  · intro ws hws herr
    have := C89_blockwise t ht0 ws us hws (fun i i1 i2 => by
      have h0 := herr i i2 i1
      exact C89_corrects_rate_one c hν0 hq hgen hν h hh fuel dfree hdf t htt us[i] (E us[i]) ws[i] (hE _) (by omega))
    rw [List.flatMap_def, List.flatMap_def]
    exact this

/-- PAM. -/
theorem C154_viterbi_pam {ν : Nat} (c : ConvCode 1 ν) (hν0 : 0 < ν) (hq : (toPoly (c.feedback 0)).coeff 0 = 1)
    (hgen : ∃ j, c.feedforward 0 j ≠ 0) (hν : 1 ≤ c.constraintLength 0) (h : Nat) (hh : 1 ≤ h)
    (fuel dfree : Nat) (hdf : c.stateSpace.freeDistance fuel = some (some dfree)) (t : Terminated 1 ν c.degree)
    (htt : t = ⟨c.stateSpace, c.memoryOrder, h, .zeroTermination⟩) (us : List (BVec t.dimension)) (hne : us ≠ [])
    (mb : Nat) (hmb : 1 ≤ mb) (L : Lab) (hL : reflectedLab mb = some L) (δ : ℝ) (hδ : 0 < δ) (S : Nat) (hn : t.length = mb * S) :
    ∃ s : List ℝ, transmitter t.encodeBlocks L (pam (2 ^ L.numBits) δ) (us.flatMap fun u : BVec t.dimension => List.ofFn u) = some ⟨[us.length * S * 1], s⟩ ∧
      s.length = us.length * S * 1 ∧
      ∀ (r : List ℝ) (e : Nat → Nat), r.length = s.length →
        (∀ q < us.length * S, e q < mb → |r.getD q 0 - s.getD q 0| < (e q + 1 / 2) * δ) →
        (∀ b < us.length, ∑ q ∈ Finset.range S, min (e (b * S + q)) mb ≤ (dfree - 1) / 2) →
        receiver t.viterbiHard L (closestEntries (pamClosest (2 ^ L.numBits) δ)) ⟨[us.length * S * 1], r⟩ = some (us.flatMap fun u : BVec t.dimension => List.ofFn u) := by
  obtain ⟨ht0, E, hE, hD⟩ := viterbi_link c hν0 hq hgen hν h hh fuel dfree hdf t htt us
  exact C154_pam_gray E t.encodeBlocks t.viterbiHard ((dfree - 1) / 2) us hne hE hD mb hmb L hL δ hδ S (by
    rcases Nat.eq_zero_or_pos S with e | e
    · rw [e, Nat.mul_zero] at hn; omega
    · exact e) hn

/-- QAM. -/
theorem C154_viterbi_qam {ν : Nat} (c : ConvCode 1 ν) (hν0 : 0 < ν) (hq : (toPoly (c.feedback 0)).coeff 0 = 1)
    (hgen : ∃ j, c.feedforward 0 j ≠ 0) (hν : 1 ≤ c.constraintLength 0) (h : Nat) (hh : 1 ≤ h)
    (fuel dfree : Nat) (hdf : c.stateSpace.freeDistance fuel = some (some dfree)) (t : Terminated 1 ν c.degree)
    (htt : t = ⟨c.stateSpace, c.memoryOrder, h, .zeroTermination⟩) (us : List (BVec t.dimension)) (hne : us ≠ [])
    (mi mq : Nat) (hmi : 1 ≤ mi) (hmq : 1 ≤ mq) (L : Lab) (hL : rectangularLab mi mq = some L) (hM : 2 ^ L.numBits = 2 ^ mi * 2 ^ mq)
    (δi δq φ : ℝ) (hδi : 0 < δi) (hδq : 0 < δq) (S : Nat) (hn : t.length = (mi + mq) * S) :
    ∃ s : List ℂ, transmitter t.encodeBlocks L (fun i : Fin (2 ^ L.numBits) => qam (2 ^ mi) (2 ^ mq) δi δq φ (Fin.cast hM i)) (us.flatMap fun u : BVec t.dimension => List.ofFn u) =
        some ⟨[us.length * S * 1], s⟩ ∧ s.length = us.length * S * 1 ∧
      ∀ (r : List ℂ) (ei eq : Nat → Nat), r.length = s.length →
        (∀ q < us.length * S, ei q < mi → |((r.getD q 0 - s.getD q 0) * phase (-φ)).re| < (ei q + 1 / 2) * δi) →
        (∀ q < us.length * S, eq q < mq → |((r.getD q 0 - s.getD q 0) * phase (-φ)).im| < (eq q + 1 / 2) * δq) →
        (∀ b < us.length, ∑ q ∈ Finset.range S, (min (ei (b * S + q)) mi + min (eq (b * S + q)) mq) ≤ (dfree - 1) / 2) →
        receiver t.viterbiHard L (closestEntries (qamClosest (2 ^ mi) (2 ^ mq) δi δq φ)) ⟨[us.length * S * 1], r⟩ =
          some (us.flatMap fun u : BVec t.dimension => List.ofFn u) := by
  obtain ⟨ht0, E, hE, hD⟩ := viterbi_link c hν0 hq hgen hν h hh fuel dfree hdf t htt us
  exact C154_qam_gray E t.encodeBlocks t.viterbiHard ((dfree - 1) / 2) us hne hE hD mi mq hmi hmq L hL hM δi δq φ hδi hδq S (by
    rcases Nat.eq_zero_or_pos S with e | e
    · rw [e, Nat.mul_zero] at hn; omega
    · exact e) hn

/-- PSK with unknown gains and phase noise. -/
theorem C155_viterbi {ν : Nat} (c : ConvCode 1 ν) (hν0 : 0 < ν) (hq : (toPoly (c.feedback 0)).coeff 0 = 1)
    (hgen : ∃ j, c.feedforward 0 j ≠ 0) (hν : 1 ≤ c.constraintLength 0) (h : Nat) (hh : 1 ≤ h)
    (fuel dfree : Nat) (hdf : c.stateSpace.freeDistance fuel = some (some dfree)) (t : Terminated 1 ν c.degree)
    (htt : t = ⟨c.stateSpace, c.memoryOrder, h, .zeroTermination⟩) (us : List (BVec t.dimension)) (hne : us ≠ [])
    (mb : Nat) (hmb : 1 ≤ mb) (L : Lab) (hL : reflectedLab mb = some L) (A φ : ℝ) (hA : 0 < A) (S : Nat) (hn : t.length = mb * S) :
    ∃ s : List ℂ, transmitter t.encodeBlocks L (psk (2 ^ L.numBits) A φ) (us.flatMap fun u : BVec t.dimension => List.ofFn u) = some ⟨[us.length * S * 1], s⟩ ∧
      s.length = us.length * S * 1 ∧ (∀ q < us.length * S, ‖s.getD q 0‖ = A) ∧
      ∀ (r : List ℂ) (e : Nat → Nat), r.length = s.length →
        (∀ q < us.length * S, e q < mb → ∃ ρ ψ : ℝ, 0 < ρ ∧ |ψ| < (e q + 1 / 2) / 2 ^ mb ∧ r.getD q 0 = ρ * s.getD q 0 * phase ψ) →
        (∀ b < us.length, ∑ q ∈ Finset.range S, min (e (b * S + q)) mb ≤ (dfree - 1) / 2) →
        receiver t.viterbiHard L (closestEntries (pskClosest (2 ^ L.numBits) φ)) ⟨[us.length * S * 1], r⟩ = some (us.flatMap fun u : BVec t.dimension => List.ofFn u) := by
  obtain ⟨ht0, E, hE, hD⟩ := viterbi_link c hν0 hq hgen hν h hh fuel dfree hdf t htt us
  exact C155_psk_gray E t.encodeBlocks t.viterbiHard ((dfree - 1) / 2) us hne hE hD mb hmb L hL A φ hA S (by
    rcases Nat.eq_zero_or_pos S with e | e
    · rw [e, Nat.mul_zero] at hn; omega
    · exact e) hn

/-- `ConvolutionalCode([[0o7, 0o5]])`, three blocks, zero termination: words of ten bits, free distance 5, so with QPSK two symbols of every
word may be turned into the next sector. -/
example : exampleTerm75.length = 2 * 5 ∧ exampleConv75.stateSpace.freeDistance 30 = some (some 5) ∧
    ∑ q ∈ Finset.range 5, min (if q = 1 ∨ q = 4 then 1 else 0) 2 ≤ (5 - 1) / 2 := by decide +kernel

end Komm
