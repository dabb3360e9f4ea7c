import Verif.Props.C66_FreeDistance
import Verif.Props.C99_Catastrophic
/-! C159: reordering the inputs and the outputs of a convolutional encoder. -/
namespace Komm
open StateSpace
variable {k n σ σ' : Nat}

/-- `c'` is `c` with state places, inputs and outputs reordered: input `i` of `c'` is input `τ i` of `c`, and so on. -/
structure Reordered (e : Fin σ' ≃ Fin σ) (τ : Equiv.Perm (Fin k)) (ρ : Equiv.Perm (Fin n)) (c : StateSpace k n σ) (c' : StateSpace k n σ') : Prop where
  A : ∀ r s, c'.A r s = c.A (e r) (e s)
  B : ∀ i s, c'.B i s = c.B (τ i) (e s)
  C : ∀ r j, c'.C r j = c.C (e r) (ρ j)
  D : ∀ i j, c'.D i j = c.D (τ i) (ρ j)

theorem freeDistance_mono (c : StateSpace k n σ) (fuel fuel' : Nat) (r : Option Nat) (hle : fuel ≤ fuel') (hr : c.freeDistance fuel = some r) :
    c.freeDistance fuel' = some r := by
  have : NeZero (2 ^ σ) := ⟨(Nat.two_pow_pos σ).ne'⟩
  have key : ∀ f f' best heap, f ≤ f' → c.finiteStateMachine.freeLoop f best heap = some r →
      c.finiteStateMachine.freeLoop f' best heap = some r := by
    intro f
    induction f with
    | zero => intro f' best heap _ h; exact absurd h (by simp [Mealy.freeLoop])
    | succ f ih =>
      intro f' best heap hle h
      obtain ⟨g, rfl⟩ : ∃ g, f' = g + 1 := ⟨f' - 1, by omega⟩
      rw [Mealy.freeLoop] at h ⊢
      cases hp : Mealy.heapPop heap with
      | none => rw [hp] at h; exact h
      | some q =>
        obtain ⟨⟨w, s⟩, rest⟩ := q
        rw [hp] at h
        simp only at h ⊢
        split
        · rename_i hc; rw [if_pos hc] at h; exact h
        · rename_i hc; rw [if_neg hc] at h; exact ih g _ _ (by omega) h
  exact key fuel fuel' _ _ hle hr

namespace Reordered
variable {e : Fin σ' ≃ Fin σ} {τ : Equiv.Perm (Fin k)} {ρ : Equiv.Perm (Fin n)} {c : StateSpace k n σ} {c' : StateSpace k n σ'}

theorem symm (h : Reordered e τ ρ c c') : Reordered e.symm τ.symm ρ.symm c' c where
  A r s := by rw [h.A]; simp
  B r s := by rw [h.B]; simp
  C r s := by rw [h.C]; simp
  D r s := by rw [h.D]; simp

theorem next_eq (h : Reordered e τ ρ c c') (s : BVec σ) (u : BVec k) : c'.next (fun r => s (e r)) (fun i => u (τ i)) = fun r => c.next s u (e r) := by
  funext r
  simp only [StateSpace.next, Pi.add_apply, vecMat, h.A, h.B]
  rw [Equiv.sum_comp e fun x => s x * c.A x (e r), Equiv.sum_comp τ fun x => u x * c.B x (e r)]

theorem output_eq (h : Reordered e τ ρ c c') (s : BVec σ) (u : BVec k) : c'.output (fun r => s (e r)) (fun i => u (τ i)) = fun j => c.output s u (ρ j) := by
  funext r
  simp only [StateSpace.output, Pi.add_apply, vecMat, h.C, h.D]
  rw [Equiv.sum_comp e fun x => s x * c.C x (ρ r), Equiv.sum_comp τ fun x => u x * c.D x (ρ r)]

theorem run_eq (h : Reordered e τ ρ c c') (us : List (BVec k)) (s : BVec σ) :
    c'.run (fun r => s (e r)) (us.map fun (u : BVec k) i => u (τ i)) = fun r => c.run s us (e r) := by
  induction us generalizing s with
  | nil => rfl
  | cons u us ih =>
    rw [List.map_cons, StateSpace.run, StateSpace.run, h.next_eq, ih]

theorem outs_eq (h : Reordered e τ ρ c c') (us : List (BVec k)) (s : BVec σ) :
    c'.outs (fun r => s (e r)) (us.map fun (u : BVec k) i => u (τ i)) = (c.outs s us).map fun (v : BVec n) j => v (ρ j) := by
  induction us generalizing s with
  | nil => rfl
  | cons u us ih =>
    rw [List.map_cons, StateSpace.outs, StateSpace.outs, h.next_eq, h.output_eq, ih, List.map_cons]

end Reordered

theorem count_flat_perm {m : Nat} (ρ : Equiv.Perm (Fin m)) (vs : List (BVec m)) : (flat (vs.map fun (v : BVec m) j => v (ρ j))).count 1 = (flat vs).count 1 := by
  rw [count_flat, count_flat, List.map_map]
  congr 1
  refine List.map_congr_left fun v _ => ?_
  show bitCount (vecToNat fun j => v (ρ j)) = bitCount (vecToNat v)
  rw [bitCount_vecToNat, bitCount_vecToNat, count_ofFn, count_ofFn]
  exact Equiv.sum_comp ρ fun j => if v j = 1 then 1 else 0

namespace Reordered
variable {e : Fin σ' ≃ Fin σ} {τ : Equiv.Perm (Fin k)} {ρ : Equiv.Perm (Fin n)} {c : StateSpace k n σ} {c' : StateSpace k n σ'}

theorem encode_eq (h : Reordered e τ ρ c c') (hk : 0 < k) (us : List (BVec k)) :
    ∃ vs : List (BVec n), c.encode (flat us) = some (flat vs) ∧
      c'.encode (flat (us.map fun (u : BVec k) i => u (τ i))) = some (flat (vs.map fun (v : BVec n) j => v (ρ j))) := by
  refine ⟨c.outs 0 us, ?_, ?_⟩
  · rw [StateSpace.encode, encodeWithState_flat c hk]; rfl
  · have := h.outs_eq us 0
    rw [StateSpace.encode, encodeWithState_flat c' hk, ← this]; rfl

theorem returningWeights_subset (h : Reordered e τ ρ c c') (hk : 0 < k) : returningWeights c ⊆ returningWeights c' := by
  intro w hw
  rw [mem_returningWeights c hk] at hw
  obtain ⟨h0, us, h1, rfl⟩ := hw
  rw [mem_returningWeights c' hk]
  refine ⟨h0, us.map fun (u : BVec k) i => u (τ i), ?_, ?_⟩
  · have := h.run_eq us 0
    rw [h1] at this
    exact this
  · have := h.outs_eq us 0
    rw [← count_flat_perm ρ (c.outs 0 us), ← this]; rfl

theorem freeDistance_eq (h : Reordered e τ ρ c c') (hk : 0 < k) (fuel fuel' : Nat) (r r' : Option Nat) (hr : c.freeDistance fuel = some r)
    (hr' : c'.freeDistance fuel' = some r') : r' = r := by
  have hset : returningWeights c' = returningWeights c := (h.symm.returningWeights_subset hk).antisymm (h.returningWeights_subset hk)
  have key : ∀ {σ : Nat} (c : StateSpace k n σ) fuel r, c.freeDistance fuel = some r → (∀ d, r = some d ↔ IsLeast (returningWeights c) d) := by
    intro σ c fuel r hr d
    obtain ⟨q, ⟨N, hN⟩, h1, h2⟩ := C66_free_distance c hk
    have : r = q := Option.some_inj.mp ((freeDistance_mono c fuel (max fuel N) r (le_max_left _ _) hr).symm.trans (hN _ (le_max_right _ _)))
    rw [this]; exact h1 d
  have h1 := key c fuel r hr
  have h2 := key c' fuel' r' hr'
  rw [hset] at h2
  cases r with
  | some d => exact (h2 d).mpr ((h1 d).mp rfl)
  | none =>
    cases r' with
    | none => rfl
    | some d => exact absurd ((h1 d).mpr ((h2 d).mp rfl)) (by simp)

theorem firstBlocks_flat (u : Nat → Fin k → ZMod 2) (T : Nat) : firstBlocks u T = flat ((List.range T).map u) := by
  rw [firstBlocks, flat, List.map_map, List.flatMap_def]; rfl

theorem output_count (h : Reordered e τ ρ c c') (hk : 0 < k) (u : Nat → Fin k → ZMod 2) (T : Nat) (out : List (ZMod 2))
    (ho : c.encode (firstBlocks u T) = some out) : ∃ out', c'.encode (firstBlocks (fun t i => u t (τ i)) T) = some out' ∧ out'.count 1 = out.count 1 := by
  obtain ⟨vs, h1, h2⟩ := h.encode_eq hk ((List.range T).map u)
  rw [firstBlocks_flat, h1] at ho
  obtain rfl := Option.some_inj.mp ho
  refine ⟨_, ?_, count_flat_perm ρ vs⟩
  rw [firstBlocks_flat, ← h2, List.map_map]; rfl

theorem catastrophic_imp (h : Reordered e τ ρ c c') (hk : 0 < k) (hc : CatastrophicEncoder c) : CatastrophicEncoder c' := by
  obtain ⟨u, hu, B, hB⟩ := hc
  refine ⟨fun t i => u t (τ i), ?_, B, fun T => ?_⟩
  · refine hu.mono ?_
    rintro t ⟨i, hi⟩
    exact ⟨τ.symm i, by simpa using hi⟩
  · obtain ⟨out, h1, h2⟩ := hB T
    obtain ⟨out', h3, h4⟩ := h.output_count hk u T out h1
    exact ⟨out', h3, h4.trans_le h2⟩

theorem degenerate_imp (h : Reordered e τ ρ c c') (hk : 0 < k) (hc : DegenerateEncoder c) : DegenerateEncoder c' := by
  obtain ⟨u, ⟨t0, i0, h0⟩, hu, hB⟩ := hc
  refine ⟨fun t i => u t (τ i), ⟨t0, τ.symm i0, by simpa using h0⟩, hu.subset ?_, fun T => ?_⟩
  · rintro t ⟨i, hi⟩
    exact ⟨τ i, hi⟩
  · obtain ⟨out, h1, h2⟩ := hB T
    obtain ⟨out', h3, h4⟩ := h.output_count hk u T out h1
    exact ⟨out', h3, h4.trans h2⟩

end Reordered

/-! ### `ConvolutionalCode` -/

/-- `ConvolutionalCode` with the rows of `feedforward_polynomials` (and the feedback polynomials with them) and its columns reordered. -/
def ConvCode.reorder (c : ConvCode k n) (τ : Equiv.Perm (Fin k)) (ρ : Equiv.Perm (Fin n)) : ConvCode k n :=
  ⟨fun i j => c.feedforward (τ i) (ρ j), fun i => c.feedback (τ i)⟩

theorem foldl_max_perm {α : Type} [LinearOrder α] (a : α) (f : Fin n → α) (ρ : Equiv.Perm (Fin n)) :
    ((List.finRange n).map fun j : Fin n => f (ρ j)).foldl max a = ((List.finRange n).map fun j : Fin n => f j).foldl max a := by
  have hp : ((List.finRange n).map ρ).Perm (List.finRange n) := by
    refine (List.perm_ext_iff_of_nodup ((List.nodup_finRange n).map ρ.injective) (List.nodup_finRange n)).mpr fun x => ?_
    simp only [List.mem_map, List.mem_finRange, true_and, iff_true]
    exact ⟨ρ.symm x, by simp⟩
  have := hp.map f
  rw [List.map_map] at this
  exact this.foldl_eq' (fun x _ y _ z => by rw [max_right_comm]) a

theorem reorder_constraintLength (c : ConvCode k n) (τ : Equiv.Perm (Fin k)) (ρ : Equiv.Perm (Fin n)) (i : Fin k) :
    (c.reorder τ ρ).constraintLength i = c.constraintLength (τ i) := by
  unfold ConvCode.constraintLength
  congr 1
  exact foldl_max_perm _ (fun j => BP.degree (c.feedforward (τ i) j)) ρ

/-- Place `a` of the shift register of input `i` in the state. -/
def statePlace (c : ConvCode k n) (i : Fin k) (a : Fin (c.constraintLength i)) : Fin c.degree := finSigmaFinEquiv (n := c.constraintLength) ⟨i, a⟩

theorem statePlace_surjective (c : ConvCode k n) (r : Fin c.degree) : ∃ i a, r = statePlace c i a := by
  obtain ⟨⟨i, a⟩, h⟩ := (finSigmaFinEquiv (n := c.constraintLength)).surjective r
  exact ⟨i, a, h.symm⟩

theorem statePlace_symm (c : ConvCode k n) (i : Fin k) (a : Fin (c.constraintLength i)) :
    (finSigmaFinEquiv (n := c.constraintLength)).symm (statePlace c i a) = ⟨i, a⟩ := Equiv.symm_apply_apply _ _

theorem place_A (c : ConvCode k n) (i j : Fin k) (a : Fin (c.constraintLength i)) (b : Fin (c.constraintLength j)) :
    c.stateSpace.A (statePlace c i a) (statePlace c j b) = if h : i = j then c.blockA j (a.cast (by rw [h])) b else 0 := by
  have key : ∀ p q : (i : Fin k) × Fin (c.constraintLength i), p = ⟨i, a⟩ → q = ⟨j, b⟩ →
      (if h : p.1 = q.1 then c.blockA q.1 (p.2.cast (by rw [h])) q.2 else 0) = if h : i = j then c.blockA j (a.cast (by rw [h])) b else 0 := by
    rintro _ _ rfl rfl; rfl
  exact key _ _ (statePlace_symm c i a) (statePlace_symm c j b)

theorem place_B (c : ConvCode k n) (i j : Fin k) (b : Fin (c.constraintLength j)) :
    c.stateSpace.B i (statePlace c j b) = if i = j then c.blockB j b else 0 := by
  have key : ∀ q : (i : Fin k) × Fin (c.constraintLength i), q = ⟨j, b⟩ →
      (if i = q.1 then c.blockB q.1 q.2 else 0) = if i = j then c.blockB j b else 0 := by
    rintro _ rfl; rfl
  exact key _ (statePlace_symm c j b)

theorem place_C (c : ConvCode k n) (i : Fin k) (a : Fin (c.constraintLength i)) (j : Fin n) :
    c.stateSpace.C (statePlace c i a) j = c.blockC i a j := by
  have key : ∀ q : (i : Fin k) × Fin (c.constraintLength i), q = ⟨i, a⟩ → c.blockC q.1 q.2 j = c.blockC i a j := by
    rintro _ rfl; rfl
  exact key _ (statePlace_symm c i a)

/-- Shift register `i` of the reordered encoder is shift register `τ i` of the original. -/
def reorderSigma (c : ConvCode k n) (τ : Equiv.Perm (Fin k)) (ρ : Equiv.Perm (Fin n)) :
    ((i : Fin k) × Fin ((c.reorder τ ρ).constraintLength i)) ≃ ((i : Fin k) × Fin (c.constraintLength i)) :=
  Equiv.sigmaCongr τ fun i => finCongr (reorder_constraintLength c τ ρ i)

/-- The state places of the reordered encoder. -/
def reorderState (c : ConvCode k n) (τ : Equiv.Perm (Fin k)) (ρ : Equiv.Perm (Fin n)) : Fin (c.reorder τ ρ).degree ≃ Fin c.degree :=
  (finSigmaFinEquiv (n := (c.reorder τ ρ).constraintLength)).symm.trans ((reorderSigma c τ ρ).trans (finSigmaFinEquiv (n := c.constraintLength)))

theorem reorderState_place (c : ConvCode k n) (τ : Equiv.Perm (Fin k)) (ρ : Equiv.Perm (Fin n)) (i : Fin k) (a : Fin ((c.reorder τ ρ).constraintLength i)) :
    reorderState c τ ρ (statePlace _ i a) = statePlace c (τ i) (a.cast (reorder_constraintLength c τ ρ i)) :=
  congrArg (fun x => finSigmaFinEquiv (n := c.constraintLength) (reorderSigma c τ ρ x)) (statePlace_symm (c.reorder τ ρ) i a)

theorem reorder_reordered (c : ConvCode k n) (τ : Equiv.Perm (Fin k)) (ρ : Equiv.Perm (Fin n)) :
    Reordered (reorderState c τ ρ) τ ρ c.stateSpace (c.reorder τ ρ).stateSpace := by
  have halpha : ∀ i r, (c.reorder τ ρ).alpha i r = c.alpha (τ i) r := by
    intro i r
    simp only [ConvCode.alpha, reorder_constraintLength]; rfl
  have hbeta : ∀ i r j, (c.reorder τ ρ).beta i r j = c.beta (τ i) r (ρ j) := by
    intro i r j
    simp only [ConvCode.beta, reorder_constraintLength]; rfl
  constructor
  · intro r s
    obtain ⟨i, a, rfl⟩ := statePlace_surjective _ r
    obtain ⟨j, b, rfl⟩ := statePlace_surjective _ s
    rw [reorderState_place, reorderState_place, place_A, place_A]
    by_cases hij : i = j
    · subst hij
      simp [ConvCode.blockA, halpha]
    · rw [dif_neg hij, dif_neg fun h => hij (τ.injective h)]
  · intro i s
    obtain ⟨j, b, rfl⟩ := statePlace_surjective _ s
    rw [reorderState_place, place_B, place_B]
    simp only [ConvCode.blockB, τ.injective.eq_iff, Fin.val_cast]
  · intro r j
    obtain ⟨i, a, rfl⟩ := statePlace_surjective _ r
    rw [reorderState_place, place_C, place_C]
    simp only [ConvCode.blockC, halpha, hbeta, Fin.val_cast]
  · intro i j
    exact hbeta i 0 j

/-- Reordering inputs and outputs reorders the bits of each block and changes nothing else. -/
theorem C159_encode (c : ConvCode k n) (hk : 0 < k) (τ : Equiv.Perm (Fin k)) (ρ : Equiv.Perm (Fin n)) (us : List (BVec k)) :
    ∃ vs : List (BVec n), c.stateSpace.encode (us.map fun u : BVec k => List.ofFn u).flatten = some (vs.map fun v : BVec n => List.ofFn v).flatten ∧
      (c.reorder τ ρ).stateSpace.encode (us.map fun u : BVec k => List.ofFn fun i => u (τ i)).flatten =
        some (vs.map fun v : BVec n => List.ofFn fun j => v (ρ j)).flatten := by
  obtain ⟨vs, h1, h2⟩ := (reorder_reordered c τ ρ).encode_eq hk us
  refine ⟨vs, h1, ?_⟩
  rw [flat, flat, List.map_map, List.map_map] at h2
  exact h2

/-- The number of memory elements, the memory order and the free distance stay (the two searches for the latter may be given different numbers of rounds). -/
theorem C159_numbers (c : ConvCode k n) (hk : 0 < k) (τ : Equiv.Perm (Fin k)) (ρ : Equiv.Perm (Fin n)) :
    (c.reorder τ ρ).degree = c.degree ∧ (c.reorder τ ρ).memoryOrder = c.memoryOrder ∧
    ∀ fuel fuel' r r', c.stateSpace.freeDistance fuel = some r → (c.reorder τ ρ).stateSpace.freeDistance fuel' = some r' → r' = r := by
  refine ⟨?_, ?_, (reorder_reordered c τ ρ).freeDistance_eq hk⟩
  · simp only [ConvCode.degree, reorder_constraintLength]
    exact Equiv.sum_comp τ c.constraintLength
  · simp only [ConvCode.memoryOrder, reorder_constraintLength]
    exact foldl_max_perm _ c.constraintLength τ

/-- Whether the encoder is catastrophic does not change; nor does whether `is_catastrophic()` raises; for one input bit per block its answer stays. -/
theorem C159_catastrophic (c : ConvCode k n) (hk : 0 < k) (hq : ∀ i, (toPoly (c.feedback i)).coeff 0 = 1) (τ : Equiv.Perm (Fin k)) (ρ : Equiv.Perm (Fin n)) :
    (CatastrophicEncoder (c.reorder τ ρ).stateSpace ↔ CatastrophicEncoder c.stateSpace) ∧
    ((c.reorder τ ρ).isCatastrophic = none ↔ c.isCatastrophic = none) ∧
    (k = 1 → (c.reorder τ ρ).isCatastrophic = c.isCatastrophic) := by
  have hr := reorder_reordered c τ ρ
  have hc : CatastrophicEncoder (c.reorder τ ρ).stateSpace ↔ CatastrophicEncoder c.stateSpace :=
    ⟨hr.symm.catastrophic_imp hk, hr.catastrophic_imp hk⟩
  have hn : (c.reorder τ ρ).isCatastrophic = none ↔ c.isCatastrophic = none := by
    rw [C99_raises c hk hq, C99_raises (c.reorder τ ρ) hk fun i => hq (τ i)]
    exact ⟨hr.symm.degenerate_imp hk, hr.degenerate_imp hk⟩
  refine ⟨hc, hn, ?_⟩
  rintro rfl
  cases h : c.isCatastrophic with
  | none => exact hn.mpr h
  | some b =>
    cases h' : (c.reorder τ ρ).isCatastrophic with
    | none => rw [hn.mp h'] at h; cases h
    | some b' =>
      have e1 := C99_rate_one_over_n c (hq 0) b h
      have e2 := C99_rate_one_over_n (c.reorder τ ρ) (hq (τ 0)) b' h'
      rw [hc, ← e1] at e2
      congr 1
      exact Bool.eq_iff_iff.mpr e2

/-- A finding: with several input bits the answer of `is_catastrophic()` depends on the order of the inputs: `diag(1 + D, D)` is declared not catastrophic
(wrongly), the same encoder with inputs and outputs exchanged is declared catastrophic. -/
theorem C159_catastrophic_depends_on_order :
    (ConvCode.ofFeedforward ![![0b11, 0], ![0, 0b10]]).isCatastrophic = some false ∧
    ((ConvCode.ofFeedforward ![![0b11, 0], ![0, 0b10]]).reorder (Equiv.swap 0 1) (Equiv.swap 0 1)).isCatastrophic = some true ∧
    ((ConvCode.ofFeedforward ![![0b11, 0], ![0, 0b10]]).reorder (Equiv.swap 0 1) (Equiv.refl _)).isCatastrophic = some true := by decide +kernel

/-! ### `LowRateConvolutionalCode` -/

/-- `LowRateConvolutionalCode` with the generator polynomials reordered. -/
def LowRate.reorder (c : LowRate n) (ρ : Equiv.Perm (Fin n)) : LowRate n := ⟨fun j => c.gRow (ρ j)⟩

theorem lowRate_reorder_degree (c : LowRate n) (ρ : Equiv.Perm (Fin n)) : (c.reorder ρ).degree = c.degree := by
  unfold LowRate.degree
  congr 1
  exact foldl_max_perm _ (fun j => BP.degree (c.gRow j)) ρ

theorem lowRate_reordered (c : LowRate n) (ρ : Equiv.Perm (Fin n)) :
    Reordered (finCongr (lowRate_reorder_degree c ρ)) (Equiv.refl _) ρ c.stateSpace (c.reorder ρ).stateSpace := by
  have hbeta : ∀ r j, (c.reorder ρ).beta r j = c.beta r (ρ j) := by
    intro r j
    simp only [LowRate.beta, lowRate_reorder_degree]; rfl
  exact ⟨fun r s => rfl, fun i s => rfl, fun r j => hbeta _ j, fun i j => hbeta _ j⟩

/-- The same for `LowRateConvolutionalCode`; here `is_catastrophic()` does not depend on the order. -/
theorem C159_low_rate (c : LowRate n) (ρ : Equiv.Perm (Fin n)) :
    (∀ us : List (BVec 1), ∃ vs : List (BVec n), c.stateSpace.encode (us.map fun u : BVec 1 => List.ofFn u).flatten = some (vs.map fun v : BVec n => List.ofFn v).flatten ∧
      (c.reorder ρ).stateSpace.encode (us.map fun u : BVec 1 => List.ofFn u).flatten = some (vs.map fun v : BVec n => List.ofFn fun j => v (ρ j)).flatten) ∧
    (∀ fuel fuel' r r', c.stateSpace.freeDistance fuel = some r → (c.reorder ρ).stateSpace.freeDistance fuel' = some r' → r' = r) ∧
    (c.reorder ρ).degree = c.degree ∧ (c.reorder ρ).isCatastrophic = c.isCatastrophic := by
  have hr := lowRate_reordered c ρ
  refine ⟨fun us => ?_, hr.freeDistance_eq one_pos, lowRate_reorder_degree c ρ, ?_⟩
  · obtain ⟨vs, h1, h2⟩ := hr.encode_eq one_pos us
    refine ⟨vs, h1, ?_⟩
    rw [flat, flat, List.map_map, List.map_map] at h2
    exact h2
  · have hc : CatastrophicEncoder (c.reorder ρ).stateSpace ↔ CatastrophicEncoder c.stateSpace :=
      ⟨hr.symm.catastrophic_imp one_pos, hr.catastrophic_imp one_pos⟩
    obtain ⟨a1, a2⟩ := C99_low_rate c
    obtain ⟨b1, b2⟩ := C99_low_rate (c.reorder ρ)
    have hn : (c.reorder ρ).isCatastrophic = none ↔ c.isCatastrophic = none := by
      rw [a2, b2]
      exact ⟨fun h j => by simpa [LowRate.reorder] using h (ρ.symm j), fun h j => h _⟩
    cases h : c.isCatastrophic with
    | none => exact hn.mpr h
    | some b =>
      cases h' : (c.reorder ρ).isCatastrophic with
      | none => rw [hn.mp h'] at h; cases h
      | some b' =>
        have e1 := a1 b h
        have e2 := b1 b' h'
        rw [hc, ← e1] at e2
        congr 1
        exact Bool.eq_iff_iff.mpr e2

/-- Concrete cases: the documented rate 2/3 encoder with inputs and outputs exchanged, different encoders with the same free distance. -/
example : (ConvCode.ofFeedforward (k := 2) (n := 3) ![![0o1, 0o2, 0o3], ![0o4, 0o1, 0o7]]).stateSpace.freeDistance 60 = some (some 4) ∧
    ((ConvCode.ofFeedforward (k := 2) (n := 3) ![![0o1, 0o2, 0o3], ![0o4, 0o1, 0o7]]).reorder (Equiv.swap 0 1) (Equiv.swap 0 2)).feedforward =
      ![![0o7, 0o1, 0o4], ![0o3, 0o2, 0o1]] ∧
    ((ConvCode.ofFeedforward (k := 2) (n := 3) ![![0o1, 0o2, 0o3], ![0o4, 0o1, 0o7]]).reorder (Equiv.swap 0 1) (Equiv.swap 0 2)).stateSpace.freeDistance 60 =
      some (some 4) ∧ ∀ i, (toPoly ((ConvCode.ofFeedforward (k := 2) (n := 3) ![![0o1, 0o2, 0o3], ![0o4, 0o1, 0o7]]).feedback i)).coeff 0 = 1 :=
  ⟨by decide +kernel, by decide +kernel, by decide +kernel, fun i => by simp [ConvCode.ofFeedforward]⟩

end Komm
