import Verif.Props.C84_Draws
/-! C77: the discrete memoryless channels. -/
namespace Komm
variable {K : Type} [Field K] [LinearOrder K] [IsStrictOrderedRing K]

/-- A channel run entry by entry on (symbol, draw) pairs over the alphabets `Fin a`, `Fin b` agrees with the transition matrix `P`: one output
per input, inside the output alphabet and with positive transition probability from its input symbol. -/
def PossibleOutputs {a b : Nat} (P : Fin a → Fin b → K) (input : List (Nat × K)) (out : List Nat) : Prop :=
  out.length = input.length ∧ ∀ t (h : t < input.length) (h' : t < out.length), ∃ (x : Fin a) (y : Fin b),
    input[t].1 = x ∧ out[t] = y ∧ 0 < P x y

/-- Legal inputs of a channel: symbols below `a`, generator values in `[0, 1)`. -/
def LegalInput (a : Nat) (input : List (Nat × K)) : Prop := ∀ xu ∈ input, xu.1 < a ∧ 0 ≤ xu.2 ∧ xu.2 < 1

theorem possible_map {a b : Nat} (P : Fin a → Fin b → K) (f : Nat × K → Nat) (input : List (Nat × K)) (hl : LegalInput a input)
    (hf : ∀ (x : Fin a) u, 0 ≤ u → u < 1 → ∃ y : Fin b, f (x.val, u) = y ∧ 0 < P x y) : PossibleOutputs P input (input.map f) := by
  refine ⟨by simp, fun t h h' => ?_⟩
  obtain ⟨hx, h0, h1⟩ := hl _ (List.getElem_mem h)
  obtain ⟨y, hy, hp⟩ := hf ⟨_, hx⟩ _ h0 h1
  exact ⟨⟨_, hx⟩, y, rfl, by simpa using hy, hp⟩

/-- The transition matrices of the three binary channels are accepted by `validate_transition_matrix` (rows are distributions). -/
theorem C77_row_stochastic (p : K) (hp : validProbability p = true) :
    validChannelMatrix (bscMatrix p) = true ∧ validChannelMatrix (becMatrix p) = true ∧ validChannelMatrix (zMatrix p) = true := by
  simp only [validProbability, Bool.and_eq_true, decide_eq_true_iff] at hp
  obtain ⟨h0, h1⟩ := hp
  simp only [validChannelMatrix, Bool.and_eq_true, decide_eq_true_iff]
  refine ⟨⟨?_, ?_⟩, ⟨?_, ?_⟩, ⟨?_, ?_⟩⟩
  · intro i j; fin_cases i <;> fin_cases j <;> simp [bscMatrix, h0, h1]
  · intro i; fin_cases i <;> simp [bscMatrix, Fin.sum_univ_two]
  · intro i j; fin_cases i <;> fin_cases j <;> simp [becMatrix, h0, h1]
  · intro i; fin_cases i <;> simp [becMatrix, Fin.sum_univ_three]
  · intro i j; fin_cases i <;> fin_cases j <;> simp [zMatrix, h0, h1]
  · intro i; fin_cases i <;> simp [zMatrix, Fin.sum_univ_two]

/-- Binary symmetric channel: only outputs of positive probability. -/
theorem C77_bsc (p : K) (input : List (Nat × K)) (hl : LegalInput 2 input) :
    PossibleOutputs (bscMatrix p) input (bscTransmit p input) := by
  refine possible_map _ _ input hl fun x u h0 h1 => ?_
  by_cases hu : u < p
  · fin_cases x
    · exact ⟨1, by simp [hu], by simp [bscMatrix]; linarith⟩
    · exact ⟨0, by simp [hu], by simp [bscMatrix]; linarith⟩
  · fin_cases x
    · exact ⟨0, by simp [hu], by simp [bscMatrix]; linarith⟩
    · exact ⟨1, by simp [hu], by simp [bscMatrix]; linarith⟩

/-- Binary erasure channel: a bit is received correctly or erased, never flipped. -/
theorem C77_bec (e : K) (input : List (Nat × K)) (hl : LegalInput 2 input) :
    PossibleOutputs (becMatrix e) input (becTransmit e input) := by
  refine possible_map _ _ input hl fun x u h0 h1 => ?_
  by_cases hu : u < e
  · exact ⟨2, by simp [hu], by fin_cases x <;> simp [becMatrix] <;> linarith⟩
  · fin_cases x
    · exact ⟨0, by simp [hu], by simp [becMatrix]; linarith⟩
    · exact ⟨1, by simp [hu], by simp [becMatrix]; linarith⟩

/-- Z-channel: a 0 is always received as 0. -/
theorem C77_z (p : K) (input : List (Nat × K)) (hl : LegalInput 2 input) :
    PossibleOutputs (zMatrix p) input (zTransmit p input) := by
  refine possible_map _ _ input hl fun x u h0 h1 => ?_
  by_cases hu : p ≤ u
  · fin_cases x
    · exact ⟨0, by simp, by simp [zMatrix]⟩
    · exact ⟨1, by simp [hu], by simp [zMatrix]; linarith⟩
  · fin_cases x
    · exact ⟨0, by simp, by simp [zMatrix]⟩
    · exact ⟨0, by simp [hu], by simp [zMatrix]; linarith⟩

/-- General discrete memoryless channel: never fails on legal inputs, only outputs of positive probability. -/
theorem C77_dmc {a b : Nat} (P : Fin a → Fin b → K) (hP : validChannelMatrix P = true) (input : List (Nat × K)) (hl : LegalInput a input) :
    ∃ out, dmcTransmit P input = some out ∧ PossibleOutputs P input (out.map Fin.val) := by
  simp only [validChannelMatrix, Bool.and_eq_true, decide_eq_true_iff] at hP
  induction input with
  | nil => exact ⟨[], rfl, by simp [PossibleOutputs]⟩
  | cons xu input ih =>
    obtain ⟨out, h1, h2, h3⟩ := ih fun y hy => hl y (List.mem_cons_of_mem _ hy)
    obtain ⟨hx, h0, hu⟩ := hl xu (by simp)
    obtain ⟨j, hj, hpj⟩ := C84_choice_positive (P ⟨xu.1, hx⟩) ((validPmf_iff _).mpr ⟨hP.1 _, hP.2 _⟩) xu.2 ⟨h0, hu⟩
    refine ⟨j :: out, ?_, by simpa using h2, fun t h h' => ?_⟩
    · rw [dmcTransmit] at h1 ⊢
      simp [List.mapM_cons, hx, hj, h1]
    · cases t with
      | zero => exact ⟨⟨_, hx⟩, j, rfl, by simp, hpj⟩
      | succ t => exact h3 t (by simpa using h) (by simpa using h')

/-- A symbol outside the input alphabet makes the general channel raise. -/
theorem C77_dmc_rejects {a b : Nat} (P : Fin a → Fin b → K) (input : List (Nat × K)) (xu : Nat × K) (hm : xu ∈ input) (hx : ¬ xu.1 < a) :
    dmcTransmit P input = none := by
  induction input with
  | nil => simp at hm
  | cons yu input ih =>
    rw [dmcTransmit, List.mapM_cons]
    rcases List.mem_cons.mp hm with rfl | hm
    · simp [hx]
    · have := ih hm
      rw [dmcTransmit] at this
      simp [this]

/-- With parameter 0 the channels are error-free. -/
theorem C77_error_free (input : List (Nat × K)) (hl : LegalInput 2 input) :
    bscTransmit 0 input = input.map Prod.fst ∧ becTransmit 0 input = input.map Prod.fst ∧ zTransmit 0 input = input.map Prod.fst := by
  refine ⟨List.map_congr_left fun xu h => ?_, List.map_congr_left fun xu h => ?_, List.map_congr_left fun xu h => ?_⟩ <;>
    obtain ⟨hx, h0, h1⟩ := hl xu h
  · simp [not_lt.mpr h0, Nat.mod_eq_of_lt hx]
  · simp [not_lt.mpr h0]
  · simp [h0]

open MeasureTheory in
theorem volume_lt (p : ℝ) (hp : 0 ≤ p ∧ p ≤ 1) : volume {u : ℝ | u ∈ Set.Ico (0 : ℝ) 1 ∧ u < p} = ENNReal.ofReal p := by
  have : {u : ℝ | u ∈ Set.Ico (0 : ℝ) 1 ∧ u < p} = Set.Ico 0 p := by
    ext u; simp only [Set.mem_setOf_eq, Set.mem_Ico]; exact ⟨fun h => ⟨h.1.1, h.2⟩, fun h => ⟨⟨h.1, h.2.trans_le hp.2⟩, h.2⟩⟩
  rw [this, Real.volume_Ico, sub_zero]

open MeasureTheory in
theorem volume_ge (p : ℝ) (hp : 0 ≤ p ∧ p ≤ 1) : volume {u : ℝ | u ∈ Set.Ico (0 : ℝ) 1 ∧ ¬ u < p} = ENNReal.ofReal (1 - p) := by
  have : {u : ℝ | u ∈ Set.Ico (0 : ℝ) 1 ∧ ¬ u < p} = Set.Ico p 1 := by
    ext u; simp only [Set.mem_setOf_eq, Set.mem_Ico, not_lt]; exact ⟨fun h => ⟨h.2, h.1.2⟩, fun h => ⟨⟨hp.1.trans h.1, h.2⟩, h.1⟩⟩
  rw [this, Real.volume_Ico]

open MeasureTheory in
/-- The law of each channel is its transition matrix: the generator values for which input `x` gives output `y` have total length `P[x][y]`. -/
theorem C77_law (p : ℝ) (hp : validProbability p = true) (x : Fin 2) :
    (∀ y : Fin 2, volume {u : ℝ | u ∈ Set.Ico (0 : ℝ) 1 ∧ bscTransmit p [(x.val, u)] = [y.val]} = ENNReal.ofReal (bscMatrix p x y)) ∧
    (∀ y : Fin 3, volume {u : ℝ | u ∈ Set.Ico (0 : ℝ) 1 ∧ becTransmit p [(x.val, u)] = [y.val]} = ENNReal.ofReal (becMatrix p x y)) ∧
    (∀ y : Fin 2, volume {u : ℝ | u ∈ Set.Ico (0 : ℝ) 1 ∧ zTransmit p [(x.val, u)] = [y.val]} = ENNReal.ofReal (zMatrix p x y)) := by
  simp only [validProbability, Bool.and_eq_true, decide_eq_true_iff] at hp
  have hall : volume {u : ℝ | u ∈ Set.Ico (0 : ℝ) 1 ∧ True} = ENNReal.ofReal 1 := by
    simp only [and_true, Set.setOf_mem_eq, Real.volume_Ico, sub_zero]
  have hnone : volume {u : ℝ | u ∈ Set.Ico (0 : ℝ) 1 ∧ False} = ENNReal.ofReal 0 := by simp
  have H : ∀ (q : ℝ) (Q Q' : ℝ → Prop), (∀ u, Q u ↔ Q' u) → volume {u : ℝ | u ∈ Set.Ico (0 : ℝ) 1 ∧ Q' u} = ENNReal.ofReal q →
      volume {u : ℝ | u ∈ Set.Ico (0 : ℝ) 1 ∧ Q u} = ENNReal.ofReal q := fun q Q Q' h h' => by rw [← h']; simp only [h]
  refine ⟨fun y => ?_, fun y => ?_, fun y => ?_⟩ <;> fin_cases x <;> fin_cases y
  · exact H _ _ _ (fun u => by by_cases h : u < p <;> simp [bscTransmit, h]) (volume_ge p hp)
  · exact H _ _ _ (fun u => by by_cases h : u < p <;> simp [bscTransmit, h]) (volume_lt p hp)
  · exact H _ _ _ (fun u => by by_cases h : u < p <;> simp [bscTransmit, h]) (volume_lt p hp)
  · exact H _ _ _ (fun u => by by_cases h : u < p <;> simp [bscTransmit, h]) (volume_ge p hp)
  · exact H _ _ _ (fun u => by by_cases h : u < p <;> simp [becTransmit, h]) (volume_ge p hp)
  · exact H _ _ _ (fun u => by by_cases h : u < p <;> simp [becTransmit, h]) hnone
  · exact H _ _ _ (fun u => by by_cases h : u < p <;> simp [becTransmit, h]) (volume_lt p hp)
  · exact H _ _ _ (fun u => by by_cases h : u < p <;> simp [becTransmit, h]) hnone
  · exact H _ _ _ (fun u => by by_cases h : u < p <;> simp [becTransmit, h]) (volume_ge p hp)
  · exact H _ _ _ (fun u => by by_cases h : u < p <;> simp [becTransmit, h]) (volume_lt p hp)
  · exact H _ _ _ (fun u => by simp [zTransmit]) hall
  · exact H _ _ _ (fun u => by simp [zTransmit]) hnone
  · exact H _ _ _ (fun u => by by_cases h : u < p <;> simp [zTransmit, h] <;> linarith) (volume_lt p hp)
  · exact H _ _ _ (fun u => by by_cases h : u < p <;> simp [zTransmit, h] <;> linarith) (volume_ge p hp)

/-- Each channel treats the symbols independently of one another. -/
theorem C77_memoryless (p : K) (l l' : List (Nat × K)) :
    bscTransmit p (l ++ l') = bscTransmit p l ++ bscTransmit p l' ∧ becTransmit p (l ++ l') = becTransmit p l ++ becTransmit p l' ∧
    zTransmit p (l ++ l') = zTransmit p l ++ zTransmit p l' := by
  simp [bscTransmit, becTransmit, zTransmit]

/-- Non-vacuity. -/
example : LegalInput 2 [(0, (1/20 : Rat)), (1, 1/2), (1, 1/100)] ∧ validProbability (1/10 : Rat) = true ∧
    bscTransmit (1/10 : Rat) [(0, 1/20), (1, 1/2), (1, 1/100)] = [1, 1, 0] ∧ becTransmit (1/10 : Rat) [(0, 1/20), (1, 1/2), (1, 1/100)] = [2, 1, 2] ∧
    zTransmit (1/10 : Rat) [(0, 1/20), (1, 1/2), (1, 1/100)] = [0, 1, 0] := by
  refine ⟨?_, by decide +kernel⟩
  intro xu h
  simp only [List.mem_cons, List.not_mem_nil, or_false] at h
  rcases h with rfl | rfl | rfl <;> norm_num

example : validChannelMatrix (![![9/10, 5/100, 5/100], ![0, 1/2, 1/2]] : Fin 2 → Fin 3 → Rat) = true ∧
    dmcTransmit (![![9/10, 5/100, 5/100], ![0, 1/2, 1/2]] : Fin 2 → Fin 3 → Rat) [(0, 0), (1, 0), (1, 1/2), (0, 94/100)] = some [0, 1, 2, 1] := by
  decide +kernel

end Komm
