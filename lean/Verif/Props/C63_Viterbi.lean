import Verif.Lemmas.Streaming
import Verif.Props.C59_Process
import Mathlib.Algebra.Order.Group.Int
/-! C63, C64, C80: the Viterbi algorithm.  Costs range over any linearly ordered abelian group `K` (ℤ, ℚ, ℝ); `⊤` is `inf`. -/
namespace Komm
open Mealy
variable {S X : Nat} {K Z : Type} [AddCommGroup K] [LinearOrder K] [IsOrderedAddMonoid K] [NeZero S]

/-- For every final state `s`, `viterbi` returns as `final_metrics[s]` the minimum, over all initial states and all input
sequences of the observed length ending in `s`, of (initial metric + sum of the branch metrics); and, when that is finite
and the machine has no parallel transitions, the column `input_hat[:, s]` is an input sequence that attains it. -/
theorem C63_viterbi (M : Mealy S X) (hM : M.NoParallel) (metric : Nat → Z → K) (init : Fin S → WithTop K) (zs : List Z)
    (s : Fin S) :
    (∀ (s0 : Fin S) (xs : List (Fin X)), xs.length = zs.length → M.run s0 xs = s →
      (M.viterbi metric init zs).2 s ≤ init s0 + ((M.cost metric s0 xs zs : K) : WithTop K)) ∧
    ((M.viterbi metric init zs).2 s ≠ ⊤ → ∃ (s0 : Fin S) (xs : List (Fin X)),
      xs.length = zs.length ∧ M.run s0 xs = s ∧
      (M.viterbi metric init zs).1 s = xs.map (fun x : Fin X => ((x : Nat) : Int)) ∧
      (M.viterbi metric init zs).2 s = init s0 + ((M.cost metric s0 xs zs : K) : WithTop K)) := by
  obtain ⟨h1, h2⟩ := viterbiForward_spec M metric init zs s
  refine ⟨h1, fun hne => ?_⟩
  rcases h2 with h | ⟨s0, xs, hl, hr, hm, hb, _⟩
  · exact absurd h hne
  · exact ⟨s0, xs, hl, hr, hb hM, hm⟩

/-- The final metric is finite exactly for the states reachable from an initial state of finite metric. -/
theorem C63_reachable (M : Mealy S X) (metric : Nat → Z → K) (init : Fin S → WithTop K) (zs : List Z) (s : Fin S) :
    (M.viterbi metric init zs).2 s ≠ ⊤ ↔
      ∃ (s0 : Fin S) (xs : List (Fin X)), xs.length = zs.length ∧ M.run s0 xs = s ∧ init s0 ≠ ⊤ := by
  obtain ⟨h1, h2⟩ := viterbiForward_spec M metric init zs s
  constructor
  · intro hne
    rcases h2 with h | ⟨s0, xs, hl, hr, hm, _⟩
    · exact absurd h hne
    · refine ⟨s0, xs, hl, hr, fun ht => hne ?_⟩
      show (M.viterbiForward metric init zs).1 s = ⊤
      rw [hm, ht, WithTop.top_add]
  · rintro ⟨s0, xs, hl, hr, hi⟩ ht
    have h := h1 s0 xs hl hr
    rw [show (M.viterbiForward metric init zs).1 s = ⊤ from ht, top_le_iff, WithTop.add_eq_top] at h
    rcases h with h | h
    · exact hi h
    · exact WithTop.coe_ne_top h

/-- Hamming metric on two-bit outputs. -/
def hamming2 (y z : Nat) : Int := ((Nat.xor y z).testBit 0).toNat + ((Nat.xor y z).testBit 1).toNat

/-- A concrete run: the documented machine has no parallel transitions and its Viterbi output corrects an error.  The
encoded sequence is `[3, 2, 2, 0, 1]` (C59), one bit is wrong in the second symbol. -/
example : exampleMealy.NoParallel ∧
    (exampleMealy.viterbi hamming2 (fun s => if s = 0 then 0 else ⊤) [3, 0, 2, 0, 1]).1 2 = [1, 1, 0, 1, 0] ∧
    (exampleMealy.viterbi hamming2 (fun s => if s = 0 then 0 else ⊤) [3, 0, 2, 0, 1]).2 2 = 1 := by
  refine ⟨by unfold NoParallel; decide, by decide +kernel, by decide +kernel⟩

/-- C64, what holds with parallel transitions: the final metrics are the minima, and the column returned for a state of
finite metric is an input sequence that leads to that state from a state where the minimum is attained.  Missing: the
returned sequence need not attain the minimum (see `C64_parallel_not_ml`). -/
theorem C64_viterbi_partial (M : Mealy S X) (metric : Nat → Z → K) (init : Fin S → WithTop K) (zs : List Z) (s : Fin S) :
    (∀ (s0 : Fin S) (xs : List (Fin X)), xs.length = zs.length → M.run s0 xs = s →
      (M.viterbi metric init zs).2 s ≤ init s0 + ((M.cost metric s0 xs zs : K) : WithTop K)) ∧
    ((M.viterbi metric init zs).2 s ≠ ⊤ → ∃ (s0 : Fin S) (xs xs' : List (Fin X)),
      xs.length = zs.length ∧ M.run s0 xs = s ∧
      (M.viterbi metric init zs).2 s = init s0 + ((M.cost metric s0 xs zs : K) : WithTop K) ∧
      xs'.length = zs.length ∧ M.run s0 xs' = s ∧
      (M.viterbi metric init zs).1 s = xs'.map (fun x : Fin X => ((x : Nat) : Int))) := by
  obtain ⟨h1, h2⟩ := viterbiForward_spec M metric init zs s
  refine ⟨h1, fun hne => ?_⟩
  rcases h2 with h | ⟨s0, xs, hl, hr, hm, _, xs', hl', hr', hb'⟩
  · exact absurd h hne
  · exact ⟨s0, xs, xs', hl, hr, hm, hl', hr', hb'⟩

/-- A machine with parallel transitions (one state: an uncoded bit). -/
def parallelMealy : Mealy 1 2 := ⟨fun _ _ => 0, fun _ x => (x : Nat)⟩

/-- C64 fails: the received word is the output of the input `0`, yet `viterbi` returns the input `1`. -/
theorem C64_parallel_not_ml :
    (parallelMealy.viterbi hamming2 (fun _ => 0) [0]).1 0 = [1] ∧
    parallelMealy.cost hamming2 0 [1] [0] = 1 ∧ parallelMealy.cost hamming2 0 [0] [0] = 0 ∧
    (parallelMealy.viterbi hamming2 (fun _ => 0) [0]).2 0 = 0 := by decide +kernel

/-! #### C80: streaming -/

/-- `viterbi_streaming` over a concatenated stream equals running it chunk by chunk on the carried memory; one output per
observation; the metrics carried are those of `viterbi`. -/
theorem C80_chunks_partial (M : Mealy S X) (metric : Nat → Z → K) (as bs : List Z) (m : Memory S K) :
    M.viterbiStreaming metric (as ++ bs) m =
      ((M.viterbiStreaming metric as m).1 ++ (M.viterbiStreaming metric bs (M.viterbiStreaming metric as m).2).1,
        (M.viterbiStreaming metric bs (M.viterbiStreaming metric as m).2).2) ∧
    (M.viterbiStreaming metric as m).1.length = as.length ∧
    (M.viterbiStreaming metric as m).2.metrics = (M.viterbi metric m.metrics as).2 :=
  ⟨viterbiStreaming_append M metric as bs m, viterbiStreaming_length M metric as m, viterbiStreaming_metrics M metric as m⟩

omit [AddCommGroup K] [IsOrderedAddMonoid K] in
theorem argminState_spec (m : Fin S → WithTop K) (s : Fin S) : m (argminState m) ≤ m s := by
  unfold argminState
  have key : ∀ (l : List (Fin S)) (b : Fin S),
      m (l.foldl (fun best s => if m s < m best then s else best) b) ≤ m b ∧
      ∀ s ∈ l, m (l.foldl (fun best s => if m s < m best then s else best) b) ≤ m s := by
    intro l
    induction l with
    | nil => intro b; simp
    | cons a l ih =>
      intro b
      rw [List.foldl_cons]
      obtain ⟨h1, h2⟩ := ih (if m a < m b then a else b)
      have h3 : m (if m a < m b then a else b) ≤ m a ∧ m (if m a < m b then a else b) ≤ m b := by
        split
        · rename_i h; exact ⟨le_rfl, h.le⟩
        · rename_i h; exact ⟨not_lt.mp h, le_rfl⟩
      refine ⟨h1.trans h3.2, ?_⟩
      intro s hs
      rcases List.mem_cons.mp hs with rfl | hs
      · exact h1.trans h3.1
      · exact h2 s hs
  exact (key _ _).2 s (List.mem_finRange s)

/-- What the decoder (started in state 0, traceback length `tau ≥ 1`) outputs on the observation `z` after at least `tau`
observations `zs`: it picks a state `s*` whose metric *after* `z` is minimal, and outputs the input at time `t - tau` of a
best path that is in state `s*` *before* `z`.  Missing with respect to the documentation (the survivor with the best
metric): `s*` is used as a state at the wrong time, see `C80_noiseless_wrong`. -/
theorem C80_output_partial (M : Mealy S X) (hM : M.NoParallel) (metric : Nat → Z → K) (tau : Nat) (ht : 1 ≤ tau)
    (zs : List Z) (hz : tau ≤ zs.length) (z : Z) :
    ∃ sStar : Fin S,
      (∀ s, (M.viterbi metric (fun s => if s = 0 then 0 else ⊤) (zs ++ [z])).2 sStar ≤
        (M.viterbi metric (fun s => if s = 0 then 0 else ⊤) (zs ++ [z])).2 s) ∧
      ((∃ xs : List (Fin X), xs.length = zs.length ∧ M.run 0 xs = sStar) →
        ∃ xs : List (Fin X), ∃ hl : xs.length = zs.length, M.run 0 xs = sStar ∧
          (∀ ys : List (Fin X), ys.length = zs.length → M.run 0 ys = sStar → M.cost metric 0 xs zs ≤ M.cost metric 0 ys zs) ∧
          (M.viterbiStreaming metric (zs ++ [z]) (Memory.fresh tau 0)).1.getD zs.length (-1) =
            (((xs[zs.length - tau]'(by omega) : Fin X) : Nat) : Int)) := by
  set m := (M.viterbiStreaming metric zs (Memory.fresh tau 0)).2 with hm
  have hmm : m.metrics = (M.viterbiForward metric (fun s => if s = 0 then 0 else ⊤) zs).1 :=
    viterbiStreaming_metrics M metric zs (Memory.fresh tau 0)
  refine ⟨argminState (M.trellisStep metric m.metrics z).1, ?_, ?_⟩
  · intro s
    have := argminState_spec (M.trellisStep metric m.metrics z).1 s
    show (M.viterbiForward _ _ _).1 _ ≤ (M.viterbiForward _ _ _).1 _
    rw [viterbiForward_snoc, ← hmm]
    exact this
  · set sStar := argminState (M.trellisStep metric m.metrics z).1 with hs
    rintro ⟨ws, hwl, hwr⟩
    have hle : ∀ ys : List (Fin X), ys.length = zs.length → M.run 0 ys = sStar →
        m.metrics sStar ≤ ((M.cost metric 0 ys zs : K) : WithTop K) := by
      intro ys h1 h2
      have := (viterbiForward_spec M metric (fun s => if s = 0 then 0 else ⊤) zs sStar).1 0 ys h1 h2
      rw [← hmm] at this
      simpa using this
    have hne : m.metrics sStar ≠ ⊤ := fun h => by
      have := hle ws hwl hwr
      rw [h, top_le_iff] at this
      exact WithTop.coe_ne_top this
    obtain ⟨xs, hl, hr, hc, hp⟩ := viterbiStreaming_paths M metric zs tau sStar hne
    rw [← hm] at hc hp
    refine ⟨xs, hl, hr, ?_, ?_⟩
    · intro ys h1 h2
      have := hle ys h1 h2
      rw [hc] at this
      exact WithTop.coe_le_coe.mp this
    · rw [viterbiStreaming_snoc, List.getD_eq_getElem?_getD, List.getElem?_append_right
        (by rw [viterbiStreaming_length]), viterbiStreaming_length, Nat.sub_self]
      simp only [List.getElem?_cons_zero, Option.getD_some, streamStep]
      rw [← hm, ← hs, hp]
      have hd : ∀ i, i ≤ tau → ((List.replicate tau (0 : Fin S) ++ M.states 0 xs).drop xs.length).getD i 0 =
          (M.states 0 xs).getD (xs.length - tau + i) 0 := by
        intro i hi
        rw [List.getD_eq_getElem?_getD, List.getElem?_drop, List.getElem?_append_right (by rw [List.length_replicate]; omega),
          List.getD_eq_getElem?_getD, List.length_replicate]
        congr 2
        omega
      rw [hd 0 (by omega), hd 1 ht, Nat.add_zero, states_getElem M 0 xs (xs.length - tau) (by omega),
        inputEdges_eq M hM]
      simp only [hl]

/-- The code with generator matrix `[D, 1]`: the two outputs are the stored bit and the input bit. -/
def delayMealy : Mealy 2 2 := ⟨fun _ x => x, fun s x => (s : Nat) + 2 * (x : Nat)⟩

/-- With traceback length 1 the noiseless observation of the input `[1, 0]` (outputs `2`, `1`) is decoded to `0` at time 1
although the only path of metric zero has input `1` at time 0, and that path is the survivor of best metric at every time. -/
theorem C80_noiseless_wrong :
    delayMealy.NoParallel ∧ delayMealy.outs 0 [1, 0] = [2, 1] ∧
    (delayMealy.viterbi hamming2 (fun s => if s = 0 then 0 else ⊤) [2]).1 1 = [1] ∧
    (delayMealy.viterbi hamming2 (fun s => if s = 0 then 0 else ⊤) [2]).2 1 = 0 ∧
    (delayMealy.viterbi hamming2 (fun s => if s = 0 then 0 else ⊤) [2, 1]).1 0 = [1, 0] ∧
    (delayMealy.viterbi hamming2 (fun s => if s = 0 then 0 else ⊤) [2, 1]).2 0 = 0 ∧
    (delayMealy.viterbiStreaming hamming2 [2, 1] (Memory.fresh 1 0)).1 = [0, 0] := by
  refine ⟨by unfold NoParallel; decide, ?_⟩
  decide +kernel

/-- The hypotheses of `C80_output_partial` are met by that machine. -/
example : delayMealy.NoParallel ∧ (∃ xs : List (Fin 2), xs.length = 1 ∧ delayMealy.run 0 xs = 0) :=
  ⟨by unfold NoParallel; decide, [0], rfl, rfl⟩

end Komm
