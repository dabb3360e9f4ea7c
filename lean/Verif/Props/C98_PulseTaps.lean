import Verif.Props.C97_Beaulieu
import Verif.Props.C95_TimePulses
/-! C98: `taps`, the samples of a pulse on a time span. -/
namespace Komm

/-- `taps` refuses exactly when no span is given to a pulse of infinite support. -/
theorem C98_refused (P : Pulse) (sps : Nat) (span : Option (Int × Int)) :
    P.taps sps span = none ↔ span = none ∧ (P.support.1 = ⊥ ∨ P.support.2 = ⊤) := by
  rw [Pulse.taps]
  split
  · rename_i h; simp [h]
  · rename_i h; simp [h]

theorem taps_some {P : Pulse} {sps : Nat} {span : Option (Int × Int)} {l : List ℝ} (h : P.taps sps span = some l) :
    l = (Pulse.tapTimes sps (span.getD (0, 1)).1 (span.getD (0, 1)).2).map P.waveform := by
  rw [Pulse.taps] at h
  split at h
  · simp at h
  · exact (Option.some.inj h).symm

/-- There are `(end - start) * sps + 1` taps. -/
theorem C98_length (P : Pulse) (sps : Nat) (start stop : Int) (hs : start ≤ stop) (l : List ℝ)
    (h : P.taps sps (some (start, stop)) = some l) : (l.length : Int) = (stop - start) * sps + 1 := by
  rw [taps_some h, List.length_map, Pulse.tapTimes, List.length_map, List.length_range]
  simp only [Option.getD_some]
  have : 0 ≤ (stop - start) * (sps : Int) := mul_nonneg (by omega) (by omega)
  rw [Int.toNat_of_nonneg (by rw [sub_mul] at this; omega)]
  ring

/-- Tap number `i` is the waveform at time `start + i / sps`: consecutive taps are `1 / sps` apart, the first is at `start`
and the last at `end`. -/
theorem C98_values (P : Pulse) (sps : Nat) (hsps : 1 ≤ sps) (start stop : Int) (l : List ℝ)
    (h : P.taps sps (some (start, stop)) = some l) (i : Nat) (hi : i < l.length) :
    l[i] = P.waveform (start + i / sps) := by
  have e := taps_some h
  subst e
  have : (sps : ℝ) ≠ 0 := by positivity
  simp only [Pulse.tapTimes, List.getElem_map, List.getElem_range, Option.getD_some]
  congr 1
  push_cast
  field_simp

/-- Without a span, a pulse of finite support is sampled on `[0, 1]`. -/
theorem C98_default (P : Pulse) (sps : Nat) (h : P.support.1 ≠ ⊥ ∧ P.support.2 ≠ ⊤) :
    P.taps sps none = P.taps sps (some (0, 1)) := by
  rw [Pulse.taps, Pulse.taps, if_neg (by rintro ⟨-, g | g⟩; exacts [h.1 g, h.2 g]), if_neg (by simp)]
  rfl

/-- The taps of a pulse without intersymbol interference: of those `sps` apart, the one at time zero is 1 and the others are 0. -/
theorem C98_nyquist (P : Pulse) (hP : P.IsNyquist) (sps : Nat) (hsps : 1 ≤ sps) (start stop : Int) (l : List ℝ)
    (h : P.taps sps (some (start, stop)) = some l) (k : Nat) (hk : k * sps < l.length) :
    l[k * sps] = if start + k = 0 then 1 else 0 := by
  rw [C98_values P sps hsps start stop l h]
  have hne : (sps : ℝ) ≠ 0 := by positivity
  have : (start : ℝ) + ((k * sps : Nat) : ℝ) / sps = ((start + k : Int) : ℝ) := by push_cast; field_simp
  rw [this]
  exact hP _

/-- The taps of the unit rectangular pulse: `sps` ones followed by a zero. -/
theorem C98_rectangular (sps : Nat) (hsps : 1 ≤ sps) : (rectangularPulse 1).taps sps none = some (List.replicate sps 1 ++ [0]) := by
  rw [C98_default _ _ ⟨EReal.coe_ne_bot _, EReal.coe_ne_top _⟩]
  rcases h : (rectangularPulse 1).taps sps (some (0, 1)) with _ | l
  · rw [C98_refused] at h
    simp at h
  · have hl := C98_length _ _ _ _ (by norm_num) l h
    rw [Option.some.injEq]
    refine List.ext_getElem ?_ fun i h1 h2 => ?_
    · rw [List.length_append, List.length_replicate, List.length_singleton]; omega
    · rw [C98_values _ _ hsps _ _ _ h]
      have hpos : (0 : ℝ) < sps := by exact_mod_cast hsps
      have e : (((0 : Int) : ℝ) + (i : ℝ) / sps - 1 / 2) / 1 = (i : ℝ) / sps - 1 / 2 := by push_cast; ring
      rcases lt_or_ge i sps with g | g
      · rw [List.getElem_append_left (by simpa using g), List.getElem_replicate]
        simp only [rectangularPulse, npRect]
        rw [e, if_pos]
        have a : (0 : ℝ) ≤ (i : ℝ) / sps := by positivity
        have b : (i : ℝ) / sps < 1 := by rw [div_lt_one hpos]; exact_mod_cast g
        exact ⟨by linarith, by linarith⟩
      · rw [List.getElem_append_right (by simpa using g), List.getElem_singleton]
        simp only [rectangularPulse, npRect]
        rw [e, if_neg]
        rintro ⟨-, b⟩
        have : (i : ℝ) / sps < 1 := by linarith
        rw [div_lt_one hpos] at this
        have : i < sps := by exact_mod_cast this
        omega

/-- The hypotheses of `C98_nyquist` are met: the raised-cosine pulse over `[-4, 4]`. -/
example : ∃ (P : Pulse) (l : List ℝ), raisedCosinePulse (1 / 4) = some P ∧ P.IsNyquist ∧ P.taps 8 (some (-4, 4)) = some l ∧ l.length = 65 := by
  have h1 := (C96_raised_cosine_accepts (1 / 4)).mpr (by norm_num)
  obtain ⟨P, hP⟩ := Option.isSome_iff_exists.mp h1
  rcases h : P.taps 8 (some (-4, 4)) with _ | l
  · rw [C98_refused] at h
    simp at h
  · refine ⟨P, l, hP, C96_raised_cosine_nyquist _ P hP, h, ?_⟩
    have := C98_length P 8 (-4) 4 (by norm_num) l h
    norm_num at this
    exact_mod_cast this

end Komm
