import Verif.Props.C41_C48_BlockCodes
import Verif.Lemmas.CodeCounting
import Verif.Model.Random
import Verif.Props.C50_Hamming
import Verif.Props.C51_Golay
import Verif.Props.C110_ErrorRates
import Mathlib.MeasureTheory.Constructions.Pi
import Mathlib.MeasureTheory.Measure.Lebesgue.Basic
import Mathlib.MeasureTheory.Measure.Real
import Mathlib.Algebra.BigOperators.Field
/-! C111: error probabilities of block codes over the binary symmetric channel. -/
namespace Komm
open MeasureTheory Set

variable {k m n : Nat}

/-- The law of `n` independent draws of `rng.random()`, uniform on `[0, 1)`. -/
noncomputable def uniformDraws (n : Nat) : Measure (Fin n → ℝ) := Measure.pi fun _ => volume.restrict (Ico 0 1)

/-- The word received when `v` is sent with `BinarySymmetricChannel(p).transmit`, given the draws. -/
noncomputable def bscReceived (p : ℝ) (v : BVec n) (u : Fin n → ℝ) : BVec n :=
  vecOfList n ((bscTransmit p (List.ofFn fun j : Fin n => ((v j).val, u j))).map fun x : Nat => (x : ZMod 2))

instance uniform_prob : IsProbabilityMeasure (volume.restrict (Ico (0 : ℝ) 1)) := ⟨by simp⟩

instance uniformDraws_prob : IsProbabilityMeasure (uniformDraws n) := by
  unfold uniformDraws; infer_instance

/-- The pattern of errors. -/
noncomputable def flips (p : ℝ) (u : Fin n → ℝ) : BVec n := fun j => if u j < p then 1 else 0

theorem bscReceived_eq (p : ℝ) (v : BVec n) (u : Fin n → ℝ) : bscReceived p v u = v + flips p u := by
  funext j
  rw [bscReceived, vecOfList, bscTransmit, List.map_map, List.getD_eq_getElem?_getD]
  rw [List.getElem?_map, List.getElem?_ofFn]
  simp only [j.isLt, dif_pos, Option.map_some, Option.getD_some, Function.comp, Pi.add_apply, flips]
  rw [ZMod.natCast_mod, Nat.cast_add, ZMod.natCast_zmod_val]
  split <;> simp

theorem flips_law (p : ℝ) (h0 : 0 ≤ p) (h1 : p ≤ 1) (e : BVec n) :
    MeasurableSet {u : Fin n → ℝ | flips p u = e} ∧ (uniformDraws n).real {u : Fin n → ℝ | flips p u = e} = p ^ hammingNorm e * (1 - p) ^ (n - hammingNorm e) := by
  have hset : {u : Fin n → ℝ | flips p u = e} = univ.pi fun j => if e j = 0 then Ici p else Iio p := by
    ext u
    simp only [mem_setOf_eq, mem_univ_pi, flips, funext_iff]
    refine forall_congr' fun j => ?_
    by_cases hj : e j = 0
    · rw [if_pos hj, hj]
      by_cases hu : u j < p
      · simp [hu]
      · simp [hu, not_lt.mp hu]
    · have hj1 : e j = 1 := by
        generalize e j = x at hj
        revert hj; revert x; decide
      rw [if_neg hj, hj1]
      by_cases hu : u j < p <;> simp [hu]
  have hmeas : ∀ j, MeasurableSet (if e j = 0 then Ici p else Iio p) := fun j => by
    split
    · exact measurableSet_Ici
    · exact measurableSet_Iio
  rw [hset]
  refine ⟨MeasurableSet.univ_pi hmeas, ?_⟩
  rw [measureReal_def, uniformDraws, Measure.pi_pi, ENNReal.toReal_prod]
  have hone : ∀ j, ((volume.restrict (Ico (0 : ℝ) 1)) (if e j = 0 then Ici p else Iio p)).toReal = if e j = 0 then 1 - p else p := by
    intro j
    rw [Measure.restrict_apply (hmeas j)]
    split
    · rw [show Ici p ∩ Ico 0 1 = Ico p 1 by ext x; simp only [mem_inter_iff, mem_Ici, mem_Ico]; constructor <;> intro h <;> grind]
      rw [Real.volume_Ico, ENNReal.toReal_ofReal (by linarith)]
    · rw [show Iio p ∩ Ico 0 1 = Ico 0 p by ext x; simp only [mem_inter_iff, mem_Iio, mem_Ico]; constructor <;> intro h <;> grind]
      rw [Real.volume_Ico, ENNReal.toReal_ofReal (by linarith), sub_zero]
  simp only [hone]
  rw [Finset.prod_ite, Finset.prod_const, Finset.prod_const, mul_comm]
  have c1 : (Finset.univ.filter fun j : Fin n => ¬ e j = 0).card = hammingNorm e := rfl
  have c2 : (Finset.univ.filter fun j : Fin n => e j = 0).card = n - hammingNorm e := by
    have := Finset.card_filter_add_card_filter_not (s := (Finset.univ : Finset (Fin n))) (fun j => e j = 0)
    rw [Finset.card_univ, Fintype.card_fin, c1] at this
    omega
  rw [c1, c2]

/-- The probability that the error pattern falls in a set. -/
theorem flips_mem (p : ℝ) (h0 : 0 ≤ p) (h1 : p ≤ 1) (A : Finset (BVec n)) :
    (uniformDraws n).real {u : Fin n → ℝ | flips p u ∈ A} = ∑ e ∈ A, p ^ hammingNorm e * (1 - p) ^ (n - hammingNorm e) := by
  have hset : {u : Fin n → ℝ | flips p u ∈ A} = ⋃ e ∈ A, {u : Fin n → ℝ | flips p u = e} := by ext u; simp
  rw [hset, measureReal_biUnion_finset (fun a _ b _ hab => Set.disjoint_left.mpr fun u hu hu' => hab (hu.symm.trans hu')) fun e _ => (flips_law p h0 h1 e).1]
  exact Finset.sum_congr rfl fun e _ => (flips_law p h0 h1 e).2

theorem hammingNorm_le (e : BVec n) : hammingNorm e ≤ n := (hammingNorm_le_card_fintype).trans_eq (Fintype.card_fin n)

/-- Grouping a sum over words by weight. -/
theorem sum_by_weight (A : Finset (BVec n)) (f : Nat → ℝ) :
    ∑ e ∈ A, f (hammingNorm e) = ∑ w ∈ Finset.range (n + 1), ((A.filter fun e => hammingNorm e = w).card : ℝ) * f w := by
  rw [← Finset.sum_fiberwise_of_maps_to (t := Finset.range (n + 1)) (g := hammingNorm) fun e _ => Finset.mem_range.mpr (Nat.lt_succ_of_le (hammingNorm_le e))]
  refine Finset.sum_congr rfl fun w _ => ?_
  rw [Finset.sum_congr rfl (g := fun _ => f w) fun e he => by rw [(Finset.mem_filter.mp he).2], Finset.sum_const, nsmul_eq_mul]

/-- The channel: the received word differs from the sent one by a pattern of `w` errors with probability `p^w (1-p)^(n-w)`. -/
theorem C111_error_pattern (p : ℝ) (hp : validProbability p = true) (v r : BVec n) :
    (uniformDraws n).real {u | bscReceived p v u = r} = p ^ hammingDist v r * (1 - p) ^ (n - hammingDist v r) := by
  simp only [validProbability, Bool.and_eq_true, decide_eq_true_iff] at hp
  have hs : {u | bscReceived p v u = r} = {u : Fin n → ℝ | flips p u = r - v} := by
    ext u
    simp only [mem_setOf_eq, bscReceived_eq]
    exact ⟨fun h => by rw [← h]; simp, fun h => by rw [h]; simp⟩
  rw [hs, (flips_law p hp.1 hp.2 _).2, hammingDist_comm v r, hammingDist_eq_norm_add, bvec_sub]

theorem weight_sum (c : LinCode k m n) (h : c.Lawful) [DecidablePred fun e : BVec n => e ≠ 0 ∧ c.check e = 0] (f : Nat → ℝ) :
    ∑ w ∈ Finset.range (n + 1), (((Finset.univ.filter fun e : BVec n => e ≠ 0 ∧ c.check e = 0).filter fun e => hammingNorm e = w).card : ℝ) * f w =
      ∑ w ∈ Finset.Icc 1 n, (c.weightDistribution.getD w 0 : ℝ) * f w := by
  classical
  rw [show Finset.range (n + 1) = insert 0 (Finset.Icc 1 n) by ext w; simp; omega, Finset.sum_insert (by simp)]
  have h0 : ((Finset.univ.filter fun e : BVec n => e ≠ 0 ∧ c.check e = 0).filter fun e => hammingNorm e = 0).card = 0 := by
    rw [Finset.card_eq_zero, Finset.filter_eq_empty_iff]
    intro e he hw
    exact (Finset.mem_filter.mp he).2.1 (hammingNorm_eq_zero.mp hw)
  rw [h0, Nat.cast_zero, zero_mul, zero_add]
  refine Finset.sum_congr rfl fun w hw => ?_
  obtain ⟨w1, w2⟩ := Finset.mem_Icc.mp hw
  congr 2
  rw [weightDistribution_eq c h, List.getD_eq_getElem?_getD, List.getElem?_map, List.getElem?_range (by omega)]
  simp only [Option.map_some, Option.getD_some]
  congr 1
  ext e
  simp only [Finset.mem_filter, Finset.mem_univ, true_and]
  constructor
  · rintro ⟨⟨a, b⟩, d⟩; exact ⟨b, d⟩
  · rintro ⟨b, d⟩
    refine ⟨⟨fun h0 => ?_, b⟩, d⟩
    rw [h0, hammingNorm_zero] at d; omega

/-- Undetected errors: `check` of the received word vanishes although it is not the word sent. -/
theorem C111_undetected (c : LinCode k m n) (h : c.Lawful) (p : ℝ) (hp : validProbability p = true) (msg : BVec k) :
    (uniformDraws n).real {u | bscReceived p (c.encode msg) u ≠ c.encode msg ∧ c.check (bscReceived p (c.encode msg) u) = 0} =
      ∑ w ∈ Finset.Icc 1 n, (c.weightDistribution.getD w 0 : ℝ) * (p ^ w * (1 - p) ^ (n - w)) := by
  classical
  simp only [validProbability, Bool.and_eq_true, decide_eq_true_iff] at hp
  have hs : {u | bscReceived p (c.encode msg) u ≠ c.encode msg ∧ c.check (bscReceived p (c.encode msg) u) = 0} =
      {u : Fin n → ℝ | flips p u ∈ Finset.univ.filter fun e : BVec n => e ≠ 0 ∧ c.check e = 0} := by
    ext u
    simp only [mem_setOf_eq, bscReceived_eq, h.check_add, h.check_encode, zero_add, Finset.mem_filter, Finset.mem_univ, true_and, ne_eq, add_eq_left]
  rw [hs, flips_mem p hp.1 hp.2, sum_by_weight _ fun w => p ^ w * (1 - p) ^ (n - w)]
  exact weight_sum c h _

/-- Syndrome-table decoding is right exactly when the error pattern is a coset leader. -/
theorem syndrome_right_iff (c : LinCode k m n) (h : c.Lawful) (T : Nat → BVec n) (hT : ∀ s < 2 ^ m, c.check (T s) = natToVec m s) (msg : BVec k) (e : BVec n) :
    syndromeTableDecode c T (c.encode msg + e) = msg ↔ T (vecToNat (c.check e)) = e := by
  have hc : c.check (c.encode msg + e) = c.check e := by rw [h.check_add, h.check_encode, zero_add]
  rw [syndromeTableDecode, hc]
  set t := T (vecToNat (c.check e)) with ht
  have hte : c.check (e + t) = 0 := by
    rw [h.check_add, ht, hT _ (vecToNat_lt _), natToVec_vecToNat]
    exact bvec_add_self _
  constructor
  · intro hd
    obtain ⟨w, hw⟩ := (h.check_zero (e + t)).mp hte
    rw [add_assoc, ← hw, ← h.encode_add, h.project_encode] at hd
    have : w = 0 := by simpa using hd
    rw [this, h.encode_zero] at hw
    rw [← bvec_add_add e t, ← hw, zero_add]
  · intro hd
    rw [hd, bvec_add_add, h.project_encode]

/-- The probability that the syndrome-table decoder returns the message sent. -/
theorem C111_syndrome_table (c : LinCode k m n) (h : c.Lawful) (hm : 1 ≤ m) (fuel : Nat) (hf : n ≤ fuel) (p : ℝ) (hp : validProbability p = true) :
    ∃ T D, c.cosetLeaders fuel = some T ∧ c.leaderWeightDistribution fuel = some D ∧ ∀ msg : BVec k,
      (uniformDraws n).real {u | syndromeTableDecode c T (bscReceived p (c.encode msg) u) = msg} =
        ∑ w ∈ Finset.range (n + 1), (D.getD w 0 : ℝ) * (p ^ w * (1 - p) ^ (n - w)) := by
  classical
  simp only [validProbability, Bool.and_eq_true, decide_eq_true_iff] at hp
  obtain ⟨T, D, h1, h2, h3, h4, -⟩ := C44_weight_distribution c h hm fuel hf
  obtain ⟨T', h1', h5⟩ := C44_coset_leaders c h hm fuel hf
  obtain rfl : T' = T := Option.some_inj.mp (h1'.symm.trans h1)
  refine ⟨T', D, h1, h2, fun msg => ?_⟩
  have hs : {u | syndromeTableDecode c T' (bscReceived p (c.encode msg) u) = msg} =
      {u : Fin n → ℝ | flips p u ∈ Finset.univ.filter fun e : BVec n => T' (vecToNat (c.check e)) = e} := by
    ext u
    simp only [mem_setOf_eq, bscReceived_eq, syndrome_right_iff c h T' (fun s hs => (h5 s hs).1), Finset.mem_filter, Finset.mem_univ, true_and]
  rw [hs, flips_mem p hp.1 hp.2, sum_by_weight _ fun w => p ^ w * (1 - p) ^ (n - w)]
  refine Finset.sum_congr rfl fun w hw => ?_
  congr 2
  rw [List.getD_eq_getElem?_getD, h4 w (by have := Finset.mem_range.mp hw; omega), Option.getD_some, ← List.countP_eq_length_filter.symm]
  rw [← List.toFinset_card_of_nodup ((List.nodup_range).filter _)]
  symm
  apply Finset.card_bij (fun s _ => T' s)
  · intro s hs
    simp only [List.mem_toFinset, List.mem_filter, List.mem_range, decide_eq_true_iff] at hs
    simp only [Finset.mem_filter, Finset.mem_univ, true_and]
    refine ⟨?_, hs.2⟩
    rw [(h5 s hs.1).1, vecToNat_natToVec _ hs.1]
  · intro a ha b hb hab
    simp only [List.mem_toFinset, List.mem_filter, List.mem_range, decide_eq_true_iff] at ha hb
    have : natToVec m a = natToVec m b := by rw [← (h5 a ha.1).1, ← (h5 b hb.1).1]; exact congrArg c.check hab
    rw [← vecToNat_natToVec a ha.1, this, vecToNat_natToVec b hb.1]
  · intro e he
    simp only [Finset.mem_filter, Finset.mem_univ, true_and] at he
    refine ⟨vecToNat (c.check e), ?_, he.1⟩
    simp only [List.mem_toFinset, List.mem_filter, List.mem_range, decide_eq_true_iff]
    exact ⟨vecToNat_lt _, by rw [he.1]; exact he.2⟩

/-- A minimum-distance decoder. -/
def MinDistance (c : LinCode k m n) (dec : BVec n → BVec k) : Prop := ∀ r u', hammingDist r (c.encode (dec r)) ≤ hammingDist r (c.encode u')

/-- Both hard decoders of the library are minimum-distance decoders. -/
theorem C111_decoders (c : LinCode k m n) (h : c.Lawful) :
    (∀ fuel, 1 ≤ m → n ≤ fuel → ∃ T, c.cosetLeaders fuel = some T ∧ MinDistance c (syndromeTableDecode c T)) ∧
    ∃ dec, MinDistance c dec ∧ ∀ r, exhaustiveHard c r = some (dec r) := by
  refine ⟨fun fuel hm hf => C45_minimum_distance c h hm fuel hf, ?_⟩
  choose dec h1 h2 using C47_hard c h
  exact ⟨dec, h2, h1⟩

theorem right_prob (c : LinCode k m n) (dec : BVec n → BVec k) (p : ℝ) (h0 : 0 ≤ p) (h1 : p ≤ 1) (msg : BVec k) :
    (uniformDraws n).real {u | dec (bscReceived p (c.encode msg) u) = msg} =
      ∑ r ∈ Finset.univ.filter fun r : BVec n => dec r = msg, p ^ hammingDist r (c.encode msg) * (1 - p) ^ (n - hammingDist r (c.encode msg)) := by
  classical
  have hs : {u | dec (bscReceived p (c.encode msg) u) = msg} =
      {u : Fin n → ℝ | flips p u ∈ Finset.univ.filter fun e : BVec n => dec (c.encode msg + e) = msg} := by
    ext u; simp [bscReceived_eq]
  rw [hs, flips_mem p h0 h1]
  refine Finset.sum_nbij' (fun e => c.encode msg + e) (fun r => c.encode msg + r) ?_ ?_ ?_ ?_ ?_
  · intro e he; simpa using he
  · intro r hr
    simp only [Finset.mem_filter, Finset.mem_univ, true_and] at hr ⊢
    rwa [← add_assoc, bvec_add_self, zero_add]
  · intro e _; simp [← add_assoc, bvec_add_self]
  · intro r _; simp [← add_assoc, bvec_add_self]
  · intro e _
    rw [hammingDist_eq_norm_add, add_comm (c.encode msg) e, bvec_add_add]

/-- A minimum-distance decoder fails with probability at most that of more than `t` errors, `t` the packing radius. -/
theorem C111_bounded_distance (c : LinCode k m n) (h : c.Lawful) (dec : BVec n → BVec k) (hdec : MinDistance c dec) (t : Nat) (ht : c.packingRadius = some t)
    (p : ℝ) (hp : validProbability p = true) (msg : BVec k) :
    (uniformDraws n).real {u | dec (bscReceived p (c.encode msg) u) ≠ msg} ≤ ∑ w ∈ Finset.Icc (t + 1) n, (n.choose w : ℝ) * (p ^ w * (1 - p) ^ (n - w)) := by
  classical
  simp only [validProbability, Bool.and_eq_true, decide_eq_true_iff] at hp
  obtain ⟨d, hd, rfl⟩ := Option.map_eq_some_iff.mp ht
  have hs : {u | dec (bscReceived p (c.encode msg) u) ≠ msg} ⊆
      {u : Fin n → ℝ | flips p u ∈ Finset.univ.filter fun e : BVec n => (d - 1) / 2 < hammingNorm e} := by
    intro u hu
    simp only [mem_setOf_eq, Finset.mem_filter, Finset.mem_univ, true_and, bscReceived_eq] at hu ⊢
    by_contra hle
    exact hu (unique_decoding c h d hd msg _ _ (not_lt.mp hle) (hdec _ _))
  refine (measureReal_mono hs (measure_ne_top _ _)).trans_eq ?_
  rw [flips_mem p hp.1 hp.2, sum_by_weight _ fun w => p ^ w * (1 - p) ^ (n - w)]
  rw [← Finset.sum_subset (s₁ := Finset.Icc ((d - 1) / 2 + 1) n)]
  · refine Finset.sum_congr rfl fun w hw => ?_
    obtain ⟨w1, w2⟩ := Finset.mem_Icc.mp hw
    rw [← card_norm, Finset.filter_filter]
    congr 3
    ext e
    simp only [Finset.mem_filter, Finset.mem_univ, true_and]
    exact ⟨fun h => h.2, fun h => ⟨by omega, h⟩⟩
  · intro w hw; have := Finset.mem_Icc.mp hw; simp; omega
  · intro w hw hw'
    have h1 := Finset.mem_range.mp hw
    rw [Finset.mem_Icc] at hw'
    rw [Finset.filter_filter, Finset.card_eq_zero.mpr, Nat.cast_zero, zero_mul]
    rw [Finset.filter_eq_empty_iff]
    intro e _ he
    omega

/-- For a perfect code (every word is within the packing radius `t` of a codeword) the probability of error is exactly that of more than `t` errors. -/
theorem C111_perfect (c : LinCode k m n) (h : c.Lawful) (dec : BVec n → BVec k) (hdec : MinDistance c dec) (t : Nat) (ht : c.packingRadius = some t)
    (hperfect : ∀ r, ∃ u, hammingDist r (c.encode u) ≤ t) (p : ℝ) (hp : validProbability p = true) (msg : BVec k) :
    (uniformDraws n).real {u | dec (bscReceived p (c.encode msg) u) = msg} = ∑ w ∈ Finset.range (t + 1), (n.choose w : ℝ) * (p ^ w * (1 - p) ^ (n - w)) := by
  classical
  simp only [validProbability, Bool.and_eq_true, decide_eq_true_iff] at hp
  obtain ⟨d, hd, rfl⟩ := Option.map_eq_some_iff.mp ht
  have hs : {u | dec (bscReceived p (c.encode msg) u) = msg} =
      {u : Fin n → ℝ | flips p u ∈ Finset.univ.filter fun e : BVec n => hammingNorm e ≤ (d - 1) / 2} := by
    ext u
    simp only [mem_setOf_eq, Finset.mem_filter, Finset.mem_univ, true_and, bscReceived_eq]
    constructor
    · intro hu
      obtain ⟨u', hu'⟩ := hperfect (c.encode msg + flips p u)
      have := (hdec (c.encode msg + flips p u) u').trans hu'
      rw [hu, hammingDist_eq_norm_add, add_comm (c.encode msg), bvec_add_add] at this
      exact this
    · intro hle
      exact unique_decoding c h d hd msg _ _ hle (hdec _ _)
  rw [hs, flips_mem p hp.1 hp.2, sum_by_weight _ fun w => p ^ w * (1 - p) ^ (n - w)]
  have hcard : ∀ w, ((Finset.univ.filter fun e : BVec n => hammingNorm e ≤ (d - 1) / 2).filter fun e => hammingNorm e = w).card =
      if w ≤ (d - 1) / 2 then n.choose w else 0 := by
    intro w
    rw [Finset.filter_filter]
    split
    · rw [← card_norm]
      congr 1
      ext e
      simp only [Finset.mem_filter, Finset.mem_univ, true_and]
      exact ⟨fun h => h.2, fun h => ⟨by omega, h⟩⟩
    · rw [Finset.card_eq_zero, Finset.filter_eq_empty_iff]
      intro e _ he
      omega
  simp only [hcard]
  set t := (d - 1) / 2
  have e1 : ∀ w : Nat, ((if w ≤ t then n.choose w else 0 : Nat) : ℝ) * (p ^ w * (1 - p) ^ (n - w)) = if w ∈ Finset.range (t + 1) then (n.choose w : ℝ) * (p ^ w * (1 - p) ^ (n - w)) else 0 := by
    intro w
    by_cases hw : w ≤ t
    · rw [if_pos hw, if_pos (Finset.mem_range.mpr (by omega))]
    · rw [if_neg hw, if_neg (fun h => hw (by have := Finset.mem_range.mp h; omega)), Nat.cast_zero, zero_mul]
  simp only [e1]
  rw [Finset.sum_ite_mem]
  refine Finset.sum_subset Finset.inter_subset_right fun w hw hw' => ?_
  rw [Finset.mem_inter, not_and'] at hw'
  have := hw' hw
  rw [Finset.mem_range] at this
  rw [Nat.choose_eq_zero_of_lt (by omega)]
  simp

theorem weight_mono (p : ℝ) (h0 : 0 ≤ p) (h1 : p ≤ 1 / 2) {a b : Nat} (hab : a ≤ b) (hb : b ≤ n) :
    p ^ b * (1 - p) ^ (n - b) ≤ p ^ a * (1 - p) ^ (n - a) := by
  obtain ⟨c, rfl⟩ := Nat.exists_eq_add_of_le hab
  have e : n - a = c + (n - (a + c)) := by omega
  rw [e, pow_add, pow_add, mul_assoc]
  refine mul_le_mul_of_nonneg_left ?_ (pow_nonneg h0 _)
  refine mul_le_mul_of_nonneg_right ?_ (pow_nonneg (by linarith) _)
  exact pow_le_pow_left₀ h0 (by linarith) _

/-- Optimality: with equally likely messages and `p ≤ 1/2`, no decoder is right more often than a minimum-distance decoder. -/
theorem C111_optimal (c : LinCode k m n) (dec : BVec n → BVec k) (hdec : MinDistance c dec) (p : ℝ) (h0 : 0 ≤ p) (h1 : p ≤ 1 / 2) (other : BVec n → BVec k) :
    ∑ msg, 1 / 2 ^ k * (uniformDraws n).real {u | other (bscReceived p (c.encode msg) u) = msg} ≤
    ∑ msg, 1 / 2 ^ k * (uniformDraws n).real {u | dec (bscReceived p (c.encode msg) u) = msg} := by
  classical
  have key : ∀ f : BVec n → BVec k, ∑ msg, (uniformDraws n).real {u | f (bscReceived p (c.encode msg) u) = msg} =
      ∑ r : BVec n, p ^ hammingDist r (c.encode (f r)) * (1 - p) ^ (n - hammingDist r (c.encode (f r))) := by
    intro f
    simp only [right_prob c f p h0 (h1.trans (by norm_num))]
    rw [← Finset.sum_fiberwise (s := Finset.univ) (g := f)]
    refine Finset.sum_congr rfl fun msg _ => Finset.sum_congr rfl fun r hr => ?_
    rw [(Finset.mem_filter.mp hr).2]
  rw [← Finset.mul_sum, ← Finset.mul_sum, key, key]
  refine mul_le_mul_of_nonneg_left (Finset.sum_le_sum fun r _ => ?_) (by positivity)
  exact weight_mono p h0 h1 (hdec r _) ((hammingDist_le_card_fintype).trans_eq (Fintype.card_fin n))

/-- Hamming codes: the decoder is right with probability `(1-p)^n + n p (1-p)^(n-1)`, `n = 2^mu - 1`. -/
theorem C111_hamming (mu : Nat) (hmu : 2 ≤ mu) (p : ℝ) (hp : validProbability p = true) (fuel : Nat) (hf : 2 ^ mu - mu - 1 + mu ≤ fuel) :
    ∃ c T, hammingCode mu = some c ∧ c.cosetLeaders fuel = some T ∧ ∀ msg,
      (uniformDraws _).real {u | syndromeTableDecode c T (bscReceived p (c.encode msg) u) = msg} = (1 - p) ^ (2 ^ mu - 1) + (2 ^ mu - 1) * (p * (1 - p) ^ (2 ^ mu - 2)) := by
  obtain ⟨c, h1, h2, h3, -⟩ := C50_hamming_columns mu hmu
  obtain ⟨c', h1', hd, -⟩ := C50_hamming_distance mu hmu
  obtain rfl : c' = c := Option.some_inj.mp (h1'.symm.trans h1)
  obtain ⟨c'', h1', hperf⟩ := C50_hamming_perfect mu hmu
  obtain rfl : c'' = c' := Option.some_inj.mp (h1'.symm.trans h1)
  obtain ⟨T, hT, hmin⟩ := (C111_decoders c'' h2).1 fuel (by omega) hf
  refine ⟨c'', T, h1, hT, fun msg => ?_⟩
  have hn : 1 ≤ 2 ^ mu := Nat.one_le_two_pow
  have hlt := mu.lt_two_pow_self
  rw [C111_perfect c'' h2 _ hmin 1 (by rw [LinCode.packingRadius, hd]; rfl) (fun r => (hperf r).exists) p hp msg]
  rw [Finset.sum_range_succ, Finset.sum_range_one, h3, Nat.choose_zero_right, Nat.choose_one_right]
  rw [show 2 ^ mu - 1 - 0 = 2 ^ mu - 1 by omega, show 2 ^ mu - 1 - 1 = 2 ^ mu - 2 by omega, Nat.cast_sub hn]
  push_cast
  ring

/-- The Golay code: right with the probability of at most three errors in 23 positions. -/
theorem C111_golay (p : ℝ) (hp : validProbability p = true) (fuel : Nat) (hf : 23 ≤ fuel) :
    ∃ T, golayCode.cosetLeaders fuel = some T ∧ ∀ msg,
      (uniformDraws 23).real {u | syndromeTableDecode golayCode T (bscReceived p (golayCode.encode msg) u) = msg} =
        (1 - p) ^ 23 + 23 * (p * (1 - p) ^ 22) + 253 * (p ^ 2 * (1 - p) ^ 21) + 1771 * (p ^ 3 * (1 - p) ^ 20) := by
  obtain ⟨T, hT, hmin⟩ := (C111_decoders golayCode C51_distance.1).1 fuel (by norm_num) hf
  refine ⟨T, hT, fun msg => ?_⟩
  rw [C111_perfect golayCode C51_distance.1 _ hmin 3 (by rw [LinCode.packingRadius, C51_distance.2.1]; rfl) (fun r => (C51_perfect r).exists) p hp msg]
  simp only [Finset.sum_range_succ, Finset.sum_range_zero]
  norm_num [Nat.choose]

/-! ### Soft decisions over the Gaussian channel -/

open GaussianChannel Constellation

/-- The codeword as a signal: bit 0 is sent as `A`, bit 1 as `-A` (the sign convention of the soft decoders). -/
noncomputable def bipolar (A : ℝ) (v : BVec n) : Fin n → ℝ := fun j => A * (-1) ^ (v j).val

theorem bipolar_sq (A : ℝ) (v w : BVec n) : ∑ j, ‖bipolar A v j - bipolar A w j‖ ^ 2 = 4 * A ^ 2 * hammingDist v w := by
  have e : ∀ j, ‖bipolar A v j - bipolar A w j‖ ^ 2 = if v j ≠ w j then 4 * A ^ 2 else 0 := by
    intro j
    simp only [bipolar, Real.norm_eq_abs, sq_abs]
    have key : ∀ a b : ZMod 2, (a = b ∨ (a = 0 ∧ b = 1) ∨ (a = 1 ∧ b = 0)) := by decide
    rcases key (v j) (w j) with h | ⟨h1, h2⟩ | ⟨h1, h2⟩
    · rw [h, if_neg (not_not.mpr rfl)]; ring
    · rw [h1, h2, if_pos (by decide), ZMod.val_zero, show (1 : ZMod 2).val = 1 from rfl]; ring
    · rw [h1, h2, if_pos (by decide), ZMod.val_zero, show (1 : ZMod 2).val = 1 from rfl]; ring
  simp only [e]
  rw [Finset.sum_ite, Finset.sum_const, Finset.sum_const_zero, add_zero, nsmul_eq_mul, hammingDist]
  ring

/-- Any soft decoder that maximises the correlation. -/
theorem soft_bounds (c : LinCode k m n) (h : c.Lawful) (dec : (Fin n → ℝ) → BVec k)
    (hdec : ∀ r u', ∑ j, r j * (-1) ^ (c.encode u' j).val ≤ ∑ j, r j * (-1) ^ (c.encode (dec r) j).val) (A : ℝ) (hA : 0 < A) (N : ℝ) (hN : 0 < N) (msg : BVec k) :
    (stdNormals (Fin n)).real {z | dec (transmitReal N (bipolar A (c.encode msg)) z) ≠ msg} ≤
      ∑ w ∈ Finset.Icc 1 n, (c.weightDistribution.getD w 0 : ℝ) * gaussianQ (A * √w / √N) ∧
    ∀ d, c.minimumDistance = some d →
      gaussianQ (A * √d / √N) ≤ (stdNormals (Fin n)).real {z | dec (transmitReal N (bipolar A (c.encode msg)) z) ≠ msg} := by
  classical
  set pts : Fin (2 ^ k) → Fin n → ℝ := fun i => bipolar A (c.encode (natToVec k i)) with hpts
  set g : (Fin n → ℝ) → Fin (2 ^ k) := fun r => ⟨vecToNat (dec r), vecToNat_lt _⟩ with hg
  have hdist : ∀ i l : Fin (2 ^ k), pointDist pts i l / (2 * √N) = A * √(hammingDist (c.encode (natToVec k i)) (c.encode (natToVec k l)) : ℝ) / √N := by
    intro i l
    rw [pointDist, bipolar_sq, Real.sqrt_mul (by positivity), show 4 * A ^ 2 = (2 * A) ^ 2 by ring, Real.sqrt_sq (by positivity)]
    rw [mul_assoc, mul_div_mul_left _ _ (two_ne_zero)]
  have hinj : Function.Injective pts := by
    intro a b hab
    have h0 := bipolar_sq A (c.encode (natToVec k a)) (c.encode (natToVec k b))
    have hab' : bipolar A (c.encode (natToVec k a)) = bipolar A (c.encode (natToVec k b)) := hab
    rw [hab'] at h0
    simp only [sub_self, norm_zero, ne_eq, OfNat.ofNat_ne_zero, not_false_eq_true, zero_pow, Finset.sum_const_zero] at h0
    have h2 : (hammingDist (c.encode (natToVec k a)) (c.encode (natToVec k b)) : ℝ) = 0 := by
      have : 4 * A ^ 2 ≠ 0 := by positivity
      rcases mul_eq_zero.mp h0.symm with h | h
      · exact absurd h this
      · exact h
    have h3 := h.encode_injective (hammingDist_eq_zero.mp (by exact_mod_cast h2))
    apply Fin.ext
    rw [← vecToNat_natToVec (m := k) a a.isLt, h3, vecToNat_natToVec _ b.isLt]
  have hnear : ∀ r, Nearest pts r (g r) := by
    intro r l
    have hexp : ∀ i : Fin (2 ^ k), sqDist pts r i = (∑ j, (r j ^ 2 + A ^ 2)) - 2 * A * ∑ j, r j * (-1) ^ (c.encode (natToVec k i) j).val := by
      intro i
      rw [sqDist, Finset.mul_sum, ← Finset.sum_sub_distrib]
      refine Finset.sum_congr rfl fun j _ => ?_
      simp only [hpts, bipolar, Real.norm_eq_abs, sq_abs]
      have : ((-1 : ℝ) ^ (c.encode (natToVec k i) j).val) ^ 2 = 1 := by rw [← pow_mul, mul_comm, pow_mul]; norm_num
      linear_combination A ^ 2 * this
    change sqDist pts r (g r) ≤ sqDist pts r l
    rw [hexp, hexp]
    have h1 := hdec r (natToVec k l)
    have e : natToVec k (g r : Nat) = dec r := natToVec_vecToNat _
    rw [e]
    nlinarith
  set i0 : Fin (2 ^ k) := ⟨vecToNat msg, vecToNat_lt _⟩ with hi0
  have hi0' : natToVec k (i0 : Nat) = msg := natToVec_vecToNat _
  have hset : {z | dec (transmitReal N (bipolar A (c.encode msg)) z) ≠ msg} = {z | g (transmitReal N (pts i0) z) ≠ i0} := by
    ext z
    have e0 : pts i0 = bipolar A (c.encode msg) := by simp only [hpts, hi0']
    simp only [mem_setOf_eq, ne_eq, e0]
    exact not_congr ⟨fun h => Fin.ext (congrArg vecToNat h), fun h => vecToNat_inj (Fin.mk.inj_iff.mp h)⟩
  obtain ⟨b1, b2⟩ := C110_bounds_real pts hinj N hN g hnear i0
  rw [hset]
  refine ⟨b1.trans_eq ?_, fun d hd => ?_⟩
  · simp only [hdist, hi0']
    have s1 : ∑ l ∈ Finset.univ.erase i0, gaussianQ (A * √(hammingDist (c.encode msg) (c.encode (natToVec k l)) : ℝ) / √N) =
        ∑ e ∈ Finset.univ.filter fun e : BVec n => e ≠ 0 ∧ c.check e = 0, gaussianQ (A * √(hammingNorm e : ℝ) / √N) := by
      refine Finset.sum_bij (fun l _ => c.encode (msg + natToVec k l)) ?_ ?_ ?_ ?_
      · intro l hl
        simp only [Finset.mem_filter, Finset.mem_univ, true_and, h.check_encode, and_true]
        intro h0
        rw [← h.encode_zero] at h0
        have h1 := h.encode_injective h0
        have h2 : natToVec k l = msg := by rw [← bvec_add_add (natToVec k l) msg, add_comm (natToVec k l) msg, h1, zero_add]
        refine (Finset.mem_erase.mp hl).1 (Fin.ext ?_)
        show (l : Nat) = vecToNat msg
        rw [← h2, vecToNat_natToVec _ l.isLt]
      · intro a _ b _ hab
        have := add_left_cancel (h.encode_injective hab)
        apply Fin.ext
        rw [← vecToNat_natToVec (m := k) a a.isLt, this, vecToNat_natToVec _ b.isLt]
      · intro e he
        simp only [Finset.mem_filter, Finset.mem_univ, true_and] at he
        obtain ⟨u, hu⟩ := (h.check_zero e).mp he.2
        have e1 : natToVec k (vecToNat (msg + u)) = msg + u := natToVec_vecToNat _
        refine ⟨⟨vecToNat (msg + u), vecToNat_lt _⟩, Finset.mem_erase.mpr ⟨?_, Finset.mem_univ _⟩, ?_⟩
        · intro h0
          have h1 := vecToNat_inj (Fin.mk.inj_iff.mp h0)
          have h2 : u = 0 := by simpa using h1
          rw [h2, h.encode_zero] at hu
          exact he.1 hu.symm
        · show c.encode (msg + natToVec k (vecToNat (msg + u))) = e
          rw [e1, ← add_assoc, bvec_add_self, zero_add, hu]
      · intro l _
        rw [hammingDist_eq_norm_add, ← h.encode_add]
    rw [s1, sum_by_weight _ fun w => gaussianQ (A * √(w : ℝ) / √N)]
    exact weight_sum c h _
  · obtain ⟨⟨u, hu, hw⟩, -⟩ := (minimumDistance_spec c h d).mp hd
    have e1 : natToVec k (vecToNat (msg + u)) = msg + u := natToVec_vecToNat _
    have := b2 ⟨vecToNat (msg + u), vecToNat_lt _⟩ (by
      intro h0
      have h1 := vecToNat_inj (Fin.mk.inj_iff.mp h0)
      exact hu (by simpa using h1))
    rw [hdist] at this
    simp only [hi0', e1] at this
    rw [hammingDist_eq_norm_add, ← h.encode_add, ← add_assoc, bvec_add_self, zero_add] at this
    have hw' : hammingNorm (c.encode u) = d := hw
    rwa [hw'] at this

/-- The union bound of soft-decision decoding (`ExhaustiveSearchDecoder`, soft input) over the Gaussian channel, from the weight distribution;
and the lower bound given by the minimum distance. -/
theorem C111_soft (c : LinCode k m n) (h : c.Lawful) (A : ℝ) (hA : 0 < A) (N : ℝ) (hN : 0 < N) (msg : BVec k) :
    (stdNormals (Fin n)).real {z | exhaustiveSoft c (transmitReal N (bipolar A (c.encode msg)) z) ≠ some msg} ≤
      ∑ w ∈ Finset.Icc 1 n, (c.weightDistribution.getD w 0 : ℝ) * gaussianQ (A * √w / √N) ∧
    ∀ d, c.minimumDistance = some d →
      gaussianQ (A * √d / √N) ≤ (stdNormals (Fin n)).real {z | exhaustiveSoft c (transmitReal N (bipolar A (c.encode msg)) z) ≠ some msg} := by
  choose dec hdec1 hdec2 using fun r : Fin n → ℝ => C47_soft c h r
  have := soft_bounds c h dec (fun r u' => (hdec2 r u').1) A hA N hN msg
  simpa only [hdec1, ne_eq, Option.some_inj] using this

/-- Non-vacuity: the (6, 3) code above. -/
example : ∃ c : LinCode 3 3 6, blockCodeOfGenerator exG = some c ∧ c.Lawful ∧ c.weightDistribution = [1, 0, 0, 4, 3, 0, 0] ∧ c.packingRadius = some 1 ∧
    c.leaderWeightDistribution 6 = some [1, 6, 1, 0, 0, 0, 0] ∧ validProbability (1 / 10 : ℚ) = true := by
  obtain ⟨c, h1, h2, h3⟩ := C41_generator exG (by
    rw [linearIndependent_iff_card_eq_finrank_span, Fintype.card_fin, Set.finrank, ← rank_spec]; decide +kernel)
  have key : (blockCodeOfGenerator exG).bind (fun c => some (c.weightDistribution, c.packingRadius, c.leaderWeightDistribution 6)) =
      some ([1, 0, 0, 4, 3, 0, 0], some 1, some [1, 6, 1, 0, 0, 0, 0]) := by decide +kernel
  rw [h1] at key
  simp only [Option.bind_some, Option.some_inj, Prod.mk.injEq] at key
  exact ⟨c, h1, h3, key.1, key.2.1, key.2.2, by decide +kernel⟩

end Komm
