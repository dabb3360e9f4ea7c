import Verif.Lemmas.InvariantFactors
import Verif.Lemmas.PolyMisc
import Verif.Spec.Catastrophic
import Verif.Props.C61_Realisation
import Mathlib.RingTheory.PowerSeries.Trunc
import Mathlib.Data.Set.Finite.Lattice
/-! From invariant factors to catastrophic encoders. -/
namespace Komm
open Polynomial
variable {k n : Nat}

local notation "PS" => PowerSeries (ZMod 2)

/-- The series is a polynomial, i.e. the sequence has finite weight. -/
def FiniteSeries (V : PS) : Prop := ∃ p : (ZMod 2)[X], V = (p : PS)

theorem finiteSeries_iff (V : PS) : FiniteSeries V ↔ {t | PowerSeries.coeff t V = 1}.Finite := by
  constructor
  · rintro ⟨p, rfl⟩
    apply Set.Finite.subset (Finset.finite_toSet p.support)
    intro t ht
    simp only [Set.mem_setOf_eq, Polynomial.coeff_coe] at ht
    simp [ht]
  · intro h
    obtain ⟨N, hN⟩ := h.bddAbove
    refine ⟨PowerSeries.trunc (N + 1) V, ?_⟩
    ext m
    rw [Polynomial.coeff_coe, PowerSeries.coeff_trunc]
    split_ifs with hm
    · rfl
    · refine (zmod2_cases _).resolve_right fun h1 => ?_
      have := hN (show m ∈ {t | PowerSeries.coeff t V = 1} from h1)
      omega

theorem series_finite_family {m : Nat} (V : Fin m → PS) :
    (∀ i, FiniteSeries (V i)) ↔ {t | ∃ i, PowerSeries.coeff t (V i) = 1}.Finite := by
  have : {t | ∃ i, PowerSeries.coeff t (V i) = 1} = ⋃ i, {t | PowerSeries.coeff t (V i) = 1} := by
    ext t; simp
  rw [this]
  constructor
  · exact fun h => Set.finite_iUnion fun i => (finiteSeries_iff _).mp (h i)
  · exact fun h i => (finiteSeries_iff _).mpr (h.subset (Set.subset_iUnion (fun i => {t | PowerSeries.coeff t (V i) = 1}) i))

theorem count_streamOf {m : Nat} (V : Fin m → PS) (T : Nat) :
    (streamOf V T).count 1 = ∑ t ∈ Finset.range T, (List.ofFn fun i => PowerSeries.coeff t (V i)).count 1 := by
  rw [streamOf, List.count_flatten, List.map_ofFn, List.sum_ofFn, Finset.sum_range]
  rfl

theorem count_bounded {m : Nat} (V : Fin m → PS) :
    (∃ B, ∀ T, (streamOf V T).count 1 ≤ B) ↔ ∀ i, FiniteSeries (V i) := by
  rw [series_finite_family]
  have hpos : ∀ t, (∃ i, PowerSeries.coeff t (V i) = 1) ↔ 0 < (List.ofFn fun i => PowerSeries.coeff t (V i)).count 1 := by
    intro t
    rw [List.count_pos_iff, List.mem_ofFn]
  constructor
  · rintro ⟨B, hB⟩
    by_contra hinf
    obtain ⟨s, hs, hc⟩ := Set.Infinite.exists_subset_card_eq hinf (B + 1)
    have hT := hB (s.sup id + 1)
    rw [count_streamOf] at hT
    have : s.card ≤ ∑ t ∈ Finset.range (s.sup id + 1), (List.ofFn fun i => PowerSeries.coeff t (V i)).count 1 := by
      rw [Finset.card_eq_sum_ones]
      refine le_trans (Finset.sum_le_sum fun t ht => ?_) (Finset.sum_le_sum_of_subset fun t ht => ?_)
      · exact (hpos t).mp (hs ht)
      · have : t ≤ s.sup id := Finset.le_sup (f := id) ht
        exact Finset.mem_range.mpr (by omega)
    omega
  · intro hf
    refine ⟨∑ t ∈ hf.toFinset, (List.ofFn fun i => PowerSeries.coeff t (V i)).count 1, fun T => ?_⟩
    rw [count_streamOf]
    apply Finset.sum_le_sum_of_ne_zero
    intro t _ hne
    rw [Set.Finite.mem_toFinset]
    exact (hpos t).mpr (Nat.pos_of_ne_zero hne)

theorem firstBlocks_eq {k : Nat} (u : Nat → Fin k → ZMod 2) (T : Nat) :
    firstBlocks u T = streamOf (fun i => PowerSeries.mk fun t => u t i) T := by
  rw [firstBlocks, streamOf, List.flatMap]
  congr 1
  apply List.ext_getElem
  · simp
  · intro t _ _
    simp

/-- The encoder outputs `U G`. -/
def RealisesSeries {σ : Nat} (c : StateSpace k n σ) (G : Fin k → Fin n → PS) : Prop :=
  ∀ (U : Fin k → PS) (T : Nat), c.encode (streamOf U T) = some (streamOf (fun j => ∑ i, U i * G i j) T)

theorem catastrophic_iff {σ : Nat} (c : StateSpace k n σ) (G : Fin k → Fin n → PS) (h : RealisesSeries c G) :
    CatastrophicEncoder c ↔ ∃ U : Fin k → PS, (∃ i, ¬ FiniteSeries (U i)) ∧ ∀ j, FiniteSeries (∑ i, U i * G i j) := by
  constructor
  · rintro ⟨u, hinf, B, hB⟩
    refine ⟨fun i => PowerSeries.mk fun t => u t i, ?_, ?_⟩
    · by_contra hall
      push Not at hall
      have := (series_finite_family _).mp hall
      simp only [PowerSeries.coeff_mk] at this
      exact hinf this
    · apply (count_bounded _).mp
      refine ⟨B, fun T => ?_⟩
      obtain ⟨out, ho, hc⟩ := hB T
      rw [firstBlocks_eq, h] at ho
      cases ho
      exact hc
  · rintro ⟨U, ⟨i, hi⟩, hV⟩
    have hu : ∀ T, firstBlocks (fun t i => PowerSeries.coeff t (U i)) T = streamOf U T := by
      intro T
      rw [firstBlocks_eq]
      congr 1
      funext i; ext t; simp
    refine ⟨fun t i => PowerSeries.coeff t (U i), ?_, ?_⟩
    · intro hf
      exact hi ((series_finite_family U).mpr hf i)
    · obtain ⟨B, hB⟩ := (count_bounded _).mpr hV
      exact ⟨B, fun T => ⟨_, by rw [hu]; exact h U T, hB T⟩⟩

theorem degenerate_iff {σ : Nat} (c : StateSpace k n σ) (G : Fin k → Fin n → PS) (h : RealisesSeries c G) :
    DegenerateEncoder c ↔ ∃ w : Fin k → (ZMod 2)[X], w ≠ 0 ∧ ∀ j, ∑ i, (w i : PS) * G i j = 0 := by
  have hz : ∀ V : Fin n → PS, (∀ T, (streamOf V T).count 1 = 0) ↔ ∀ j, V j = 0 := by
    intro V
    constructor
    · intro hV j
      ext t
      rw [map_zero]
      refine (zmod2_cases _).resolve_right fun h1 => ?_
      have := hV (t + 1)
      rw [count_streamOf, Finset.sum_eq_zero_iff] at this
      have := this t (by simp)
      rw [List.count_eq_zero, List.mem_ofFn] at this
      exact this ⟨j, h1⟩
    · intro hV T
      rw [count_streamOf]
      refine Finset.sum_eq_zero fun t _ => ?_
      rw [List.count_eq_zero, List.mem_ofFn]
      rintro ⟨j, hj⟩
      rw [hV j] at hj
      simp at hj
  constructor
  · rintro ⟨u, ⟨t, i, hti⟩, hfin, hB⟩
    have hf := (series_finite_family fun i => PowerSeries.mk fun t => u t i).mpr (by simpa using hfin)
    choose w hw using hf
    refine ⟨w, ?_, ?_⟩
    · rintro rfl
      have := congrArg (PowerSeries.coeff t) (hw i)
      simp [hti] at this
    · apply (hz _).mp
      intro T
      obtain ⟨out, ho, hc⟩ := hB T
      rw [firstBlocks_eq, h] at ho
      cases ho
      rw [← hc]
      congr 2
      funext j
      exact Finset.sum_congr rfl fun i _ => by rw [hw i]
  · rintro ⟨w, hw, hV⟩
    refine ⟨fun t i => (w i).coeff t, ?_, ?_, fun T => ?_⟩
    · by_contra hall
      push Not at hall
      apply hw
      funext i
      apply Polynomial.ext
      intro t
      exact (zmod2_cases _).resolve_right (hall t i)
    · have := (series_finite_family fun i => (w i : PS)).mp fun i => ⟨w i, rfl⟩
      simpa using this
    · refine ⟨_, ?_, (hz _).mpr hV T⟩
      rw [firstBlocks_eq, ← h]
      congr 2

/-! ### the polynomial side -/

theorem exponents_length_eq_one (a : Nat) : (BP.exponents a).length = 1 ↔ ∃ s, toPoly a = X ^ s := by
  constructor
  · intro h
    obtain ⟨s, hs⟩ := List.length_eq_one_iff.mp h
    refine ⟨s, ?_⟩
    ext i
    have := BP.mem_exponents a i
    rw [hs, List.mem_singleton] at this
    rw [toPoly_coeff, coeff_X_pow]
    by_cases hi : i = s
    · rw [if_pos hi, if_pos (this.mp hi)]
    · rw [if_neg hi, if_neg (fun h => hi (this.mpr h))]
  · rintro ⟨s, hs⟩
    have hm : ∀ i, i ∈ BP.exponents a ↔ i = s := by
      intro i
      rw [BP.mem_exponents]
      have := congrArg (fun p => coeff p i) hs
      simp only [toPoly_coeff, coeff_X_pow] at this
      by_cases hi : i = s
      · rw [if_pos hi] at this
        refine ⟨fun _ => hi, fun _ => ?_⟩
        by_contra h0
        rw [if_neg h0] at this
        exact zero_ne_one this
      · simp only [hi, if_false, iff_false] at this ⊢
        intro h1
        rw [if_pos h1] at this
        exact one_ne_zero this
    have hn : (BP.exponents a).Nodup := (BP.exponents_sorted a).imp (fun h => Nat.ne_of_lt h)
    have : (BP.exponents a).Perm [s] := (List.perm_ext_iff_of_nodup hn (by simp)).mpr (by simpa using hm)
    simpa using this.length_eq

/-- A non-zero polynomial is a power of `D` times a polynomial with constant term 1. -/
theorem exists_unit_part (p : (ZMod 2)[X]) (hp : p ≠ 0) : ∃ s p', p = X ^ s * p' ∧ p'.coeff 0 = 1 := by
  obtain ⟨p', hp', hnd⟩ := exists_eq_pow_rootMultiplicity_mul_and_not_dvd p hp 0
  simp only [map_zero, sub_zero] at hp' hnd
  refine ⟨_, p', hp', ?_⟩
  rw [X_dvd_iff] at hnd
  exact (zmod2_cases _).resolve_left hnd

theorem foldl_domainLcm (ds : List Nat) (d : Nat) (hd : ∀ x ∈ d :: ds, x ≠ 0) :
    ds.foldl BP.domainLcm d ≠ 0 ∧ (∀ x ∈ d :: ds, toPoly x ∣ toPoly (ds.foldl BP.domainLcm d)) := by
  induction ds generalizing d with
  | nil => simpa using hd
  | cons e ds ih =>
    rw [List.foldl_cons]
    have h0 : BP.domainLcm d e ≠ 0 := by
      intro h
      have := (BP.domainLcm_spec d e (toPoly d * toPoly e)).mpr ⟨dvd_mul_right _ _, dvd_mul_left _ _⟩
      rw [h, toPoly_zero, zero_dvd_iff, mul_eq_zero, toPoly_eq_zero, toPoly_eq_zero] at this
      rcases this with h | h
      · exact hd d (by simp) h
      · exact hd e (by simp) h
    obtain ⟨h1, h2⟩ := ih (BP.domainLcm d e) (by
      intro x hx
      rcases List.mem_cons.mp hx with rfl | hx
      · exact h0
      · exact hd x (by simp [hx]))
    refine ⟨h1, fun x hx => ?_⟩
    have hself := (BP.domainLcm_spec d e (toPoly (BP.domainLcm d e))).mp dvd_rfl
    rcases List.mem_cons.mp hx with rfl | hx
    · exact hself.1.trans (h2 _ (by simp))
    · rcases List.mem_cons.mp hx with rfl | hx
      · exact hself.2.trans (h2 _ (by simp))
      · exact h2 x (by simp [hx])

/-- `G_prime = q G`. -/
theorem clearDenominators_spec (q : Nat) (F : Fin k → Fin n → BPFraction) (i : Fin k) (j : Fin n)
    (hD : (F i j).denominator ≠ 0) (hdvd : toPoly (F i j).denominator ∣ toPoly q) :
    toPoly (clearDenominators q F i j) * toPoly (F i j).denominator = toPoly q * toPoly (F i j).numerator := by
  obtain ⟨fq, hfq, hc, he⟩ := BPFraction.create_spec q 1 one_ne_zero
  obtain ⟨z, hz, hzc, hze⟩ := BPFraction.create_spec (BP.mul fq.numerator (F i j).numerator)
    (BP.mul fq.denominator (F i j).denominator) (by
      rw [Ne, ← toPoly_eq_zero, BP.toPoly_mul, mul_eq_zero, toPoly_eq_zero, toPoly_eq_zero, not_or]
      exact ⟨hc.1, hD⟩)
  have hcl : clearDenominators q F i j = z.numerator := by
    rw [clearDenominators, hfq]
    show (Option.map _ (BPFraction.mul fq (F i j))).getD 0 = _
    rw [BPFraction.mul, hz]; rfl
  rw [hcl]
  rw [BP.toPoly_mul, BP.toPoly_mul] at hze
  rw [toPoly_one, mul_one] at he
  have hfd : toPoly fq.denominator ≠ 0 := by simpa using hc.1
  have hDp : toPoly (F i j).denominator ≠ 0 := by simpa using hD
  obtain ⟨m, hm⟩ := hdvd
  have h1 : toPoly z.numerator = m * toPoly (F i j).numerator * toPoly z.denominator := by
    apply mul_right_cancel₀ (mul_ne_zero hfd hDp)
    rw [hze, he, hm]; ring
  have h2 : toPoly z.denominator = 1 := hzc.2 _ (h1 ▸ dvd_mul_left _ _) dvd_rfl
  rw [h1, h2, hm]; ring

/-- The facts about the generator matrix used below: all denominators have constant term 1 and `G` is the expansion. -/
structure Expands (F : Fin k → Fin n → BPFraction) (G : Fin k → Fin n → PS) : Prop where
  den : ∀ i j, (toPoly (F i j).denominator).coeff 0 = 1
  eq : ∀ i j, (toPoly (F i j).denominator : PS) * G i j = (toPoly (F i j).numerator : PS)

theorem commonDenominator_spec {F : Fin k → Fin n → BPFraction} (hF : ∀ i j, (F i j).denominator ≠ 0) {q : Nat}
    (h : commonDenominator F = some q) : q ≠ 0 ∧ ∀ i j, toPoly (F i j).denominator ∣ toPoly q := by
  rw [commonDenominator] at h
  split at h
  · cases h
  · rename_i d ds hds
    cases h
    have hmem : ∀ x ∈ d :: ds, ∃ i j, x = (F i j).denominator := by
      intro x hx
      rw [← hds] at hx
      simp only [List.mem_flatMap, List.mem_map, List.mem_finRange, true_and] at hx
      obtain ⟨i, j, rfl⟩ := hx
      exact ⟨i, j, rfl⟩
    obtain ⟨h1, h2⟩ := foldl_domainLcm ds d (by
      intro x hx
      obtain ⟨i, j, rfl⟩ := hmem x hx
      exact hF i j)
    refine ⟨h1, fun i j => h2 _ ?_⟩
    rw [← hds]
    simp only [List.mem_flatMap, List.mem_map, List.mem_finRange, true_and]
    exact ⟨i, j, rfl⟩

theorem commonDenominator_isSome (F : Fin k → Fin n → BPFraction) (hk : 0 < k) (hn : 0 < n) :
    ∃ q, commonDenominator F = some q := by
  rw [commonDenominator]
  split
  · rename_i h
    have : (F ⟨0, hk⟩ ⟨0, hn⟩).denominator ∈ (List.finRange k).flatMap fun i : Fin k =>
        (List.finRange n).map fun j : Fin n => (F i j).denominator := by
      simp only [List.mem_flatMap, List.mem_map, List.mem_finRange, true_and]
      exact ⟨_, _, rfl⟩
    rw [h] at this
    simp at this
  · exact ⟨_, rfl⟩

theorem Expands.clear {F : Fin k → Fin n → BPFraction} {G : Fin k → Fin n → PS} (h : Expands F G) {q : Nat}
    (hq : commonDenominator F = some q) (i : Fin k) (j : Fin n) :
    (toPoly q : PS) * G i j = (toPoly (clearDenominators q F i j) : PS) := by
  have hne : ∀ i j, (F i j).denominator ≠ 0 := fun i j => ne_zero_of_coeff (h.den i j)
  obtain ⟨hq0, hdvd⟩ := commonDenominator_spec hne hq
  have h1 := clearDenominators_spec q F i j (hne i j) (hdvd i j)
  have h2 := congrArg (fun P : (ZMod 2)[X] => (P : PS)) h1
  simp only [Polynomial.coe_mul] at h2
  have hD : (toPoly (F i j).denominator : PS) ≠ 0 := by
    rw [Ne, ← Polynomial.coe_zero, Polynomial.coe_inj, toPoly_eq_zero]; exact hne i j
  apply mul_right_cancel₀ hD
  rw [h2, mul_assoc, mul_comm (G i j), h.eq]

theorem coe_rowMap (M : PMat k n) (w : Fin k → (ZMod 2)[X]) (j : Fin n) :
    ((PMat.rowMap M w j : (ZMod 2)[X]) : PS) = ∑ i, (w i : PS) * (toPoly (M i j) : PS) := by
  rw [PMat.rowMap_apply]
  rw [← Polynomial.coeToPowerSeries.ringHom_apply, map_sum]
  simp

theorem coe_ne_zero {p : (ZMod 2)[X]} (h : p ≠ 0) : (p : PS) ≠ 0 := by
  rwa [Ne, ← Polynomial.coe_zero, Polynomial.coe_inj]

theorem coe_mul_inv {p : (ZMod 2)[X]} (h : p.coeff 0 = 1) : (p : PS) * (p : PS)⁻¹ = 1 := by
  apply PowerSeries.mul_inv_cancel
  rw [← PowerSeries.coeff_zero_eq_constantCoeff_apply, Polynomial.coeff_coe, h]
  exact one_ne_zero

/-- `True` is right: an infinite input with a finite output. -/
theorem isCatastrophicOf_true {F : Fin k → Fin n → BPFraction} {G : Fin k → Fin n → PS} (h : Expands F G)
    (ht : isCatastrophicOf F = some true) :
    ∃ U : Fin k → PS, (∃ i, ¬ FiniteSeries (U i)) ∧ ∀ j, FiniteSeries (∑ i, U i * G i j) := by
  obtain ⟨q, hq, ht⟩ := Option.bind_eq_some_iff.mp ht
  obtain ⟨fs, hfs, ht⟩ := Option.bind_eq_some_iff.mp ht
  split at ht
  · cases ht
  rename_i hlen
  obtain ⟨α, hα, hexp⟩ := Option.map_eq_some_iff.mp ht
  rw [decide_eq_true_eq] at hexp
  have hq0 := (commonDenominator_spec (fun i j => ne_zero_of_coeff (h.den i j)) hq).1
  have hlen : fs.length = k := le_antisymm (PMat.invariantFactors_length_le _ _ _ hfs) (not_lt.mp hlen)
  have hk : 0 < k := by
    rcases Nat.eq_zero_or_pos k with rfl | hk
    · simp [commonDenominator] at hq
    · exact hk
  obtain ⟨w, φ, c, hφ, hw⟩ := PMat.invariantFactors_last k n _ hfs hlen hk
  set f := fs.getLastD 0 with hf
  have hf0 : f ≠ 0 := by
    apply PMat.invariantFactors_ne_zero k n _ hfs
    rw [hf]
    cases hfs' : fs with
    | nil => rw [hfs'] at hlen; simp at hlen; omega
    | cons a l => rw [List.getLastD_cons]; exact List.getLastD_mem_cons
  obtain ⟨α', hα', hαc, hαe⟩ := BPFraction.create_spec f q hq0
  rw [hα] at hα'
  cases hα'
  have hαn : toPoly α.numerator ≠ 0 := by
    intro h0
    rw [h0, zero_mul] at hαe
    rcases mul_eq_zero.mp hαe.symm with h1 | h1
    · exact hf0 (toPoly_eq_zero.mp h1)
    · exact hαc.1 (toPoly_eq_zero.mp h1)
  obtain ⟨s, a, ha, ha1⟩ := exists_unit_part _ hαn
  have hane : a ≠ 1 := by
    rintro rfl
    exact hexp ((exponents_length_eq_one _).mpr ⟨s, by rw [ha, mul_one]⟩)
  have ha0 : a ≠ 0 := by rintro rfl; simp at ha1
  have hai := coe_mul_inv ha1
  refine ⟨fun i => (toPoly α.denominator * w i : (ZMod 2)[X]) * (a : PS)⁻¹, ?_, ?_⟩
  · by_contra hall
    push Not at hall
    choose u hu using hall
    have hua : ∀ i, a * u i = toPoly α.denominator * w i := by
      intro i
      rw [← Polynomial.coe_inj (R := ZMod 2), Polynomial.coe_mul, ← hu i, mul_left_comm, hai, mul_one]
    have huw : a • u = toPoly α.denominator • w := by funext i; simpa using hua i
    have := congrArg φ huw
    rw [map_smul, map_smul, hφ, smul_eq_mul, smul_eq_mul, mul_one] at this
    exact hane (hαc.2 a (ha ▸ dvd_mul_left _ _) (this ▸ dvd_mul_right _ _))
  · intro j
    refine ⟨X ^ s * c j, ?_⟩
    apply mul_left_cancel₀ (mul_ne_zero (coe_ne_zero ha0) (coe_ne_zero (p := toPoly q) (by simpa using hq0)))
    have hsum : (a : PS) * (toPoly q : PS) * ∑ i, ((toPoly α.denominator * w i : (ZMod 2)[X]) * (a : PS)⁻¹) * G i j =
        ((toPoly α.denominator * PMat.rowMap (clearDenominators q F) w j : (ZMod 2)[X]) : PS) := by
      rw [Polynomial.coe_mul, coe_rowMap, Finset.mul_sum, Finset.mul_sum]
      refine Finset.sum_congr rfl fun i _ => ?_
      rw [← h.clear hq i j, Polynomial.coe_mul]
      calc (a : PS) * (toPoly q : PS) * ((toPoly α.denominator : PS) * (w i : PS) * (a : PS)⁻¹ * G i j)
          = ((a : PS) * (a : PS)⁻¹) * ((toPoly α.denominator : PS) * ((w i : PS) * ((toPoly q : PS) * G i j))) := by ring
        _ = _ := by rw [hai, one_mul]
    rw [hsum, hw, ← Polynomial.coe_mul, ← Polynomial.coe_mul, Polynomial.coe_inj]
    simp only [Pi.smul_apply, smul_eq_mul]
    rw [← mul_assoc, mul_comm (toPoly α.denominator), ← hαe, ha]
    ring

/-- `False` is right when the other factors are powers of `D`: a finite output comes from a finite input. -/
theorem isCatastrophicOf_false {F : Fin k → Fin n → BPFraction} {G : Fin k → Fin n → PS} (h : Expands F G)
    (ht : isCatastrophicOf F = some false)
    (hmon : ∀ q fs, commonDenominator F = some q → PMat.invariantFactors k n (clearDenominators q F) = some fs →
      ∀ f ∈ fs.dropLast, ∃ s, f = 2 ^ s)
    (U : Fin k → PS) (hV : ∀ j, FiniteSeries (∑ i, U i * G i j)) (i : Fin k) : FiniteSeries (U i) := by
  obtain ⟨q, hq, ht⟩ := Option.bind_eq_some_iff.mp ht
  obtain ⟨fs, hfs, ht⟩ := Option.bind_eq_some_iff.mp ht
  split at ht
  · cases ht
  rename_i hlen
  obtain ⟨α, hα, ht⟩ := Option.map_eq_some_iff.mp ht
  rw [decide_eq_false_iff_not, not_not, exponents_length_eq_one] at ht
  obtain ⟨s, hs⟩ := ht
  have hq0 := (commonDenominator_spec (fun i j => ne_zero_of_coeff (h.den i j)) hq).1
  have hlen : fs.length = k := le_antisymm (PMat.invariantFactors_length_le _ _ _ hfs) (not_lt.mp hlen)
  obtain ⟨α', hα', hαc, hαe⟩ := BPFraction.create_spec (fs.getLastD 0) q hq0
  rw [hα] at hα'
  cases hα'
  have hne : fs ≠ [] := by rintro rfl; simp at hlen; exact absurd i.2 (by omega)
  have hprod : ∃ s', (fs.map toPoly).prod = X ^ s' * toPoly (fs.getLastD 0) := by
    have hd : ∀ l : List Nat, (∀ f ∈ l, ∃ s, f = 2 ^ s) → ∃ s', (l.map toPoly).prod = (X : (ZMod 2)[X]) ^ s' := by
      intro l
      induction l with
      | nil => exact fun _ => ⟨0, by simp⟩
      | cons a l ih =>
        intro hl
        obtain ⟨s1, h1⟩ := ih fun f hf => hl f (by simp [hf])
        obtain ⟨s2, h2⟩ := hl a (by simp)
        refine ⟨s2 + s1, ?_⟩
        rw [List.map_cons, List.prod_cons, h1, h2, pow_add]
        congr 1
        have := toPoly_shiftLeft 1 s2
        rw [Nat.one_shiftLeft, toPoly_one, one_mul] at this
        exact this
    obtain ⟨s', h'⟩ := hd _ (hmon q fs hq hfs)
    refine ⟨s', ?_⟩
    conv_lhs => rw [← List.dropLast_append_getLast hne]
    rw [List.map_append, List.prod_append, h', List.getLastD_eq_getLast?, List.getLast?_eq_getLast_of_ne_nil hne]
    simp
  obtain ⟨s', hprod⟩ := hprod
  obtain ⟨κ, hκ⟩ := PMat.invariantFactors_prod k n _ hfs hlen
  choose V hV using hV
  -- the columns of `κ` as a matrix
  let K : Fin n → (ZMod 2)[X] := fun j => κ (Pi.single j 1) i
  have hκm : ∀ y : Fin n → (ZMod 2)[X], κ y i = ∑ j, y j * K j := by
    intro y
    have hy : y = ∑ j, y j • (Pi.single j 1 : Fin n → (ZMod 2)[X]) := by
      funext j'
      simp [Finset.sum_apply, Pi.single_apply]
    conv_lhs => rw [hy]
    rw [map_sum, Finset.sum_apply]
    simp [K]
  have hMK : ∀ i' : Fin k, ∑ j, toPoly (clearDenominators q F i' j) * K j = if i' = i then (fs.map toPoly).prod else 0 := by
    intro i'
    have := congrFun (hκ (Pi.single i' 1)) i
    rw [hκm] at this
    have hr : ∀ j, PMat.rowMap (clearDenominators q F) (Pi.single i' 1) j = toPoly (clearDenominators q F i' j) := by
      intro j
      rw [PMat.rowMap_apply]
      simp [Pi.single_apply]
    simp only [hr, Pi.smul_apply, smul_eq_mul] at this
    rw [this, Pi.single_apply]
    by_cases hi : i' = i
    · rw [if_pos hi, if_pos hi.symm, mul_one]
    · rw [if_neg hi, if_neg (Ne.symm hi), mul_zero]
  have hcoe : ∀ i' : Fin k, ∑ j, (toPoly (clearDenominators q F i' j) : PS) * (K j : PS) =
      if i' = i then (((fs.map toPoly).prod : (ZMod 2)[X]) : PS) else 0 := by
    intro i'
    have := congrArg (fun P : (ZMod 2)[X] => Polynomial.coeToPowerSeries.ringHom P) (hMK i')
    simp only [map_sum, map_mul] at this
    rw [apply_ite Polynomial.coeToPowerSeries.ringHom, map_zero] at this
    simpa only [Polynomial.coeToPowerSeries.ringHom_apply] using this
  -- `(∏ fs) U_i = q V K`
  have hU : (((fs.map toPoly).prod : (ZMod 2)[X]) : PS) * U i = ((toPoly q * ∑ j, V j * K j : (ZMod 2)[X]) : PS) := by
    have e1 : ((toPoly q * ∑ j, V j * K j : (ZMod 2)[X]) : PS) = ∑ j, (toPoly q : PS) * ((V j : PS) * (K j : PS)) := by
      rw [← Polynomial.coeToPowerSeries.ringHom_apply, map_mul, map_sum, Finset.mul_sum]
      simp
    have e2 : ∀ j, (toPoly q : PS) * ((V j : PS) * (K j : PS)) =
        ∑ i', U i' * ((toPoly (clearDenominators q F i' j) : PS) * (K j : PS)) := by
      intro j
      rw [← hV j, Finset.sum_mul, Finset.mul_sum]
      refine Finset.sum_congr rfl fun i' _ => ?_
      rw [← h.clear hq i' j]; ring
    rw [e1, Finset.sum_congr rfl fun j _ => e2 j, Finset.sum_comm]
    simp only [← Finset.mul_sum, hcoe]
    simp [mul_comm]
  -- `D^(s' + s) U_i` is a polynomial
  have hX : (X ^ (s' + s) : (ZMod 2)[X]) * U i = ((toPoly α.denominator * ∑ j, V j * K j : (ZMod 2)[X]) : PS) := by
    apply mul_left_cancel₀ (coe_ne_zero (p := toPoly q) (by simpa using hq0))
    calc (toPoly q : PS) * (((X ^ (s' + s) : (ZMod 2)[X]) : PS) * U i)
        = ((toPoly q * X ^ (s' + s) : (ZMod 2)[X]) : PS) * U i := by rw [Polynomial.coe_mul, mul_assoc]
      _ = ((toPoly α.denominator * (fs.map toPoly).prod : (ZMod 2)[X]) : PS) * U i := by
          congr 2
          rw [hprod, pow_add, ← hs]
          calc toPoly q * (X ^ s' * toPoly α.numerator) = X ^ s' * (toPoly α.numerator * toPoly q) := by ring
            _ = X ^ s' * (toPoly (fs.getLastD 0) * toPoly α.denominator) := by rw [hαe]
            _ = _ := by ring
      _ = (toPoly α.denominator : PS) * ((((fs.map toPoly).prod : (ZMod 2)[X]) : PS) * U i) := by
          rw [Polynomial.coe_mul, mul_assoc]
      _ = _ := by rw [hU, ← Polynomial.coe_mul, ← Polynomial.coe_mul]; congr 1; ring
  rw [finiteSeries_iff]
  have hfin := (finiteSeries_iff _).mp ⟨_, hX⟩
  have hinj : Set.InjOn (fun t => t + (s' + s)) {t | PowerSeries.coeff t (U i) = 1} := fun a _ b _ hab => by
    simpa using hab
  refine Set.Finite.of_finite_image (hfin.subset ?_) hinj
  rintro _ ⟨t, ht, rfl⟩
  show PowerSeries.coeff (t + (s' + s)) (((X ^ (s' + s) : (ZMod 2)[X]) : PS) * U i) = 1
  rw [Polynomial.coe_pow, Polynomial.coe_X, mul_comm, PowerSeries.coeff_mul_X_pow]
  exact ht

/-- The exceptions are raised exactly for dependent rows. -/
theorem isCatastrophicOf_none {F : Fin k → Fin n → BPFraction} {G : Fin k → Fin n → PS} (h : Expands F G) (hk : 0 < k) :
    isCatastrophicOf F = none ↔ ∃ w : Fin k → (ZMod 2)[X], w ≠ 0 ∧ ∀ j, ∑ i, (w i : PS) * G i j = 0 := by
  rcases Nat.eq_zero_or_pos n with rfl | hn
  · have : commonDenominator F = none := by
      have hnil : ((List.finRange k).flatMap fun i : Fin k => (List.finRange 0).map fun j : Fin 0 => (F i j).denominator) = [] := by
        simp
      rw [commonDenominator, hnil]
    constructor
    · intro _
      exact ⟨fun _ => 1, fun h => one_ne_zero (congrFun h ⟨0, hk⟩), fun j => j.elim0⟩
    · intro _; rw [isCatastrophicOf, this]; rfl
  obtain ⟨q, hq⟩ := commonDenominator_isSome F hk hn
  have hq0 := (commonDenominator_spec (fun i j => ne_zero_of_coeff (h.den i j)) hq).1
  have hzero : ∀ w : Fin k → (ZMod 2)[X], (∀ j, ∑ i, (w i : PS) * G i j = 0) ↔
      PMat.rowMap (clearDenominators q F) w = 0 := by
    intro w
    have key : ∀ j, ((PMat.rowMap (clearDenominators q F) w j : (ZMod 2)[X]) : PS) =
        (toPoly q : PS) * ∑ i, (w i : PS) * G i j := by
      intro j
      rw [coe_rowMap, Finset.mul_sum]
      exact Finset.sum_congr rfl fun i _ => by rw [← h.clear hq i j]; ring
    constructor
    · intro h0
      funext j
      rw [Pi.zero_apply, ← Polynomial.coe_inj (R := ZMod 2), key j, h0 j, mul_zero, Polynomial.coe_zero]
    · intro h0 j
      have := key j
      rw [h0, Pi.zero_apply, Polynomial.coe_zero] at this
      exact (mul_eq_zero.mp this.symm).resolve_left (coe_ne_zero (by simpa using hq0))
  simp only [hzero]
  constructor
  · intro hnone
    rw [isCatastrophicOf, hq] at hnone
    simp only [Option.bind_some] at hnone
    cases hfs : PMat.invariantFactors k n (clearDenominators q F) with
    | none =>
      have hlt := (PMat.invariantFactors_none k n _).mp hfs
      by_contra hall
      push Not at hall
      have hinj : Function.Injective (PMat.rowMap (clearDenominators q F)) := by
        rw [injective_iff_map_eq_zero]
        intro w hw
        by_contra hne
        exact hall w hne hw
      have := LinearMap.finrank_le_finrank_of_injective hinj
      simp at this
      omega
    | some fs =>
      rw [hfs] at hnone
      simp only [Option.bind_some] at hnone
      split at hnone
      · rename_i hl
        exact PMat.invariantFactors_short k n _ hfs hl
      · rw [Option.map_eq_none_iff] at hnone
        have := (BPFraction.create_isSome_iff (fs.getLastD 0) q).mpr hq0
        rw [hnone] at this
        simp at this
  · rintro ⟨w, hw, hw0⟩
    rw [isCatastrophicOf, hq]
    simp only [Option.bind_some]
    cases hfs : PMat.invariantFactors k n (clearDenominators q F) with
    | none => rfl
    | some fs =>
      simp only [Option.bind_some]
      rw [if_pos]
      by_contra hl
      have hlen : fs.length = k := le_antisymm (PMat.invariantFactors_length_le _ _ _ hfs) (not_lt.mp hl)
      obtain ⟨κ, hκ⟩ := PMat.invariantFactors_prod k n _ hfs hlen
      have := hκ w
      rw [hw0, map_zero] at this
      rcases smul_eq_zero.mp this.symm with h1 | h1
      · rw [List.prod_eq_zero_iff, List.mem_map] at h1
        obtain ⟨f, hf, hf0⟩ := h1
        exact PMat.invariantFactors_ne_zero k n _ hfs f hf (toPoly_eq_zero.mp hf0)
      · exact hw h1

end Komm
