import Verif.Lemmas.LFSR
import Verif.Props.C06_C08_Irreducible
import Verif.Props.C14_C16_Misc
import Verif.Props.C69_C70_Autocorrelation
/-! C67: LFSR sequences.  `toPoly f` is the polynomial over GF(2) whose coefficients are the binary digits of `f`; `periodic` is the
periodic extension of a list to all integer positions. -/
namespace Komm
open Polynomial

theorem lfsrSequence_eq (f start : Nat) (hm : 1 ≤ (toPoly f).natDegree) :
    lfsrSequence f start = some ((List.range (2 ^ (toPoly f).natDegree - 1)).map
      (lfsrStream (BP.exponents (BP.add f 1)) (BP.coefficients start (some (toPoly f).natDegree)))) := by
  have hd : (toPoly f).natDegree = bitLength f - 1 := natDegree_toPoly f
  have hlast : (BP.exponents (BP.add f 1)).getLast? = some (toPoly f).natDegree := by
    have hmem : (toPoly f).natDegree ∈ BP.exponents (BP.add f 1) := by
      rw [BP.mem_exponents]
      have : (toPoly (BP.add f 1)).coeff (toPoly f).natDegree ≠ 0 := by
        rw [BP.toPoly_add, toPoly_one, coeff_add, coeff_one, if_neg (by omega), add_zero]
        exact leadingCoeff_ne_zero.mpr (by intro h; rw [h] at hm; simp at hm)
      rw [toPoly_coeff] at this
      by_contra hc
      exact this (by rw [if_neg hc])
    have hmax : ∀ t ∈ BP.exponents (BP.add f 1), t ≤ (toPoly f).natDegree := by
      intro t ht
      rw [BP.mem_exponents] at ht
      by_contra hc
      have : (toPoly (BP.add f 1)).coeff t = 0 := by
        rw [BP.toPoly_add, toPoly_one, coeff_add, coeff_one, if_neg (by omega), add_zero]
        exact coeff_eq_zero_of_natDegree_lt (by omega)
      rw [toPoly_coeff, if_pos ht] at this
      exact absurd this (by decide)
    have hs := BP.exponents_sorted (BP.add f 1)
    generalize BP.exponents (BP.add f 1) = l at *
    cases l using List.reverseRecOn with
    | nil => exact absurd hmem (by simp)
    | append_singleton l x =>
      rw [List.getLast?_append, List.getLast?_singleton, Option.some_or]
      rcases List.mem_append.mp hmem with h | h
      · have h1 := (List.pairwise_append.mp hs).2.2 _ h x (by simp)
        have h2 := hmax x (by simp)
        omega
      · rw [List.mem_singleton] at h; rw [h]
  rw [lfsrSequence, hlast]
  simp only
  rw [lfsrLoop_eq]
  have : (BP.degree f).toNat = (toPoly f).natDegree := by
    rw [BP.degree]; omega
  rw [this]

/-- For a feedback polynomial of degree `m ≥ 1`, the sequence has length `2^m - 1`, consists of bits, starts with the start state (last
cell first), and, when the constant term is 1, satisfies the recurrence `s[i+m] = Σ_{t=1}^{m} f_t s[i+m-t]`. -/
theorem C67_recurrence (f start : Nat) (m : Nat) (hm : (toPoly f).natDegree = m) (hm1 : 1 ≤ m) :
    ∃ out, lfsrSequence f start = some out ∧ out.length = 2 ^ m - 1 ∧ (∀ b ∈ out, b = 0 ∨ b = 1) ∧
      (∀ i, i < m → i < out.length → ((out.getD i 0 : Nat) : ZMod 2) = (toPoly start).coeff (m - 1 - i)) ∧
      ((toPoly f).coeff 0 = 1 → ∀ i, i + m < 2 ^ m - 1 → ((out.getD (i + m) 0 : Nat) : ZMod 2) =
        ∑ t ∈ Finset.Icc 1 m, (toPoly f).coeff t * ((out.getD (i + m - t) 0 : Nat) : ZMod 2)) := by
  subst hm
  refine ⟨_, lfsrSequence_eq f start hm1, by simp, ?_, ?_, ?_⟩
  all_goals
    obtain ⟨hc1, hc2⟩ := C14_coefficients_width start (toPoly f).natDegree hm1
    set st := BP.coefficients start (some (toPoly f).natDegree) with hst
    have hne : st ≠ [] := by intro h; rw [h] at hc1; simp at hc1; omega
    have hb : ∀ b ∈ st, b < 2 := by
      intro b h
      obtain ⟨w, hw⟩ : ∃ w, (toPoly f).natDegree = w + 1 := ⟨(toPoly f).natDegree - 1, by omega⟩
      rw [hst, hw] at h
      simp only [BP.coefficients, intToBits, List.mem_map] at h
      obtain ⟨i, _, rfl⟩ := h
      exact Nat.mod_lt _ (by norm_num)
    set taps := BP.exponents (BP.add f 1) with htaps
    have hget : ∀ i, i < 2 ^ (toPoly f).natDegree - 1 →
        ((List.range (2 ^ (toPoly f).natDegree - 1)).map (lfsrStream taps st)).getD i 0 = lfsrStream taps st i := by
      intro i hi
      rw [List.getD_eq_getElem?_getD, List.getElem?_map, List.getElem?_range hi]; rfl
  · intro b hbm
    rw [List.mem_map] at hbm
    obtain ⟨i, _, rfl⟩ := hbm
    rw [lfsrStream, getLastD_eq, List.getD_eq_getElem?_getD]
    cases hx : (lfsrState taps st i)[(lfsrState taps st i).length - 1]? with
    | none => simp
    | some x =>
      have := lfsrState_bits taps st hb i x (List.mem_of_getElem? hx)
      simp only [Option.getD_some]
      omega
  · intro i hi hil
    rw [hget i (by simpa using hil)]
    have := lfsrState_getD taps st hne 0 ((toPoly f).natDegree - 1 - i) (by omega)
    rw [show 0 + (st.length - 1 - ((toPoly f).natDegree - 1 - i)) = i by omega] at this
    rw [← this]
    exact hc2 _ (by omega)
  · intro h0 i hi
    rw [hget _ hi, htaps, lfsrStream_step f st hm1 hc1 hb i, h0, show (1 + 1 : ZMod 2) = 0 from by decide, zero_mul, add_zero,
      ← htaps, Finset.sum_bij (fun t _ => t + 1)]
    · intro t ht
      rw [Finset.mem_range] at ht
      rw [Finset.mem_Icc]; omega
    · intro a _ b _ h; omega
    · intro t ht
      rw [Finset.mem_Icc] at ht
      exact ⟨t - 1, by rw [Finset.mem_range]; omega, by omega⟩
    · intro t ht
      rw [Finset.mem_range] at ht
      rw [hget _ (by omega), show i + (toPoly f).natDegree - (t + 1) = i + ((toPoly f).natDegree - (t + 1)) by omega]

/-- Everything else is about one sequence: the stream of a primitive LFSR. -/
theorem primitive_stream (f start m : Nat) (hm : (toPoly f).natDegree = m) (hf : IsPrimitivePoly (toPoly f))
    (hs : ∃ i < m, (toPoly start).coeff i ≠ 0) (out : List Nat) (h : lfsrSequence f start = some out) :
    ∃ s : ℕ → ZMod 2, Shift.Sat (toPoly f) s ∧ s ≠ 0 ∧ out.length = 2 ^ m - 1 ∧ (∀ b ∈ out, b = 0 ∨ b = 1) ∧
      ∀ i : Int, ∀ k : Nat, (2 ^ m - 1 : Nat) ∣ ((k : Int) - i).natAbs → ((periodic out i : Nat) : ZMod 2) = s k := by
  have hm1 : 1 ≤ m := by obtain ⟨i, hi, _⟩ := hs; omega
  have hc0 : (toPoly f).coeff 0 = 1 :=
    (by decide : ∀ x : ZMod 2, x ≠ 0 → x = 1) _ (Shift.primitive_coeff_zero hf)
  obtain ⟨out', h1, h2, h3, h4, _⟩ := C67_recurrence f start m hm hm1
  rw [h] at h1
  obtain rfl := Option.some.inj h1
  subst hm
  obtain ⟨hc1, hc2⟩ := C14_coefficients_width start (toPoly f).natDegree hm1
  have he := lfsrSequence_eq f start hm1
  rw [h] at he
  set st := BP.coefficients start (some (toPoly f).natDegree) with hst
  have hne : st ≠ [] := by intro h; rw [h] at hc1; simp at hc1; omega
  have hb : ∀ b ∈ st, b < 2 := by
    intro b h
    obtain ⟨w, hw⟩ : ∃ w, (toPoly f).natDegree = w + 1 := ⟨(toPoly f).natDegree - 1, by omega⟩
    rw [hst, hw] at h
    simp only [BP.coefficients, intToBits, List.mem_map] at h
    obtain ⟨i, _, rfl⟩ := h
    exact Nat.mod_lt _ (by norm_num)
  set taps := BP.exponents (BP.add f 1) with htaps
  have hsat : Shift.Sat (toPoly f) (fun n => (lfsrStream taps st n : ZMod 2)) := by
    intro i
    rw [Finset.sum_range_succ', hc0, one_mul, Nat.sub_zero]
    have := lfsrStream_step f st hm1 hc1 hb i
    rw [hc0, show (1 + 1 : ZMod 2) = 0 from by decide, zero_mul, add_zero] at this
    rw [← htaps] at this
    dsimp only
    rw [this]
    exact (by decide : ∀ x : ZMod 2, x + x = 0) _
  have hnz : (fun n => (lfsrStream taps st n : ZMod 2)) ≠ 0 := by
    intro hz
    obtain ⟨i, hi, hi0⟩ := hs
    apply hi0
    have hg := lfsrState_getD taps st hne 0 i (by omega)
    rw [lfsrState, Function.iterate_zero, id] at hg
    rw [← hc2 i hi, hg]
    exact congrFun hz _
  refine ⟨_, hsat, hnz, h2, h3, ?_⟩
  intro i k hk
  have hN : 0 < 2 ^ (toPoly f).natDegree - 1 := by
    have : 2 ^ 1 ≤ 2 ^ (toPoly f).natDegree := Nat.pow_le_pow_right (by norm_num) hm1
    omega
  set N := 2 ^ (toPoly f).natDegree - 1 with hNdef
  rw [periodic, h2]
  have hr0 := Int.emod_nonneg i (b := (N : Int)) (by omega)
  have hr1 := Int.emod_lt_of_pos i (b := (N : Int)) (by omega)
  set r := (i % (N : Int)).toNat with hr
  have hrN : r < N := by omega
  have hval : out.getD r 0 = lfsrStream taps st r := by
    rw [Option.some.inj he, List.getD_eq_getElem?_getD, List.getElem?_map, List.getElem?_range hrN]; rfl
  rw [hval]
  have hkr : k % N = r := by
    have h1 : ((N : Int)) ∣ (k : Int) - i := Int.natCast_dvd.mpr hk
    have h2 : (k : Int) % N = i % N := Int.emod_eq_emod_iff_emod_sub_eq_zero.mpr (Int.emod_eq_zero_of_dvd h1)
    omega
  have hper := (Shift.period_iff hf _ hsat hnz (N * (k / N))).mpr (dvd_mul_right _ _) r
  rw [← hper]
  congr 2
  have := Nat.mod_add_div k N
  omega

/-- For a primitive feedback polynomial of degree `m` and a start state that is not zero, the periodic extension of the sequence has
least period `2^m - 1`. -/
theorem C67_period (f start m : Nat) (hm : (toPoly f).natDegree = m) (hf : IsPrimitivePoly (toPoly f))
    (hs : ∃ i < m, (toPoly start).coeff i ≠ 0) (out : List Nat) (h : lfsrSequence f start = some out) (p : Nat) :
    (∀ i : Int, periodic out (i + p) = periodic out i) ↔ 2 ^ m - 1 ∣ p := by
  obtain ⟨s, hsat, hnz, hlen, hbits, hval⟩ := primitive_stream f start m hm hf hs out h
  have hp := Shift.period_iff hf s hsat hnz p
  rw [hm] at hp
  have hbit : ∀ i : Int, periodic out i = 0 ∨ periodic out i = 1 := by
    intro i
    rw [periodic, List.getD_eq_getElem?_getD]
    cases hx : out[(i % (out.length : Int)).toNat]? with
    | none => exact Or.inl rfl
    | some x => exact hbits x (List.mem_of_getElem? hx)
  rw [← hp]
  constructor
  · intro hper i
    rw [← hval (i : Int) i (by simp), ← hval ((i + p : Nat) : Int) (i + p) (by simp), Nat.cast_add, hper]
  · intro hper i
    obtain ⟨k, hk⟩ : ∃ k : Nat, ((2 ^ m - 1 : Nat) : Int) ∣ (k : Int) - i := by
      by_cases h0 : (2 ^ m - 1 : Nat) = 0
      · obtain ⟨j, hj, _⟩ := hs
        have : 2 ^ 1 ≤ 2 ^ m := Nat.pow_le_pow_right (by norm_num) (by omega)
        omega
      · refine ⟨(i % ((2 ^ m - 1 : Nat) : Int)).toNat, ?_⟩
        have := Int.emod_nonneg i (b := ((2 ^ m - 1 : Nat) : Int)) (by omega)
        rw [Int.toNat_of_nonneg this]
        have h2 := Int.emod_add_mul_ediv i ((2 ^ m - 1 : Nat) : Int)
        exact ⟨-(i / ((2 ^ m - 1 : Nat) : Int)), by linarith⟩
    have e1 := hval i k (Int.natCast_dvd.mp hk)
    have e2 := hval (i + p) (k + p) (by
      rw [Nat.cast_add, show (k : Int) + p - (i + p) = k - i by ring]
      exact Int.natCast_dvd.mp hk)
    have e3 := hper k
    rw [← e1, ← e2] at e3
    rcases hbit i with h1 | h1 <;> rcases hbit (i + p) with h2 | h2 <;> rw [h1, h2] at e3 ⊢ <;> exact absurd e3 (by decide)

/-- One period contains `2^(m-1)` ones. -/
theorem C67_ones (f start m : Nat) (hm : (toPoly f).natDegree = m) (hf : IsPrimitivePoly (toPoly f))
    (hs : ∃ i < m, (toPoly start).coeff i ≠ 0) (out : List Nat) (h : lfsrSequence f start = some out) :
    out.count 1 = 2 ^ (m - 1) := by
  obtain ⟨s, hsat, hnz, hlen, hbits, hval⟩ := primitive_stream f start m hm hf hs out h
  have ho := Shift.ones hf s hsat hnz
  rw [hm] at ho
  rw [← ho]
  have key : ∀ (l : List Nat) (t : ℕ → ZMod 2), (∀ b ∈ l, b = 0 ∨ b = 1) → (∀ i < l.length, ((l.getD i 0 : Nat) : ZMod 2) = t i) →
      l.count 1 = ((Finset.range l.length).filter fun i => t i = 1).card := by
    intro l
    induction l with
    | nil => intro t _ _; rfl
    | cons a l ih =>
      intro t hb ht
      rw [List.count_cons, ih (fun i => t (i + 1)) (fun b hb' => hb b (List.mem_cons_of_mem _ hb')) (by
        intro i hi
        have := ht (i + 1) (by simpa using hi)
        simpa using this)]
      have h0 := ht 0 (by simp)
      rw [List.getD_cons_zero] at h0
      rw [List.length_cons, Finset.card_filter, Finset.card_filter, Finset.sum_range_succ', ← h0]
      congr 1
      rcases hb a (by simp) with rfl | rfl <;> decide
  rw [key out s hbits, hlen]
  intro i hi
  rw [← hval (i : Int) i (by simp)]
  rw [periodic, Int.emod_eq_of_lt (by omega) (by omega), Int.toNat_natCast]

/-- Every non-zero pattern of `m` bits occurs at exactly one position of the period. -/
theorem C67_windows (f start m : Nat) (hm : (toPoly f).natDegree = m) (hf : IsPrimitivePoly (toPoly f))
    (hs : ∃ i < m, (toPoly start).coeff i ≠ 0) (out : List Nat) (h : lfsrSequence f start = some out)
    (w : Fin m → ZMod 2) (hw : w ≠ 0) :
    ∃! i : Nat, i < 2 ^ m - 1 ∧ ∀ j : Fin m, ((periodic out ((i : Int) + (j : Nat)) : Nat) : ZMod 2) = w j := by
  obtain ⟨s, hsat, hnz, hlen, hbits, hval⟩ := primitive_stream f start m hm hf hs out h
  subst hm
  have hb := Shift.windows_bijective hf s hsat hnz
  have hv : ∀ (i : Nat) (j : Nat), ((periodic out ((i : Int) + (j : Nat)) : Nat) : ZMod 2) = s (i + j) :=
    fun i j => hval _ _ (by simp)
  obtain ⟨i, hi, hiw⟩ := hb.2.2 hw
  refine ⟨i, ⟨Finset.mem_range.mp (Finset.mem_coe.mp hi), fun j => ?_⟩, ?_⟩
  · rw [hv, ← hiw]; rfl
  · rintro k ⟨hk, hkw⟩
    apply hb.2.1 (Finset.mem_coe.mpr (Finset.mem_range.mpr hk)) hi
    rw [hiw]
    funext j
    rw [← hkw j, hv]; rfl

/-- The documented cyclic autocorrelation of a maximum-length sequence: `L` at multiples of `L`, `-1` at every other shift. -/
theorem C67_autocorrelation (f start m : Nat) (hm : (toPoly f).natDegree = m) (hf : IsPrimitivePoly (toPoly f))
    (hs : ∃ i < m, (toPoly start).coeff i ≠ 0) (out : List Nat) (h : lfsrSequence f start = some out) (l : Int) :
    cyclicAutocorrelation id (polarOfBits out) l = if (2 ^ m - 1 : Int) ∣ l then 2 ^ m - 1 else -1 := by
  obtain ⟨s, hsat, hnz, hlen, hbits, hval⟩ := primitive_stream f start m hm hf hs out h
  subst hm
  have hm1 : 1 ≤ (toPoly f).natDegree := by obtain ⟨i, hi, _⟩ := hs; omega
  have hN : 0 < 2 ^ (toPoly f).natDegree - 1 := by
    have : 2 ^ 1 ≤ 2 ^ (toPoly f).natDegree := Nat.pow_le_pow_right (by norm_num) hm1
    omega
  have hcast : ((2 : Int) ^ (toPoly f).natDegree - 1) = ((2 ^ (toPoly f).natDegree - 1 : Nat) : Int) := by
    rw [Nat.cast_sub Nat.one_le_two_pow]; push_cast; ring
  rw [hcast]
  have hper := Shift.period_iff hf s hsat hnz
  have hones := fun t ht1 ht2 => Shift.ones hf t ht1 ht2
  have hpow : 2 ^ (toPoly f).natDegree = 2 * 2 ^ ((toPoly f).natDegree - 1) := by
    rw [← pow_succ', Nat.sub_add_cancel hm1]
  set N := 2 ^ (toPoly f).natDegree - 1 with hNdef
  have hplen : (polarOfBits out).length = N := by rw [polarOfBits, List.length_map, hlen]
  have hpol : ∀ i : Int, ∀ k : Nat, N ∣ ((k : Int) - i).natAbs → periodic (polarOfBits out) i = if s k = 1 then -1 else 1 := by
    intro i k hk
    have hv := hval i k hk
    have : periodic (polarOfBits out) i = (-1) ^ (periodic out i) := by
      rw [periodic, periodic, hplen, hlen]
      have hlt : (i % (N : Int)).toNat < out.length := by
        have h1 := Int.emod_nonneg i (b := (N : Int)) (by omega)
        have h2 := Int.emod_lt_of_pos i (b := (N : Int)) (by omega)
        omega
      rw [polarOfBits, List.getD_eq_getElem?_getD, List.getElem?_map, List.getD_eq_getElem?_getD, List.getElem?_eq_getElem hlt]
      rfl
    rw [this, ← hv]
    have hb : periodic out i = 0 ∨ periodic out i = 1 := by
      rw [periodic, List.getD_eq_getElem?_getD]
      cases hx : out[(i % (out.length : Int)).toNat]? with
      | none => exact Or.inl rfl
      | some x => exact hbits x (List.mem_of_getElem? hx)
    rcases hb with h | h <;> rw [h] <;> simp
  set k := ((-l) % (N : Int)).toNat with hk
  have hk0 := Int.emod_nonneg (-l) (b := (N : Int)) (by omega)
  have hkdvd : (N : Int) ∣ (k : Int) + l := by
    rw [hk, Int.toNat_of_nonneg hk0]
    have := Int.emod_add_mul_ediv (-l) N
    exact ⟨-((-l) / N), by linarith⟩
  have hid : (⇑(RingHom.id Int) : Int → Int) = id := rfl
  rw [← hid, C70_cyclic_definition, hplen]
  have hterm : ∀ i ∈ Finset.range N, periodic (polarOfBits out) (i : Int) *
      (RingHom.id Int) (periodic (polarOfBits out) ((i : Int) - l)) = 1 - 2 * (if s i + s (i + k) = 1 then 1 else 0) := by
    intro i _
    rw [hpol (i : Int) i (by simp), RingHom.id_apply, hpol ((i : Int) - l) (i + k) (by
      apply Int.natCast_dvd.mp
      rw [Nat.cast_add, show (i : Int) + k - (i - l) = k + l by ring]
      exact hkdvd)]
    rcases (by decide : ∀ x : ZMod 2, x = 0 ∨ x = 1) (s i) with h1 | h1 <;>
      rcases (by decide : ∀ x : ZMod 2, x = 0 ∨ x = 1) (s (i + k)) with h2 | h2 <;> rw [h1, h2] <;> decide
  rw [Finset.sum_congr rfl hterm, Finset.sum_sub_distrib, Finset.sum_const, Finset.card_range, ← Finset.mul_sum, nsmul_eq_mul, mul_one,
    Finset.sum_boole]
  by_cases hd : (N : Int) ∣ l
  · rw [if_pos hd]
    have hNk : N ∣ k := by
      have : (N : Int) ∣ (k : Int) := (dvd_add_left hd).mp hkdvd
      exact_mod_cast this
    have hp := (hper k).mpr hNk
    rw [Finset.filter_false_of_mem]
    · simp
    · intro i _
      rw [hp i]
      exact (by decide : ∀ x : ZMod 2, x + x ≠ 1) _
  · rw [if_neg hd]
    have hNk : ¬ N ∣ k := by
      intro hc
      have : (N : Int) ∣ (k : Int) := by exact_mod_cast hc
      exact hd ((dvd_add_right this).mp hkdvd)
    have hsum : (s + fun i => s (i + k)) ≠ 0 := by
      intro hz
      apply hNk
      rw [← hper k]
      intro i
      have := congrFun hz i
      exact ((by decide : ∀ x y : ZMod 2, x + y = 0 → y = x) _ _ this)
    have := hones _ (Shift.sat_add s _ hsat (Shift.sat_shift s hsat k)) hsum
    have hcard : ((Finset.range N).filter fun i => s i + s (i + k) = 1).card = 2 ^ ((toPoly f).natDegree - 1) := this
    rw [hcard]
    omega

/-- `maximum_length_sequence(degree)` exists for the degrees 1 to 24, and then all of the above applies to it. -/
theorem C67_maximum_length (degree : Int) (start : Nat) :
    ((maximumLengthSequence degree start).isSome ↔ 1 ≤ degree ∧ degree ≤ 24) ∧
    ∀ out, maximumLengthSequence degree start = some out → ∃ f, IsPrimitivePoly (toPoly f) ∧
      ((toPoly f).natDegree : Int) = degree ∧ lfsrSequence f start = some out := by
  obtain ⟨h1, h2⟩ := C08_default_primitive degree
  refine ⟨?_, ?_⟩
  · rw [← h2, maximumLengthSequence]
    cases hp : BP.defaultPrimitivePolynomial degree with
    | none => simp
    | some p =>
      rw [Option.bind_some]
      have := (h1 p hp).1
      obtain ⟨out, ho, _⟩ := C67_recurrence p start _ rfl this.1.natDegree_pos
      rw [ho]; simp
  · intro out ho
    rw [maximumLengthSequence, Option.bind_eq_some_iff] at ho
    obtain ⟨p, hp, hl⟩ := ho
    exact ⟨p, (h1 p hp).1, (h1 p hp).2, hl⟩

/-- The documented sequence meets the hypotheses. -/
example : IsPrimitivePoly (toPoly 0b100101) ∧ (∃ i < 5, (toPoly 1).coeff i ≠ 0) :=
  ⟨(C07_is_primitive _).mp (by decide +kernel), 0, by norm_num, by simp⟩

/-- Finding: a feedback polynomial without constant term is accepted, but then the last cell is counted twice, so the tap of the leading
term is lost: for `X^2` the register of length 2 outputs `1, 1, 0`-type sequences of the polynomial `1`, that is, it runs dry. -/
example : lfsrSequence 0b100 0b11 = some [1, 1, 0] ∧ lfsrSequence 0b1010 0b111 = some [1, 1, 1, 1, 1, 1, 1] ∧
    lfsrSequence 1 1 = none := by decide +kernel

end Komm
