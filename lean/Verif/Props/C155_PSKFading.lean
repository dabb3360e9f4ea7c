import Verif.Props.C154_GrayTransmission
/-! C155: PSK over channels with unknown gain, phase noise and additive noise. -/
namespace Komm
open Constellation NDArray Real

/-- A positive gain does not change a PSK decision, whatever was received. -/
theorem C155_gain (M : Nat) (φ ρ : ℝ) (hρ : 0 < ρ) (r : ℂ) : pskClosest M φ (ρ * r) = pskClosest M φ r := by
  simp only [pskClosest]
  rw [mul_assoc, Complex.arg_real_mul _ hρ]

theorem psk_rotated (M : Nat) (A φ : ℝ) (hA : 0 < A) (i : Fin M) (ρ ψ : ℝ) (hρ : 0 < ρ) :
    ∃ d : ℤ, |M * ψ - d| ≤ 1 / 2 ∧ pskClosest M φ (ρ * psk M A φ i 0 * phase ψ) = (i.val + d) % M := by
  have hM' : (0 : ℝ) < M := by exact_mod_cast i.pos
  have hpi := pi_pos
  have hz : (ρ : ℂ) * psk M A φ i 0 * phase ψ * phase (-φ) = ((ρ * A : ℝ) : ℂ) * Complex.exp (((2 * π * (i.val / M + ψ) : ℝ) : ℂ) * Complex.I) := by
    rw [psk_eq]
    have h1 : phase φ * phase (-φ) = 1 := phase_mul_neg φ
    calc (ρ : ℂ) * ((A : ℂ) * Complex.exp (((2 * π * (i.val / M) : ℝ) : ℂ) * Complex.I) * phase φ) * phase ψ * phase (-φ)
        = (ρ : ℂ) * A * (Complex.exp (((2 * π * (i.val / M) : ℝ) : ℂ) * Complex.I) * phase ψ) * (phase φ * phase (-φ)) := by ring
      _ = _ := by
        rw [h1, mul_one, phase_eq, ← Complex.exp_add]
        push_cast
        congr 2
        ring
  simp only [pskClosest]
  rw [hz, Complex.arg_real_mul _ (by positivity), Complex.arg_exp_mul_I]
  set θ := 2 * π * (i.val / M + ψ) with hθ
  set k := toIocDiv Real.two_pi_pos (-π) θ with hk
  have e : (M : ℝ) * (toIocMod Real.two_pi_pos (-π) θ / (2 * π)) = M * ψ + ((i.val - M * k : ℤ) : ℝ) := by
    rw [toIocMod, ← hk, hθ]
    push_cast
    rw [zsmul_eq_mul]
    field_simp
    ring
  rw [e]
  have hr := npRound_spec (M * ψ + ((i.val - M * k : ℤ) : ℝ))
  set n := npRound (M * ψ + ((i.val - M * k : ℤ) : ℝ))
  refine ⟨n - (i.val - M * k), ?_, ?_⟩
  · rw [abs_le] at hr ⊢
    push_cast at hr ⊢
    constructor <;> linarith [hr.1, hr.2]
  · rw [show (i.val : ℤ) + (n - (i.val - M * k)) = n + M * k by ring, Int.add_mul_emod_self_left]

/-- The decision after a gain and a rotation by `ψ` turns: the index moves, cyclically, by the nearest whole number of steps. -/
theorem C155_rotation (M : Nat) (A φ : ℝ) (hA : 0 < A) (i : Fin M) (ρ ψ : ℝ) (hρ : 0 < ρ) (d : ℤ) (hd : |M * ψ - d| < 1 / 2) :
    pskClosest M φ (ρ * psk M A φ i 0 * phase ψ) = (i.val + d) % M := by
  obtain ⟨d', h1, h2⟩ := psk_rotated M A φ hA i ρ ψ hρ
  have : |((d' - d : ℤ) : ℝ)| < 1 := by
    push_cast
    rw [abs_lt] at hd ⊢
    rw [abs_le] at h1
    constructor <;> linarith [hd.1, hd.2, h1.1, h1.2]
  have h3 : |d' - d| < 1 := by exact_mod_cast this
  rw [Int.abs_lt_one_iff] at h3
  rw [h2, show d' = d by omega]

/-- Additive noise shorter than `A sin (2π t)`, with `t` at most a quarter turn, is a gain and a rotation by less than `t` turns. -/
theorem C155_additive (s w : ℂ) (t : ℝ) (ht0 : 0 < t) (ht : t ≤ 1 / 4) (hw : ‖w‖ < ‖s‖ * sin (2 * π * t)) :
    ∃ ρ ψ : ℝ, 0 < ρ ∧ |ψ| < t ∧ s + w = ρ * s * phase ψ := by
  have hpi := pi_pos
  have hs1 : sin (2 * π * t) ≤ 1 := sin_le_one _
  have hs : 0 < ‖s‖ := by
    rcases (norm_nonneg s).lt_or_eq with h | h
    · exact h
    · rw [← h, zero_mul] at hw; exact absurd hw (not_lt.mpr (norm_nonneg _))
  have hs0 : s ≠ 0 := norm_pos_iff.mp hs
  set S := sin (2 * π * t) with hS
  have hS0 : 0 < S := sin_pos_of_pos_of_lt_pi (by positivity) (by nlinarith)
  set z := w / s with hz
  have hzn : ‖z‖ < S := by rw [hz, norm_div, div_lt_iff₀ hs]; linarith
  have hzsq : z.re ^ 2 + z.im ^ 2 < S ^ 2 := by
    have h1 : ‖z‖ ^ 2 = z.re ^ 2 + z.im ^ 2 := by rw [Complex.sq_norm, Complex.normSq_apply]; ring
    rw [← h1]
    exact pow_lt_pow_left₀ hzn (norm_nonneg _) two_ne_zero
  set y := 1 + z with hy
  have hyre : 0 < y.re := by
    have h1 := Complex.abs_re_le_norm z
    rw [abs_le] at h1
    rw [hy, Complex.add_re, Complex.one_re]
    linarith [h1.1]
  have hy0 : 0 < ‖y‖ := norm_pos_iff.mpr fun h => by rw [h] at hyre; simp at hyre
  have hyn : ‖y‖ ^ 2 = (1 + z.re) ^ 2 + z.im ^ 2 := by
    rw [Complex.sq_norm, Complex.normSq_apply, hy]; simp; ring
  have hlt : |y.im / ‖y‖| < S := by
    rw [abs_div, abs_of_pos hy0, div_lt_iff₀ hy0]
    apply abs_lt_of_sq_lt_sq _ (by positivity)
    have him : y.im = z.im := by rw [hy]; simp
    rw [him, mul_pow, hyn]
    have hre1 : 0 < 1 + z.re := by rw [hy] at hyre; simpa using hyre
    rcases hs1.lt_or_eq with h | h
    · have h1 : 0 < 1 - S ^ 2 := by nlinarith
      nlinarith [mul_lt_mul_of_pos_right hzsq h1, sq_nonneg (S ^ 2 + z.re)]
    · rw [h]; nlinarith [mul_pos hre1 hre1]
  have harg : |y.arg| < 2 * π * t := by
    rw [Complex.arg_of_re_nonneg hyre.le]
    rw [abs_lt] at hlt ⊢
    have hle : 2 * π * t ≤ π / 2 := by nlinarith
    have e1 : arcsin S = 2 * π * t := arcsin_sin (by linarith [mul_pos (mul_pos two_pos hpi) ht0]) hle
    have e2 : arcsin (-S) = -(2 * π * t) := by rw [arcsin_neg, e1]
    constructor
    · rw [← e2]; exact strictMonoOn_arcsin ⟨by linarith, by linarith⟩ ⟨by linarith, by linarith⟩ hlt.1
    · rw [← e1]; exact strictMonoOn_arcsin ⟨by linarith, by linarith⟩ ⟨by linarith, by linarith⟩ hlt.2
  refine ⟨‖y‖, y.arg / (2 * π), hy0, ?_, ?_⟩
  · rw [abs_div, abs_of_pos (by positivity : 0 < 2 * π), div_lt_iff₀ (by positivity)]
    linarith
  · have h1 : phase (y.arg / (2 * π)) = Complex.exp (y.arg * Complex.I) := by
      rw [phase_eq]; congr 3; field_simp
    rw [h1, mul_right_comm, Complex.norm_mul_exp_arg_mul_I, hy, hz]
    field_simp

/-- Cyclic Gray property: labels `d` steps apart on the circle differ in at most `|d|` bits. -/
theorem C155_gray_cyclic (m : Nat) (hm : 1 ≤ m) (i : Nat) (hi : i < 2 ^ m) (d : ℤ) (k : Nat) (hk : (k : ℤ) = (i + d) % (2 ^ m : ℕ)) :
    wordDist (reflectedIndicesToBits m [i]) (reflectedIndicesToBits m [k]) ≤ d.natAbs := by
  have hl : ∀ i, (reflectedIndicesToBits m [i]).length = m := by
    intro i; simp [reflectedIndicesToBits, intToBits_length]
  have hp : 0 < 2 ^ m := by positivity
  have step : ∀ j < 2 ^ m, wordDist (reflectedIndicesToBits m [j]) (reflectedIndicesToBits m [(j + 1) % 2 ^ m]) ≤ 1 := by
    intro j hj
    rcases Nat.lt_or_ge (j + 1) (2 ^ m) with h | h
    · rw [Nat.mod_eq_of_lt h]; exact (C38_gray_adjacent m j h).le
    · rw [show j + 1 = 2 ^ m by omega, Nat.mod_self, show j = 2 ^ m - 1 by omega]
      exact (C38_gray_cyclic m hm).le
  have key : ∀ t i, i < 2 ^ m → wordDist (reflectedIndicesToBits m [i]) (reflectedIndicesToBits m [(i + t) % 2 ^ m]) ≤ t := by
    intro t
    induction t with
    | zero => intro i hi; rw [Nat.add_zero, Nat.mod_eq_of_lt hi, wordDist_self]
    | succ t ih =>
      intro i h
      have a1 := ih i h
      have a2 := step ((i + t) % 2 ^ m) (Nat.mod_lt _ hp)
      rw [Nat.mod_add_mod] at a2
      have a3 := wordDist_triangle (reflectedIndicesToBits m [i]) (reflectedIndicesToBits m [(i + t) % 2 ^ m])
        (reflectedIndicesToBits m [(i + t + 1) % 2 ^ m]) (by rw [hl, hl]) (by rw [hl, hl])
      rw [show i + (t + 1) = i + t + 1 by omega]
      omega
  rcases Int.le_total 0 d with h | h
  · obtain ⟨t, rfl⟩ := Int.eq_ofNat_of_zero_le h
    have hk' : k = (i + t) % 2 ^ m := by exact_mod_cast hk
    rw [hk']
    exact key t i hi
  · obtain ⟨t, ht⟩ := Int.eq_ofNat_of_zero_le (Int.neg_nonneg.mpr h)
    have hd : d = -(t : ℤ) := by omega
    subst hd
    have hk2 : k < 2 ^ m := by
      have := Int.emod_lt_of_pos ((i : ℤ) + -(t : ℤ)) (b := ((2 ^ m : ℕ) : ℤ)) (by exact_mod_cast hp)
      rw [← hk] at this
      exact_mod_cast this
    have hik : i = (k + t) % 2 ^ m := by
      have h1 : ((k : ℤ) + t) % (2 ^ m : ℕ) = i % (2 ^ m : ℕ) := by
        rw [hk, Int.emod_add_emod]; congr 1; ring
      have h2 : (((k + t) % 2 ^ m : ℕ) : ℤ) = ((i % 2 ^ m : ℕ) : ℤ) := by push_cast; push_cast at h1; exact h1
      rw [Nat.mod_eq_of_lt hi] at h2
      exact_mod_cast h2.symm
    have := key t k hk2
    rw [← hik, wordDist_comm] at this
    omega

/-- One PSK symbol with a gain and less than `e + 1/2` steps of phase noise costs at most `min e mb` bits. -/
theorem C155_psk_cost (mb : Nat) (hmb : 1 ≤ mb) (A φ : ℝ) (hA : 0 < A) (i : Fin (2 ^ mb)) (ρ ψ : ℝ) (hρ : 0 < ρ) (e : Nat)
    (he : e < mb → |ψ| < (e + 1 / 2) / 2 ^ mb) (k : Nat) (hk : (k : ℤ) = pskClosest (2 ^ mb) φ (ρ * psk (2 ^ mb) A φ i 0 * phase ψ)) :
    wordDist (reflectedIndicesToBits mb [i.val]) (reflectedIndicesToBits mb [k]) ≤ min e mb := by
  have hlab : (reflectedIndicesToBits mb [i.val]).length = mb := by simp [reflectedIndicesToBits, intToBits_length]
  refine le_min ?_ ((wordDist_le_length _ _).trans hlab.le)
  by_cases hem : e < mb
  · have hp : (0 : ℝ) < 2 ^ mb := by positivity
    obtain ⟨d, h1, h2⟩ := psk_rotated (2 ^ mb) A φ hA i ρ ψ hρ
    rw [← hk] at h2
    refine (C155_gray_cyclic mb hmb i i.isLt d k h2).trans ?_
    have h3 := he hem
    rw [lt_div_iff₀ hp] at h3
    have h4 : |(d : ℝ)| < e + 1 := by
      push_cast at h1
      have h5 : |2 ^ mb * ψ| < (e : ℝ) + 1 / 2 := by rw [abs_mul, abs_of_pos hp, mul_comm]; exact h3
      rw [abs_lt] at h5 ⊢
      rw [abs_le] at h1
      constructor <;> linarith [h5.1, h5.2, h1.1, h1.2]
    have h6 : |d| < (e : ℤ) + 1 := by exact_mod_cast h4
    rw [abs_lt] at h6
    omega
  · exact (wordDist_le_length _ _).trans (by rw [hlab]; omega)

variable {K n : Nat}

/-- PSK with `ReflectedLabeling`: every symbol is received with an arbitrary positive gain and with less than `e q + 1/2` angular steps of
phase noise (no condition when `e q` is at least the number of bits).  If the costs add up to at most `t` in every word, the message arrives. -/
theorem C155_psk_gray (E : BVec K → BVec n) (encode decode : List (ZMod 2) → Option (List (ZMod 2))) (t : Nat) (us : List (BVec K)) (hne : us ≠ [])
    (hE : encode (us.flatMap fun u : BVec K => List.ofFn u) = some (us.flatMap fun u : BVec K => List.ofFn (E u)))
    (hD : ∀ ws : List (BVec n), ws.length = us.length →
      (∀ b (h1 : b < us.length) (h2 : b < ws.length), hammingDist ws[b] (E us[b]) ≤ t) →
      decode (ws.flatMap fun w : BVec n => List.ofFn w) = some (us.flatMap fun u : BVec K => List.ofFn u))
    (mb : Nat) (hmb : 1 ≤ mb) (L : Lab) (hL : reflectedLab mb = some L) (A φ : ℝ) (hA : 0 < A) (S : Nat) (hS : 1 ≤ S) (hn : n = mb * S) :
    ∃ s : List ℂ, transmitter encode L (psk (2 ^ L.numBits) A φ) (us.flatMap fun u : BVec K => List.ofFn u) = some ⟨[us.length * S * 1], s⟩ ∧
      s.length = us.length * S * 1 ∧ (∀ q < us.length * S, ‖s.getD q 0‖ = A) ∧
      ∀ (r : List ℂ) (e : Nat → Nat), r.length = s.length →
        (∀ q < us.length * S, e q < mb → ∃ ρ ψ : ℝ, 0 < ρ ∧ |ψ| < (e q + 1 / 2) / 2 ^ mb ∧ r.getD q 0 = ρ * s.getD q 0 * phase ψ) →
        (∀ b < us.length, ∑ q ∈ Finset.range S, min (e (b * S + q)) mb ≤ t) →
        receiver decode L (closestEntries (pskClosest (2 ^ L.numBits) φ)) ⟨[us.length * S * 1], r⟩ = some (us.flatMap fun u : BVec K => List.ofFn u) := by
  obtain ⟨L', l1, l2, l3, l4, l5⟩ := C38_reflected_matrix mb hmb
  rw [hL, Option.some.injEq] at l1
  subst l1
  subst l2
  obtain ⟨s, l, s1, s2, s3, s4, s5⟩ := C154_chain E encode decode t us hne hE hD L hmb l3 l4
    (by norm_num) (psk (2 ^ L.numBits) A φ) _ (C109_psk (by positivity) A φ hA.le) S hS hn
  refine ⟨s, s1, s2, fun q hq => ?_, fun r e hr hnoise hcost => ?_⟩
  · obtain ⟨i, -, hs⟩ := s4 q (by omega)
    have hsp := congrFun hs 0
    rw [entry_getD_complex] at hsp
    rw [hsp, psk_eq, norm_mul, norm_mul, norm_phase, Complex.norm_exp_ofReal_mul_I, Complex.norm_real, norm_of_nonneg hA.le, mul_one, mul_one]
  obtain ⟨k, k1, k2, k3, k4⟩ := s5 r hr
  apply k4
  intro b hb
  refine le_trans (Finset.sum_le_sum fun q hq => ?_) (hcost b hb)
  rw [Finset.mem_range] at hq
  have hqq : b * S + q < us.length * S := by
    calc b * S + q < b * S + S := by omega
      _ = (b + 1) * S := by ring
      _ ≤ us.length * S := Nat.mul_le_mul_right _ hb
  set p := b * S + q
  obtain ⟨i, hi, hs⟩ := s4 p (by omega)
  have hsp := congrFun hs 0
  rw [entry_getD_complex] at hsp
  have hkp : k.getD p 0 < 2 ^ L.numBits := by rw [List.getD_eq_getElem _ _ (by omega)]; exact k3 _ (List.getElem_mem _)
  have hrow : ∀ i, i < 2 ^ L.numBits → L.matrix.getD i [] = reflectedIndicesToBits L.numBits [i] := by
    intro i hi
    rw [List.getD_eq_getElem?_getD, l5 i hi]; rfl
  have hk : (k.getD p 0 : ℤ) = pskClosest (2 ^ L.numBits) φ (r.getD p 0) := by
    simp only [closestEntries, Option.some.injEq, NDArray.mk.injEq] at k1
    have := congrArg (fun l => l.getD p 0) k1.2
    rw [List.getD_eq_getElem _ _ (by rw [List.length_map, hr, s2, mul_one]; exact hqq), List.getElem_map,
      List.getD_eq_getElem _ _ (by rw [List.length_map, k2]; exact hqq), List.getElem_map] at this
    rw [List.getD_eq_getElem k _ (by omega), List.getD_eq_getElem r _ (by rw [hr, s2, mul_one]; exact hqq), this]
  rw [hi, hrow _ i.isLt, hrow _ hkp]
  have hlab : (reflectedIndicesToBits L.numBits [i.val]).length = L.numBits := by simp [reflectedIndicesToBits, intToBits_length]
  by_cases hem : e p < L.numBits
  · obtain ⟨ρ, ψ, h1, h2, h3⟩ := hnoise p hqq hem
    rw [h3, hsp] at hk
    exact C155_psk_cost L.numBits hmb A φ hA i ρ ψ h1 (e p) (fun _ => h2) _ hk
  · rw [min_eq_right (by omega)]
    exact (wordDist_le_length _ _).trans hlab.le

/-- Block codes with any decoder that corrects `t` errors.  First form: gain and phase noise.  Second form: additive noise shorter than
`A sin (π / 2^m)` except in symbols where it is shorter than `A sin (3π / 2^m)` (`m` at least three), at most `t` of these per word. -/
theorem C155_block {M : Nat} (c : LinCode K M n) (h : c.Lawful) (hK : 1 ≤ K) (dec : BVec n → Option (BVec K)) (t : Nat)
    (hdec : ∀ u e, hammingNorm e ≤ t → dec (c.encode u + e) = some u) (us : List (BVec K)) (hne : us ≠ [])
    (mb : Nat) (hmb : 1 ≤ mb) (L : Lab) (hL : reflectedLab mb = some L) (A φ : ℝ) (hA : 0 < A) (S : Nat) (hn : n = mb * S) :
    ∃ s : List ℂ, transmitter c.encodeStream L (psk (2 ^ L.numBits) A φ) (us.flatMap fun u : BVec K => List.ofFn u) = some ⟨[us.length * S * 1], s⟩ ∧
      s.length = us.length * S * 1 ∧
      (∀ (r : List ℂ) (e : Nat → Nat), r.length = s.length →
        (∀ q < us.length * S, e q < mb → ∃ ρ ψ : ℝ, 0 < ρ ∧ |ψ| < (e q + 1 / 2) / 2 ^ mb ∧ r.getD q 0 = ρ * s.getD q 0 * phase ψ) →
        (∀ b < us.length, ∑ q ∈ Finset.range S, min (e (b * S + q)) mb ≤ t) →
        receiver (blockDecode dec) L (closestEntries (pskClosest (2 ^ L.numBits) φ)) ⟨[us.length * S * 1], r⟩ =
          some (us.flatMap fun u : BVec K => List.ofFn u)) ∧
      (∀ r : List ℂ, r.length = s.length → 3 ≤ mb → (∀ q < us.length * S, ‖r.getD q 0 - s.getD q 0‖ < A * sin (3 * π / 2 ^ mb)) →
        (∀ b < us.length, {q ∈ Finset.range S | A * sin (π / 2 ^ mb) ≤ ‖r.getD (b * S + q) 0 - s.getD (b * S + q) 0‖}.card ≤ t) →
        receiver (blockDecode dec) L (closestEntries (pskClosest (2 ^ L.numBits) φ)) ⟨[us.length * S * 1], r⟩ =
          some (us.flatMap fun u : BVec K => List.ofFn u)) := by
  classical
  have hn0 : 0 < n := by have := h.dim; omega
  obtain ⟨s, s1, s2, s4, s3⟩ := C155_psk_gray c.encode c.encodeStream (blockDecode dec) t us hne (C41_stream c h hK us).1 (by
    intro ws hws herr
    apply blockDecode_words hn0 dec us ws hws
    intro b h1 h2
    have := hdec us[b] (c.encode us[b] + ws[b]) (by
      rw [← hammingDist_eq_norm_add, hammingDist_comm]; exact herr b h1 h2)
    rw [← add_assoc, bvec_add_self, zero_add] at this
    exact this) mb hmb L hL A φ hA S (by
      rcases Nat.eq_zero_or_pos S with e | e
      · rw [e, Nat.mul_zero] at hn; omega
      · exact e) hn
  refine ⟨s, s1, s2, s3, fun r hr hm3 hnoise hcount => ?_⟩
  have hp8 : (8 : ℝ) ≤ 2 ^ mb := by
    calc (8 : ℝ) = 2 ^ 3 := by norm_num
      _ ≤ 2 ^ mb := pow_le_pow_right₀ (by norm_num) hm3
  have hp : (0 : ℝ) < 2 ^ mb := by linarith
  refine s3 r (fun q => if A * sin (π / 2 ^ mb) ≤ ‖r.getD q 0 - s.getD q 0‖ then 1 else 0) hr (fun q hq _ => ?_) fun b hb => ?_
  · by_cases hc : A * sin (π / 2 ^ mb) ≤ ‖r.getD q 0 - s.getD q 0‖
    · simp only [if_pos hc]
      obtain ⟨ρ, ψ, h1, h2, h3⟩ := C155_additive (s.getD q 0) (r.getD q 0 - s.getD q 0) ((1 + 1 / 2) / 2 ^ mb) (by positivity)
        (by rw [div_le_iff₀ hp]; linarith) (by
          rw [s4 q hq, show 2 * π * ((1 + 1 / 2) / 2 ^ mb) = 3 * π / 2 ^ mb by field_simp; norm_num]; exact hnoise q hq)
      exact ⟨ρ, ψ, h1, by push_cast; exact h2, by rw [← h3]; ring⟩
    · simp only [if_neg hc]
      obtain ⟨ρ, ψ, h1, h2, h3⟩ := C155_additive (s.getD q 0) (r.getD q 0 - s.getD q 0) ((0 + 1 / 2) / 2 ^ mb) (by positivity)
        (by rw [div_le_iff₀ hp]; linarith) (by
          rw [s4 q hq, show 2 * π * ((0 + 1 / 2) / 2 ^ mb) = π / 2 ^ mb by field_simp; norm_num]; exact not_le.mp hc)
      exact ⟨ρ, ψ, h1, by push_cast; exact h2, by rw [← h3]; ring⟩
  · refine le_trans (le_trans (Finset.sum_le_sum fun q _ => min_le_left _ _) (le_of_eq ?_)) (hcount b hb)
    rw [Finset.card_filter]

/-- A concrete case: the (6, 3) code with minimum distance 3 over a QPSK.  Every symbol is received with the unknown gain `g > 0` and turned
by a tenth of a turn, the second one by three tenths, which moves its decision: the three bits arrive. -/
example (g : ℝ) (hg : 0 < g) : ∃ (c : LinCode 3 3 6) (L : Lab) (s : List ℂ), blockCodeOfGenerator exG = some c ∧ reflectedLab 2 = some L ∧
    transmitter c.encodeStream L (psk (2 ^ L.numBits) 1 (1 / 8)) [1, 0, 1] = some ⟨[3], s⟩ ∧ s.length = 3 ∧
    receiver (blockDecode (exhaustiveHard c)) L (closestEntries (pskClosest (2 ^ L.numBits) (1 / 8)))
      ⟨[3], [g * s.getD 0 0 * phase (1 / 10), g * s.getD 1 0 * phase (3 / 10), g * s.getD 2 0 * phase (1 / 10)]⟩ = some [1, 0, 1] := by
  classical
  have hG : LinearIndependent (ZMod 2) exG := by
    rw [linearIndependent_iff_card_eq_finrank_span, Fintype.card_fin, Set.finrank, ← rank_spec]; decide +kernel
  obtain ⟨c, h1, _, h3⟩ := C41_generator exG hG
  have hd3 : c.minimumDistance = some 3 := by
    have : (blockCodeOfGenerator exG).bind (fun c => c.minimumDistance) = some 3 := by decide +kernel
    rw [h1] at this; exact this
  obtain ⟨L, l1, -⟩ := C38_reflected_matrix 2 (by norm_num)
  obtain ⟨s, s1, s2, s3, -⟩ := C155_block c h3 (by norm_num) (exhaustiveHard c) 1 (fun u e he => by
      obtain ⟨u', g1, g2⟩ := C47_hard c h3 (c.encode u + e)
      rw [g1, unique_decoding c h3 3 hd3 u u' e he (g2 u)]) [![1, 0, 1]] (by simp) 2 (by norm_num) L l1 1 (1 / 8) (by norm_num) 3 (by norm_num)
  have e : [![(1 : ZMod 2), 0, 1]].flatMap (fun u : BVec 3 => List.ofFn u) = [1, 0, 1] := by decide +kernel
  rw [e] at s1 s3
  simp only [List.length_cons, List.length_nil] at s2 s1 s3
  norm_num at s2
  refine ⟨c, L, s, h1, l1, s1, s2, s3 _ (fun q => if q = 1 then 1 else 0) (by simp [s2]) (fun q hq _ => ?_) fun b hb => ?_⟩
  · have hq3 : q = 0 ∨ q = 1 ∨ q = 2 := by omega
    rcases hq3 with rfl | rfl | rfl
    · exact ⟨g, 1 / 10, hg, by norm_num [abs_of_pos], rfl⟩
    · exact ⟨g, 3 / 10, hg, by norm_num [abs_of_pos], rfl⟩
    · exact ⟨g, 1 / 10, hg, by norm_num [abs_of_pos], rfl⟩
  · have : b = 0 := by omega
    subst this
    decide

/-- `PSKConstellation(8)`: a noise vector of length 0.38 is shorter than `sin (π / 8)`. -/
example : (0.38 : ℝ) < 1 * sin (π / 2 ^ 3) := by

  norm_num
  rw [lt_div_iff₀ (by norm_num), Real.lt_sqrt (by norm_num)]
  have : Real.sqrt 2 < 1.4143 := by rw [Real.sqrt_lt' (by norm_num)]; norm_num
  norm_num at this ⊢
  linarith

end Komm
