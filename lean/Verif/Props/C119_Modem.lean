import Verif.Props.C37_C40_Labelings
import Verif.Props.C109_ConstellationArrays
import Verif.Props.C75_Noiseless
import Verif.Props.C76_Formulas
/-! C119: a labeling and a constellation as a modem: bits → indices → symbols → noise → decisions → bits. -/
namespace Komm
open Constellation NDArray

variable {𝕜 : Type} [RCLike 𝕜] {N : Nat}

/-- The number of positions in which two lists of integers differ. -/
def symbolErrors : List Nat → List Nat → Nat
  | a :: as, b :: bs => (if a = b then 0 else 1) + symbolErrors as bs
  | _, _ => 0

theorem wordDist_le_length (a b : List Nat) : wordDist a b ≤ a.length := by
  induction a generalizing b with
  | nil => simp [wordDist]
  | cons x a ih =>
    cases b with
    | nil => simp [wordDist]
    | cons y b =>
      have := ih b
      simp only [wordDist, List.length_cons]
      split <;> omega

theorem wordDist_eq_zero (a b : List Nat) (h : a.length = b.length) (h0 : wordDist a b = 0) : a = b := by
  induction a generalizing b with
  | nil => exact (List.length_eq_zero_iff.mp h.symm).symm
  | cons x a ih =>
    cases b with
    | nil => simp at h
    | cons y b =>
      simp only [wordDist] at h0
      have h1 : x = y := by by_contra hx; rw [if_neg hx] at h0; omega
      rw [h1, ih b (by simpa using h) (by omega)]

theorem wordDist_triangle (a b c : List Nat) (h : a.length = b.length) (h' : b.length = c.length) :
    wordDist a c ≤ wordDist a b + wordDist b c := by
  induction a generalizing b c with
  | nil => simp [wordDist]
  | cons x a ih =>
    cases b with
    | nil => simp at h
    | cons y b =>
      cases c with
      | nil => simp at h'
      | cons z c =>
        have := ih b c (by simpa using h) (by simpa using h')
        simp only [wordDist]
        split <;> split <;> split <;> omega

theorem wordDist_comm (a b : List Nat) : wordDist a b = wordDist b a := by
  induction a generalizing b with
  | nil => cases b <;> rfl
  | cons x a ih =>
    cases b with
    | nil => rfl
    | cons y b =>
      simp only [wordDist, ih b]
      by_cases h : x = y
      · rw [if_pos h, if_pos h.symm]
      · rw [if_neg h, if_neg (Ne.symm h)]

theorem indicesToBits_map (L : Lab) (hc : L.cardinality = 2 ^ L.numBits)
    (ht : IsLabelTable L.numBits L.matrix) (l : List Nat) (hl : ∀ i ∈ l, i < 2 ^ L.numBits) :
    L.indicesToBits (l.map fun i : Nat => (i : Int)) = some ((l.map fun i => L.matrix.getD i []).flatten) := by
  have hlen := table_length _ _ ht
  unfold Lab.indicesToBits
  rw [if_neg]
  · have : (l.map fun i : Nat => (i : Int)).mapM (fun i => L.matrix[i.toNat]?) = l.mapM fun i => L.matrix[i]? := by
      rw [List.mapM_map]; rfl
    rw [this, mapM_some _ (fun i => L.matrix.getD i []) l]
    · rfl
    · intro i hi
      have : i < L.matrix.length := by rw [hlen]; exact hl i hi
      simp [this]
  · rw [not_not]
    constructor
    · intro i hi; obtain ⟨j, _, rfl⟩ := List.mem_map.mp hi; omega
    · intro i hi
      obtain ⟨j, hj, rfl⟩ := List.mem_map.mp hi
      rw [hc]
      exact_mod_cast hl j hj

theorem table_row (L : Lab) (ht : IsLabelTable L.numBits L.matrix) (i : Nat) (hi : i < 2 ^ L.numBits) :
    (L.matrix.getD i []).length = L.numBits := by
  have hlen := table_length _ _ ht
  have h : i < L.matrix.length := by rw [hlen]; exact hi
  rw [List.getD_eq_getElem _ _ h]
  exact ((ht.2 _).mp (List.getElem_mem h)).1

theorem wordDist_labels (L : Lab) (ht : IsLabelTable L.numBits L.matrix) : ∀ (l k : List Nat),
    l.length = k.length → (∀ i ∈ l, i < 2 ^ L.numBits) → (∀ i ∈ k, i < 2 ^ L.numBits) →
    symbolErrors l k ≤ wordDist (l.map fun i => L.matrix.getD i []).flatten (k.map fun i => L.matrix.getD i []).flatten ∧
    wordDist (l.map fun i => L.matrix.getD i []).flatten (k.map fun i => L.matrix.getD i []).flatten
      ≤ L.numBits * symbolErrors l k := by
  have hlen := table_length _ _ ht
  intro l
  induction l with
  | nil => intro k h _ _; simp [symbolErrors, wordDist]
  | cons a l ih =>
    intro k h h1 h2
    cases k with
    | nil => simp at h
    | cons b k =>
      obtain ⟨i1, i2⟩ := ih k (by simpa using h) (fun i hi => h1 i (by simp [hi])) (fun i hi => h2 i (by simp [hi]))
      have ra := table_row L ht a (h1 a (by simp))
      have rb := table_row L ht b (h2 b (by simp))
      simp only [List.map_cons, List.flatten_cons, symbolErrors]
      rw [wordDist_append _ _ _ _ (by rw [ra, rb])]
      by_cases hab : a = b
      · subst hab
        rw [wordDist_self, if_pos rfl, Nat.zero_add, Nat.zero_add]
        exact ⟨i1, i2⟩
      · rw [if_neg hab, Nat.mul_add, Nat.mul_one]
        have hle := wordDist_le_length (L.matrix.getD a []) (L.matrix.getD b [])
        rw [ra] at hle
        have hne : wordDist (L.matrix.getD a []) (L.matrix.getD b []) ≠ 0 := by
          intro h0
          have e := wordDist_eq_zero _ _ (by rw [ra, rb]) h0
          have ha' : a < L.matrix.length := by rw [hlen]; exact h1 a (by simp)
          have hb' : b < L.matrix.length := by rw [hlen]; exact h2 b (by simp)
          rw [List.getD_eq_getElem _ _ ha', List.getD_eq_getElem _ _ hb'] at e
          exact hab ((List.Nodup.getElem_inj_iff ht.1).mp e)
        omega

theorem row_one {α : Type} (n : Nat) (d : List α) (h : d.length = n) : (⟨[n], d⟩ : NDArray α).row 0 = d := by
  simp [row, h]

/-- The modulator: bits to indices to symbols; it succeeds on every non-empty list of whole labels. -/
theorem C119_modulate (L : Lab) (hm : 1 ≤ L.numBits) (hc : L.cardinality = 2 ^ L.numBits)
    (ht : IsLabelTable L.numBits L.matrix) (m : Fin (2 ^ L.numBits) → Fin N → 𝕜) (bits : List Nat) (hne : bits ≠ [])
    (hlen : L.numBits ∣ bits.length) (hb : ∀ b ∈ bits, b = 0 ∨ b = 1) :
    ∃ l s, L.bitsToIndices (bits.map fun b : Nat => (b : Int)) = some l ∧ (∀ i ∈ l, i < 2 ^ L.numBits) ∧
      L.numBits * l.length = bits.length ∧
      L.indicesToBits (l.map fun i : Nat => (i : Int)) = some bits ∧
      indicesToSymbols m ⟨[l.length], l.map fun i : Nat => (i : Int)⟩ = some ⟨[l.length * N], s⟩ ∧
      s.length = l.length * N ∧
      ∀ q (hq : q < l.length), ∃ i : Fin (2 ^ L.numBits), l[q] = i.val ∧ vec N (block N q s) = m i := by
  obtain ⟨l, h1, h2, h3⟩ := C40_indices_of_bits L hm hc ht bits hne hlen hb
  have hwf : (⟨[l.length], l.map fun i : Nat => (i : Int)⟩ : NDArray ℤ).WF := by simp [WF]
  obtain ⟨s, hs, hss, hsw, hsd⟩ := C109_symbols m _ hwf [] l.length rfl (by simp) (by
    intro x hx
    obtain ⟨i, hi, rfl⟩ := List.mem_map.mp hx
    exact ⟨by omega, by exact_mod_cast h2 i hi⟩)
  obtain ⟨sh, sd⟩ := s
  simp only [List.nil_append] at hss
  subst hss
  have hsl : sd.length = l.length * N := by simpa [WF] using hsw
  refine ⟨l, sd, h1, h2, ?_, h3, hs, hsl, ?_⟩
  · rw [indicesToBits_map L hc ht l h2] at h3
    have e := Option.some.inj h3
    rw [← e, flatten_length_mod L.numBits, List.length_map]
    intro r hr
    obtain ⟨i, hi, rfl⟩ := List.mem_map.mp hr
    exact table_row L ht i (h2 i hi)
  · intro q hq
    obtain ⟨i, hi, hv⟩ := hsd 0 (by simp) q hq
    rw [row_one _ _ (by simp)] at hi
    rw [row_one _ _ hsl] at hv
    refine ⟨i, ?_, hv⟩
    rw [List.getElem?_map, List.getElem?_eq_getElem hq] at hi
    simp only [Option.map_some, Option.some.injEq] at hi
    exact_mod_cast hi

/-- The demodulator on any received sequence of the right length: the decisions are indices of nearest points,
and the number of wrong bits lies between the number of wrong symbols and `num_bits` times it. -/
theorem C119_demodulate (L : Lab) (hm : 1 ≤ L.numBits) (hc : L.cardinality = 2 ^ L.numBits)
    (ht : IsLabelTable L.numBits L.matrix) (hN : 0 < N) (m : Fin (2 ^ L.numBits) → Fin N → 𝕜)
    (ci : NDArray 𝕜 → Option (NDArray ℤ)) (hd : Decides m ci) (bits l : List Nat)
    (hl : ∀ i ∈ l, i < 2 ^ L.numBits) (hbits : L.indicesToBits (l.map fun i : Nat => (i : Int)) = some bits)
    (r : List 𝕜) (hr : r.length = l.length * N) :
    ∃ k bits', ci ⟨[l.length * N], r⟩ = some ⟨[l.length], k.map fun i : Nat => (i : Int)⟩ ∧
      k.length = l.length ∧ (∀ i ∈ k, i < 2 ^ L.numBits) ∧
      (∀ q (hq : q < k.length), ∃ i : Fin (2 ^ L.numBits), k[q] = i.val ∧ Nearest m (vec N (block N q r)) i) ∧
      L.indicesToBits (k.map fun i : Nat => (i : Int)) = some bits' ∧ bits'.length = bits.length ∧
      symbolErrors l k ≤ wordDist bits bits' ∧ wordDist bits bits' ≤ L.numBits * symbolErrors l k := by
  have hwf : (⟨[l.length * N], r⟩ : NDArray 𝕜).WF := by simp [WF, hr]
  obtain ⟨b, hb, hbs, hbw, hbd⟩ := hd ⟨[l.length * N], r⟩ [] (l.length * N) hwf rfl (Nat.mul_mod_left _ _) (by simp)
  rw [Nat.mul_div_cancel _ hN] at hbs hbd
  obtain ⟨sh, bd⟩ := b
  simp only [List.nil_append] at hbs
  subst hbs
  have hbl : bd.length = l.length := by simpa [WF] using hbw
  have hdec : ∀ q (hq : q < bd.length), ∃ i : Fin (2 ^ L.numBits), bd[q] = (i.val : ℤ) ∧
      Nearest m (vec N (block N q r)) i := by
    intro q hq
    obtain ⟨i, hi, hn⟩ := hbd 0 (by simp) q (by omega)
    rw [row_one _ _ hbl, List.getElem?_eq_getElem hq] at hi
    rw [row_one _ _ hr] at hn
    exact ⟨i, Option.some.inj hi, hn⟩
  have hmap : (bd.map Int.toNat).map (fun i : Nat => (i : Int)) = bd := by
    apply List.ext_getElem (by simp)
    intro q h1 h2
    obtain ⟨i, hi, _⟩ := hdec q h2
    simp only [List.getElem_map, hi]
    simp
  have hk : ∀ i ∈ bd.map Int.toNat, i < 2 ^ L.numBits := by
    intro i hi
    obtain ⟨x, hx, rfl⟩ := List.mem_map.mp hi
    obtain ⟨q, hq, rfl⟩ := List.getElem_of_mem hx
    obtain ⟨i, hi, _⟩ := hdec q hq
    rw [hi]
    simpa using i.isLt
  have e1 := indicesToBits_map L hc ht l hl
  rw [hbits, Option.some_inj] at e1
  have hrows : ∀ l : List Nat, (∀ i ∈ l, i < 2 ^ L.numBits) → ∀ r ∈ l.map (fun i => L.matrix.getD i []), r.length = L.numBits := by
    intro l hl r hr
    obtain ⟨i, hi, rfl⟩ := List.mem_map.mp hr
    exact table_row L ht i (hl i hi)
  refine ⟨bd.map Int.toNat, _, by rw [hb, hmap], by simp [hbl], hk, ?_, indicesToBits_map L hc ht _ hk, ?_, ?_⟩
  · intro q hq
    obtain ⟨i, hi, hn⟩ := hdec q (by simpa using hq)
    refine ⟨i, ?_, hn⟩
    rw [List.getElem_map, hi]
    simp
  · rw [e1, flatten_length_mod L.numBits _ (hrows _ hk), flatten_length_mod L.numBits _ (hrows _ hl)]
    simp [hbl]
  · rw [e1]
    exact wordDist_labels L ht l _ (by simp [hbl]) hl hk

/-- The whole chain: if every received block is at a distance less than half the minimum distance from what
was sent, then all the bits come back. -/
theorem C119_round_trip (L : Lab) (hm : 1 ≤ L.numBits) (hc : L.cardinality = 2 ^ L.numBits)
    (ht : IsLabelTable L.numBits L.matrix) (hN : 0 < N) (m : Fin (2 ^ L.numBits) → Fin N → 𝕜)
    (ci : NDArray 𝕜 → Option (NDArray ℤ)) (hd : Decides m ci) (d : ℝ)
    (hdist : minimumDistance m = (d : WithTop ℝ)) (bits : List Nat) (hne : bits ≠ [])
    (hlen : L.numBits ∣ bits.length) (hb : ∀ b ∈ bits, b = 0 ∨ b = 1) :
    ∃ l s, L.bitsToIndices (bits.map fun b : Nat => (b : Int)) = some l ∧
      indicesToSymbols m ⟨[l.length], l.map fun i : Nat => (i : Int)⟩ = some ⟨[l.length * N], s⟩ ∧
      ∀ r : List 𝕜, r.length = s.length →
        (∀ q < l.length, √ (∑ j, ‖vec N (block N q r) j - vec N (block N q s) j‖ ^ 2) < d / 2) →
        ∃ k, ci ⟨[l.length * N], r⟩ = some k ∧ L.indicesToBits k.data = some bits := by
  obtain ⟨l, s, h1, h2, h3, h4, h5, h6, h7⟩ := C119_modulate L hm hc ht m bits hne hlen hb
  refine ⟨l, s, h1, h5, ?_⟩
  intro r hr hw
  obtain ⟨k, bits', g1, g2, g3, g4, g5, -⟩ := C119_demodulate L hm hc ht hN m ci hd bits l h2 h4 r (by omega)
  refine ⟨_, g1, ?_⟩
  have : k = l := by
    apply List.ext_getElem g2
    intro q hq1 hq2
    obtain ⟨i, hi, hn⟩ := g4 q hq1
    obtain ⟨i', hi', hv⟩ := h7 q hq2
    rw [hi, hi']
    have hw' := hw q hq2
    rw [hv] at hw'
    have := C75_small_noise m i' i (fun j => vec N (block N q r) j - m i' j) d hdist hw' (by
      have e : (fun j => m i' j + (vec N (block N q r) j - m i' j)) = vec N (block N q r) := by
        funext j; ring
      rw [e]; exact hn)
    rw [this]
  simp only [this]
  exact h4

/-! ### PAM with the reflected (Gray) labeling -/

/-- Gray labels of two indices differ in at most as many bits as the indices are apart. -/
theorem C119_gray_distance (m i j : Nat) (hi : i < 2 ^ m) (hj : j < 2 ^ m) :
    wordDist (reflectedIndicesToBits m [i]) (reflectedIndicesToBits m [j]) ≤ ((i : ℤ) - j).natAbs := by
  have hl : ∀ i, (reflectedIndicesToBits m [i]).length = m := by
    intro i; simp [reflectedIndicesToBits, intToBits_length]
  have key : ∀ t i, i + t < 2 ^ m →
      wordDist (reflectedIndicesToBits m [i]) (reflectedIndicesToBits m [i + t]) ≤ t := by
    intro t
    induction t with
    | zero => intro i _; rw [Nat.add_zero, wordDist_self]
    | succ t ih =>
      intro i h
      have a1 := ih i (by omega)
      have a2 := C38_gray_adjacent m (i + t) (by omega)
      have a3 := wordDist_triangle (reflectedIndicesToBits m [i]) (reflectedIndicesToBits m [i + t])
        (reflectedIndicesToBits m [i + t + 1]) (by rw [hl, hl]) (by rw [hl, hl])
      rw [show i + (t + 1) = i + t + 1 by omega]
      omega
  rcases Nat.le_total i j with h | h
  · have := key (j - i) i (by omega)
    rw [show i + (j - i) = j by omega] at this
    omega
  · have := key (i - j) j (by omega)
    rw [show j + (i - j) = i by omega, wordDist_comm] at this
    omega

/-- A PAM decision is off by at most `e` when the noise is below `(e + 1/2) δ`. -/
theorem pam_off (M : Nat) (δ : ℝ) (hδ : 0 < δ) (i : Fin M) (w : ℝ) (e : Nat) (hw : |w| < (e + 1 / 2) * δ) :
    |pamClosest M δ (pam M δ i 0 + w) - i.val| ≤ e := by
  have hM : 0 < M := i.pos
  have ei : (pam M δ i 0 + w) / δ + ((M : ℝ) - 1) / 2 = (i.val : ℤ) + w / δ := by
    rw [pam, pamPoint_eq M δ i i.isLt]
    push_cast
    field_simp
    ring
  have hx : |w / δ| < e + 1 / 2 := by
    rw [abs_div, abs_of_pos hδ, div_lt_iff₀ hδ]; exact hw
  have hr := npRound_spec ((i.val : ℤ) + w / δ : ℝ)
  rw [pamClosest, ei]
  generalize hn : npRound ((i.val : ℤ) + w / δ : ℝ) = n at hr ⊢
  have h1 : |(n : ℝ) - (i.val : ℤ)| < e + 1 := by
    rw [abs_lt] at hx ⊢
    rw [abs_le] at hr
    constructor <;> linarith [hx.1, hx.2, hr.1, hr.2]
  have h2 : |n - i.val| < e + 1 := by exact_mod_cast h1
  have h3 := i.isLt
  rw [abs_lt] at h2
  rw [abs_le]
  unfold npClip
  omega

/-- PAM with the reflected labeling: if the noise of every symbol is below `(e + 1/2) δ`, then at most `e` bits
of every label are wrong; in particular noise below `3δ/2` costs at most one bit per symbol. -/
theorem C119_pam_gray (mb : Nat) (hmb : 1 ≤ mb) (δ : ℝ) (hδ : 0 < δ) (l : List Nat) (hl : ∀ i ∈ l, i < 2 ^ mb)
    (w : List ℝ) (hw : w.length = l.length) (e : Nat) (hwe : ∀ x ∈ w, |x| < (e + 1 / 2) * δ) :
    ∃ k : List Nat, closestEntries (pamClosest (2 ^ mb) δ) ⟨[l.length], List.zipWith (fun i x => pamPoint (2 ^ mb) δ i + x) l w⟩ =
        some ⟨[l.length], k.map fun i : Nat => (i : Int)⟩ ∧ k.length = l.length ∧
      (∀ i ∈ k, i < 2 ^ mb) ∧
      wordDist (reflectedIndicesToBits mb l) (reflectedIndicesToBits mb k) ≤ e * symbolErrors l k ∧
      ∀ q (h1 : q < l.length) (h2 : q < k.length),
        wordDist (reflectedIndicesToBits mb [l[q]]) (reflectedIndicesToBits mb [k[q]]) ≤ e := by
  obtain ⟨r, hr⟩ : ∃ r, r = List.zipWith (fun i x => pamPoint (2 ^ mb) δ i + x) l w := ⟨_, rfl⟩
  have hrl : r.length = l.length := by rw [hr]; simp [hw]
  have hval : ∀ q (h1 : q < l.length) (h2 : q < r.length), ∃ j : Nat, j < 2 ^ mb ∧
      pamClosest (2 ^ mb) δ r[q] = (j : ℤ) ∧ ((l[q] : ℤ) - j).natAbs ≤ e := by
    intro q h1 h2
    have hq := hl _ (List.getElem_mem h1)
    obtain ⟨i, hi, _⟩ := C75_pam (2 ^ mb) (by positivity) δ hδ.ne' r[q]
    have e1 : r[q] = pam (2 ^ mb) δ ⟨l[q], hq⟩ 0 + w[q]'(by omega) := by
      subst hr
      rw [List.getElem_zipWith]
      rfl
    have h3 := pam_off (2 ^ mb) δ hδ ⟨l[q], hq⟩ (w[q]'(by omega)) e (hwe _ (List.getElem_mem _))
    rw [← e1, hi] at h3
    refine ⟨i, i.isLt, hi, ?_⟩
    simp only at h3
    rw [abs_le] at h3
    omega
  obtain ⟨k, hk⟩ : ∃ k, k = (r.map (pamClosest (2 ^ mb) δ)).map Int.toNat := ⟨_, rfl⟩
  have hkl : k.length = l.length := by rw [hk]; simp [hrl]
  have hkv : ∀ q (h1 : q < l.length) (h2 : q < k.length), k[q] < 2 ^ mb ∧ ((l[q] : ℤ) - k[q]).natAbs ≤ e ∧
      pamClosest (2 ^ mb) δ (r[q]'(by omega)) = k[q] := by
    intro q h1 h2
    obtain ⟨j, g1, g2, g3⟩ := hval q h1 (by omega)
    have e2 : k[q] = j := by
      subst hk
      rw [List.getElem_map, List.getElem_map, g2]
      rfl
    rw [e2]
    exact ⟨g1, g3, g2⟩
  have hkr : ∀ i ∈ k, i < 2 ^ mb := by
    intro i hi
    obtain ⟨q, hq, rfl⟩ := List.getElem_of_mem hi
    exact (hkv q (by omega) hq).1
  have hgd : ∀ q (h1 : q < l.length) (h2 : q < k.length),
        wordDist (reflectedIndicesToBits mb [l[q]]) (reflectedIndicesToBits mb [k[q]]) ≤ e := by
    intro q h1 h2
    exact le_trans (C119_gray_distance mb _ _ (hl _ (List.getElem_mem h1)) (hkr _ (List.getElem_mem h2))) (hkv q h1 h2).2.1
  refine ⟨k, ?_, hkl, hkr, ?_, hgd⟩
  · rw [← hr, closestEntries]
    congr 2
    apply List.ext_getElem (by simp [hkl, hrl])
    intro q h1 h2
    simp only [List.getElem_map]
    exact (hkv q (by simp at h2; omega) (by simpa using h2)).2.2
  · clear hk hkv hval hr hwe hrl hw hl hkr
    have hlen1 : ∀ i, (reflectedIndicesToBits mb [i]).length = mb := by
      intro i; simp [reflectedIndicesToBits, intToBits_length]
    induction l generalizing k with
    | nil => simp [reflectedIndicesToBits, wordDist]
    | cons a l ih =>
      cases k with
      | nil => simp at hkl
      | cons b k =>
        have e1 : ∀ a l, reflectedIndicesToBits mb (a :: l) = reflectedIndicesToBits mb [a] ++ reflectedIndicesToBits mb l := by
          intro a l; simp [reflectedIndicesToBits]
        rw [e1 a l, e1 b k, wordDist_append _ _ _ _ (by rw [hlen1, hlen1])]
        have i1 := ih k (by simpa using hkl) (fun q h1 h2 => by
          have := hgd (q + 1) (by simpa using h1) (by simpa using h2)
          simpa using this)
        have i0 := hgd 0 (by simp) (by simp)
        simp only [List.getElem_cons_zero] at i0
        simp only [symbolErrors]
        by_cases hab : a = b
        · subst hab
          rw [wordDist_self, if_pos rfl, Nat.zero_add, Nat.zero_add]
          exact i1
        · rw [if_neg hab, Nat.mul_add, Nat.mul_one]
          omega

/-- The hypotheses of the chain are met by 4-PAM with Gray labels, minimum distance 2. -/
example : ∃ L : Lab, reflectedLab 2 = some L ∧ L.numBits = 2 ∧ L.cardinality = 2 ^ L.numBits ∧
    IsLabelTable L.numBits L.matrix ∧
    Decides (pam (2 ^ L.numBits) 2) (closestEntries (pamClosest (2 ^ L.numBits) 2)) ∧
    minimumDistance (pam (2 ^ L.numBits) 2) = ((2 : ℝ) : WithTop ℝ) ∧
    L.bitsToIndices [1, 1, 0, 1] = some [2, 1] := by
  refine ⟨⟨[[0, 0], [0, 1], [1, 1], [1, 0]], 2, 4⟩, by decide +kernel, rfl, rfl, ?_, ?_, ?_, by decide +kernel⟩
  · obtain ⟨L, h1, h2, h3, h4, _⟩ := C38_reflected_matrix 2 (by norm_num)
    have e : reflectedLab 2 = some ⟨[[0, 0], [0, 1], [1, 1], [1, 0]], 2, 4⟩ := by decide +kernel
    rw [e] at h1
    cases h1
    exact h4
  · exact C109_pam (by norm_num) 2 (by norm_num)
  · exact (C76_pam _ (by norm_num) _).2.2 (by norm_num) (by norm_num)

example : wordDist (reflectedIndicesToBits 2 [1, 3]) (reflectedIndicesToBits 2 [2, 3]) = 1 := by decide +kernel

end Komm
