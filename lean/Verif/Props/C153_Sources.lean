import Verif.Props.C151_Transmission
import Verif.Props.C71_Quantizers
import Verif.Props.C31_C34_LempelZiv
/-! C153: bits, compressed data and quantized samples over a coded link.  Whatever produces the bits, they are padded with zeros to a whole
number of messages, sent over the link of C151, and the padding is dropped on arrival. -/
namespace Komm
open Constellation NDArray

/-- Zero padding to a multiple of the code dimension. -/
def padTo (K : Nat) (y : List (ZMod 2)) : List (ZMod 2) := y ++ List.replicate ((K - y.length % K) % K) 0

/-- Bits as they appear in the arrays of the source coders (`0` and `1` as integers) and in those of the channel coders. -/
def toField (y : List Nat) : List (ZMod 2) := y.map fun a : Nat => (a : ZMod 2)
def fromField (y : List (ZMod 2)) : List Nat := y.map fun b : ZMod 2 => b.val

/-- The analogue-to-digital half: `lab.indices_to_bits(quantizer.digitize(x))`. -/
def pcmBits {R : Type} [Field R] [LinearOrder R] (thresholds : List R) (Q : Lab) (x : List R) : Option (List Nat) :=
  Q.indicesToBits ((x.map fun v => digitize thresholds v).map fun i : Nat => (i : Int))

/-- The digital-to-analogue half: `quantizer.levels[lab.bits_to_indices(bits)]`. -/
def pcmSamples {R : Type} (levels : List R) (Q : Lab) (bits : List Nat) : Option (List R) := do
  let l ← Q.bitsToIndices (bits.map fun b : Nat => (b : Int))
  l.mapM fun i => levels[i]?

theorem fromField_toField (y : List Nat) (h : ∀ a ∈ y, a < 2) : fromField (toField y) = y := by
  rw [fromField, toField, List.map_map]
  conv_rhs => rw [← List.map_id y]
  apply List.map_congr_left
  intro a ha
  simp only [Function.comp_apply, id]
  rw [ZMod.val_natCast, Nat.mod_eq_of_lt (h a ha)]

/-- `quantize` on both sides of a perfect link: what arrives is exactly what `quantizer.quantize` would have returned. -/
theorem C153_pcm_bits {R : Type} [Field R] [LinearOrder R] [IsStrictOrderedRing R] (levels thresholds : List R)
    (ha : scalarQuantizerAccepts levels thresholds = true) (Q : Lab) (hq : 1 ≤ Q.numBits) (hcard : Q.cardinality = 2 ^ Q.numBits)
    (htab : IsLabelTable Q.numBits Q.matrix) (hlev : levels.length = 2 ^ Q.numBits) (x : List R) (hx : x ≠ []) :
    ∃ bits out, pcmBits thresholds Q x = some bits ∧ bits.length = Q.numBits * x.length ∧ (∀ b ∈ bits, b = 0 ∨ b = 1) ∧
      pcmSamples levels Q bits = some out ∧ x.mapM (quantize levels thresholds) = some out := by
  obtain ⟨hl, -⟩ := (C71_accepts levels thresholds).mp ha
  set idx := x.map fun v => digitize thresholds v with hidx
  have hlt : ∀ i ∈ idx, i < 2 ^ Q.numBits := by
    intro i hi
    obtain ⟨v, _, rfl⟩ := List.mem_map.mp hi
    have := digitize_le thresholds v
    omega
  have hne : idx ≠ [] := by simpa [hidx] using hx
  obtain ⟨bits, h1, h2, h3, h4⟩ := C40_bits_of_indices Q hq hcard htab idx hne hlt
  have hb : ∀ b ∈ bits, b = 0 ∨ b = 1 := by
    have e := indicesToBits_map Q hcard htab idx hlt
    rw [h1, Option.some.injEq] at e
    intro b hb
    rw [e, List.mem_flatten] at hb
    obtain ⟨row, hrow, hbr⟩ := hb
    obtain ⟨i, hi, rfl⟩ := List.mem_map.mp hrow
    have hil : i < Q.matrix.length := by rw [table_length _ _ htab]; exact hlt i hi
    rw [List.getD_eq_getElem _ _ hil] at hbr
    exact ((htab.2 _).mp (List.getElem_mem hil)).2 b hbr
  refine ⟨bits, x.map fun v => levels.getD (digitize thresholds v) 0, h1, by rw [h2, hidx, List.length_map], hb, ?_, ?_⟩
  · have h5 : Q.bitsToIndices (bits.map fun b : Nat => (b : Int)) = some idx := h4
    simp only [pcmSamples, h5, Option.bind_eq_bind, Option.bind_some]
    rw [mapM_some _ (fun i => levels.getD i 0) idx]
    · rw [hidx, List.map_map]; rfl
    · intro i hi
      have := hlt i hi
      rw [List.getD_eq_getElem _ _ (by omega), List.getElem?_eq_getElem (by omega)]
  · rw [mapM_some _ (fun v => levels.getD (digitize thresholds v) 0) x]
    intro v _
    exact quantize_eq hl v

section link
open Classical
variable {𝕜 : Type} [RCLike 𝕜] {N K n M : Nat}

/-- The link of C151 carries any bits at all. -/
theorem C153_bits (c : LinCode K M n) (h : c.Lawful) (hK : 1 ≤ K) (dec : BVec n → Option (BVec K)) (t : Nat)
    (hdec : ∀ u e, hammingNorm e ≤ t → dec (c.encode u + e) = some u)
    (L : Lab) (hm : 1 ≤ L.numBits) (hc : L.cardinality = 2 ^ L.numBits) (ht : IsLabelTable L.numBits L.matrix) (hN : 0 < N)
    (m : Fin (2 ^ L.numBits) → Fin N → 𝕜) (ci : NDArray 𝕜 → Option (NDArray ℤ)) (hd : Decides m ci) (d : ℝ)
    (hdist : minimumDistance m = (d : WithTop ℝ)) (S : Nat) (hn : n = L.numBits * S) (y : List (ZMod 2)) (hy : y ≠ []) :
    ∃ (B : Nat) (s : List 𝕜), B * K = (padTo K y).length ∧
      transmitter c.encodeStream L m (padTo K y) = some ⟨[B * S * N], s⟩ ∧ s.length = B * S * N ∧
      ∀ r : List 𝕜, r.length = s.length →
        (∀ b < B, L.numBits * ((Finset.range S).filter fun q => d / 2 ≤ noiseSize N s r (b * S + q)).card ≤ t) →
        (receiver (blockDecode dec) L ci ⟨[B * S * N], r⟩).map (fun bits => bits.take y.length) = some y := by
  have hlen : (padTo K y).length = y.length + (K - y.length % K) % K := by simp [padTo]
  obtain ⟨B, hB⟩ : K ∣ (padTo K y).length := by
    rw [hlen, Nat.dvd_iff_mod_eq_zero, Nat.add_mod_mod, ← Nat.mod_add_mod]
    have := Nat.mod_lt y.length hK
    rw [Nat.add_sub_cancel' this.le, Nat.mod_self]
  obtain ⟨us, hus, huse⟩ := exists_words (n := K) B (padTo K y) (by rw [hB, mul_comm])
  have hune : us ≠ [] := by
    rintro rfl
    have := congrArg List.length huse
    rw [hlen] at this
    simp at this
    exact hy this.1
  obtain ⟨s, s1, s2, s3⟩ := C151_block c h hK dec t hdec us hune L hm hc ht hN m ci hd d hdist S hn
  rw [hus] at s1 s2 s3
  refine ⟨B, s, by rw [hB, mul_comm], by rw [huse]; exact s1, s2, fun r hr hnoise => ?_⟩
  rw [s3 r hr hnoise, ← huse, Option.map_some, padTo, List.take_append_of_le_length le_rfl, List.take_of_length_le le_rfl]

/-- Any compressor with target alphabet `{0, 1}`: if `decompress` inverts `compress` on `y`, the source arrives. -/
theorem C153_compressor {α : Type} (c : LinCode K M n) (h : c.Lawful) (hK : 1 ≤ K) (dec : BVec n → Option (BVec K)) (t : Nat)
    (hdec : ∀ u e, hammingNorm e ≤ t → dec (c.encode u + e) = some u)
    (L : Lab) (hm : 1 ≤ L.numBits) (hc : L.cardinality = 2 ^ L.numBits) (ht : IsLabelTable L.numBits L.matrix) (hN : 0 < N)
    (m : Fin (2 ^ L.numBits) → Fin N → 𝕜) (ci : NDArray 𝕜 → Option (NDArray ℤ)) (hd : Decides m ci) (d : ℝ)
    (hdist : minimumDistance m = (d : WithTop ℝ)) (S : Nat) (hn : n = L.numBits * S)
    (decompress : List Nat → Option α) (x : α) (y : List Nat) (hy : y ≠ []) (hy2 : ∀ a ∈ y, a < 2) (hback : decompress y = some x) :
    ∃ (B : Nat) (s : List 𝕜), B * K = (padTo K (toField y)).length ∧
      transmitter c.encodeStream L m (padTo K (toField y)) = some ⟨[B * S * N], s⟩ ∧ s.length = B * S * N ∧
      ∀ r : List 𝕜, r.length = s.length →
        (∀ b < B, L.numBits * ((Finset.range S).filter fun q => d / 2 ≤ noiseSize N s r (b * S + q)).card ≤ t) →
        ((receiver (blockDecode dec) L ci ⟨[B * S * N], r⟩).bind fun bits => decompress (fromField (bits.take y.length))) = some x := by
  obtain ⟨B, s, h1, h2, h3, h4⟩ := C153_bits c h hK dec t hdec L hm hc ht hN m ci hd d hdist S hn (toField y) (by simpa [toField] using hy)
  refine ⟨B, s, h1, h2, h3, fun r hr hnoise => ?_⟩
  have h5 := h4 r hr hnoise
  rw [Option.map_eq_some_iff] at h5
  obtain ⟨bits, hb1, hb2⟩ := h5
  rw [toField, List.length_map] at hb2
  rw [hb1, Option.bind_some, hb2]
  have := fromField_toField y hy2
  rw [toField] at this
  rw [this, hback]

theorem lzwEncodeLoop_symbols (calY : Nat) (hY : 0 < calY) (width : Nat → Nat) (input : List Nat) : ∀ dict word out,
    lzwEncodeLoop calY width dict word input = some out → ∀ a ∈ out, a < calY := by
  induction input with
  | nil =>
    intro dict word out h
    rw [lzwEncodeLoop] at h
    split at h
    · cases h; simp
    · split at h
      · cases h
      · cases h; exact integerToSymbols_lt _ _ _ hY
  | cons x input ih =>
    intro dict word out h
    rw [lzwEncodeLoop] at h
    split at h
    · exact ih _ _ _ h
    · split at h
      · cases h
      · split at h
        · cases h
        · rename_i _ _ _ _ out' ho
          cases h
          intro a ha
          rcases List.mem_append.mp ha with ha | ha
          · exact integerToSymbols_lt _ _ _ hY a ha
          · exact ih _ _ _ ho a ha

theorem lz78TargetLoop_symbols (calY : Nat) (hY : 0 < calY) (width : Nat → Nat) (M' : Nat) (tokens : List (Nat × Int)) : ∀ i,
    ∀ a ∈ lz78TargetLoop calY width M' i tokens, a < calY := by
  induction tokens with
  | nil => intro i a ha; simp [lz78TargetLoop] at ha
  | cons p tokens ih =>
    intro i a ha
    obtain ⟨p, x⟩ := p
    rw [lz78TargetLoop] at ha
    rcases List.mem_append.mp ha with ha | ha
    · rcases List.mem_append.mp ha with ha | ha
      · exact integerToSymbols_lt _ _ _ hY a ha
      · split at ha
        · exact integerToSymbols_lt _ _ _ hY a ha
        · simp at ha
    · exact ih _ a ha

/-- `LempelZivWelchCode(source_cardinality, 2)` in front of the link: no statistics, no parameters, any file. -/
theorem C153_lzw {calX : Nat} (hX : 2 ≤ calX) (width : Nat → Nat) (hw : ∀ n, 1 ≤ n → n ≤ 2 ^ width n) (x : List Nat) (hx0 : x ≠ [])
    (hx : ∀ a ∈ x, a < calX) (c : LinCode K M n) (h : c.Lawful) (hK : 1 ≤ K) (dec : BVec n → Option (BVec K)) (t : Nat)
    (hdec : ∀ u e, hammingNorm e ≤ t → dec (c.encode u + e) = some u)
    (L : Lab) (hm : 1 ≤ L.numBits) (hc : L.cardinality = 2 ^ L.numBits) (ht : IsLabelTable L.numBits L.matrix) (hN : 0 < N)
    (m : Fin (2 ^ L.numBits) → Fin N → 𝕜) (ci : NDArray 𝕜 → Option (NDArray ℤ)) (hd : Decides m ci) (d : ℝ)
    (hdist : minimumDistance m = (d : WithTop ℝ)) (S : Nat) (hn : n = L.numBits * S) :
    ∃ (y : List Nat) (B : Nat) (s : List 𝕜), lzwEncode calX 2 width x = some y ∧ B * K = (padTo K (toField y)).length ∧
      transmitter c.encodeStream L m (padTo K (toField y)) = some ⟨[B * S * N], s⟩ ∧ s.length = B * S * N ∧
      ∀ r : List 𝕜, r.length = s.length →
        (∀ b < B, L.numBits * ((Finset.range S).filter fun q => d / 2 ≤ noiseSize N s r (b * S + q)).card ≤ t) →
        ((receiver (blockDecode dec) L ci ⟨[B * S * N], r⟩).bind fun bits => lzwDecode calX 2 width (fromField (bits.take y.length))) = some x := by
  obtain ⟨y, h1, h2⟩ := C34_lzw_roundtrip (calY := 2) hX width hw x hx
  have hy : y ≠ [] := by
    rintro rfl
    rw [lzwDecode, if_pos (by simp), Option.some.injEq] at h2
    exact hx0 h2.symm
  have hy2 : ∀ a ∈ y, a < 2 := by
    unfold lzwEncode at h1
    split at h1
    · cases h1
    · exact lzwEncodeLoop_symbols 2 (by norm_num) width x _ _ _ h1
  obtain ⟨B, s, hs⟩ := C153_compressor c h hK dec t hdec L hm hc ht hN m ci hd d hdist S hn (lzwDecode calX 2 width) x y hy hy2 h2
  exact ⟨y, B, s, h1, hs⟩

/-- `LempelZiv78Code(source_cardinality, 2)` in front of the link. -/
theorem C153_lz78 {calX : Nat} (hX : 2 ≤ calX) (width : Nat → Nat) (hw : ∀ n, 1 ≤ n → n ≤ 2 ^ width n) (x : List Nat) (hx0 : x ≠ [])
    (hx : ∀ a ∈ x, a < calX) (c : LinCode K M n) (h : c.Lawful) (hK : 1 ≤ K) (dec : BVec n → Option (BVec K)) (t : Nat)
    (hdec : ∀ u e, hammingNorm e ≤ t → dec (c.encode u + e) = some u)
    (L : Lab) (hm : 1 ≤ L.numBits) (hc : L.cardinality = 2 ^ L.numBits) (ht : IsLabelTable L.numBits L.matrix) (hN : 0 < N)
    (m : Fin (2 ^ L.numBits) → Fin N → 𝕜) (ci : NDArray 𝕜 → Option (NDArray ℤ)) (hd : Decides m ci) (d : ℝ)
    (hdist : minimumDistance m = (d : WithTop ℝ)) (S : Nat) (hn : n = L.numBits * S) :
    ∃ (y : List Nat) (B : Nat) (s : List 𝕜), lz78Encode calX 2 width x = some y ∧ B * K = (padTo K (toField y)).length ∧
      transmitter c.encodeStream L m (padTo K (toField y)) = some ⟨[B * S * N], s⟩ ∧ s.length = B * S * N ∧
      ∀ r : List 𝕜, r.length = s.length →
        (∀ b < B, L.numBits * ((Finset.range S).filter fun q => d / 2 ≤ noiseSize N s r (b * S + q)).card ≤ t) →
        ((receiver (blockDecode dec) L ci ⟨[B * S * N], r⟩).bind fun bits => lz78Decode calX 2 width (fromField (bits.take y.length))) =
          some (x.map fun a : Nat => (a : Int)) := by
  obtain ⟨y, h1, h2⟩ := C33_lz78_roundtrip (calY := 2) hX width hw x hx
  have hy : y ≠ [] := by
    rintro rfl
    have : lz78Decode calX 2 width [] = some [] := rfl
    rw [this, Option.some.injEq] at h2
    exact hx0 (by simpa using h2.symm)
  have hy2 : ∀ a ∈ y, a < 2 := by
    unfold lz78Encode at h1
    rw [Option.map_eq_some_iff] at h1
    obtain ⟨tokens, _, rfl⟩ := h1
    exact lz78TargetLoop_symbols 2 (by norm_num) width _ _ _
  obtain ⟨B, s, hs⟩ := C153_compressor c h hK dec t hdec L hm hc ht hN m ci hd d hdist S hn (lz78Decode calX 2 width) _ y hy hy2 h2
  exact ⟨y, B, s, h1, hs⟩

/-- Quantized samples: `quantizer.digitize`, a labeling of the quantizer's indices, the link, and back.  What arrives is
`quantizer.quantize(x)`. -/
theorem C153_pcm (levels thresholds : List ℝ) (hacc : scalarQuantizerAccepts levels thresholds = true) (Q : Lab) (hq : 1 ≤ Q.numBits)
    (hcard : Q.cardinality = 2 ^ Q.numBits) (htab : IsLabelTable Q.numBits Q.matrix) (hlev : levels.length = 2 ^ Q.numBits)
    (x : List ℝ) (hx : x ≠ []) (c : LinCode K M n) (h : c.Lawful) (hK : 1 ≤ K) (dec : BVec n → Option (BVec K)) (t : Nat)
    (hdec : ∀ u e, hammingNorm e ≤ t → dec (c.encode u + e) = some u)
    (L : Lab) (hm : 1 ≤ L.numBits) (hc : L.cardinality = 2 ^ L.numBits) (ht : IsLabelTable L.numBits L.matrix) (hN : 0 < N)
    (m : Fin (2 ^ L.numBits) → Fin N → 𝕜) (ci : NDArray 𝕜 → Option (NDArray ℤ)) (hd : Decides m ci) (d : ℝ)
    (hdist : minimumDistance m = (d : WithTop ℝ)) (S : Nat) (hn : n = L.numBits * S) :
    ∃ (y : List Nat) (out : List ℝ) (B : Nat) (s : List 𝕜), pcmBits thresholds Q x = some y ∧ x.mapM (quantize levels thresholds) = some out ∧
      B * K = (padTo K (toField y)).length ∧
      transmitter c.encodeStream L m (padTo K (toField y)) = some ⟨[B * S * N], s⟩ ∧ s.length = B * S * N ∧
      ∀ r : List 𝕜, r.length = s.length →
        (∀ b < B, L.numBits * ((Finset.range S).filter fun q => d / 2 ≤ noiseSize N s r (b * S + q)).card ≤ t) →
        ((receiver (blockDecode dec) L ci ⟨[B * S * N], r⟩).bind fun bits => pcmSamples levels Q (fromField (bits.take y.length))) = some out := by
  obtain ⟨y, out, h1, h2, h3, h4, h5⟩ := C153_pcm_bits levels thresholds hacc Q hq hcard htab hlev x hx
  have hy : y ≠ [] := by
    rintro rfl
    have : 0 < Q.numBits * x.length := Nat.mul_pos hq (List.length_pos_of_ne_nil hx)
    rw [List.length_nil] at h2; omega
  obtain ⟨B, s, hs⟩ := C153_compressor c h hK dec t hdec L hm hc ht hN m ci hd d hdist S hn (pcmSamples levels Q) out y hy
    (fun a ha => by rcases h3 a ha with e | e <;> omega) h4
  exact ⟨y, out, B, s, h1, h5, hs⟩

end link

/-- With a uniform quantizer every sample of the granular region is reproduced to within half a step. -/
theorem C153_pcm_uniform (Lv : Nat) (Δ θ : ℝ) (ha : uniformQuantizerAccepts Lv Δ = true) (x out : List ℝ)
    (hx : ∀ v ∈ x, (uniformLevels Lv Δ θ).getD 0 0 - Δ / 2 ≤ v ∧ v ≤ (uniformLevels Lv Δ θ).getD (Lv - 1) 0 + Δ / 2)
    (hout : x.mapM (quantize (uniformLevels Lv Δ θ) (uniformThresholds Lv Δ θ)) = some out) :
    out.length = x.length ∧ ∀ i (h1 : i < x.length) (h2 : i < out.length), |x[i] - out[i]| ≤ Δ / 2 := by
  induction x generalizing out with
  | nil => simp at hout; subst hout; simp
  | cons v x ih =>
    rw [List.mapM_cons] at hout
    simp only [Option.bind_eq_bind, Option.bind_eq_some_iff, Option.pure_def, Option.some.injEq] at hout
    obtain ⟨q, hq, rest, hr, rfl⟩ := hout
    obtain ⟨i1, i2⟩ := ih rest (fun w hw => hx w (List.mem_cons_of_mem _ hw)) hr
    refine ⟨by simp [i1], fun i h1 h2 => ?_⟩
    cases i with
    | zero => exact C71_uniform_error Lv Δ θ ha v q (hx v List.mem_cons_self).1 (hx v List.mem_cons_self).2 hq
    | succ i => exact i2 i (by simpa using h1) (by simpa using h2)

/-! ### Uncoded transmission: what wrong bits do to the samples -/

/-- The cost of wrong bits in a label written with the most significant bit first: a wrong bit counts `2^(number of bits after it)`. -/
def bitCost : List Nat → List Nat → Nat
  | a :: as, b :: bs => (if a = b then 0 else 2 ^ as.length) + bitCost as bs
  | _, _ => 0

theorem bitsToInt_cons (a : Nat) (as : List Nat) : bitsToInt .msbFirst (a :: as) = (if a = 0 then 0 else 1) * 2 ^ as.length + bitsToInt .msbFirst as := by
  simp only [bitsToInt, List.reverse_cons, packLE_append, List.length_reverse, packLE]
  ring

/-- The index read from a word with wrong bits is off by at most the cost of those bits. -/
theorem C153_natural_errors (w w' : List Nat) (h : w.length = w'.length) (hw : ∀ b ∈ w, b = 0 ∨ b = 1) (hw' : ∀ b ∈ w', b = 0 ∨ b = 1) :
    |(bitsToInt .msbFirst w : ℤ) - bitsToInt .msbFirst w'| ≤ bitCost w w' := by
  induction w generalizing w' with
  | nil => cases w' with
    | nil => simp [bitCost]
    | cons _ _ => simp at h
  | cons a w ih =>
    cases w' with
    | nil => simp at h
    | cons b w' =>
      have hl : w.length = w'.length := by simpa using h
      have := ih w' hl (fun x hx => hw x (List.mem_cons_of_mem _ hx)) (fun x hx => hw' x (List.mem_cons_of_mem _ hx))
      rw [bitsToInt_cons, bitsToInt_cons, bitCost, ← hl]
      rw [abs_le] at this ⊢
      have hp : (0 : ℤ) < 2 ^ w.length := by positivity
      rcases hw a List.mem_cons_self with rfl | rfl <;> rcases hw' b List.mem_cons_self with rfl | rfl <;> push_cast <;> norm_num <;>
        constructor <;> linarith [this.1, this.2]

/-- `NaturalLabeling(m)` over `UniformQuantizer(2^m, step)` without a channel code: a received word with wrong bits gives a sample that is
off by at most the cost of those bits times the step, on top of the quantization error. -/
theorem C153_pcm_bit_errors (mb : Nat) (Δ θ : ℝ) (ha : uniformQuantizerAccepts (2 ^ mb) Δ = true) (x : ℝ)
    (hlo : (uniformLevels (2 ^ mb) Δ θ).getD 0 0 - Δ / 2 ≤ x) (hhi : x ≤ (uniformLevels (2 ^ mb) Δ θ).getD (2 ^ mb - 1) 0 + Δ / 2)
    (w' : List Nat) (hl : w'.length = mb) (hw' : ∀ b ∈ w', b = 0 ∨ b = 1) :
    ∃ k y, naturalBitsToIndices mb w' = some [k] ∧ (uniformLevels (2 ^ mb) Δ θ)[k]? = some y ∧
      |x - y| ≤ Δ / 2 + bitCost (naturalIndicesToBits mb [digitize (uniformThresholds (2 ^ mb) Δ θ) x]) w' * Δ := by
  obtain ⟨hL, hΔ⟩ := (uniformAccepts_iff _ _).mp ha
  obtain ⟨hlen, -⟩ := (C71_accepts _ _).mp (C71_uniform_valid (2 ^ mb) Δ θ ha).1
  set dd := digitize (uniformThresholds (2 ^ mb) Δ θ) x with hdd
  have hll : (uniformLevels (2 ^ mb) Δ θ).length = 2 ^ mb := by simp [uniformLevels]
  have hd : dd < 2 ^ mb := by
    have := digitize_le (uniformThresholds (2 ^ mb) Δ θ) x
    omega
  have hi' : bitsToInt .msbFirst w' < 2 ^ mb := by rw [← hl]; exact bitsToInt_lt _ _
  have hq := quantize_eq hlen x
  have herr := C71_uniform_error (2 ^ mb) Δ θ ha x _ hlo hhi hq
  rw [← hdd] at herr
  have hnb : naturalIndicesToBits mb [dd] = intToBits .msbFirst dd mb := by simp [naturalIndicesToBits]
  have hidx := C153_natural_errors (intToBits .msbFirst dd mb) w' (by rw [intToBits_length, hl]) (by
    intro b hb
    simp only [intToBits, List.mem_map, List.mem_range] at hb
    obtain ⟨i, _, rfl⟩ := hb
    omega) hw'
  rw [bitsToInt_intToBits, Nat.mod_eq_of_lt hd, ← hnb] at hidx
  have hmb : 0 < mb := by
    rcases Nat.eq_zero_or_pos mb with rfl | h
    · norm_num at hL
    · exact h
  have hnat : naturalBitsToIndices mb w' = some [bitsToInt .msbFirst w'] := by
    rw [naturalBitsToIndices, if_neg (by rw [hl, Nat.mod_self]; simp), if_neg (by rintro rfl; simp at hl; omega)]
    have := chunks_flatten mb hmb [w'] (by simpa using hl)
    rw [show ([w'] : List (List Nat)).flatten = w' by simp] at this
    rw [this]; rfl
  refine ⟨_, _, hnat, List.getElem?_eq_getElem (by rw [hll]; exact hi'), ?_⟩
  have e : ∀ (i : Nat) (hi : i < 2 ^ mb), (uniformLevels (2 ^ mb) Δ θ)[i]'(by rw [hll]; exact hi) = ((i : ℝ) - (((2 ^ mb : ℕ) : ℝ) - 1) / 2 + θ) * Δ := by
    intro i hi
    simp [uniformLevels]
  rw [List.getD_eq_getElem _ _ (by rw [hll]; exact hd), e dd hd] at herr
  rw [e _ hi']
  have hidx' : |(dd : ℝ) - (bitsToInt .msbFirst w' : ℝ)| ≤ (bitCost (naturalIndicesToBits mb [dd]) w' : ℝ) := by exact_mod_cast hidx
  set k := bitsToInt .msbFirst w'
  set C := bitCost (naturalIndicesToBits mb [dd]) w'
  have h2 : |((dd : ℝ) - (((2 ^ mb : ℕ) : ℝ) - 1) / 2 + θ) * Δ - ((k : ℝ) - (((2 ^ mb : ℕ) : ℝ) - 1) / 2 + θ) * Δ| ≤ C * Δ := by
    rw [show ((dd : ℝ) - (((2 ^ mb : ℕ) : ℝ) - 1) / 2 + θ) * Δ - ((k : ℝ) - (((2 ^ mb : ℕ) : ℝ) - 1) / 2 + θ) * Δ = ((dd : ℝ) - k) * Δ by ring,
      abs_mul, abs_of_pos hΔ]
    exact mul_le_mul_of_nonneg_right hidx' hΔ.le
  calc |x - ((k : ℝ) - (((2 ^ mb : ℕ) : ℝ) - 1) / 2 + θ) * Δ|
      ≤ |x - ((dd : ℝ) - (((2 ^ mb : ℕ) : ℝ) - 1) / 2 + θ) * Δ| +
        |((dd : ℝ) - (((2 ^ mb : ℕ) : ℝ) - 1) / 2 + θ) * Δ - ((k : ℝ) - (((2 ^ mb : ℕ) : ℝ) - 1) / 2 + θ) * Δ| := abs_sub_le _ _ _
    _ ≤ Δ / 2 + C * Δ := add_le_add herr h2

/-- A concrete case of the whole chain: a short binary sequence, LZW, the (6, 3) code, one bit per symbol, 2-PAM; here without noise. -/
example : ∃ (c : LinCode 3 3 6) (L : Lab) (y : List Nat) (B : Nat) (s : List ℝ), blockCodeOfGenerator exG = some c ∧ reflectedLab 1 = some L ∧
    lzwEncode 2 2 (Nat.clog 2) [1, 0, 1, 1, 0] = some y ∧
    transmitter c.encodeStream L (pam (2 ^ L.numBits) 2) (padTo 3 (toField y)) = some ⟨[B * 6 * 1], s⟩ ∧
    ((receiver (blockDecode (exhaustiveHard c)) L (closestEntries (pamClosest (2 ^ L.numBits) 2)) ⟨[B * 6 * 1], s⟩).bind fun bits =>
      lzwDecode 2 2 (Nat.clog 2) (fromField (bits.take y.length))) = some [1, 0, 1, 1, 0] := by
  classical
  have hG : LinearIndependent (ZMod 2) exG := by
    rw [linearIndependent_iff_card_eq_finrank_span, Fintype.card_fin, Set.finrank, ← rank_spec]; decide +kernel
  obtain ⟨c, h1, _, h3⟩ := C41_generator exG hG
  have hd3 : c.minimumDistance = some 3 := by
    have : (blockCodeOfGenerator exG).bind (fun c => c.minimumDistance) = some 3 := by decide +kernel
    rw [h1] at this; exact this
  obtain ⟨L, l1, l2, l3, l4, _⟩ := C38_reflected_matrix 1 (by norm_num)
  have hmd : minimumDistance (pam (2 ^ L.numBits) 2) = ((2 : ℝ) : WithTop ℝ) := by
    rw [l2]; exact (C76_pam _ (by norm_num) _).2.2 (by norm_num) (by norm_num)
  obtain ⟨y, B, s, e1, _, e2, _, e3⟩ := C153_lzw (calX := 2) le_rfl (Nat.clog 2) (fun n _ => Nat.le_pow_clog (by norm_num) n) [1, 0, 1, 1, 0]
    (by simp) (by decide) c h3 (by norm_num) (exhaustiveHard c) 1 (fun u e he => by
      obtain ⟨u', g1, g2⟩ := C47_hard c h3 (c.encode u + e)
      rw [g1, unique_decoding c h3 3 hd3 u u' e he (g2 u)]) L (by omega) (by rw [l2]; exact l3)
    (by rw [l2]; exact l4) (by norm_num) (pam (2 ^ L.numBits) 2) _ (C109_pam (by positivity) 2 (by norm_num)) 2 hmd 6 (by rw [l2])
  refine ⟨c, L, y, B, s, h1, l1, e1, e2, e3 s rfl fun b _ => ?_⟩
  rw [Finset.filter_false_of_mem (fun q _ => by simp [noiseSize])]
  simp

/-- A wrong most significant bit out of three costs four steps, a wrong last bit one. -/
example : bitCost [0, 1, 1] [1, 1, 0] = 5 ∧ bitsToInt .msbFirst [0, 1, 1] = 3 ∧ bitsToInt .msbFirst [1, 1, 0] = 6 := by decide +kernel

/-- The hypotheses of `C153_pcm` on the quantizer side: eight levels, three bits. -/
example : uniformQuantizerAccepts (2 ^ 3) (1 : ℝ) = true ∧ (uniformLevels (2 ^ 3) (1 : ℝ) 0).length = 2 ^ 3 ∧ ∃ Q, naturalLab 3 = some Q ∧
    1 ≤ Q.numBits ∧ Q.cardinality = 2 ^ Q.numBits ∧ IsLabelTable Q.numBits Q.matrix := by
  refine ⟨(uniformAccepts_iff _ _).mpr ⟨by norm_num, by norm_num⟩, by simp [uniformLevels], ?_⟩
  obtain ⟨Q, q1, q2, q3, q4, _⟩ := C37_natural_matrix 3 (by norm_num)
  exact ⟨Q, q1, by omega, by rw [q2]; exact q3, by rw [q2]; exact q4⟩

end Komm
