import Verif.Lemmas.ZivParse
import Verif.Props.C31_C34_LempelZiv
import Verif.Props.C100_Rates
/-! C114: the compression rate of LZ78 and LZW.

`FSource S q` is a source with states `S`: in state `s` it emits symbol `a < q` with probability `prob s a` and moves to `next s a`; `wordProb s x` is the
probability that it emits `x` from state `s`. -/
namespace Komm
open Filter Topology

/-- Field widths: wide enough, and at most `e` symbols wider than `ceil(log_b n)`. -/
def FieldWidth (b e : Nat) (width : Nat → Nat) : Prop := ∀ n, 1 ≤ n → n ≤ b ^ width n ∧ width n ≤ Nat.clog b n + e

/-- The exact width is one. -/
theorem fieldWidth_clog {b : Nat} (hb : 2 ≤ b) : FieldWidth b 0 (Nat.clog b) := fun n h => ⟨clog_sufficient hb n h, le_rfl⟩

theorem clog_mul_log {b : Nat} (hb : 2 ≤ b) (n : Nat) (hn : 1 ≤ n) : (Nat.clog b n : ℝ) * Real.log b ≤ Real.log n + Real.log b := by
  have hb1 : (1 : ℝ) < b := by exact_mod_cast (by omega : 1 < b)
  have hlog := Real.log_pos hb1
  rw [← Real.natCeil_logb_natCast]
  have h0 : 0 ≤ Real.logb b n := Real.logb_nonneg hb1 (by exact_mod_cast hn)
  have h1 := (Nat.ceil_lt_add_one h0).le
  have h2 := mul_le_mul_of_nonneg_right h1 hlog.le
  refine h2.trans_eq ?_
  rw [Real.logb, add_mul, div_mul_cancel₀ _ hlog.ne', one_mul]

theorem rate_of_nats {b : Nat} (hb : 2 ≤ b) (L P n R : ℝ) (h : L * Real.log b ≤ -Real.log P + n * R) : L ≤ -Real.logb b P + n * (R / Real.log b) := by
  have hlog : 0 < Real.log b := Real.log_pos (by exact_mod_cast (by omega : 1 < b))
  have e : -Real.logb b P + n * (R / Real.log b) = (-Real.log P + n * R) / Real.log b := by rw [Real.logb]; ring
  rwa [e, le_div_iff₀ hlog]

/-- LZ78 is universal: for every number `s` of states there is a redundancy `δ(n)` that tends to zero such that, whatever the finite-state source with `s`
states, its parameters, its initial state, and the sequence `x` it emits, `encode(x)` has at most `-log_b P(x) + n δ(n)` symbols, where `n` is the length of
`x`. The code knows nothing of the source. -/
theorem C114_lz78_universal (q b s e : Nat) (hq : 2 ≤ q) (hb : 2 ≤ b) :
    ∃ δ : ℕ → ℝ, Tendsto δ atTop (𝓝 0) ∧ ∀ width, FieldWidth b e width → ∀ (F : FSource (Fin s) q) (s0 : Fin s) (x : List Nat), (∀ a ∈ x, a < q) →
      0 < F.wordProb s0 x → ∃ out, lz78Encode q b width x = some out ∧ (out.length : ℝ) ≤ -Real.logb b (F.wordProb s0 x) + x.length * δ x.length := by
  have hb1 : (1 : ℝ) < b := by exact_mod_cast (by omega : 1 < b)
  have hlog := Real.log_pos hb1
  obtain ⟨B, hB⟩ : ∃ B : ℝ, B = Real.log b * (1 + e + (Nat.clog b q + e)) := ⟨_, rfl⟩
  have hB0 : 0 ≤ B := by rw [hB]; positivity
  refine ⟨fun n => zivRedundancy q 1 s B n / Real.log b, by simpa using (zivRedundancy_tendsto q 1 s B).div_const (Real.log b), ?_⟩
  intro width hw F s0 x hx hp
  obtain ⟨tokens, t1, -⟩ := lz78_tokens q x [[]] [] hx (by simp) (by simp)
  have henc : lz78Encode q b width x = some (lz78TokensToTarget q b width tokens) := by
    rw [lz78Encode, lz78SourceToTokens, if_neg (by rw [not_not]; exact hx), t1, Option.map_some]
  refine ⟨_, henc, rate_of_nats hb _ _ _ _ ?_⟩
  obtain ⟨ws, tail, p1, p2, p3, p4⟩ := lz78_phrases x [[]] [] tokens (by simp) (by simp) t1
  rw [List.nil_append] at p1
  have hz := ziv_bound F (by omega) 1 le_rfl B hB0 s0 ws tail x p1 (fun w => List.nodup_iff_count_le_one.mp p2 w) (fun w hw h => p3 w hw (by simp [h])) hx hp
  rw [Fintype.card_fin] at hz
  by_cases hx0 : x = []
  · subst hx0
    rw [lz78TokensLoop, if_pos rfl] at t1
    cases t1
    simp [lz78TokensToTarget, lz78TargetLoop, FSource.wordProb]
  · rw [if_neg (by simpa using hx0), add_zero] at hz
    refine le_trans ?_ hz
    have hlen := lz78Target_length b width (width q) (Nat.clog b (ws.length + 1) + e) tokens 0 fun j j1 j2 =>
      (hw j (by omega)).2.trans (Nat.add_le_add_right (Nat.clog_mono_right b (by omega)) e)
    have hwq := (hw q (by omega)).2
    have hL : ((lz78TokensToTarget q b width tokens).length : ℝ) ≤ (ws.length + 1) * (Nat.clog b (ws.length + 1) + e + (Nat.clog b q + e)) := by
      have : (lz78TokensToTarget q b width tokens).length ≤ (ws.length + 1) * (Nat.clog b (ws.length + 1) + e + (Nat.clog b q + e)) :=
        hlen.trans (Nat.mul_le_mul p4 (by omega))
      exact_mod_cast this
    have hc := clog_mul_log hb (ws.length + 1) (by omega)
    calc ((lz78TokensToTarget q b width tokens).length : ℝ) * Real.log b ≤ (ws.length + 1) * (Nat.clog b (ws.length + 1) + e + (Nat.clog b q + e)) * Real.log b :=
          mul_le_mul_of_nonneg_right hL hlog.le
      _ = (ws.length + 1) * (Nat.clog b (ws.length + 1) * Real.log b + (e + (Nat.clog b q + e)) * Real.log b) := by ring
      _ ≤ (ws.length + 1) * (Real.log (ws.length + 1) + B) := by
          refine mul_le_mul_of_nonneg_left ?_ (by positivity)
          push_cast at hc
          rw [hB]
          linarith

/-- LZW is universal. -/
theorem C114_lzw_universal (q b s e : Nat) (hq : 2 ≤ q) (hb : 2 ≤ b) :
    ∃ δ : ℕ → ℝ, Tendsto δ atTop (𝓝 0) ∧ ∀ width, FieldWidth b e width → ∀ (F : FSource (Fin s) q) (s0 : Fin s) (x : List Nat), (∀ a ∈ x, a < q) →
      0 < F.wordProb s0 x → ∃ out, lzwEncode q b width x = some out ∧ (out.length : ℝ) ≤ -Real.logb b (F.wordProb s0 x) + x.length * δ x.length := by
  have hb1 : (1 : ℝ) < b := by exact_mod_cast (by omega : 1 < b)
  have hlog := Real.log_pos hb1
  obtain ⟨B, hB⟩ : ∃ B : ℝ, B = Real.log q + Real.log b * (1 + e) := ⟨_, rfl⟩
  have hB0 : 0 ≤ B := by rw [hB]; have := Real.log_natCast_nonneg q; positivity
  refine ⟨fun n => zivRedundancy q q s B n / Real.log b, by simpa using (zivRedundancy_tendsto q q s B).div_const (Real.log b), ?_⟩
  intro width hw F s0 x hx hp
  obtain ⟨out, henc, -⟩ := lzw_roundtrip hq (fun n hn => (hw n hn).1) x hx
  refine ⟨out, henc, rate_of_nats hb _ _ _ _ ?_⟩
  rw [lzwEncode, if_neg (by rw [not_not]; exact hx)] at henc
  cases x with
  | nil =>
    rw [lzwEncodeLoop, if_pos rfl] at henc
    cases henc
    simp [FSource.wordProb]
  | cons a x =>
    have ha : [a] ∈ (List.range q).map fun s => [s] := List.mem_map.mpr ⟨a, List.mem_range.mpr (hx a (by simp)), rfl⟩
    rw [lzwEncodeLoop, List.nil_append, if_pos ha] at henc
    obtain ⟨vs, tail, p1, p2, p3, p4, p5, p6, p7⟩ := lzw_phrases q b width x _ [a] out ha (by simp)
      (fun s hs => hx s (by simp [hs])) (fun s hs => List.mem_map.mpr ⟨s, List.mem_range.mpr hs, rfl⟩) henc
    have hz := ziv_bound F (by omega) q (by omega) B hB0 s0 (vs.map Prod.fst) tail (a :: x) p1 (lzw_count q vs p2 p5) (by
      intro w hw
      obtain ⟨v, hv, rfl⟩ := List.mem_map.mp hw
      exact p4 v hv) hx hp
    rw [if_neg (by simp), add_zero, Fintype.card_fin, List.length_map] at hz
    refine le_trans ?_ hz
    have hlen := p7 (Nat.clog b (q * (vs.length + 1)) + e) fun j j1 j2 => by
      simp only [List.length_map, List.length_range] at j1 j2
      refine (hw j (by omega)).2.trans (Nat.add_le_add_right (Nat.clog_mono_right b ?_) e)
      nlinarith
    have hL : (out.length : ℝ) ≤ (vs.length + 1) * (Nat.clog b (q * (vs.length + 1)) + e) := by exact_mod_cast hlen
    have hc := clog_mul_log hb (q * (vs.length + 1)) (by nlinarith)
    push_cast at hc
    have hq0 : (0 : ℝ) < q := by exact_mod_cast (by omega : 0 < q)
    rw [Real.log_mul hq0.ne' (by positivity)] at hc
    calc (out.length : ℝ) * Real.log b ≤ (vs.length + 1) * (Nat.clog b (q * (vs.length + 1)) + e) * Real.log b :=
          mul_le_mul_of_nonneg_right hL hlog.le
      _ = (vs.length + 1) * (Nat.clog b (q * (vs.length + 1)) * Real.log b + e * Real.log b) := by ring
      _ ≤ (vs.length + 1) * (Real.log (vs.length + 1) + B) := by
          refine mul_le_mul_of_nonneg_left ?_ (by positivity)
          rw [hB]
          linarith

/-! ### The worst case -/

/-- Whatever the sequence, LZ78 and LZW use at most `log_b q + δ(n)` code symbols per source symbol. -/
theorem C114_worst_case (q b e : Nat) (hq : 2 ≤ q) (hb : 2 ≤ b) :
    ∃ δ : ℕ → ℝ, Tendsto δ atTop (𝓝 0) ∧ ∀ width, FieldWidth b e width → ∀ x : List Nat, (∀ a ∈ x, a < q) →
      ∃ out out', lz78Encode q b width x = some out ∧ lzwEncode q b width x = some out' ∧
        (out.length : ℝ) ≤ x.length * (Real.logb b q + δ x.length) ∧ (out'.length : ℝ) ≤ x.length * (Real.logb b q + δ x.length) := by
  obtain ⟨δ, h1, h2⟩ := C114_lz78_universal q b 1 e hq hb
  obtain ⟨δ', h1', h2'⟩ := C114_lzw_universal q b 1 e hq hb
  refine ⟨fun n => max (δ n) (δ' n), by simpa using h1.max h1', fun width hw x hx => ?_⟩
  obtain ⟨F, hF⟩ : ∃ F : FSource (Fin 1) q, ∀ s w, F.wordProb s w = (1 / q : ℝ) ^ w.length := by
    refine ⟨⟨fun _ _ => 0, fun _ _ => 1 / q, fun _ _ => by positivity, fun _ => (uniformSource q (by omega)).total ()⟩, fun s w => ?_⟩
    induction w generalizing s with
    | nil => rfl
    | cons a w ih => rw [FSource.wordProb, ih, List.length_cons, pow_succ']
  have hq0 : (0 : ℝ) < q := by exact_mod_cast (by omega : 0 < q)
  have hpos : 0 < F.wordProb 0 x := by rw [hF]; positivity
  obtain ⟨out, o1, o2⟩ := h2 width hw F 0 x hx hpos
  obtain ⟨out', o1', o2'⟩ := h2' width hw F 0 x hx hpos
  have hl : -Real.logb b (F.wordProb 0 x) = x.length * Real.logb b q := by
    rw [hF, Real.logb_pow, one_div, Real.logb_inv]; ring
  rw [hl] at o2 o2'
  refine ⟨out, out', o1, o1', o2.trans ?_, o2'.trans ?_⟩
  · rw [mul_add]
    gcongr
    exact le_max_left _ _
  · rw [mul_add]
    gcongr
    exact le_max_right _ _

/-! ### The encodings of the sequences of a given length are prefix-free -/

theorem prefix_split {A A' R R' : List Nat} (h : A ++ R <+: A' ++ R') (hl : A.length = A'.length) : A = A' ∧ R <+: R' := by
  obtain ⟨t, ht⟩ := h
  rw [List.append_assoc] at ht
  obtain ⟨h1, h2⟩ := List.append_inj ht hl
  exact ⟨h1, t, h2⟩

theorem idxOf?_getElem {l : List Word} {a : Word} {i : Nat} (h : l.idxOf? a = some i) : i < l.length ∧ l[i]? = some a := by
  obtain ⟨h1, h2, -⟩ := List.idxOf?_eq_some_iff.mp h
  exact ⟨h1, by rw [List.getElem?_eq_getElem h1, h2]⟩

/-- The first phrase. -/
theorem lz78_first (source : List Nat) : ∀ (D : List Word) (word : Word) (tokens : List (Nat × Int)), word ∈ D →
    lz78TokensLoop D word source = some tokens →
    (word ++ source = [] ∧ tokens = []) ∨ (word ++ source ≠ [] ∧ ∃ p, D.idxOf? (word ++ source) = some p ∧ tokens = [(p, -1)]) ∨
    ∃ (u : Word) (s : Nat) (rest : List Nat) (p : Nat) (ts : List (Nat × Int)), word ++ source = u ++ s :: rest ∧ D.idxOf? u = some p ∧ tokens = (p, (s : Int)) :: ts ∧ lz78TokensLoop (D ++ [u ++ [s]]) [] rest = some ts := by
  induction source with
  | nil =>
    intro D word tokens hword h
    rw [lz78TokensLoop] at h
    rw [List.append_nil]
    split at h
    · rename_i hw
      cases h
      exact Or.inl ⟨hw, rfl⟩
    · rename_i hw
      split at h
      · cases h
      · rename_i p hp
        cases h
        exact Or.inr (Or.inl ⟨hw, p, hp, rfl⟩)
  | cons s source ih =>
    intro D word tokens hword h
    rw [lz78TokensLoop] at h
    split at h
    · rename_i hm
      have := ih D _ tokens hm h
      simpa using this
    · split at h
      · cases h
      · rename_i p hp
        split at h
        · cases h
        · rename_i ts hts
          cases h
          exact Or.inr (Or.inr ⟨word, s, source, p, ts, rfl, hp, rfl, hts⟩)

theorem lz78Target_cons (b : Nat) (width : Nat → Nat) (M i p : Nat) (x : Int) (ts : List (Nat × Int)) :
    lz78TargetLoop b width M i ((p, x) :: ts) =
      integerToSymbols p b (width (i + 1)) ++ ((if 0 ≤ x then integerToSymbols x.toNat b M else []) ++ lz78TargetLoop b width M (i + 1) ts) := by
  rw [lz78TargetLoop, List.append_assoc]

theorem lz78_prefix {q b : Nat} {width : Nat → Nat} (hq : 2 ≤ q) (hw : Sufficient b width) (n : Nat) : ∀ (x y : List Nat) (D : List Word) (i : Nat) (tx ty : List (Nat × Int)),
    x.length ≤ n → x.length = y.length → (∀ a ∈ x, a < q) → (∀ a ∈ y, a < q) → [] ∈ D → D.length = i + 1 → lz78TokensLoop D [] x = some tx →
    lz78TokensLoop D [] y = some ty → lz78TargetLoop b width (width q) i tx <+: lz78TargetLoop b width (width q) i ty → x = y := by
  induction n with
  | zero =>
    intro x y D i tx ty hn hl _ _ _ _ _ _ _
    rw [List.length_eq_zero_iff.mp (by omega : x.length = 0), List.length_eq_zero_iff.mp (by omega : y.length = 0)]
  | succ n ih =>
    intro x y D i tx ty hn hl hx hy hnil hD h1 h2 hpre
    have field : ∀ p p' R R', p < D.length → p' < D.length → integerToSymbols p b (width (i + 1)) ++ R <+: integerToSymbols p' b (width (i + 1)) ++ R' → p = p' ∧ R <+: R' := by
      intro p p' R R' hp hp' h
      obtain ⟨e, h⟩ := prefix_split h (by simp [integerToSymbols_length])
      have := hw (i + 1) (by omega)
      exact ⟨integerToSymbols_inj (by omega) (by omega) e, h⟩
    have same : ∀ {u v : Word} {p : Nat}, D.idxOf? u = some p → D.idxOf? v = some p → u = v := by
      intro u v p hu hv
      have := (idxOf?_getElem hu).2.symm.trans (idxOf?_getElem hv).2
      exact Option.some.inj this
    rcases lz78_first x D [] tx hnil h1 with ⟨hx0, -⟩ | ⟨hx0, p, hp, rfl⟩ | ⟨u, s, rest, p, ts, hxe, hp, rfl, hts⟩
    · rw [List.nil_append] at hx0
      rw [hx0] at hl ⊢
      exact (List.length_eq_zero_iff.mp (by simpa using hl.symm)).symm
    · rw [List.nil_append] at hx0 hp
      rcases lz78_first y D [] ty hnil h2 with ⟨hy0, -⟩ | ⟨hy0, p', hp', rfl⟩ | ⟨u', s', rest', p', ts', hye, hp', rfl, hts'⟩
      · rw [List.nil_append] at hy0
        rw [hy0] at hl
        exact absurd (List.length_eq_zero_iff.mp (by simpa using hl)) hx0
      · rw [List.nil_append] at hp'
        rw [lz78Target_cons _ _ _ _ p, lz78Target_cons _ _ _ _ p'] at hpre
        obtain ⟨rfl, -⟩ := field _ _ _ _ (idxOf?_getElem hp).1 (idxOf?_getElem hp').1 hpre
        exact same hp hp'
      · rw [lz78Target_cons _ _ _ _ p, lz78Target_cons _ _ _ _ p'] at hpre
        obtain ⟨rfl, -⟩ := field _ _ _ _ (idxOf?_getElem hp).1 (idxOf?_getElem hp').1 hpre
        have := same hp hp'
        rw [List.nil_append] at hye
        rw [hye, this] at hl
        simp at hl
    · rw [List.nil_append] at hxe
      rcases lz78_first y D [] ty hnil h2 with ⟨hy0, -⟩ | ⟨hy0, p', hp', rfl⟩ | ⟨u', s', rest', p', ts', hye, hp', rfl, hts'⟩
      · rw [List.nil_append] at hy0
        rw [hy0, hxe] at hl
        simp at hl
      · rw [List.nil_append] at hp'
        rw [lz78Target_cons _ _ _ _ p, lz78Target_cons _ _ _ _ p'] at hpre
        obtain ⟨rfl, -⟩ := field _ _ _ _ (idxOf?_getElem hp).1 (idxOf?_getElem hp').1 hpre
        have := same hp hp'
        rw [hxe, this] at hl
        simp at hl
      · rw [List.nil_append] at hye
        rw [lz78Target_cons _ _ _ _ p, lz78Target_cons _ _ _ _ p'] at hpre
        obtain ⟨rfl, hpre2⟩ := field _ _ _ _ (idxOf?_getElem hp).1 (idxOf?_getElem hp').1 hpre
        obtain rfl := same hp hp'
        rw [if_pos (by omega), if_pos (by omega), Int.toNat_natCast, Int.toNat_natCast] at hpre2
        clear field
        obtain ⟨e, hpre3⟩ := prefix_split hpre2 (by simp [integerToSymbols_length])
        have hwq := hw q (by omega)
        have hs := hx s (by rw [hxe]; simp)
        have hs' := hy s' (by rw [hye]; simp)
        obtain rfl := integerToSymbols_inj (by omega) (by omega) e
        rw [hxe, hye] at hl
        rw [hxe] at hn
        simp only [List.length_append, List.length_cons] at hl hn
        have := ih rest rest' (D ++ [u ++ [s]]) (i + 1) ts ts' (by omega) (by omega) (fun a ha => hx a (by rw [hxe]; simp [ha]))
          (fun a ha => hy a (by rw [hye]; simp [ha])) (by simp [hnil]) (by simp [hD]) hts hts' hpre3
        rw [hxe, hye, this]

/-- No LZ78 encoding is a prefix of the encoding of another sequence of the same length. -/
theorem C114_lz78_prefix_free (q b : Nat) (width : Nat → Nat) (hq : 2 ≤ q) (hw : ∀ n, 1 ≤ n → n ≤ b ^ width n) (x y u v : List Nat) (hl : x.length = y.length)
    (hx : lz78Encode q b width x = some u) (hy : lz78Encode q b width y = some v) (h : u <+: v) : x = y := by
  rw [lz78Encode, lz78SourceToTokens] at hx hy
  split at hx
  · cases hx
  · rename_i h1
    split at hy
    · cases hy
    · rename_i h2
      rw [not_not] at h1 h2
      obtain ⟨tx, t1, rfl⟩ := Option.map_eq_some_iff.mp hx
      obtain ⟨ty, t2, rfl⟩ := Option.map_eq_some_iff.mp hy
      exact lz78_prefix hq hw x.length x y [[]] 0 tx ty le_rfl hl h1 h2 (by simp) rfl t1 t2 h

theorem lzwDecodeLoop_prefix (calY : Nat) (width : Nat → Nat) (f : Nat) : ∀ (f' : Nat) (D : List Word) (old : Word) (u v x y : List Nat),
    lzwDecodeLoop calY width f D old u = some x → lzwDecodeLoop calY width f' D old (u ++ v) = some y → x <+: y := by
  induction f with
  | zero => intro f' D old u v x y h; rw [lzwDecodeLoop] at h; cases h
  | succ f ih =>
    intro f' D old u v x y h h'
    cases f' with
    | zero => rw [lzwDecodeLoop] at h'; cases h'
    | succ f' =>
      rw [lzwDecodeLoop] at h h'
      simp only at h h'
      split at h
      · cases h; exact List.nil_prefix
      · rename_i hk
        have hk' : ¬ width (D.length + 1) > (u ++ v).length := by simp; omega
        rw [if_neg hk', List.take_append_of_le_length (by omega), List.drop_append_of_le_length (by omega)] at h'
        split at h
        · cases h
        · rename_i o ho
          cases h
          split at h'
          · cases h'
          · rename_i o' ho'
            cases h'
            exact (List.prefix_append_right_inj _).mpr (ih _ _ _ _ _ _ _ ho ho')

theorem lzw_field (b : Nat) (width : Nat → Nat) (source : List Nat) : ∀ (D : List Word) (word : Word) (out : List Nat), word ≠ [] →
    lzwEncodeLoop b width D word source = some out → width D.length ≤ out.length := by
  induction source with
  | nil =>
    intro D word out hne h
    rw [lzwEncodeLoop, if_neg hne] at h
    split at h
    · cases h
    · cases h; rw [integerToSymbols_length]
  | cons s source ih =>
    intro D word out hne h
    rw [lzwEncodeLoop] at h
    split at h
    · exact ih D _ out (by simp) h
    · split at h
      · cases h
      · split at h
        · cases h
        · cases h
          rw [List.length_append, integerToSymbols_length]
          omega

/-- No LZW encoding is a prefix of the encoding of another sequence of the same length. -/
theorem C114_lzw_prefix_free (q b : Nat) (width : Nat → Nat) (hq : 2 ≤ q) (hw : ∀ n, 1 ≤ n → n ≤ b ^ width n) (x y u v : List Nat) (hl : x.length = y.length)
    (hx : lzwEncode q b width x = some u) (hy : lzwEncode q b width y = some v) (h : u <+: v) : x = y := by
  have alph : ∀ {x u}, lzwEncode q b width x = some u → ∀ a ∈ x, a < q := by
    intro x u hx
    rw [lzwEncode] at hx
    split at hx
    · cases hx
    · rename_i h; rwa [not_not] at h
  obtain ⟨u', e1, d1⟩ := lzw_roundtrip hq hw x (alph hx)
  obtain ⟨v', e2, d2⟩ := lzw_roundtrip hq hw y (alph hy)
  rw [hx] at e1
  rw [hy] at e2
  cases e1
  cases e2
  obtain ⟨t, rfl⟩ := h
  have hpre : x <+: y := by
    rw [lzwDecode] at d1 d2
    split at d1
    · cases d1; exact List.nil_prefix
    · rename_i hu
      rw [if_neg (by rw [List.length_append]; omega)] at d2
      have hk : width q ≤ u.length := by
        have hal := alph hx
        rw [lzwEncode, if_neg (by rw [not_not]; exact hal)] at hx
        cases x with
        | nil =>
          rw [lzwEncodeLoop, if_pos rfl] at hx
          cases hx
          exact absurd rfl hu
        | cons a x =>
          have ha : [a] ∈ (List.range q).map fun s => [s] := by
            have := hal a (by simp)
            exact List.mem_map.mpr ⟨a, List.mem_range.mpr this, rfl⟩
          rw [lzwEncodeLoop, List.nil_append, if_pos ha] at hx
          have := lzw_field b width x _ [a] u (by simp) hx
          simpa using this
      simp only [List.take_append_of_le_length hk, List.drop_append_of_le_length hk] at d2
      simp only at d1
      split at d1
      · cases d1
      · rename_i old hold
        rw [hold] at d2
        simp only at d2
        split at d1
        · cases d1
        · rename_i o ho
          cases d1
          split at d2
          · cases d2
          · rename_i o' ho'
            cases d2
            exact (List.prefix_append_right_inj _).mpr (lzwDecodeLoop_prefix b width _ _ _ _ _ _ _ _ ho ho')
  exact hpre.eq_of_length hl

/-! ### Memoryless sources -/

/-- The expected number of code symbols per source symbol on sequences of length `n` of a memoryless source. -/
def expectedBlockRate (encode : List Nat → Option (List Nat)) (pmf : List ℚ) (n : Nat) : ℚ :=
  ((allWords pmf.length n).map fun x => blockProb pmf x * ((encode x).getD []).length).sum / n

/-- The encodings of the sequences of length `n` satisfy Kraft's inequality if they are prefix-free. -/
theorem block_kraft (b : Nat) (hb : 2 ≤ b) (encode : List Nat → Option (List Nat)) (q : Nat) (hq : 2 ≤ q)
    (htot : ∀ x, (∀ a ∈ x, a < q) → ∃ u, encode x = some u ∧ ∀ a ∈ u, a < b)
    (hpf : ∀ x y u v, x.length = y.length → encode x = some u → encode y = some v → u <+: v → x = y) (n : Nat) (hn : 1 ≤ n) :
    (∀ w ∈ (allWords q n).map fun x => (encode x).getD [], w ≠ []) ∧
    ((((allWords q n).map fun x => (encode x).getD []).map List.length).map fun l => (1 : ℚ) / (b : ℚ) ^ l).sum ≤ 1 := by
  obtain ⟨ws, hwords⟩ : ∃ ws : List Word, ws = (allWords q n).map fun x => (encode x).getD [] := ⟨_, rfl⟩
  rw [← hwords]
  have hmem : ∀ i (hi : i < (allWords q n).length), ∃ u, encode (allWords q n)[i] = some u ∧ (∀ a ∈ u, a < b) ∧ (allWords q n)[i].length = n := by
    intro i hi
    have := (mem_allWords _ _ _).mp (List.getElem_mem hi)
    obtain ⟨u, h1, h2⟩ := htot _ this.2
    exact ⟨u, h1, h2, this.1⟩
  have hinj : ∀ i j (hi : i < ws.length) (hj : j < ws.length), ws[i] <+: ws[j] → i = j := by
    intro i j hi hj h
    simp only [hwords, List.length_map] at hi hj
    simp only [hwords, List.getElem_map] at h
    obtain ⟨u, hu, -, hu'⟩ := hmem i hi
    obtain ⟨v, hv, -, hv'⟩ := hmem j hj
    rw [hu, hv] at h
    exact ((allWords_nodup _ _).getElem_inj_iff).mp (hpf _ _ u v (hu'.trans hv'.symm) hu hv h)
  have hne : ∀ w ∈ ws, w ≠ [] := by
    intro w hw h0
    obtain ⟨i, hi, rfl⟩ := List.mem_iff_getElem.mp hw
    have hlen : 2 ≤ ws.length := by
      rw [hwords, List.length_map, allWords_length]
      calc 2 ≤ q := hq
        _ = q ^ 1 := (pow_one _).symm
        _ ≤ q ^ n := Nat.pow_le_pow_right (by omega) hn
    have e0 := hinj i 0 hi (by omega) (by rw [h0]; exact List.nil_prefix)
    have e1 := hinj i 1 hi (by omega) (by rw [h0]; exact List.nil_prefix)
    omega
  have hpfl : PrefixFree ws := fun i j hi hj hij _ _ h => hij (hinj i j hi hj h)
  have hsym : ∀ w ∈ ws, ∀ a ∈ w, a < b := by
    intro w hw
    rw [hwords] at hw
    obtain ⟨x, hx, rfl⟩ := List.mem_map.mp hw
    obtain ⟨u, h1, h2⟩ := htot x ((mem_allWords _ _ _).mp hx).2
    rw [h1]
    exact h2
  exact ⟨hne, mcmillan (b := b) (by omega) (hpfl.nodup hne) (UniquelyParsable.of_prefixFree hpfl hne) hsym⟩

/-- Codes whose encodings of the sequences of length `n` are prefix-free, of symbols below `b`, do not beat the entropy. -/
theorem rate_lower (b : Nat) (hb : 2 ≤ b) (encode : List Nat → Option (List Nat)) (pmf : List ℚ) (hq : 2 ≤ pmf.length) (hp : IsPmf pmf)
    (htot : ∀ x, (∀ a ∈ x, a < pmf.length) → ∃ u, encode x = some u ∧ ∀ a ∈ u, a < b)
    (hpf : ∀ x y u v, x.length = y.length → encode x = some u → encode y = some v → u <+: v → x = y) (n : Nat) (hn : 1 ≤ n) :
    ∃ h, entropy (pmfVec pmf) (.num (b : ℝ)) = some h ∧ h ≤ (expectedBlockRate encode pmf n : ℝ) := by
  obtain ⟨enc, henc⟩ : ∃ enc : List (Word × Word), enc = (allWords pmf.length n).map fun x => (x, (encode x).getD []) := ⟨_, rfl⟩
  have hkeys : enc.map Prod.fst = allWords pmf.length n := by rw [henc, List.map_map]; simp [Function.comp_def]
  have hwords : enc.map Prod.snd = (allWords pmf.length n).map fun x => (encode x).getD [] := by rw [henc, List.map_map]; rfl
  have hkr := (block_kraft b hb encode pmf.length hq htot hpf n hn).2
  rw [← hwords] at hkr
  obtain ⟨h, h1, h2⟩ := expectedRate_lower enc pmf hq hb hn rfl hp (by rw [hkeys]) hkr
  refine ⟨h, h1, h2.trans_eq ?_⟩
  rw [expectedBlockRate, henc, List.map_map]
  rfl

/-- The pointwise bound in expectation. -/
theorem rate_upper (b : Nat) (hb : 2 ≤ b) (encode : List Nat → Option (List Nat)) (pmf : List ℚ) (hq : 2 ≤ pmf.length) (hp : IsPmf pmf) (δ : ℕ → ℝ)
    (h : ∀ (F : FSource (Fin 1) pmf.length) (s0 : Fin 1) (x : List Nat), (∀ a ∈ x, a < pmf.length) → 0 < F.wordProb s0 x →
      ∃ out, encode x = some out ∧ (out.length : ℝ) ≤ -Real.logb b (F.wordProb s0 x) + x.length * δ x.length) (n : Nat) (hn : 1 ≤ n) :
    ∃ h, entropy (pmfVec pmf) (.num (b : ℝ)) = some h ∧ (expectedBlockRate encode pmf n : ℝ) ≤ h + δ n := by
  have hb1 : (1 : ℝ) < b := by exact_mod_cast (by omega : 1 < b)
  have hlog := Real.log_pos hb1
  refine ⟨_, entropy_pmfVec hp.1 hp.2 hb1, ?_⟩
  obtain ⟨F, hF⟩ : ∃ F : FSource (Fin 1) pmf.length, ∀ s w, F.wordProb s w = WordTree.prob (symbolProb pmf) w := by
    refine ⟨⟨fun _ _ => 0, fun _ a => symbolProb pmf a, fun _ a => symbolProb_nonneg hp.1 a, fun _ => sum_symbolProb pmf hp.2⟩, fun s w => ?_⟩
    induction w generalizing s with
    | nil => rfl
    | cons a w ih => rw [FSource.wordProb, ih, WordTree.prob_cons]
  have hmul : ((allWords pmf.length n).map fun x => (blockProb pmf x : ℝ) * (((encode x).getD []).length : ℝ)).sum ≤
      ((allWords pmf.length n).map fun x => Real.negMulLog (WordTree.prob (symbolProb pmf) x) / Real.log b + WordTree.prob (symbolProb pmf) x * (n * δ n)).sum := by
    refine List.sum_le_sum fun x hx => ?_
    obtain ⟨hl, hs⟩ := (mem_allWords _ _ _).mp hx
    rw [blockProb_cast]
    rcases (WordTree.prob_nonneg (fun a _ => symbolProb_nonneg hp.1 a) x hs).lt_or_eq with h0 | h0
    · obtain ⟨out, o1, o2⟩ := h F 0 x hs (by rw [hF]; exact h0)
      rw [o1, Option.getD_some]
      rw [hF, hl] at o2
      refine (mul_le_mul_of_nonneg_left o2 h0.le).trans_eq ?_
      rw [Real.negMulLog, Real.logb]
      ring
    · rw [← h0]; simp
  have htree := complete_allWords pmf.length n
  have hsp := WordTree.sum_prob (symbolProb pmf) (by omega) (sum_symbolProb pmf hp.2) _ htree
  have hent := WordTree.entropy_tree (symbolProb pmf) (by omega) (sum_symbolProb pmf hp.2) _ htree
  have hlen : ∑ w ∈ (allWords pmf.length n).toFinset, WordTree.prob (symbolProb pmf) w * (w.length : ℝ) = n := by
    have : ∀ w ∈ (allWords pmf.length n).toFinset, WordTree.prob (symbolProb pmf) w * (w.length : ℝ) = WordTree.prob (symbolProb pmf) w * n := by
      intro w hw
      rw [((mem_allWords _ _ w).mp (List.mem_toFinset.mp hw)).1]
    rw [Finset.sum_congr rfl this, ← Finset.sum_mul, hsp, one_mul]
  rw [hlen] at hent
  rw [sum_map_toFinset _ (allWords_nodup _ _) (fun x => Real.negMulLog (WordTree.prob (symbolProb pmf) x) / Real.log b + WordTree.prob (symbolProb pmf) x * (n * δ n)),
    Finset.sum_add_distrib, ← Finset.sum_div, ← Finset.sum_mul, hsp, hent, one_mul] at hmul
  have hnr : (0 : ℝ) < n := by exact_mod_cast hn
  have hcast : (expectedBlockRate encode pmf n : ℝ) = ((allWords pmf.length n).map fun x => (blockProb pmf x : ℝ) * (((encode x).getD []).length : ℝ)).sum / n := by
    rw [expectedBlockRate, Rat.cast_div, Rat.cast_natCast]
    congr 1
    generalize allWords pmf.length n = l
    induction l with
    | nil => simp
    | cons x l ih => simp only [List.map_cons, List.sum_cons, ← ih]; push_cast; rfl
  rw [hcast, div_le_iff₀ hnr]
  refine hmul.trans_eq ?_
  ring

theorem rate_limit (b : Nat) (hb : 2 ≤ b) (encode : List Nat → Option (List Nat)) (pmf : List ℚ) (hq : 2 ≤ pmf.length) (hp : IsPmf pmf) (δ : ℕ → ℝ)
    (htot : ∀ x, (∀ a ∈ x, a < pmf.length) → ∃ u, encode x = some u ∧ ∀ a ∈ u, a < b)
    (hpf : ∀ x y u v, x.length = y.length → encode x = some u → encode y = some v → u <+: v → x = y) (hδ : Tendsto δ atTop (𝓝 0))
    (h : ∀ (F : FSource (Fin 1) pmf.length) (s0 : Fin 1) (x : List Nat), (∀ a ∈ x, a < pmf.length) → 0 < F.wordProb s0 x →
      ∃ out, encode x = some out ∧ (out.length : ℝ) ≤ -Real.logb b (F.wordProb s0 x) + x.length * δ x.length) :
    ∃ h, entropy (pmfVec pmf) (.num (b : ℝ)) = some h ∧ (∀ n, 1 ≤ n → h ≤ (expectedBlockRate encode pmf n : ℝ)) ∧
      Tendsto (fun n => (expectedBlockRate encode pmf n : ℝ)) atTop (𝓝 h) := by
  obtain ⟨H, hH, -⟩ := rate_lower b hb encode pmf hq hp htot hpf 1 le_rfl
  have lo : ∀ n, 1 ≤ n → H ≤ (expectedBlockRate encode pmf n : ℝ) := by
    intro n hn
    obtain ⟨H', h1, h2⟩ := rate_lower b hb encode pmf hq hp htot hpf n hn
    rw [hH] at h1
    cases h1
    exact h2
  refine ⟨H, hH, lo, ?_⟩
  have hup : Tendsto (fun n => H + δ n) atTop (𝓝 H) := by simpa using hδ.const_add H
  refine tendsto_of_tendsto_of_tendsto_of_le_of_le' tendsto_const_nhds hup ?_ ?_
  · filter_upwards [eventually_ge_atTop 1] with n hn using lo n hn
  · filter_upwards [eventually_ge_atTop 1] with n hn
    obtain ⟨H', h1, h2⟩ := rate_upper b hb encode pmf hq hp δ h n hn
    rw [hH] at h1
    cases h1
    exact h2

theorem lz78Target_lt (b : Nat) (hb : 0 < b) (width : Nat → Nat) (M : Nat) (ts : List (Nat × Int)) : ∀ i, ∀ a ∈ lz78TargetLoop b width M i ts, a < b := by
  induction ts with
  | nil => intro i a ha; simp [lz78TargetLoop] at ha
  | cons t ts ih =>
    intro i a ha
    obtain ⟨p, x⟩ := t
    rw [lz78Target_cons, List.mem_append, List.mem_append] at ha
    rcases ha with ha | ha | ha
    · exact integerToSymbols_lt _ _ _ hb a ha
    · split at ha
      · exact integerToSymbols_lt _ _ _ hb a ha
      · simp at ha
    · exact ih _ a ha

theorem lzwEncodeLoop_lt (b : Nat) (hb : 0 < b) (width : Nat → Nat) (source : List Nat) : ∀ (D : List Word) (word : Word) (out : List Nat),
    lzwEncodeLoop b width D word source = some out → ∀ a ∈ out, a < b := by
  induction source with
  | nil =>
    intro D word out h
    rw [lzwEncodeLoop] at h
    split at h
    · cases h; simp
    · split at h
      · cases h
      · cases h; exact integerToSymbols_lt _ _ _ hb
  | cons s source ih =>
    intro D word out h
    rw [lzwEncodeLoop] at h
    split at h
    · exact ih D _ out h
    · split at h
      · cases h
      · split at h
        · cases h
        · rename_i o ho
          cases h
          intro a ha
          rcases List.mem_append.mp ha with ha | ha
          · exact integerToSymbols_lt _ _ _ hb a ha
          · exact ih _ _ _ ho a ha

/-- The expected rate of LZ78 on the sequences of a memoryless source is at least the entropy of the source, and tends to it as the sequences get longer. -/
theorem C114_lz78_rate (b e : Nat) (hb : 2 ≤ b) (width : Nat → Nat) (hw : FieldWidth b e width) (pmf : List ℚ) (hq : 2 ≤ pmf.length) (hp : IsPmf pmf) :
    ∃ h, entropy (pmfVec pmf) (.num (b : ℝ)) = some h ∧ (∀ n, 1 ≤ n → h ≤ (expectedBlockRate (lz78Encode pmf.length b width) pmf n : ℝ)) ∧
      Tendsto (fun n => (expectedBlockRate (lz78Encode pmf.length b width) pmf n : ℝ)) atTop (𝓝 h) := by
  obtain ⟨δ, h1, h2⟩ := C114_lz78_universal pmf.length b 1 e hq hb
  refine rate_limit b hb _ pmf hq hp δ ?_ ?_ h1 fun F s0 x hx hpos => h2 width hw F s0 x hx hpos
  · intro x hx
    obtain ⟨u, h, -⟩ := C33_lz78_roundtrip hq width (fun n hn => (hw n hn).1) x hx
    refine ⟨u, h, ?_⟩
    rw [lz78Encode] at h
    obtain ⟨ts, -, rfl⟩ := Option.map_eq_some_iff.mp h
    exact lz78Target_lt b (by omega) width _ ts 0
  · intro x y u v
    exact C114_lz78_prefix_free _ b width hq (fun n hn => (hw n hn).1) x y u v

/-- The expected rate of LZW on the sequences of a memoryless source is at least the entropy of the source, and tends to it as the sequences get longer. -/
theorem C114_lzw_rate (b e : Nat) (hb : 2 ≤ b) (width : Nat → Nat) (hw : FieldWidth b e width) (pmf : List ℚ) (hq : 2 ≤ pmf.length) (hp : IsPmf pmf) :
    ∃ h, entropy (pmfVec pmf) (.num (b : ℝ)) = some h ∧ (∀ n, 1 ≤ n → h ≤ (expectedBlockRate (lzwEncode pmf.length b width) pmf n : ℝ)) ∧
      Tendsto (fun n => (expectedBlockRate (lzwEncode pmf.length b width) pmf n : ℝ)) atTop (𝓝 h) := by
  obtain ⟨δ, h1, h2⟩ := C114_lzw_universal pmf.length b 1 e hq hb
  refine rate_limit b hb _ pmf hq hp δ ?_ ?_ h1 fun F s0 x hx hpos => h2 width hw F s0 x hx hpos
  · intro x hx
    obtain ⟨u, h, -⟩ := C34_lzw_roundtrip hq width (fun n hn => (hw n hn).1) x hx
    refine ⟨u, h, ?_⟩
    rw [lzwEncode, if_neg (by rw [not_not]; exact hx)] at h
    exact lzwEncodeLoop_lt b (by omega) width x _ _ u h
  · intro x y u v
    exact C114_lzw_prefix_free _ b width hq (fun n hn => (hw n hn).1) x y u v

/-- Non-vacuity: a two-state source, and a biased coin; the exact widths. -/
example : (∃ F : FSource (Fin 2) 2, 0 < F.wordProb 0 [0, 1, 1, 0] ∧ F.wordProb 0 [0, 1, 1, 0] ≠ (1 / 2 : ℝ) ^ 4) ∧ IsPmf [1 / 10, 9 / 10] ∧ FieldWidth 2 0 (Nat.clog 2) := by
  refine ⟨⟨⟨fun _ a => if a = 0 then 0 else 1, fun s a => if (a = 0 ↔ s = 0) then 9 / 10 else 1 / 10, fun s a => by split <;> norm_num, fun s => ?_⟩, ?_, ?_⟩, ?_, fieldWidth_clog le_rfl⟩
  · fin_cases s <;> simp [Finset.sum_range_succ] <;> norm_num
  · simp [FSource.wordProb]
  · simp [FSource.wordProb]; norm_num
  · exact ⟨by norm_num, by norm_num⟩

end Komm
