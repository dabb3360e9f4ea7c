import Verif.Lemmas.Ziv
import Verif.Lemmas.LempelZiv
import Mathlib.Analysis.SpecialFunctions.Pow.Asymptotics
import Mathlib.Analysis.SpecialFunctions.Log.Base
/-! The parsings made by the LZ78 and LZW encoders. -/
namespace Komm
open Filter Topology

/-- The phrases of LZ78 are new words. -/
theorem lz78_phrases (source : List Nat) : ∀ (D : List Word) (word : Word) (tokens : List (Nat × Int)), [] ∈ D → word ∈ D →
    lz78TokensLoop D word source = some tokens →
    ∃ (ws : List Word) (tail : Word), word ++ source = ws.flatten ++ tail ∧ ws.Nodup ∧ (∀ w ∈ ws, w ∉ D) ∧ tokens.length ≤ ws.length + 1 := by
  induction source with
  | nil =>
    intro D word tokens _ _ h
    refine ⟨[], word, by simp, List.nodup_nil, by simp, ?_⟩
    rw [lz78TokensLoop] at h
    split at h
    · cases h; simp
    · split at h
      · cases h
      · cases h; simp
  | cons s source ih =>
    intro D word tokens hnil hword h
    rw [lz78TokensLoop] at h
    split at h
    · rename_i hm
      obtain ⟨ws, tail, h1, h2⟩ := ih D _ tokens hnil hm h
      exact ⟨ws, tail, by simpa using h1, h2⟩
    · rename_i hm
      split at h
      · cases h
      · split at h
        · cases h
        · rename_i ts hts
          cases h
          obtain ⟨ws, tail, h1, h2, h3, h4⟩ := ih _ _ ts (by simp [hnil]) (by simp [hnil]) hts
          refine ⟨(word ++ [s]) :: ws, tail, ?_, ?_, ?_, ?_⟩
          · simp only [List.nil_append] at h1
            simp [h1]
          · refine List.nodup_cons.mpr ⟨fun hmem => ?_, h2⟩
            have := h3 _ hmem
            simp at this
          · intro w hw
            rcases List.mem_cons.mp hw with rfl | hw
            · exact hm
            · exact fun hD => h3 w hw (by simp [hD])
          · simp only [List.length_cons]; omega

theorem lz78Target_length (calY : Nat) (width : Nat → Nat) (M W : Nat) (tokens : List (Nat × Int)) : ∀ i,
    (∀ j, i < j → j ≤ i + tokens.length → width j ≤ W) → (lz78TargetLoop calY width M i tokens).length ≤ tokens.length * (W + M) := by
  induction tokens with
  | nil => intro i _; simp [lz78TargetLoop]
  | cons t tokens ih =>
    intro i hW
    obtain ⟨p, x⟩ := t
    have h1 := ih (i + 1) fun j h1 h2 => hW j (by omega) (by simp; omega)
    have h2 := hW (i + 1) (by omega) (by simp)
    rw [lz78TargetLoop, List.length_append, List.length_append, integerToSymbols_length, List.length_cons, Nat.succ_mul]
    have h3 : (if 0 ≤ x then integerToSymbols x.toNat calY M else []).length ≤ M := by
      split
      · rw [integerToSymbols_length]
      · simp
    omega

/-- The words of LZW, each with the symbol that follows, are new words. -/
theorem lzw_phrases (calX calY : Nat) (width : Nat → Nat) (source : List Nat) : ∀ (D : List Word) (word : Word) (out : List Nat), word ∈ D → word ≠ [] →
    (∀ s ∈ source, s < calX) → (∀ s < calX, [s] ∈ D) →
    lzwEncodeLoop calY width D word source = some out →
    ∃ (vs : List (Word × Nat)) (tail : Word), word ++ source = (vs.map Prod.fst).flatten ++ tail ∧ (vs.map fun v => v.1 ++ [v.2]).Nodup ∧
      (∀ v ∈ vs, v.1 ++ [v.2] ∉ D) ∧ (∀ v ∈ vs, v.1 ≠ []) ∧ (∀ v ∈ vs, v.2 < calX) ∧ tail ≠ [] ∧
      (∀ W, (∀ j, D.length ≤ j → j ≤ D.length + vs.length → width j ≤ W) → out.length ≤ (vs.length + 1) * W) := by
  induction source with
  | nil =>
    intro D word out _ hne _ _ h
    rw [lzwEncodeLoop, if_neg hne] at h
    refine ⟨[], word, by simp, List.nodup_nil, by simp, by simp, by simp, hne, ?_⟩
    split at h
    · cases h
    · cases h
      intro W hW
      rw [integerToSymbols_length]
      have := hW D.length le_rfl (by simp)
      simpa using this
  | cons s source ih =>
    intro D word out hword hne hs hD h
    have hs' : ∀ s ∈ source, s < calX := fun x hx => hs x (by simp [hx])
    rw [lzwEncodeLoop] at h
    split at h
    · rename_i hm
      obtain ⟨ws, tail, h1, h2⟩ := ih D _ out hm (by simp) hs' hD h
      exact ⟨ws, tail, by simpa using h1, h2⟩
    · rename_i hm
      split at h
      · cases h
      · split at h
        · cases h
        · rename_i ts hts
          cases h
          obtain ⟨vs, tail, h1, h2, h3, h4, h5, h6, h7⟩ := ih _ [s] ts (by simp [hD s (hs s (by simp))]) (by simp) hs'
            (fun a ha => by simp [hD a ha]) hts
          refine ⟨(word, s) :: vs, tail, ?_, ?_, ?_, ?_, ?_, h6, ?_⟩
          · simp only [List.singleton_append] at h1
            simp [h1]
          · rw [List.map_cons]
            refine List.nodup_cons.mpr ⟨fun hmem => ?_, h2⟩
            obtain ⟨v, hv, e⟩ := List.mem_map.mp hmem
            have := h3 v hv
            rw [e] at this
            simp at this
          · intro w hw
            rcases List.mem_cons.mp hw with rfl | hw
            · exact hm
            · exact fun hD => h3 w hw (by simp [hD])
          · intro w hw
            rcases List.mem_cons.mp hw with rfl | hw
            · exact hne
            · exact h4 w hw
          · intro w hw
            rcases List.mem_cons.mp hw with rfl | hw
            · exact hs _ (by simp)
            · exact h5 w hw
          · intro W hW
            have a1 := h7 W fun j e1 e2 => hW j (by simp at e1; omega) (by simp at e2 ⊢; omega)
            have a2 := hW D.length le_rfl (by simp)
            rw [List.length_append, integerToSymbols_length, List.length_cons, Nat.succ_mul]
            omega

/-- Each word of LZW is used at most `calX` times before the last one. -/
theorem lzw_count (calX : Nat) (vs : List (Word × Nat)) (h2 : (vs.map fun v => v.1 ++ [v.2]).Nodup) (h5 : ∀ v ∈ vs, v.2 < calX) (w : Word) :
    (vs.map Prod.fst).count w ≤ calX := by
  have hnd : vs.Nodup := List.Nodup.of_map _ h2
  have e : (vs.map Prod.fst).count w = ((vs.filter fun v => v.1 == w).map Prod.snd).length := by
    rw [List.length_map, List.count, List.countP_map, List.countP_eq_length_filter]
    rfl
  rw [e]
  have hnd2 : ((vs.filter fun v => v.1 == w).map Prod.snd).Nodup := by
    refine List.Nodup.map_on ?_ (hnd.filter _)
    intro x hx y hy hxy
    rw [List.mem_filter] at hx hy
    have e1 : x.1 = w := by simpa using hx.2
    have e2 : y.1 = w := by simpa using hy.2
    exact Prod.ext (e1.trans e2.symm) hxy
  have hsub : ((vs.filter fun v => v.1 == w).map Prod.snd).toFinset ⊆ Finset.range calX := by
    intro a ha
    obtain ⟨v, hv, rfl⟩ := List.mem_map.mp (List.mem_toFinset.mp ha)
    exact Finset.mem_range.mpr (h5 v (List.mem_filter.mp hv).1)
  have := Finset.card_le_card hsub
  rwa [List.toFinset_card_of_nodup hnd2, Finset.card_range] at this

/-! ### The bound -/

/-- The states from which the words of a parsing are emitted. -/
def FSource.parse {S : Type} {q : Nat} (F : FSource S q) : S → List Word → List (S × Word)
  | _, [] => []
  | s, w :: ws => (s, w) :: F.parse (F.run s w) ws

theorem FSource.parse_snd {S : Type} {q : Nat} (F : FSource S q) (ws : List Word) : ∀ s, (F.parse s ws).map Prod.snd = ws := by
  induction ws with
  | nil => intro s; rfl
  | cons w ws ih => intro s; simp [parse, ih]

theorem FSource.parse_prob {S : Type} {q : Nat} (F : FSource S q) (ws : List Word) : ∀ s, F.wordProb s ws.flatten = ((F.parse s ws).map fun p => F.wordProb p.1 p.2).prod := by
  induction ws with
  | nil => intro s; rfl
  | cons w ws ih => intro s; simp [parse, wordProb_append, ih]

theorem log_prod_list {α : Type} (f : α → ℝ) (l : List α) (h : ∀ a ∈ l, 0 < f a) : 0 < (l.map f).prod ∧ Real.log (l.map f).prod = (l.map fun a => Real.log (f a)).sum := by
  induction l with
  | nil => simp
  | cons a l ih =>
    obtain ⟨h1, h2⟩ := ih fun b hb => h b (by simp [hb])
    have ha := h a (by simp)
    refine ⟨?_, ?_⟩
    · rw [List.map_cons, List.prod_cons]; positivity
    · rw [List.map_cons, List.prod_cons, Real.log_mul ha.ne' h1.ne', h2]; simp

/-- The redundancy bound, in nats per symbol. -/
noncomputable def zivRedundancy (q K s : Nat) (B : ℝ) (n : Nat) : ℝ :=
  phraseRate (Real.log q + Real.log K + 3) n * (Real.log s + Real.log K + 1 + B) + 2 * √(phraseRate (Real.log q + Real.log K + 3) n) + (1 + Real.log (n + 1) + B) / n

theorem phraseRate_nonneg (A : ℝ) (hA : 0 ≤ A) (n : Nat) : 0 ≤ phraseRate A n := by
  have := Real.log_natCast_nonneg n
  rw [phraseRate]; positivity

theorem phrase_count' {q : Nat} (hq : 1 ≤ q) (K : Nat) (hK : 1 ≤ K) (ws : List (List Nat)) (hcount : ∀ w, ws.count w ≤ K) (hne : ∀ w ∈ ws, w ≠ [])
    (hws : ∀ w ∈ ws, ∀ a ∈ w, a < q) (n : Nat) (hlen : ws.flatten.length ≤ n) :
    (ws.length : ℝ) ≤ n * phraseRate (Real.log q + Real.log K + 3) n := by
  rcases Nat.lt_or_ge n 2 with h | h
  · have h1 := (FSource.length_le_flatten ws hne).trans hlen
    rcases (by omega : n = 0 ∨ n = 1) with rfl | rfl
    · have : ws.length = 0 := by omega
      simp [this]
    · simp only [phraseRate]
      simpa using h1
  · exact phrase_count hq K hK ws hcount hne hws n h hlen

/-- Ziv's bound on a dictionary code with at most one more token than phrases, each token costing `ln (phrases + 1) + B` nats. -/
theorem ziv_bound {S : Type} [Fintype S] {q : Nat} (F : FSource S q) (hq : 1 ≤ q) (K : Nat) (hK : 1 ≤ K) (B : ℝ) (hB : 0 ≤ B) (s0 : S) (ws : List Word) (tail : Word)
    (x : Word) (hx : x = ws.flatten ++ tail) (hcount : ∀ w, ws.count w ≤ K) (hne : ∀ w ∈ ws, w ≠ []) (hsym : ∀ a ∈ x, a < q) (hpos : 0 < F.wordProb s0 x) :
    ((ws.length : ℝ) + 1) * (Real.log (ws.length + 1) + B) ≤ -Real.log (F.wordProb s0 x) + x.length * zivRedundancy q K (Fintype.card S) B x.length +
      (if x.length = 0 then B else 0) := by
  have hflat : ws.flatten.length ≤ x.length := by rw [hx]; simp
  have hws : ∀ w ∈ ws, ∀ a ∈ w, a < q := fun w hw a ha => hsym a (by rw [hx]; exact List.mem_append_left _ (List.mem_flatten.mpr ⟨w, hw, ha⟩))
  have hcnt := phrase_count' hq K hK ws hcount hne hws x.length hflat
  have hcN := FSource.length_le_flatten ws hne
  have hp1 : F.wordProb s0 x = F.wordProb s0 ws.flatten * F.wordProb (F.run s0 ws.flatten) tail := by rw [hx, F.wordProb_append]
  have ht0 := F.wordProb_nonneg (F.run s0 ws.flatten) tail
  have ht1 := F.wordProb_le_one (F.run s0 ws.flatten) tail fun a ha => hsym a (by rw [hx]; exact List.mem_append_right _ ha)
  have hw0 := F.wordProb_nonneg s0 ws.flatten
  have hwp : 0 < F.wordProb s0 ws.flatten := by
    rcases hw0.lt_or_eq with h | h
    · exact h
    · rw [hp1, ← h, zero_mul] at hpos; exact absurd hpos (lt_irrefl _)
  have hle : F.wordProb s0 x ≤ F.wordProb s0 ws.flatten := by rw [hp1]; exact mul_le_of_le_one_right hw0 ht1
  have hpp : ∀ p ∈ F.parse s0 ws, 0 < F.wordProb p.1 p.2 := by
    intro p hp
    have h := F.parse_prob ws s0
    rcases (F.wordProb_nonneg p.1 p.2).lt_or_eq with h' | h'
    · exact h'
    · exfalso
      have : ((F.parse s0 ws).map fun p => F.wordProb p.1 p.2).prod = 0 := List.prod_eq_zero (List.mem_map.mpr ⟨p, hp, h'.symm⟩)
      rw [this] at h
      exact hwp.ne' h
  have hmem : ∀ p ∈ F.parse s0 ws, p.2 ∈ ws := fun p hp => by
    have := List.mem_map_of_mem (f := Prod.snd) hp
    rwa [F.parse_snd] at this
  have hz := F.ziv (F.parse s0 ws) K (by rw [F.parse_snd]; exact hcount) (fun p hp => hne _ (hmem p hp)) (fun p hp => hws _ (hmem p hp)) hpp ws.length
    ws.flatten.length (by rw [← List.length_map (f := Prod.snd), F.parse_snd]) (by rw [F.parse_snd])
  rw [← (log_prod_list _ _ hpp).2, ← F.parse_prob] at hz
  have hlogle := Real.log_le_log hpos hle
  rcases Nat.eq_zero_or_pos x.length with hn | hn
  · have hc : ws.length = 0 := by omega
    have hx0 : x = [] := List.length_eq_zero_iff.mp hn
    rw [if_pos hn, hc, hn, hx0]
    simp [FSource.wordProb]
  rw [if_neg (by omega), add_zero]
  generalize F.wordProb s0 x = P at *
  generalize F.wordProb s0 ws.flatten = P' at *
  generalize ws.flatten.length = N at *
  generalize ws.length = c at *
  generalize x.length = n at *
  have hnr : (0 : ℝ) < n := by exact_mod_cast hn
  have hlogq : 0 ≤ Real.log q := Real.log_natCast_nonneg q
  have hlogK : 0 ≤ Real.log K := Real.log_natCast_nonneg K
  have hlogs : 0 ≤ Real.log (Fintype.card S) := Real.log_natCast_nonneg _
  rw [zivRedundancy]
  have hε := phraseRate_nonneg (Real.log q + Real.log K + 3) (by positivity) n
  generalize phraseRate (Real.log q + Real.log K + 3) n = ε at *
  have hcr : (0 : ℝ) ≤ c := by positivity
  have hNn : (N : ℝ) ≤ n := by exact_mod_cast hflat
  have hcn : (c : ℝ) ≤ n := by exact_mod_cast hcN.trans hflat
  have hl1 : ((c : ℝ) + 1) * Real.log (c + 1) ≤ c * Real.log c + 1 + Real.log (n + 1) := by
    have h1 : Real.log ((c : ℝ) + 1) ≤ Real.log (n + 1) := Real.log_le_log (by positivity) (by linarith)
    have h2 : (c : ℝ) * Real.log (c + 1) ≤ c * Real.log c + 1 := by
      rcases hcr.lt_or_eq with h | h
      · have := Real.log_le_sub_one_of_pos (show 0 < ((c : ℝ) + 1) / c by positivity)
        rw [Real.log_div (by positivity) h.ne'] at this
        have e : ((c : ℝ) + 1) / c - 1 = 1 / c := by field_simp; ring
        rw [e] at this
        have := mul_le_mul_of_nonneg_left this hcr
        rw [mul_one_div, div_self h.ne'] at this
        linarith
      · rw [← h]; simp
    linarith
  have hl2 : (c : ℝ) * Real.log (1 + N / c) ≤ n * (2 * √ε) := by
    rcases hcr.lt_or_eq with h | h
    · have h1 := FSource.log_le_sqrt (N / c) (by positivity)
      have h2 : (c : ℝ) * √(N / c) ≤ n * √ε := by
        have e : (c : ℝ) * √(N / c) = √(c * N) := by
          rw [show (c : ℝ) * N = c ^ 2 * (N / c) by field_simp, Real.sqrt_mul (by positivity), Real.sqrt_sq hcr]
        have e2 : (n : ℝ) * √ε = √(n * ε * n) := by
          rw [show (n : ℝ) * ε * n = n ^ 2 * ε by ring, Real.sqrt_mul (by positivity), Real.sqrt_sq hnr.le]
        rw [e, e2]
        refine Real.sqrt_le_sqrt ?_
        exact mul_le_mul hcnt hNn (by positivity) (by positivity)
      calc (c : ℝ) * Real.log (1 + N / c) ≤ c * (2 * √(N / c)) := mul_le_mul_of_nonneg_left h1 hcr
        _ = 2 * (c * √(N / c)) := by ring
        _ ≤ 2 * (n * √ε) := by linarith
        _ = _ := by ring
    · rw [← h]; simp only [zero_mul]; positivity
  have hl3 : (c : ℝ) * (Real.log (Fintype.card S) + Real.log K + 1 + B) ≤ n * ε * (Real.log (Fintype.card S) + Real.log K + 1 + B) :=
    mul_le_mul_of_nonneg_right hcnt (by positivity)
  have hfin : (n : ℝ) * ((1 + Real.log (n + 1) + B) / n) = 1 + Real.log (n + 1) + B := by field_simp
  rw [mul_add, mul_add, hfin]
  nlinarith

theorem zivRedundancy_tendsto (q K s : Nat) (B : ℝ) : Tendsto (zivRedundancy q K s B) atTop (𝓝 0) := by
  have hlog : Tendsto (fun n : ℕ => Real.log n) atTop atTop := Real.tendsto_log_atTop.comp tendsto_natCast_atTop_atTop
  have hsqrt : Tendsto (fun n : ℕ => √(n : ℝ)) atTop atTop := Real.tendsto_sqrt_atTop.comp tendsto_natCast_atTop_atTop
  have hε : ∀ A, Tendsto (phraseRate A) atTop (𝓝 0) := by
    intro A
    have h1 : Tendsto (fun n : ℕ => 1 / √(n : ℝ)) atTop (𝓝 0) := hsqrt.const_div_atTop 1
    have h2 : Tendsto (fun n : ℕ => 2 * A / Real.log n) atTop (𝓝 0) := hlog.const_div_atTop _
    have h := h1.add h2
    rw [add_zero] at h
    exact h.congr fun n => rfl
  have h1 := (hε (Real.log q + Real.log K + 3)).mul_const (Real.log s + Real.log K + 1 + B)
  have h2 := ((Real.continuous_sqrt.tendsto 0).comp (hε (Real.log q + Real.log K + 3))).const_mul 2
  have hln : Tendsto (fun n : ℕ => Real.log ((n : ℝ) + 1) / n) atTop (𝓝 0) := by
    have ha : Tendsto (fun x : ℝ => Real.log x / x) atTop (𝓝 0) := Real.isLittleO_log_id_atTop.tendsto_div_nhds_zero
    have hb : Tendsto (fun n : ℕ => (n : ℝ) + 1) atTop atTop := tendsto_atTop_add_const_right _ _ tendsto_natCast_atTop_atTop
    have hc := ha.comp hb
    have hd : Tendsto (fun n : ℕ => ((n : ℝ) + 1) / n) atTop (𝓝 1) := by
      have : Tendsto (fun n : ℕ => 1 + 1 / (n : ℝ)) atTop (𝓝 (1 + 0)) := tendsto_const_nhds.add tendsto_one_div_atTop_nhds_zero_nat
      rw [add_zero] at this
      refine this.congr' ?_
      filter_upwards [eventually_gt_atTop 0] with n hn
      have : (n : ℝ) ≠ 0 := by positivity
      field_simp
    have he := hc.mul hd
    rw [zero_mul] at he
    refine he.congr' ?_
    filter_upwards [eventually_gt_atTop 0] with n hn
    have h1 : (n : ℝ) ≠ 0 := by positivity
    have h2 : (n : ℝ) + 1 ≠ 0 := by positivity
    simp only [Function.comp]
    field_simp
  have h3 : Tendsto (fun n : ℕ => (1 + Real.log ((n : ℝ) + 1) + B) / n) atTop (𝓝 0) := by
    have := (tendsto_const_div_atTop_nhds_zero_nat (1 + B)).add hln
    rw [add_zero] at this
    refine this.congr fun n => ?_
    ring
  have h := (h1.add h2).add h3
  simp only [zero_mul, Real.sqrt_zero, mul_zero, add_zero] at h
  exact h.congr fun n => rfl

end Komm
