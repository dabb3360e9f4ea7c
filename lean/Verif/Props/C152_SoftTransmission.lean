import Verif.Props.C151_Transmission
import Verif.Props.C150_SoftRadius
import Verif.Props.C94_Marginalize
/-! C152: whole transmissions with soft decisions: encode blockwise, `NaturalLabeling(1)`, `PAMConstellation(2, delta)`, noise, then
`posteriors`, `marginalize` and a soft decoder. -/
namespace Komm
open Constellation NDArray Real

/-- `NaturalLabeling(1)`. -/
def bitLab : Lab := ⟨[[0], [1]], 1, 2⟩

example : naturalLab 1 = some bitLab ∧ reflectedLab 1 = some bitLab := by decide +kernel

/-- `lab.marginalize(const.posteriors(r, noise_power))`. -/
noncomputable def demap (δ σ : ℝ) (r : NDArray ℝ) : Option (List (Option EReal)) := do
  let p ← posteriorsArray false (pam (2 ^ bitLab.numBits) δ) r σ none
  bitLab.marginalize p.data

/-- The receiving half, soft: `decode(lab.marginalize(const.posteriors(r, noise_power)))`; by `C152_lvalues` no L-value is infinite. -/
noncomputable def softReceiver (decode : List ℝ → Option (List (ZMod 2))) (δ σ : ℝ) (r : NDArray ℝ) : Option (List (ZMod 2)) := do
  let l ← demap δ σ r
  decode (l.map fun x : Option EReal => (x.getD 0).toReal)

/-- `decode` of a soft-input block decoder (`@blockwise(self.code.length)`) in terms of its action on one word. -/
noncomputable def blockDecodeSoft {k n : Nat} (dec : (Fin n → ℝ) → Option (BVec k)) (l : List ℝ) : Option (List (ZMod 2)) :=
  blockwise n (fun row : List ℝ => (dec fun j : Fin n => row.getD j 0).map fun u => List.ofFn u) l

theorem pam_two (δ : ℝ) (i : Fin (2 ^ bitLab.numBits)) : pam (2 ^ bitLab.numBits) δ i 0 = δ * ((i.val : ℝ) - 1 / 2) := by
  have := pamPoint_eq 2 δ i.val i.isLt
  show pamPoint 2 δ i.val = _
  rw [this]; norm_num

theorem eq_flatten_blocks {α : Type} (m B : Nat) (hm : 0 < m) (d : List α) (hd : d.length = B * m) (gs : List (List α)) (hg : gs.length = B)
    (hlen : ∀ g ∈ gs, g.length = m) (h : ∀ q (hq : q < gs.length), block m q d = gs[q]) : d = gs.flatten := by
  apply List.ext_getElem?
  intro i
  by_cases hi : i < B * m
  · have hq : i / m < gs.length := by rw [hg]; exact Nat.div_lt_of_lt_mul (by rw [mul_comm]; exact hi)
    have h1 := take_drop_flatten m gs hlen (i / m) hq
    have h2 : (gs.flatten.drop (i / m * m)).take m = gs[i / m] := h1
    have h3 := h (i / m) hq
    rw [← h2] at h3
    have h4 := congrArg (fun l => l[i % m]?) h3
    simp only [block, List.getElem?_take, List.getElem?_drop, if_pos (Nat.mod_lt i hm), Nat.div_add_mod'] at h4
    exact h4
  · rw [List.getElem?_eq_none (by omega), List.getElem?_eq_none (by rw [length_flatten_rows m gs hlen, hg]; omega)]

/-- The L-values are finite and proportional to the received values: `-δ r / noise_power` for every received value `r`. -/
theorem C152_lvalues (δ σ : ℝ) (hσ : 0 < σ) (r : List ℝ) :
    demap δ σ ⟨[r.length], r⟩ = some (r.map fun x : ℝ => some ((-(δ / σ) * x : ℝ) : EReal)) := by
  have hw : validatePriors 2 none = some (List.replicate 2 (1 / ((2 : ℕ) : ℝ))) := by
    unfold validatePriors
    simp only [Option.getD_none]
    rw [if_neg, if_neg, if_neg]
    · simp
    · norm_num [List.replicate]
    · rw [not_not]
      intro x hx
      rw [List.eq_of_mem_replicate hx]; positivity
  obtain ⟨b, hb, hbs, hbw, hbd⟩ := C109_posteriors (M := 2 ^ bitLab.numBits) (N := 1) (by norm_num) false (pam (2 ^ bitLab.numBits) δ) ⟨[r.length], r⟩
    (by simp [WF]) [] r.length rfl (Nat.mod_one _) (by simp) σ none _ hw
  rw [Nat.div_one] at hbs hbd
  obtain ⟨sh, bd⟩ := b
  simp only [List.nil_append] at hbs
  subst hbs
  have hbl0 : bd.length = r.length * 2 ^ bitLab.numBits := by simpa [WF] using hbw
  have hbl : bd.length = r.length * 2 := hbl0
  set w : Fin (2 ^ bitLab.numBits) → ℝ := fun i => (List.replicate 2 (1 / ((2 : ℕ) : ℝ))).getD i.val 0 with hwdef
  have hwv : ∀ i, w i = 1 / 2 := by
    intro i
    have : i.val < 2 := i.isLt
    rw [hwdef]
    simp only
    rw [List.getD_eq_getElem _ _ (by simpa using this), List.getElem_replicate]; norm_num
  let gs : List (List ℝ) := r.map fun x : ℝ => List.ofFn (posteriors false (pam (2 ^ bitLab.numBits) δ) (fun _ => x) σ w)
  have hgl : ∀ g ∈ gs, g.length = 2 := by
    intro g hg; obtain ⟨x, _, rfl⟩ := List.mem_map.mp hg; rw [List.length_ofFn]; rfl
  have hflat : bd = gs.flatten := by
    apply eq_flatten_blocks 2 r.length (by norm_num) bd hbl gs (by simp [gs]) hgl
    intro q hq
    have hq' : q < r.length := by simpa [gs] using hq
    have h1 := hbd 0 (by simp) q hq'
    rw [row_one _ _ (by rw [hbl]; rfl), row_one _ _ rfl] at h1
    refine h1.trans ?_
    simp only [gs, List.getElem_map]
    congr 2
    funext j
    have hj : j = 0 := Subsingleton.elim _ _
    subst hj
    simp only [vec, block, Fin.val_zero, Nat.mul_one]
    rw [List.getD_eq_getElem?_getD, List.getElem?_take, if_pos (by norm_num), List.getElem?_drop, Nat.add_zero, List.getElem?_eq_getElem hq']
    rfl
  unfold demap
  simp only [Option.bind_eq_bind, hb, Option.bind_some]
  rw [hflat, C94_value bitLab rfl (by decide) gs hgl]
  congr 1
  simp only [gs, List.flatMap_map]
  rw [← List.flatMap_singleton' (r.map _), List.flatMap_map]
  apply List.flatMap_congr
  intro x _
  have hnum : List.range bitLab.numBits = [0] := rfl
  rw [hnum, List.map_singleton]
  congr 1
  set p := posteriors false (pam (2 ^ bitLab.numBits) δ) (fun _ => x) σ w with hp
  have e : ∀ y (h : y < 2 ^ bitLab.numBits), (List.ofFn p).getD y 0 = p ⟨y, h⟩ := by
    intro y h
    rw [List.getD_eq_getElem _ _ (by rw [List.length_ofFn]; exact h), List.getElem_ofFn]
  set i0 : Fin (2 ^ bitLab.numBits) := ⟨0, by decide⟩ with hi0
  set i1 : Fin (2 ^ bitLab.numBits) := ⟨1, by decide⟩ with hi1
  have h0 : bitMass bitLab (List.ofFn p) 0 0 = p i0 := by
    rw [← e 0 (by decide)]
    unfold bitMass
    have hlen : bitLab.matrix.length = 2 := rfl
    rw [hlen, Finset.sum_filter, Finset.sum_range_succ, Finset.sum_range_one]
    simp [bitLab]
  have h1 : bitMass bitLab (List.ofFn p) 0 1 = p i1 := by
    rw [← e 1 (by decide)]
    unfold bitMass
    have hlen : bitLab.matrix.length = 2 := rfl
    rw [hlen, Finset.sum_filter, Finset.sum_range_succ, Finset.sum_range_one]
    simp [bitLab]
  rw [h0, h1]
  have hpi : ∀ i, p i = 1 / 2 * exp (-(x - pam (2 ^ bitLab.numBits) δ i 0) ^ 2 / (2 * σ)) /
      ∑ k, 1 / 2 * exp (-(x - pam (2 ^ bitLab.numBits) δ k 0) ^ 2 / (2 * σ)) := by
    intro i
    have hsq : ∀ k, sqDist (pam (2 ^ bitLab.numBits) δ) (fun _ => x) k = (x - pam (2 ^ bitLab.numBits) δ k 0) ^ 2 := by
      intro k
      rw [sqDist, Fin.sum_univ_one, Real.norm_eq_abs, sq_abs]
    rw [hp, posteriors_eq _ _ _ _ _ (fun i => by rw [hwv]; norm_num)]
    simp only [hwv, hsq, Bool.false_eq_true, if_false]
  set Z := ∑ k, 1 / 2 * exp (-(x - pam (2 ^ bitLab.numBits) δ k 0) ^ 2 / (2 * σ)) with hZ
  have hZpos : 0 < Z := Finset.sum_pos (fun k _ => by positivity) ⟨⟨0, by decide⟩, Finset.mem_univ _⟩
  have hpos : ∀ i, 0 < p i := fun i => by rw [hpi]; positivity
  rw [logRatio, if_neg (hpos i0).ne', if_neg (hpos i1).ne']
  congr 2
  have hlog : ∀ i, log (p i) = log (1 / 2) - log Z + -(x - pam (2 ^ bitLab.numBits) δ i 0) ^ 2 / (2 * σ) := by
    intro i
    rw [hpi, log_div (by positivity) hZpos.ne', log_mul (by norm_num) (exp_pos _).ne', log_exp]; ring
  rw [hlog, hlog, pam_two, pam_two]
  have v0 : ((i0.val : Nat) : ℝ) = 0 := by norm_num [hi0]
  have v1 : ((i1.val : Nat) : ℝ) = 1 := by norm_num [hi1]
  rw [v0, v1]
  field_simp
  ring

/-- What is transmitted: `-δ/2` for a zero, `+δ/2` for a one. -/
theorem C152_symbols (encode : List (ZMod 2) → Option (List (ZMod 2))) (δ : ℝ) (u v : List (ZMod 2)) (hE : encode u = some v) (hv : v ≠ []) :
    transmitter encode bitLab (pam (2 ^ bitLab.numBits) δ) u = some ⟨[v.length], v.map fun b : ZMod 2 => -(δ / 2) * (-1) ^ b.val⟩ := by
  have ht : IsLabelTable bitLab.numBits bitLab.matrix := by
    exact naturalTable 1
  have hvb : ∀ b ∈ v.map (fun b : ZMod 2 => b.val), b = 0 ∨ b = 1 := by
    intro b hb
    obtain ⟨x, _, rfl⟩ := List.mem_map.mp hb
    exact (by decide : ∀ x : ZMod 2, x.val = 0 ∨ x.val = 1) x
  obtain ⟨l, s, h1, h2, h3, h4, h5, h6, h7⟩ := C119_modulate bitLab (by decide) rfl ht (pam (2 ^ bitLab.numBits) δ)
    (v.map fun b : ZMod 2 => b.val) (by simpa using hv) (one_dvd _) hvb
  have hrow : ∀ l : List Nat, (∀ i ∈ l, i < 2 ^ bitLab.numBits) → (l.map fun i => bitLab.matrix.getD i []).flatten = l := by
    intro l
    induction l with
    | nil => intro _; rfl
    | cons a l ih =>
      intro h
      rw [List.map_cons, List.flatten_cons, ih fun i hi => h i (List.mem_cons_of_mem _ hi)]
      have ha : a < 2 := h a List.mem_cons_self
      interval_cases a <;> rfl
  rw [indicesToBits_map bitLab rfl ht l h2, hrow l h2, Option.some.injEq] at h4
  subst h4
  have h1' : bitLab.bitsToIndices (v.map fun b : ZMod 2 => (b.val : Int)) = some (v.map fun b : ZMod 2 => b.val) := by
    rw [← h1, List.map_map]; rfl
  simp only [transmitter, hE, Option.bind_eq_bind, Option.bind_some, h1', h5]
  rw [List.length_map] at h6
  simp only [List.length_map, Nat.mul_one]
  congr 2
  apply List.ext_getElem (by simpa using h6)
  intro q q1 q2
  have hq : q < v.length := by simpa using q2
  obtain ⟨i, hi, hs⟩ := h7 q (by simpa using hq)
  have := congrFun hs 0
  rw [pam_two, ← hi] at this
  simp only [vec, block, Fin.val_zero, Nat.mul_one, List.getElem_map] at this
  rw [List.getD_eq_getElem?_getD, List.getElem?_take, if_pos (by norm_num), List.getElem?_drop, Nat.add_zero,
    List.getElem?_eq_getElem q1, Option.getD_some] at this
  rw [this, List.getElem_map]
  rcases (by decide : ∀ x : ZMod 2, x.val = 0 ∨ x.val = 1) v[q] with e | e <;> rw [e] <;> norm_num <;> ring

theorem getD_rows {α : Type} (d : α) {n : Nat} (hn : 0 < n) (ws : List (Fin n → α)) (b : Nat) (hb : b < ws.length) (j : Fin n) :
    (ws.flatMap fun w : Fin n → α => List.ofFn w).getD (b * n + j) d = ws[b] j := by
  rw [List.flatMap_def, getElem_flatten_rows n hn _ (by
    intro r hr; obtain ⟨w, _, rfl⟩ := List.mem_map.mp hr; simp) d (b * n + j) (by
    rw [List.length_map]
    have := j.isLt
    calc b * n + j < b * n + n := by omega
      _ = (b + 1) * n := by ring
      _ ≤ ws.length * n := Nat.mul_le_mul_right _ hb)]
  have e1 : (b * n + j) / n = b := by
    rw [mul_comm, Nat.mul_add_div hn, Nat.div_eq_of_lt j.isLt, add_zero]
  have e2 : (b * n + j) % n = j := by
    rw [mul_comm, Nat.mul_add_mod, Nat.mod_eq_of_lt j.isLt]
  have e3 : (ws.map fun w : Fin n → α => List.ofFn w).getD b [] = List.ofFn ws[b] := by
    rw [List.getD_eq_getElem _ _ (by simpa using hb), List.getElem_map]
  rw [e1, e2, e3, List.getD_eq_getElem _ _ (by simp)]
  simp

theorem exists_real_rows {α : Type} (d : α) {n : Nat} (B : Nat) (x : List α) (hx : x.length = B * n) :
    ∃ ws : List (Fin n → α), ws.length = B ∧ x = ws.flatMap fun w : Fin n → α => List.ofFn w := by
  refine ⟨List.ofFn fun b : Fin B => fun j : Fin n => x.getD (b * n + j) d, by simp, ?_⟩
  have h1 : x = List.ofFn fun i : Fin (B * n) => x.getD i d := by
    apply List.ext_getElem (by simp [hx])
    intro i h1 h2
    rw [List.getElem_ofFn, List.getD_eq_getElem _ _ h1]
  rw [List.ofFn_mul] at h1
  conv_lhs => rw [h1]
  rw [List.flatMap_def, List.map_ofFn]
  rfl

/-- The chain in general.  `E` is what the encoder does to one message; the soft decoder copes with noise of squared length below `ρ` in
every word, whatever positive gain it is presented with.  Then every bit of the message arrives, for every noise vector below that bound and
every `noise_power` the receiver may assume. -/
theorem C152_chain {K n : Nat} (hn : 0 < n) (E : BVec K → BVec n) (encode : List (ZMod 2) → Option (List (ZMod 2)))
    (decode : List ℝ → Option (List (ZMod 2))) (us : List (BVec K)) (hne : us ≠ [])
    (hE : encode (us.flatMap fun u : BVec K => List.ofFn u) = some (us.flatMap fun u : BVec K => List.ofFn (E u)))
    (δ ρ : ℝ) (hδ : 0 < δ)
    (hD : ∀ g : ℝ, 0 < g → ∀ zs : List (Fin n → ℝ), zs.length = us.length → (∀ z ∈ zs, ∑ j, z j ^ 2 < ρ) →
      decode (((us.zip zs).map fun p : BVec K × (Fin n → ℝ) => received g (δ / 2) (E p.1) p.2).flatMap fun w : Fin n → ℝ => List.ofFn w) =
        some (us.flatMap fun u : BVec K => List.ofFn u)) :
    ∃ s, transmitter encode bitLab (pam (2 ^ bitLab.numBits) δ) (us.flatMap fun u : BVec K => List.ofFn u) = some ⟨[us.length * n], s⟩ ∧
      s.length = us.length * n ∧
      ∀ (σ : ℝ), 0 < σ → ∀ r : List ℝ, r.length = s.length →
        (∀ b < us.length, ∑ j : Fin n, (r.getD (b * n + j) 0 - s.getD (b * n + j) 0) ^ 2 < ρ) →
        softReceiver decode δ σ ⟨[us.length * n], r⟩ = some (us.flatMap fun u : BVec K => List.ofFn u) := by
  obtain ⟨v, hv⟩ : ∃ v, v = us.flatMap fun u : BVec K => List.ofFn (E u) := ⟨_, rfl⟩
  have hvl : v.length = us.length * n := by
    rw [hv, List.flatMap_def, length_flatten_rows n _ (by
      intro r hr; obtain ⟨w, _, rfl⟩ := List.mem_map.mp hr; simp), List.length_map]
  have hul : 0 < us.length := List.length_pos_of_ne_nil hne
  have hvne : v ≠ [] := by
    intro e
    have := congrArg List.length e
    rw [hvl, List.length_nil] at this
    exact absurd this (Nat.mul_pos hul hn).ne'
  have hsym := C152_symbols encode δ _ v (hE.trans (by rw [hv])) hvne
  rw [hvl] at hsym
  refine ⟨_, hsym, by rw [List.length_map, hvl], ?_⟩
  intro σ hσ r hr hnoise
  rw [List.length_map, hvl] at hr
  obtain ⟨rs, hrs, hre⟩ := exists_real_rows (0 : ℝ) us.length r hr
  have hlv := C152_lvalues δ σ hσ r
  rw [hr] at hlv
  simp only [softReceiver, hlv, Option.bind_eq_bind, Option.bind_some, List.map_map]
  have hfun : ((fun x : Option EReal => (x.getD 0).toReal) ∘ fun x : ℝ => some ((-(δ / σ) * x : ℝ) : EReal)) = fun x : ℝ => -(δ / σ) * x := by
    funext x; simp only [Function.comp_apply, Option.getD_some, EReal.toReal_coe]
  rw [hfun]
  -- the noise, with the sign the demapper gives it
  let zs : List (Fin n → ℝ) := (us.zip rs).map fun p : BVec K × (Fin n → ℝ) => fun j => -(p.2 j - -(δ / 2) * (-1) ^ (E p.1 j).val)
  have hzl : zs.length = us.length := by simp [zs, hrs]
  have hgain : 0 < δ / σ := div_pos hδ hσ
  rw [← hD (δ / σ) hgain zs hzl ?_]
  · congr 1
    rw [hre, List.map_flatMap]
    have hmap : ((us.zip zs).map fun p : BVec K × (Fin n → ℝ) => received (δ / σ) (δ / 2) (E p.1) p.2) =
        rs.map fun w : Fin n → ℝ => fun j => -(δ / σ) * w j := by
      apply List.ext_getElem (by simp [hzl, hrs])
      intro b b1 b2
      simp only [List.getElem_map, List.getElem_zip, zs]
      funext j
      simp only [received]
      ring
    rw [hmap, List.flatMap_map]
    apply List.flatMap_congr
    intro w _
    rw [List.map_ofFn]; rfl
  · intro z hz
    obtain ⟨b, hb, rfl⟩ := List.getElem_of_mem hz
    have hb' : b < us.length := by omega
    refine lt_of_eq_of_lt ?_ (hnoise b hb')
    apply Finset.sum_congr rfl
    intro j _
    have a1 := getD_rows (0 : ℝ) hn rs b (by omega) j
    have a2 := getD_rows (0 : ZMod 2) hn (us.map E) b (by simpa using hb') j
    rw [List.getElem_map, List.flatMap_map, ← hv] at a2
    have hidx : b * n + j < v.length := by
      rw [hvl]
      have := j.isLt
      calc b * n + j < b * n + n := by omega
        _ = (b + 1) * n := by ring
        _ ≤ us.length * n := Nat.mul_le_mul_right _ hb'
    have a3 : (v.map fun b : ZMod 2 => -(δ / 2) * (-1 : ℝ) ^ b.val).getD (b * n + j) 0 = -(δ / 2) * (-1) ^ (E us[b] j).val := by
      rw [List.getD_eq_getElem _ _ (by simpa using hidx), List.getElem_map, ← a2, List.getD_eq_getElem _ _ hidx]
    rw [hre, a1, a3]
    simp only [zs, List.getElem_map, List.getElem_zip]
    ring

theorem blockDecodeSoft_words {K n : Nat} (hn : 0 < n) (dec : (Fin n → ℝ) → Option (BVec K)) (us : List (BVec K)) (ws : List (Fin n → ℝ))
    (hl : ws.length = us.length) (h : ∀ b (h1 : b < us.length) (h2 : b < ws.length), dec ws[b] = some us[b]) :
    blockDecodeSoft dec (ws.flatMap fun w : Fin n → ℝ => List.ofFn w) = some (us.flatMap fun u : BVec K => List.ofFn u) := by
  have hvl : ∀ w : Fin n → ℝ, (fun j : Fin n => (List.ofFn w).getD j 0) = w := by
    intro w; funext i; rw [List.getD_eq_getElem _ _ (by simp)]; simp
  rw [List.flatMap_def, blockDecodeSoft, blockwise_flatten n hn _ (fun row => List.ofFn ((dec fun j : Fin n => row.getD j 0).getD 0))]
  · rw [List.flatMap_def, List.map_map]
    congr 2
    apply List.ext_getElem (by simp [hl])
    intro b h1 h2
    simp only [List.getElem_map, Function.comp_apply, hvl]
    rw [h b (by simpa using h2) (by simpa using h1)]
    rfl
  · intro r hr; obtain ⟨w, _, rfl⟩ := List.mem_map.mp hr; simp
  · intro r hr
    obtain ⟨w, hw, rfl⟩ := List.mem_map.mp hr
    obtain ⟨b, hb, rfl⟩ := List.getElem_of_mem hw
    rw [hvl, h b (by omega) hb]
    rfl

/-- Any block code with a soft decoder of a known radius. -/
theorem C152_block {K M n : Nat} (c : LinCode K M n) (h : c.Lawful) (hK : 1 ≤ K) (dec : (Fin n → ℝ) → Option (BVec K)) (d : Nat)
    (hdec : ∀ g A : ℝ, 0 < g → 0 < A → ∀ u z, ∑ j, z j ^ 2 < A ^ 2 * d → dec (received g A (c.encode u) z) = some u)
    (us : List (BVec K)) (hne : us ≠ []) (δ : ℝ) (hδ : 0 < δ) :
    ∃ s, transmitter c.encodeStream bitLab (pam (2 ^ bitLab.numBits) δ) (us.flatMap fun u : BVec K => List.ofFn u) =
        some ⟨[us.length * n], s⟩ ∧ s.length = us.length * n ∧
      ∀ (σ : ℝ), 0 < σ → ∀ r : List ℝ, r.length = s.length →
        (∀ b < us.length, ∑ j : Fin n, (r.getD (b * n + j) 0 - s.getD (b * n + j) 0) ^ 2 < (δ / 2) ^ 2 * d) →
        softReceiver (blockDecodeSoft dec) δ σ ⟨[us.length * n], r⟩ = some (us.flatMap fun u : BVec K => List.ofFn u) := by
  have hn0 : 0 < n := by have := h.dim; omega
  refine C152_chain hn0 c.encode c.encodeStream (blockDecodeSoft dec) us hne (C41_stream c h hK us).1 δ _ hδ ?_
  intro g hg zs hzl hz
  apply blockDecodeSoft_words hn0 dec us _ (by simp [hzl])
  intro b h1 h2
  simp only [List.getElem_map, List.getElem_zip]
  exact hdec g (δ / 2) hg (by positivity) _ _ (hz _ (List.getElem_mem _))

/-- `ExhaustiveSearchDecoder(code, "soft")`. -/
theorem C152_exhaustive {K M n : Nat} (c : LinCode K M n) (h : c.Lawful) (hK : 1 ≤ K) (d : Nat) (hd : c.minimumDistance = some d)
    (us : List (BVec K)) (hne : us ≠ []) (δ : ℝ) (hδ : 0 < δ) :
    ∃ s, transmitter c.encodeStream bitLab (pam (2 ^ bitLab.numBits) δ) (us.flatMap fun u : BVec K => List.ofFn u) =
        some ⟨[us.length * n], s⟩ ∧ s.length = us.length * n ∧
      ∀ (σ : ℝ), 0 < σ → ∀ r : List ℝ, r.length = s.length →
        (∀ b < us.length, ∑ j : Fin n, (r.getD (b * n + j) 0 - s.getD (b * n + j) 0) ^ 2 < (δ / 2) ^ 2 * d) →
        softReceiver (blockDecodeSoft (exhaustiveSoft c)) δ σ ⟨[us.length * n], r⟩ = some (us.flatMap fun u : BVec K => List.ofFn u) :=
  C152_block c h hK _ d (fun g A hg hA u z hz => C150_exhaustive c h d hd g A hg hA u z hz) us hne δ hδ

/-- `SingleParityCheckCode(n)` with `WagnerDecoder`. -/
theorem C152_wagner {n : Nat} (hn : 1 ≤ n) : ∃ c, singleParityCheckCode (n + 1) = some c ∧
    ∀ (us : List (BVec (n + 1 - 1))), us ≠ [] → ∀ δ : ℝ, 0 < δ →
    ∃ s, transmitter c.encodeStream bitLab (pam (2 ^ bitLab.numBits) δ) (us.flatMap fun u : BVec (n + 1 - 1) => List.ofFn u) =
        some ⟨[us.length * (n + 1)], s⟩ ∧ s.length = us.length * (n + 1) ∧
      ∀ (σ : ℝ), 0 < σ → ∀ r : List ℝ, r.length = s.length →
        (∀ b < us.length, ∑ j : Fin (n + 1), (r.getD (b * (n + 1) + j) 0 - s.getD (b * (n + 1) + j) 0) ^ 2 < (δ / 2) ^ 2 * 2) →
        softReceiver (blockDecodeSoft fun w => some (wagnerDecode c w)) δ σ ⟨[us.length * (n + 1)], r⟩ =
          some (us.flatMap fun u : BVec (n + 1 - 1) => List.ofFn u) := by
  obtain ⟨c, h1, h2, _⟩ := C49_single_parity_check (n := n + 1) (by omega)
  refine ⟨c, h1, fun us hne δ hδ => ?_⟩
  exact C152_block c h2 (by omega) (fun w => some (wagnerDecode c w)) 2 (fun g A hg hA u z hz => by
    obtain ⟨c', h1', h3⟩ := C150_wagner (n := n) g A hg hA
    rw [h1, Option.some.injEq] at h1'
    subst h1'
    rw [h3 u z (by exact_mod_cast hz)]) us hne δ hδ

theorem viterbiSoft_words {k n σ : Nat} (t : Terminated k n σ) (ht : 0 < t.length) (rs : List (Fin t.length → ℝ)) (us : List (BVec t.dimension))
    (hl : rs.length = us.length)
    (h : ∀ i (h1 : i < rs.length) (h2 : i < us.length), t.viterbiSoft (List.ofFn rs[i]) = some (List.ofFn us[i])) :
    t.viterbiSoft (rs.flatMap fun r : Fin t.length → ℝ => List.ofFn r) = some (us.flatMap fun u : BVec t.dimension => List.ofFn u) := by
  have hb : ∀ r : Fin t.length → ℝ, t.viterbiSoft (List.ofFn r) = t.viterbiBlock (softMetric n) (List.ofFn r) := by
    intro r
    cases hx : t.viterbiBlock (softMetric n) (List.ofFn r) with
    | some o => exact StateSpace.blockwise_one _ ht _ _ (by simp) _ hx
    | none =>
      rw [Terminated.viterbiSoft, blockwise, if_neg (by omega), if_neg (by simp)]
      have : chunks t.length (List.ofFn r) = [List.ofFn r] := by
        have := chunks_flatten t.length ht [List.ofFn r] (by simp)
        simpa using this
      rw [this, List.mapM_cons, hx]; rfl
  have := blockwise_flatten t.length ht (t.viterbiBlock (softMetric n)) (fun l => (t.viterbiBlock (softMetric n) l).getD [])
    (rs.map fun r : Fin t.length → ℝ => List.ofFn r) (by simp) (by
      intro l hl'
      obtain ⟨r, hr, rfl⟩ := List.mem_map.mp hl'
      obtain ⟨i, hi, rfl⟩ := List.mem_iff_getElem.mp hr
      rw [← hb, h i hi (by omega)]; rfl)
  rw [List.flatMap_def, List.flatMap_def, Terminated.viterbiSoft, this, List.map_map]
  congr 2
  apply List.ext_getElem
  · simp [hl]
  · intro i h1 h2
    simp only [List.length_map] at h1 h2
    simp only [List.getElem_map, Function.comp]
    rw [← hb, h i h1 h2]; rfl

/-- Zero-terminated convolutional codes of rate `1/ν` with the soft `ViterbiDecoder`: the radius is given by `free_distance()`. -/
theorem C152_viterbi {ν : Nat} (c : ConvCode 1 ν) (hν0 : 0 < ν) (hq : (toPoly (c.feedback 0)).coeff 0 = 1)
    (hgen : ∃ j, c.feedforward 0 j ≠ 0) (hν : 1 ≤ c.constraintLength 0) (h : Nat) (hh : 1 ≤ h)
    (fuel d : Nat) (hdf : c.stateSpace.freeDistance fuel = some (some d)) (t : Terminated 1 ν c.degree)
    (htt : t = ⟨c.stateSpace, c.memoryOrder, h, .zeroTermination⟩) (us : List (BVec t.dimension)) (hne : us ≠ []) (δ : ℝ) (hδ : 0 < δ) :
    ∃ s, transmitter t.encodeBlocks bitLab (pam (2 ^ bitLab.numBits) δ) (us.flatMap fun u : BVec t.dimension => List.ofFn u) =
        some ⟨[us.length * t.length], s⟩ ∧ s.length = us.length * t.length ∧
      ∀ (σ : ℝ), 0 < σ → ∀ r : List ℝ, r.length = s.length →
        (∀ b < us.length, ∑ j : Fin t.length, (r.getD (b * t.length + j) 0 - s.getD (b * t.length + j) 0) ^ 2 < (δ / 2) ^ 2 * d) →
        softReceiver t.viterbiSoft δ σ ⟨[us.length * t.length], r⟩ = some (us.flatMap fun u : BVec t.dimension => List.ofFn u) := by
  have hμ : 1 ≤ c.memoryOrder := by
    have : c.constraintLength 0 ≤ c.memoryOrder :=
      (ConvCode.foldl_max_nat _ 0).2 _ (List.mem_map.mpr ⟨0, List.mem_finRange 0, rfl⟩)
    omega
  have hlen : t.length = (h + c.memoryOrder) * ν ∧ t.dimension = h * 1 := by
    obtain ⟨_, _, _, _, _, _, _, _, a, b⟩ := zeroTermination_spec c.stateSpace (by norm_num) c.memoryOrder h hμ hh c.controllable t htt 0
    exact ⟨a, b⟩
  have henc : ∀ u : BVec t.dimension, ∃ v : BVec t.length, t.encode u = some (List.ofFn v) := by
    intro u
    obtain ⟨_, out, _, _, _, _, g5, g6, g7, _⟩ := zeroTermination_spec c.stateSpace (by norm_num) c.memoryOrder h hμ hh c.controllable t htt u
    refine ⟨vecOfList t.length out, ?_⟩
    rw [g5]
    congr 1
    apply List.ext_getElem
    · rw [List.length_ofFn, g6, g7]
    · intro i i1 i2
      rw [List.getElem_ofFn, vecOfList, List.getD_eq_getElem _ _ i1]
  choose E hE using henc
  have ht0 : 0 < t.length := by rw [hlen.1]; positivity
  have hk0 : 0 < t.dimension := by rw [hlen.2]; omega
  refine C152_chain ht0 E t.encodeBlocks t.viterbiSoft us hne ?_ δ _ hδ ?_
  · have hvl : ∀ u : BVec t.dimension, vecOfList t.dimension (List.ofFn u) = u := words_ofFn
    rw [List.flatMap_def, Terminated.encodeBlocks,
      blockwise_flatten t.dimension hk0 _ (fun row => List.ofFn (E (vecOfList t.dimension row)))]
    · rw [List.flatMap_def, List.map_map]
      congr 2
      apply List.map_congr_left
      intro u _
      simp only [Function.comp_apply, hvl]
    · intro r hr; obtain ⟨w, _, rfl⟩ := List.mem_map.mp hr; simp
    · intro r hr
      obtain ⟨w, hw, rfl⟩ := List.mem_map.mp hr
      rw [hvl, hE]
  · intro g hg zs hzl hz
    apply viterbiSoft_words t ht0 _ us (by simp [hzl])
    intro b h1 h2
    simp only [List.getElem_map, List.getElem_zip]
    exact C150_viterbi_rate_one c hν0 hq hgen hν h hh fuel d hdf t htt g (δ / 2) hg (by positivity) us[b] (E us[b]) (hE _) _
      (hz _ (List.getElem_mem _))

/-- The soft receiver beats the hard one: the documented (6, 3) code, two blocks, `PAMConstellation(2, 2.0)`; the first two symbols of
the first block are received on the wrong side of zero (two wrong hard decisions, one more than the code corrects), and the message arrives. -/
example : ∃ c s, blockCodeOfGenerator exG = some c ∧
    transmitter c.encodeStream bitLab (pam (2 ^ bitLab.numBits) 2) [1, 0, 1, 0, 1, 1] = some ⟨[12], s⟩ ∧ s.length = 12 ∧
    ∀ σ : ℝ, 0 < σ → softReceiver (blockDecodeSoft (exhaustiveSoft c)) 2 σ
      ⟨[12], ((s.set 0 (-(s.getD 0 0) / 10)).set 1 (-(s.getD 1 0) / 10))⟩ = some [1, 0, 1, 0, 1, 1] := by
  have hG : LinearIndependent (ZMod 2) exG := by
    rw [linearIndependent_iff_card_eq_finrank_span, Fintype.card_fin, Set.finrank, ← rank_spec]; decide +kernel
  obtain ⟨c, h1, _, h3⟩ := C41_generator exG hG
  have hd : c.minimumDistance = some 3 := by
    have : (blockCodeOfGenerator exG).bind (fun c => c.minimumDistance) = some 3 := by decide +kernel
    rw [h1] at this; exact this
  obtain ⟨s, s1, s2, s3⟩ := C152_exhaustive c h3 (by norm_num) 3 hd [![1, 0, 1], ![0, 1, 1]] (by simp) 2 (by norm_num)
  have e : [![(1 : ZMod 2), 0, 1], ![0, 1, 1]].flatMap (fun u : BVec 3 => List.ofFn u) = [1, 0, 1, 0, 1, 1] := by decide +kernel
  rw [e] at s1 s3
  refine ⟨c, s, h1, s1, s2, fun σ hσ => s3 σ hσ _ (by simp) fun b hb => ?_⟩
  have hv : (c.encodeStream [1, 0, 1, 0, 1, 1]) = some ((c.encodeStream [1, 0, 1, 0, 1, 1]).getD []) := by
    have := (C41_stream c h3 (by norm_num) [![1, 0, 1], ![0, 1, 1]]).1
    rw [e] at this
    rw [this]; rfl
  have habs : ∀ i < 12, (s.getD i 0) ^ 2 = 1 := by
    have hlen : ((c.encodeStream [1, 0, 1, 0, 1, 1]).getD []) ≠ [] := by
      have := (C41_stream c h3 (by norm_num) [![1, 0, 1], ![0, 1, 1]]).1
      rw [e] at this
      rw [this]; simp [List.ofFn_succ]
    have hs := C152_symbols c.encodeStream 2 _ _ hv hlen
    rw [s1, Option.some.injEq, NDArray.mk.injEq] at hs
    intro i hi
    rw [hs.2] at s2 ⊢
    have s2' : _ = 12 := s2
    rw [List.getD_eq_getElem _ _ (by rw [s2']; exact hi), List.getElem_map]
    rw [mul_pow, sign_sq]; norm_num
  have hb2 : b < 2 := hb
  have hset : ∀ i, ((s.set 0 (-(s.getD 0 0) / 10)).set 1 (-(s.getD 1 0) / 10)).getD i 0 - s.getD i 0 =
      if i < 2 then -(11 / 10) * s.getD i 0 else 0 := by
    intro i
    have s2' : s.length = 12 := s2
    simp only [List.getD_eq_getElem?_getD, List.getElem?_set, List.length_set, s2']
    rcases i with _ | _ | i
    · simp; ring
    · simp; ring
    · simp
  have hsq : ∀ i, (((s.set 0 (-(s.getD 0 0) / 10)).set 1 (-(s.getD 1 0) / 10)).getD i 0 - s.getD i 0) ^ 2 =
      if i < 2 then 121 / 100 else 0 := by
    intro i
    rw [hset]
    by_cases hi : i < 2
    · rw [if_pos hi, if_pos hi, mul_pow, habs i (by omega)]; norm_num
    · rw [if_neg hi, if_neg hi]; norm_num
  rw [Finset.sum_congr rfl fun j _ => hsq _]
  interval_cases b <;> simp [Fin.sum_univ_succ] <;> norm_num

end Komm
