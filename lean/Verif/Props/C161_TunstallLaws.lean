import Verif.Props.C100_Rates

/-! C161: laws of the rates of Tunstall codes. -/
namespace Komm
namespace TunstallLaws

/-- `σ` maps positions of `l'` to positions of `l` holding the same entry. -/
theorem relabel {l l' : List ℚ} (h : l.Perm l') : ∃ σ : Equiv.Perm ℕ, (∀ a, σ a < l.length ↔ a < l.length) ∧ ∀ a, l.getD (σ a) 0 = l'.getD a 0 := by
  induction h with
  | nil => exact ⟨1, fun a => .rfl, fun a => by simp⟩
  | @cons x l₁ l₂ h ih =>
    obtain ⟨σ, h1, h2⟩ := ih
    refine ⟨⟨fun | 0 => 0 | a + 1 => σ a + 1, fun | 0 => 0 | a + 1 => σ.symm a + 1, by rintro (_ | a) <;> simp, by rintro (_ | a) <;> simp⟩, ?_, ?_⟩
    · rintro (_ | a)
      · simp
      · simpa using h1 a
    · rintro (_ | a)
      · simp
      · simpa using h2 a
  | swap x y l =>
    refine ⟨Equiv.swap 0 1, ?_, ?_⟩
    · rintro (_ | _ | a)
      · simp
      · simp
      · rw [Equiv.swap_apply_of_ne_of_ne (by omega) (by omega)]
    · rintro (_ | _ | a)
      · simp
      · simp
      · rw [Equiv.swap_apply_of_ne_of_ne (by omega) (by omega)]; simp
  | trans h₁ h₂ ih₁ ih₂ =>
    obtain ⟨σ, h1, h2⟩ := ih₁
    obtain ⟨τ, h3, h4⟩ := ih₂
    refine ⟨τ.trans σ, fun a => ?_, fun a => ?_⟩
    · rw [Equiv.trans_apply, h1, h₁.length_eq, h3]
    · rw [Equiv.trans_apply, h2, h4]

theorem zip_snd (A W : List Word) (h : W.length ≤ A.length) : (A.zip W).map Prod.snd = W := by
  rw [List.map_snd_zip h]

/-- no other parse tree with at most as many words has a larger expected word length -/
theorem best (pmf : List ℚ) (hp : IsPmf pmf) (n : Nat) (hS : 2 ≤ pmf.length) (hn : pmf.length ≤ 2 ^ n)
    (choose : List TNode → Nat) (hc : MaxChoice choose) : ∃ c, tunstallCode pmf n choose = some c ∧
    c.rate pmf = some (n / expectedWordLength c.sourcewords pmf) ∧ 1 ≤ expectedWordLength c.sourcewords pmf ∧
    PrefixFree c.sourcewords ∧ FullyCovering c.sourcewords pmf.length ∧ (∀ w ∈ c.sourcewords, w ≠ [] ∧ ∀ a ∈ w, a < pmf.length) ∧
    c.sourcewords.length = pmf.length + tunstallRounds pmf.length n * (pmf.length - 1) ∧
    ∀ W : List Word, PrefixFree W → FullyCovering W pmf.length → (∀ w ∈ W, w ≠ [] ∧ ∀ a ∈ w, a < pmf.length) → W.length ≤ c.sourcewords.length →
      expectedWordLength W pmf ≤ expectedWordLength c.sourcewords pmf := by
  obtain ⟨c, r, h1, hr, hopt⟩ := C101_tunstall_optimal pmf hp n hS hn choose hc
  obtain ⟨c₁, g1, hpf, hcov, hnd, hw, hle, -⟩ := C30_tunstall_tree pmf n hS hn choose hc.valid
  rw [h1] at g1; cases g1
  obtain ⟨c₁, g1, -, -, hlen, -, -⟩ := tunstallCode_spec pmf n hS hn hc.valid
  rw [h1] at g1; cases g1
  have hcr : VFCode.create 2 pmf.length n (tunstallMapping pmf n choose) = some c := by
    unfold tunstallCode at h1
    split at h1; · cases h1
    split at h1; · cases h1
    exact h1
  obtain ⟨-, -, hn1, -, -, hcc⟩ := VFCode.create_facts hcr
  have hts : c.targetBlockSize = n := by rw [hcc]
  obtain ⟨-, hE, hr2⟩ := vf_rate c pmf rfl hS hp hpf hw hcov
  rw [hts] at hr2
  rw [hr] at hr2
  refine ⟨c, h1, by rw [hr]; exact hr2, hE, hpf, hcov, hw, hlen, fun W hWp hWc hWw hWl => ?_⟩
  have hal : (allWords 2 n).length = 2 ^ n := by
    exact allWords_length 2 n
  have hsnd := zip_snd (allWords 2 n) W (by omega)
  have hcr' : VFCode.create 2 pmf.length n ((allWords 2 n).zip W) = some ⟨2, pmf.length, n, (allWords 2 n).zip W⟩ := by
    unfold VFCode.create
    rw [if_neg (by omega), if_neg (by omega), if_neg (by omega), if_neg, if_neg]
    · rw [not_not]
      intro e he
      have : e.2 ∈ W := by rw [← hsnd]; exact List.mem_map_of_mem he
      exact ⟨(hWw _ this).2, List.length_pos_iff.mpr (hWw _ this).1⟩
    · rw [not_not]
      intro x hx
      obtain ⟨e, he, rfl⟩ := List.mem_map.mp (List.mem_toFinset.mp hx)
      exact List.mem_toFinset.mpr (List.of_mem_zip (a := e.1) (b := e.2) he).1
  have hsw : (⟨2, pmf.length, n, (allWords 2 n).zip W⟩ : VFCode).sourcewords = W := hsnd
  obtain ⟨r', hr', hle'⟩ := hopt _ _ hcr' (by rw [VFCode.prefixFree, hsw]; exact (isPrefixFree_iff _).mpr hWp)
    (by rw [VFCode.fullyCovering, hsw]; exact (isFullyCovering_iff _ _).mpr hWc) (by rw [hsw]; exact hWl)
  obtain ⟨-, hE', hr3⟩ := vf_rate (⟨2, pmf.length, n, (allWords 2 n).zip W⟩ : VFCode) pmf rfl hS hp (by rw [hsw]; exact hWp) (by rw [hsw]; exact hWw) (by rw [hsw]; exact hWc)
  rw [hsw] at hE' hr3
  rw [hr'] at hr3
  cases hr3
  cases hr2
  have hn0 : (0 : ℚ) < n := by exact_mod_cast hn1
  rw [div_le_div_iff₀ (by linarith) (by linarith)] at hle'
  exact le_of_mul_le_mul_left hle' hn0

theorem rounds_mono {S n m : ℕ} (hS : 2 ≤ S) (h : n ≤ m) : tunstallRounds S n ≤ tunstallRounds S m := by
  unfold tunstallRounds
  refine Int.toNat_le_toNat (sub_le_sub_right (Int.ceil_mono ?_) _)
  have h2 : (2 : ℚ) ≤ S := by exact_mod_cast hS
  refine div_le_div_of_nonneg_right (sub_le_sub_right (pow_le_pow_right₀ (by norm_num) h) _) (by linarith)

theorem prefix_map (σ : Equiv.Perm ℕ) (a b : Word) : a.map σ <+: b.map σ ↔ a <+: b := by
  constructor
  · intro h
    have := h.map σ.symm
    simpa [List.map_map] using this
  · exact fun h => h.map σ

theorem map_prefixFree (σ : Equiv.Perm ℕ) {W : List Word} (h : PrefixFree W) : PrefixFree (W.map (List.map σ)) := by
  intro i j hi hj hij h1 h2 h3
  simp only [List.getElem_map] at h1 h2 h3
  rw [prefix_map] at h3
  exact h i j (by simpa using hi) (by simpa using hj) hij (fun e => h1 (by rw [e]; rfl)) (fun e => h2 (by rw [e]; rfl)) h3

theorem map_cover (σ : Equiv.Perm ℕ) {W : List Word} {S : ℕ} (hσ : ∀ a, σ a < S ↔ a < S) (h : FullyCovering W S) : FullyCovering (W.map (List.map σ)) S := by
  intro f hf
  obtain ⟨w, hw, hne, e⟩ := h (fun i => σ.symm (f i)) (fun i => by rw [← hσ]; simpa using hf i)
  refine ⟨w.map σ, List.mem_map_of_mem hw, by simpa using hne, ?_⟩
  conv_lhs => rw [e]
  simp [List.map_map, Function.comp_def]

theorem map_expected (σ : Equiv.Perm ℕ) (pmf pmf' : List ℚ) (h : ∀ a, pmf.getD (σ a) 0 = pmf'.getD a 0) (W : List Word) :
    expectedWordLength (W.map (List.map σ)) pmf = expectedWordLength W pmf' := by
  unfold expectedWordLength
  rw [List.map_map]
  congr 1
  refine List.map_congr_left fun w _ => ?_
  simp only [Function.comp, blockProb, List.map_map, List.length_map]
  congr 2
  exact List.map_congr_left fun a _ => h a

end TunstallLaws
open TunstallLaws

/-- Neither the choice among equally probable leaves (the ties of the heap) nor the order of the probabilities matters for the rate. -/
theorem C161_tunstall_rate_invariant (pmf pmf' : List ℚ) (hp : IsPmf pmf) (hperm : pmf.Perm pmf') (n : Nat) (hS : 2 ≤ pmf.length) (hn : pmf.length ≤ 2 ^ n)
    (choose choose' : List TNode → Nat) (hc : MaxChoice choose) (hc' : MaxChoice choose') :
    ∃ c c' r, tunstallCode pmf n choose = some c ∧ tunstallCode pmf' n choose' = some c' ∧ c.rate pmf = some r ∧ c'.rate pmf' = some r ∧
      c.sourcewords.length = c'.sourcewords.length := by
  have hp' : IsPmf pmf' := ⟨fun x hx => hp.1 x (hperm.mem_iff.mpr hx), by rw [← hperm.sum_eq]; exact hp.2⟩
  have hl := hperm.length_eq
  obtain ⟨c, h1, h2, h3, h4, h5, h6, h7, h8⟩ := best pmf hp n hS hn choose hc
  obtain ⟨c', g1, g2, g3, g4, g5, g6, g7, g8⟩ := best pmf' hp' n (by omega) (by omega) choose' hc'
  obtain ⟨σ, s1, s2⟩ := relabel hperm
  obtain ⟨τ, t1, t2⟩ := relabel hperm.symm
  have hll : c.sourcewords.length = c'.sourcewords.length := by rw [h7, g7, hl]
  have a1 := h8 (c'.sourcewords.map (List.map σ)) (map_prefixFree σ g4) (map_cover σ s1 (by rw [hl]; exact g5)) (by
    intro w hw
    obtain ⟨v, hv, rfl⟩ := List.mem_map.mp hw
    refine ⟨by simpa using (g6 v hv).1, fun a ha => ?_⟩
    obtain ⟨b, hb, rfl⟩ := List.mem_map.mp ha
    exact (s1 b).mpr (by rw [hl]; exact (g6 v hv).2 b hb)) (by rw [List.length_map, hll])
  have a2 := g8 (c.sourcewords.map (List.map τ)) (map_prefixFree τ h4) (map_cover τ t1 (by rw [← hl]; exact h5)) (by
    intro w hw
    obtain ⟨v, hv, rfl⟩ := List.mem_map.mp hw
    refine ⟨by simpa using (h6 v hv).1, fun a ha => ?_⟩
    obtain ⟨b, hb, rfl⟩ := List.mem_map.mp ha
    exact (t1 b).mpr (by rw [← hl]; exact (h6 v hv).2 b hb)) (by rw [List.length_map, hll])
  rw [map_expected σ _ _ s2] at a1
  rw [map_expected τ _ _ t2] at a2
  exact ⟨c, c', _, h1, g1, h2, by rw [g2, le_antisymm a1 a2], hll⟩

/-- A larger target block size gives at least as many sourcewords and at least as many source symbols per target block (`n / rate`). -/
theorem C161_tunstall_monotone (pmf : List ℚ) (hp : IsPmf pmf) (n m : Nat) (hS : 2 ≤ pmf.length) (hn : pmf.length ≤ 2 ^ n) (hnm : n ≤ m)
    (choose choose' : List TNode → Nat) (hc : MaxChoice choose) (hc' : MaxChoice choose') :
    ∃ c c' r r', tunstallCode pmf n choose = some c ∧ tunstallCode pmf m choose' = some c' ∧ c.rate pmf = some r ∧ c'.rate pmf = some r' ∧
      c.sourcewords.length ≤ c'.sourcewords.length ∧ 0 < r' ∧ (n : ℚ) / r ≤ m / r' := by
  obtain ⟨c, h1, h2, h3, h4, h5, h6, h7, h8⟩ := best pmf hp n hS hn choose hc
  obtain ⟨c', g1, g2, g3, g4, g5, g6, g7, g8⟩ := best pmf hp m hS (hn.trans (Nat.pow_le_pow_right (by norm_num) hnm)) choose' hc'
  have hll : c.sourcewords.length ≤ c'.sourcewords.length := by
    rw [h7, g7]
    exact Nat.add_le_add_left (Nat.mul_le_mul_right _ (rounds_mono hS hnm)) _
  have hn1 : 1 ≤ n := by
    by_contra h
    have : n = 0 := by omega
    rw [this] at hn
    simp at hn; omega
  have hn0 : (0 : ℚ) < n := by exact_mod_cast hn1
  have hm0 : (0 : ℚ) < m := by exact_mod_cast (by omega : 0 < m)
  refine ⟨c, c', _, _, h1, g1, h2, g2, hll, div_pos hm0 (by linarith), ?_⟩
  rw [div_div_cancel₀ hn0.ne', div_div_cancel₀ hm0.ne']
  exact g8 _ h4 h5 h6 hll

/-- Non-vacuity: the documented source and a reordering of it; the rate of the larger code is better here. -/
example : (tunstallCode [6/10, 3/10, 1/10] 3 firstMax).bind (fun c => c.rate [6/10, 3/10, 1/10]) = some (75/49) ∧
    (tunstallCode [3/10, 1/10, 6/10] 3 firstMax).bind (fun c => c.rate [3/10, 1/10, 6/10]) = some (75/49) ∧
    (tunstallCode [6/10, 3/10, 1/10] 2 firstMax).bind (fun c => c.rate [6/10, 3/10, 1/10]) = some 2 := by decide +kernel
example : IsPmf [6/10, 3/10, 1/10] := by constructor <;> norm_num

end Komm
