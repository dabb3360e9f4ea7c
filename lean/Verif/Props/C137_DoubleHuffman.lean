import Verif.Model.DoubleLog
import Verif.Lemmas.DoubleViterbi
import Verif.Props.C26_C27_Huffman
import Verif.Props.C136_FloatLogs

/-! C137: Huffman codes in double precision.  The probabilities of blocks and the weights of the nodes are computed with rounded multiplications and additions, so the two nodes that are merged
need not be the two lightest ones.  The code is nevertheless optimal up to a factor very close to one. -/
namespace Komm

/-! ### Merging nodes that are nearly the lightest -/

/-- The two merged trees are the lightest ones up to the factor `r`. -/
def selNear (p : Nat → ℚ) (r : ℚ) (T1 T0 : HT) (F2 : List HT) : Prop :=
  T1.wt p ≤ r * T0.wt p ∧ ∀ x ∈ F2, T1.wt p ≤ r * x.wt p ∧ T0.wt p ≤ r * x.wt p

theorem co_mono {X : Type} (w w' : X → ℚ) (A : List (X × Nat)) (h : ∀ e ∈ A, w e.1 ≤ w' e.1) : co w A ≤ co w' A := by
  unfold co
  apply List.sum_le_sum
  intro e he
  exact mul_le_mul_of_nonneg_right (h e he) (by positivity)

theorem co_map {X Y : Type} (f : X → Y) (w : Y → ℚ) (A : List (X × Nat)) : co w (A.map fun e => (f e.1, e.2)) = co (fun x => w (f x)) A := by
  simp [co, Function.comp_def]

theorem kr_map {X Y : Type} (f : X → Y) (A : List (X × Nat)) : kr (A.map fun e => (f e.1, e.2)) = kr A := by
  simp [kr, Function.comp_def]

theorem Merge.near {p : Nat → ℚ} (hp : ∀ i, 0 ≤ p i) {r : ℚ} (hr : 1 ≤ r) {F : List HT} {T : HT} (h : Merge (selNear p r) F T) :
    ∀ A : List (HT × Nat), (A.map Prod.fst).Perm F → kr A ≤ 1 → T.cost p ≤ (F.map fun T => T.cost p).sum + r ^ (F.length - 1) * co (fun T => T.wt p) A := by
  have hr0 : 0 < r := by linarith
  induction h with
  | done T =>
    intro A hA _
    have : 0 ≤ co (fun T : HT => T.wt p) A := by
      unfold co
      apply List.sum_nonneg
      intro x hx
      obtain ⟨e, _, rfl⟩ := List.mem_map.mp hx
      exact mul_nonneg (HT.wt_nonneg hp _) (by positivity)
    simp; exact this
  | @step F F2 T1 T0 T i hF hs _ ih =>
    intro A hA hk
    obtain ⟨⟨S1, l1⟩, A1, hA1, hS1, hA1'⟩ := perm_map_cons (hA.trans hF)
    obtain ⟨⟨S0, l0⟩, A2, hA2, hS0, hA2'⟩ := perm_map_cons hA1'
    simp only at hS1 hS0
    subst hS1 hS0
    have hperm := hA1.trans (hA2.cons _)
    obtain ⟨hs1, hs2⟩ := hs
    -- weights that are slightly smaller, for which the two trees are the lightest
    obtain ⟨w1, hw1⟩ : ∃ w1, w1 = S1.wt p / r := ⟨_, rfl⟩
    obtain ⟨w0, hw0⟩ : ∃ w0, w0 = max (S0.wt p / r) w1 := ⟨_, rfl⟩
    have n1 := HT.wt_nonneg hp S1
    have n0 := HT.wt_nonneg hp S0
    have a1 : w1 ≤ w0 := by rw [hw0]; exact le_max_right _ _
    have a2 : 0 ≤ w1 := by rw [hw1]; positivity
    have a3 : w1 ≤ S1.wt p := by rw [hw1]; exact div_le_self n1 hr
    have a4 : w0 ≤ S0.wt p := by
      rw [hw0, hw1]
      exact max_le (div_le_self n0 hr) (by rw [div_le_iff₀ hr0, mul_comm]; exact hs1)
    have a5 : ∀ x ∈ F2, w0 ≤ x.wt p := by
      intro x hx
      rw [hw0, hw1]
      obtain ⟨b1, b2⟩ := hs2 x hx
      exact max_le (by rw [div_le_iff₀ hr0, mul_comm]; exact b2) (by rw [div_le_iff₀ hr0, mul_comm]; exact b1)
    have a6 : S1.wt p = r * w1 := by rw [hw1]; field_simp
    have a7 : S0.wt p ≤ r * w0 := by
      have : S0.wt p / r ≤ w0 := by rw [hw0]; exact le_max_left _ _
      rw [div_le_iff₀ hr0] at this; linarith
    obtain ⟨m, R', hm, hR', hkr, hco⟩ := equalize (fun x : HT × ℚ => x.2) (S1, w1) (S0, w0) ((A2.map fun e => ((e.1, e.1.wt p), e.2)).map Prod.fst)
      a1 (by
        intro x hx
        rw [List.map_map] at hx
        obtain ⟨e, he, rfl⟩ := List.mem_map.mp hx
        exact a5 e.1 (hA2'.subset (List.mem_map_of_mem he))) a2 _ l1 l0 (A2.map fun e => ((e.1, e.1.wt p), e.2)) rfl rfl (by
        rw [kr_cons, kr_cons, kr_map (fun T : HT => (T, T.wt p))]
        rw [kr_perm hperm, kr_cons, kr_cons] at hk
        exact hk)
    obtain ⟨m, rfl⟩ : ∃ m', m = m' + 1 := ⟨m - 1, by omega⟩
    rw [co_cons, co_cons, co_cons, co_cons, co_map (fun T : HT => (T, T.wt p))] at hco
    rw [kr_cons, kr_cons] at hkr
    have hfst : (R'.map fun e => (e.1.1, e.2)).map Prod.fst = A2.map Prod.fst := by
      have := congrArg (List.map Prod.fst) hR'
      simp only [List.map_map, Function.comp_def] at this ⊢
      exact this
    have hsnd : ∀ e ∈ R', e.1.2 = e.1.1.wt p := by
      intro e he
      have : e.1 ∈ (A2.map fun e => ((e.1, e.1.wt p), e.2)).map Prod.fst := by rw [← hR']; exact List.mem_map_of_mem he
      rw [List.map_map] at this
      obtain ⟨x, -, hx⟩ := List.mem_map.mp this
      rw [← hx]; rfl
    have hcoR : co (fun x : HT × ℚ => x.2) R' = co (fun T : HT => T.wt p) (R'.map fun e => (e.1.1, e.2)) := by
      rw [co_map (fun x : HT × ℚ => x.1)]
      unfold co
      congr 1
      exact List.map_congr_left fun e he => congrArg (· * (e.2 : ℚ)) (hsnd e he)
    have hI := ih ((HT.node i S0 S1, m) :: R'.map fun e => (e.1.1, e.2)) (by
      rw [List.map_cons, hfst]; exact hA2'.cons _) (by
      rw [kr_cons, kr_map (fun x : HT × ℚ => x.1)]
      have h2 : (1 : ℚ) / 2 ^ m = 1 / 2 ^ (m + 1) + 1 / 2 ^ (m + 1) := by rw [pow_succ]; field_simp; norm_num
      simp only at hkr ⊢
      rw [h2]; linarith)
    refine hI.trans ?_
    rw [co_perm _ hperm, ((hF.map fun T => T.cost p).sum_eq), co_cons, co_cons, co_cons, hF.length_eq, ← hcoR]
    simp only [List.map_cons, List.sum_cons, HT.cost_node, HT.wt, List.length_cons, Nat.add_sub_cancel] at hco ⊢
    have hC0 : 0 ≤ co (fun x : HT × ℚ => x.2) R' := by
      rw [hcoR]
      unfold co
      apply List.sum_nonneg
      intro x hx
      obtain ⟨e, _, rfl⟩ := List.mem_map.mp hx
      exact mul_nonneg (HT.wt_nonneg hp _) (by positivity)
    clear hcoR hI
    generalize co (fun x : HT × ℚ => x.2) R' = C at *
    generalize co (fun T : HT => T.wt p) A2 = D at *
    obtain ⟨P, hP⟩ : ∃ P, P = r ^ F2.length := ⟨_, rfl⟩
    have hP1 : 1 ≤ P := by rw [hP]; exact one_le_pow₀ hr
    rw [pow_succ, ← hP]
    generalize S1.wt p = W1 at *
    generalize S0.wt p = W0 at *
    push_cast at hco
    have h1 : W0 + W1 ≤ P * (W0 + W1) := le_mul_of_one_le_left (by linarith) hP1
    have h2 : (W0 + W1) * (m + 1) + C ≤ r * ((w0 + w1) * (m + 1) + C) := by
      have hm0 : (0 : ℚ) ≤ (m : ℚ) + 1 := by positivity
      have b1 : (W0 + W1) * ((m : ℚ) + 1) ≤ r * (w0 + w1) * (m + 1) := mul_le_mul_of_nonneg_right (by linarith) hm0
      have b2 : C ≤ r * C := le_mul_of_one_le_left hC0 hr
      linarith
    have h3 : (w0 + w1) * (m + 1) + C ≤ W1 * l1 + (W0 * l0 + D) := by
      have c1 : w1 * l1 ≤ W1 * l1 := mul_le_mul_of_nonneg_right a3 (by positivity)
      have c0 : w0 * l0 ≤ W0 * l0 := mul_le_mul_of_nonneg_right a4 (by positivity)
      linarith
    have h4 : P * ((W0 + W1) * (m + 1) + C) ≤ P * (r * (W1 * l1 + (W0 * l0 + D))) :=
      mul_le_mul_of_nonneg_left (h2.trans (mul_le_mul_of_nonneg_left h3 hr0.le)) (by linarith)
    linarith

/-! ### The weights of the nodes in double precision -/

theorem Double.exists_rat (d : Double) : ∃ q : ℚ, (q : ℝ) = d.val := by
  obtain ⟨m, e, -, -, h⟩ := d.2
  exact ⟨m * 2 ^ e, by push_cast; exact h.symm⟩

/-- The rational number that a double stands for. -/
noncomputable def Double.rat (d : Double) : ℚ := Classical.choose d.exists_rat

theorem Double.rat_val (d : Double) : (d.rat : ℝ) = d.val := Classical.choose_spec d.exists_rat

theorem Double.add_val (a b : Double) : (a + b).val = rnd (a.val + b.val) := rfl
theorem Double.mul_val (a b : Double) : (a * b).val = rnd (a.val * b.val) := rfl
theorem Double.lt_val (a b : Double) : a < b ↔ a.val < b.val := Iff.rfl

theorem HT.leaves_pos (T : HT) : 1 ≤ T.leaves.length := by
  rw [HT.leaves, List.length_map]
  exact List.length_pos_of_ne_nil (HT.paths_ne_nil T)

/-- The unit roundoff. -/
def uro : ℚ := 1 / 2 ^ 53

theorem wt_error (p : Nat → Double) (hp : ∀ i, 0 ≤ (p i).rat) (T : HT) :
    (1 - uro) ^ T.leaves.length * T.wt (fun i => (p i).rat) ≤ (T.wt p).rat ∧ (T.wt p).rat ≤ (1 + uro) ^ T.leaves.length * T.wt (fun i => (p i).rat) := by
  induction T with
  | leaf i =>
    have h := hp i
    have hl : (HT.leaf i).leaves.length = 1 := rfl
    rw [hl, pow_one, pow_one]
    show (1 - uro) * (p i).rat ≤ (p i).rat ∧ (p i).rat ≤ (1 + uro) * (p i).rat
    rw [uro]
    constructor <;> nlinarith
  | node i l r ihl ihr =>
    obtain ⟨l1, l2⟩ := ihl
    obtain ⟨r1, r2⟩ := ihr
    rw [HT.leaves_node, List.length_append]
    show _ * (l.wt (fun i => (p i).rat) + r.wt (fun i => (p i).rat)) ≤ (l.wt p + r.wt p).rat ∧ (l.wt p + r.wt p).rat ≤ _ * (l.wt (fun i => (p i).rat) + r.wt (fun i => (p i).rat))
    have hl := HT.leaves_pos l
    have hr := HT.leaves_pos r
    have wl := HT.wt_nonneg hp l
    have wr := HT.wt_nonneg hp r
    generalize l.wt (fun i => (p i).rat) = A at *
    generalize r.wt (fun i => (p i).rat) = B at *
    generalize l.leaves.length = m at *
    generalize r.leaves.length = n at *
    have hadd : |(l.wt p + r.wt p).rat - ((l.wt p).rat + (r.wt p).rat)| ≤ |(l.wt p).rat + (r.wt p).rat| * uro := by
      have h := rnd_add_error (l.wt p).2 (r.wt p).2
      have e : (((l.wt p + r.wt p).rat : ℚ) : ℝ) = rnd ((l.wt p).val + (r.wt p).val) := by rw [Double.rat_val]; rfl
      have : ((|(l.wt p + r.wt p).rat - ((l.wt p).rat + (r.wt p).rat)| : ℚ) : ℝ) ≤ ((|(l.wt p).rat + (r.wt p).rat| * uro : ℚ) : ℝ) := by
        rw [uro]
        push_cast
        rw [e, Double.rat_val, Double.rat_val, mul_one_div]
        exact h
      exact_mod_cast this
    have u0 : (0 : ℚ) ≤ uro := by rw [uro]; positivity
    have u1 : (0 : ℚ) ≤ 1 - uro := by rw [uro]; norm_num
    have u2 : 1 - uro ≤ (1 : ℚ) := by linarith
    have a0 : 0 ≤ (l.wt p).rat := le_trans (mul_nonneg (pow_nonneg u1 _) wl) l1
    have b0 : 0 ≤ (r.wt p).rat := le_trans (mul_nonneg (pow_nonneg u1 _) wr) r1
    rw [abs_of_nonneg (a := (l.wt p).rat + (r.wt p).rat) (by linarith), abs_le] at hadd
    generalize (l.wt p).rat = a at *
    generalize (r.wt p).rat = b at *
    generalize (l.wt p + r.wt p).rat = c at *
    constructor
    · have s1 : (1 - uro) ^ (m + n) * A ≤ (1 - uro) * a := by
        calc (1 - uro) ^ (m + n) * A ≤ (1 - uro) ^ (m + 1) * A := mul_le_mul_of_nonneg_right (pow_le_pow_of_le_one u1 u2 (by omega)) wl
          _ = (1 - uro) * ((1 - uro) ^ m * A) := by ring
          _ ≤ _ := mul_le_mul_of_nonneg_left l1 u1
      have s2 : (1 - uro) ^ (m + n) * B ≤ (1 - uro) * b := by
        calc (1 - uro) ^ (m + n) * B ≤ (1 - uro) ^ (n + 1) * B := mul_le_mul_of_nonneg_right (pow_le_pow_of_le_one u1 u2 (by omega)) wr
          _ = (1 - uro) * ((1 - uro) ^ n * B) := by ring
          _ ≤ _ := mul_le_mul_of_nonneg_left r1 u1
      linarith
    · have s1 : (1 + uro) * a ≤ (1 + uro) ^ (m + n) * A := by
        calc (1 + uro) * a ≤ (1 + uro) * ((1 + uro) ^ m * A) := mul_le_mul_of_nonneg_left l2 (by linarith)
          _ = (1 + uro) ^ (m + 1) * A := by ring
          _ ≤ _ := mul_le_mul_of_nonneg_right (pow_le_pow_right₀ (by linarith) (by omega)) wl
      have s2 : (1 + uro) * b ≤ (1 + uro) ^ (m + n) * B := by
        calc (1 + uro) * b ≤ (1 + uro) * ((1 + uro) ^ n * B) := mul_le_mul_of_nonneg_left r2 (by linarith)
          _ = (1 + uro) ^ (n + 1) * B := by ring
          _ ≤ _ := mul_le_mul_of_nonneg_right (pow_le_pow_right₀ (by linarith) (by omega)) wr
      linarith

/-- The ratio of the largest and the smallest value of a rounding. -/
def spread : ℚ := (1 + uro) / (1 - uro)

theorem one_le_spread : 1 ≤ spread := by rw [spread, uro]; norm_num

theorem near_of_le (p : Nat → Double) (hp : ∀ i, 0 ≤ (p i).rat) {N : Nat} {T T' : HT} (hT : T.leaves.length ≤ N) (hT' : T'.leaves.length ≤ N)
    (h : ¬ T'.wt p < T.wt p) : T.wt (fun i => (p i).rat) ≤ spread ^ N * T'.wt (fun i => (p i).rat) := by
  have h1 := (wt_error p hp T).1
  have h2 := (wt_error p hp T').2
  have hv : (T.wt p).rat ≤ (T'.wt p).rat := by
    rw [Double.lt_val, not_lt, ← Double.rat_val, ← Double.rat_val] at h
    exact_mod_cast h
  have u1 : (0 : ℚ) < 1 - uro := by rw [uro]; norm_num
  have u2 : 1 - uro ≤ (1 : ℚ) := by rw [uro]; norm_num
  have u3 : (1 : ℚ) ≤ 1 + uro := by rw [uro]; norm_num
  have w1 := HT.wt_nonneg hp T
  have w2 := HT.wt_nonneg hp T'
  have s1 : (1 - uro) ^ N * T.wt (fun i => (p i).rat) ≤ (T.wt p).rat := le_trans (mul_le_mul_of_nonneg_right (pow_le_pow_of_le_one u1.le u2 hT) w1) h1
  have s2 : (T'.wt p).rat ≤ (1 + uro) ^ N * T'.wt (fun i => (p i).rat) := le_trans h2 (mul_le_mul_of_nonneg_right (pow_le_pow_right₀ u3 hT') w2)
  rw [spread, div_pow, div_mul_eq_mul_div, le_div_iff₀ (pow_pos u1 N)]
  linarith

theorem merge_double (p : Nat → Double) (hp : ∀ i, 0 ≤ (p i).rat) (N : Nat) {F : List HT} {T : HT} (h : Merge (selMin p) F T) :
    (F.map fun T => T.leaves.length).sum ≤ N → Merge (selNear (fun i => (p i).rat) (spread ^ N)) F T := by
  have hlaw : LawfulLt Double := ⟨lt_irrefl, fun _ _ _ => lt_trans⟩
  induction h with
  | done T => exact fun _ => .done T
  | @step F F2 T1 T0 T i hF hs _ ih =>
    intro hN
    have hsum := (hF.map fun T => T.leaves.length).sum_eq
    simp only [List.map_cons, List.sum_cons] at hsum
    obtain ⟨s1, s2⟩ := hs hlaw
    have hmem : ∀ x ∈ F2, x.leaves.length ≤ (F2.map fun T => T.leaves.length).sum := fun x hx => List.single_le_sum (by simp) _ (List.mem_map_of_mem hx)
    refine .step i hF ⟨near_of_le p hp (by omega) (by omega) s1, fun x hx => ?_⟩ (ih ?_)
    · have := hmem x hx
      refine ⟨near_of_le p hp (by omega) (by omega) fun h => ?_, near_of_le p hp (by omega) (by omega) (s2 x hx)⟩
      -- `x < T1` would give `x < T0`
      exact s2 x hx (lt_of_lt_of_le h (not_lt.mp s1))
    · simp only [List.map_cons, List.sum_cons, HT.leaves_node, List.length_append]
      omega

/-- The tree of the rounded weights is optimal up to the factor `spread ^ (n (n - 1))`. -/
theorem huffman_double (pmf : List Double) (hne : pmf ≠ []) (hp : ∀ x ∈ pmf, 0 ≤ x.rat) (policy : HuffmanPolicy)
    (ls : List Nat) (hls : ls.length = pmf.length) (hk : (ls.map fun l => (1 : ℚ) / 2 ^ l).sum ≤ 1) :
    (List.zipWith (fun (l : Nat) (p : ℚ) => (l : ℚ) * p) ((treeCodewords (huffmanTree pmf policy) pmf.length).map List.length) (pmf.map Double.rat)).sum ≤
    spread ^ (pmf.length * (pmf.length - 1)) * (List.zipWith (fun (l : Nat) (p : ℚ) => (l : ℚ) * p) ls (pmf.map Double.rat)).sum := by
  obtain ⟨T, hm, hl, hpath, -⟩ := treeCodewords_spec pmf policy hne
  have hcl := treeCodewords_length pmf policy
  generalize hcs : treeCodewords (huffmanTree pmf policy) pmf.length = cs at *
  have hp0 : ∀ i, 0 ≤ (pmf.getD i (pmf.head hne)).rat := by
    intro i
    simp only [List.getD_eq_getElem?_getD]
    cases hi : pmf[i]? with
    | none => exact hp _ (List.head_mem hne)
    | some x => exact hp x (List.mem_of_getElem? hi)
  have hm' := merge_double _ hp0 pmf.length hm (by
    rw [List.map_map]
    have : ((fun T : HT => T.leaves.length) ∘ HT.leaf) = fun _ => 1 := rfl
    rw [this]; simp)
  have hopt := hm'.near hp0 (one_le_pow₀ one_le_spread) ((List.range pmf.length).map fun i => (HT.leaf i, ls.getD i 0)) (by
      rw [List.map_map]; exact List.Perm.refl _) (by
      unfold kr
      rw [List.map_map]
      refine le_trans (le_of_eq ?_) hk
      congr 1
      apply List.ext_getElem (by simp [hls])
      intro i h1 h2
      simp at h2
      simp [List.getD_eq_getElem?_getD, h2])
  obtain ⟨p, hpd⟩ : ∃ p : Nat → ℚ, p = fun i => (pmf.getD i (pmf.head hne)).rat := ⟨_, rfl⟩
  rw [← hpd] at hopt
  have hpi : ∀ i, i < pmf.length → p i = (pmf.map Double.rat).getD i 0 := by
    intro i hi
    rw [hpd]
    simp [List.getD_eq_getElem?_getD, hi]
  have hleft : T.cost p = (List.zipWith (fun (l : Nat) (p : ℚ) => (l : ℚ) * p) (cs.map List.length) (pmf.map Double.rat)).sum := by
    rw [zipWith_sum_eq_range _ _ (by simp [hcl]), HT.cost, List.length_map]
    have h1 : (T.paths.map fun e => p e.1 * (e.2.length : ℚ)) = T.leaves.map fun i => (pmf.map Double.rat).getD i 0 * ((cs.map List.length).getD i 0 : ℚ) := by
      rw [HT.leaves, List.map_map]
      apply List.map_congr_left
      intro e he
      have h2 := hpath e he
      have h3 : e.1 < pmf.length := List.mem_range.mp (hl.subset (List.mem_map_of_mem he))
      simp only [Function.comp_apply]
      rw [hpi _ h3]
      simp [List.getD_eq_getElem?_getD, h2]
    rw [h1, (hl.map _).sum_eq]
  have hc0 : (((List.range pmf.length).map HT.leaf).map fun T => T.cost p).sum = 0 := by
    rw [List.map_map]
    simp [Function.comp_def, HT.cost, HT.paths]
  have hright : co (fun T : HT => T.wt p) ((List.range pmf.length).map fun i => (HT.leaf i, ls.getD i 0)) =
      (List.zipWith (fun (l : Nat) (p : ℚ) => (l : ℚ) * p) ls (pmf.map Double.rat)).sum := by
    rw [zipWith_sum_eq_range _ _ (by simpa using hls), co, List.map_map, List.length_map]
    congr 1
    apply List.map_congr_left
    intro i hi
    simp only [Function.comp_apply, HT.wt]
    rw [hpi i (List.mem_range.mp hi)]
  rw [hleft, hc0, hright, zero_add, List.length_map, List.length_range, ← pow_mul] at hopt
  exact hopt

/-! ### The probabilities of the blocks in double precision -/

theorem rnd_error_normal {x : ℝ} (h : 1 / 2 ^ 1001 ≤ x) : |rnd x - x| ≤ x / 2 ^ 53 := by
  have hx : 0 < x := lt_of_lt_of_le (by positivity) h
  rcases rnd_error_rel x with h1 | h1
  · rwa [abs_of_pos hx] at h1
  · exfalso
    rw [ulpExp] at h1
    have h2 : Int.log 2 |x| ≤ -1022 := by have := le_max_left (Int.log 2 |x| - 52) (-1074); omega
    have h3 : |x| < (2 : ℝ) ^ (Int.log 2 |x| + 1) := by exact_mod_cast Int.lt_zpow_succ_log_self (b := 2) (by norm_num) |x|
    have h4 : (2 : ℝ) ^ (Int.log 2 |x| + 1) ≤ 2 ^ (-1001 : ℤ) := zpow_le_zpow_right₀ (by norm_num) (by omega)
    rw [abs_of_pos hx] at h3 h4
    have h5 : (2 : ℝ) ^ (-1001 : ℤ) = 1 / 2 ^ 1001 := by
      rw [zpow_neg, one_div]; congr 1
    exact lt_irrefl _ (h3.trans_le (h4.trans (h5.le.trans h)))

theorem mul_rat_zero {a b : Double} (h : a.rat * b.rat = 0) : (a * b).rat = 0 := by
  have h1 : (((a * b).rat : ℚ) : ℝ) = 0 := by
    rw [Double.rat_val, Double.mul_val, ← Double.rat_val, ← Double.rat_val, ← Rat.cast_mul, h, Rat.cast_zero, rnd_zero]
  exact_mod_cast h1

theorem mul_rat_error {a b : Double} (h : 1 / 2 ^ 1001 ≤ a.rat * b.rat) :
    (1 - uro) * (a.rat * b.rat) ≤ (a * b).rat ∧ (a * b).rat ≤ (1 + uro) * (a.rat * b.rat) := by
  have h1 : |rnd (a.val * b.val) - a.val * b.val| ≤ a.val * b.val / 2 ^ 53 := by
    apply rnd_error_normal
    rw [← Double.rat_val, ← Double.rat_val, ← Rat.cast_mul]
    have h2 : (((1 / 2 ^ 1001 : ℚ)) : ℝ) ≤ ((a.rat * b.rat : ℚ) : ℝ) := Rat.cast_le.mpr h
    rw [Rat.cast_div, Rat.cast_pow, Rat.cast_one, Rat.cast_ofNat] at h2
    exact h2
  have h2 : |(a * b).rat - a.rat * b.rat| ≤ (a.rat * b.rat) * uro := by
    have : ((|(a * b).rat - a.rat * b.rat| : ℚ) : ℝ) ≤ (((a.rat * b.rat) * uro : ℚ) : ℝ) := by
      rw [uro]; push_cast
      rw [Double.rat_val, Double.rat_val, Double.rat_val, Double.mul_val, mul_one_div]
      exact h1
    exact_mod_cast this
  rw [abs_le] at h2
  constructor <;> linarith

/-- A computed block probability `d` and the exact one `x`, after `j` multiplications. -/
def BlockClose (m : ℚ) (j : Nat) (d : Double) (x : ℚ) : Prop :=
  0 ≤ x ∧ (1 - uro) ^ j * x ≤ d.rat ∧ d.rat ≤ (1 + uro) ^ j * x ∧ (x = 0 ∨ m ^ (j + 1) ≤ x)

theorem half_le_pow {j : Nat} (h : j ≤ 2 ^ 52) : (1 / 2 : ℚ) ≤ (1 - uro) ^ j := by
  have h1 := one_add_mul_le_pow (a := -uro) (by rw [uro]; norm_num) j
  have h2 : (j : ℚ) * uro ≤ 2 ^ 52 * uro := mul_le_mul_of_nonneg_right (by exact_mod_cast h) (by rw [uro]; norm_num)
  have h3 : (2 ^ 52 * uro : ℚ) = 1 / 2 := by rw [uro]; norm_num
  have h4 : (1 + -uro) = 1 - uro := by ring
  rw [h4] at h1
  linarith

theorem BlockClose.mul {m : ℚ} (hm0 : 0 < m) {j : Nat} (hj : j ≤ 2 ^ 52) (hm : 1 / 2 ^ 1000 ≤ m ^ (j + 2)) {d p : Double} {x y : ℚ}
    (h : BlockClose m j d x) (hp : p.rat = y) (hy : 0 ≤ y) (hy' : y = 0 ∨ m ≤ y) : BlockClose m (j + 1) (d * p) (x * y) := by
  obtain ⟨hx, h1, h2, h3⟩ := h
  subst hp
  by_cases h0 : x * p.rat = 0
  · have : (d * p).rat = 0 := by
      apply mul_rat_zero
      rcases mul_eq_zero.mp h0 with h | h
      · rw [h] at h1 h2
        rw [mul_zero] at h1 h2
        rw [le_antisymm h2 h1, zero_mul]
      · rw [h, mul_zero]
    refine ⟨h0.ge, ?_, ?_, Or.inl h0⟩ <;> rw [this, h0, mul_zero]
  · rw [mul_eq_zero, not_or] at h0
    have h3 := h3.resolve_left h0.1
    have hy' := hy'.resolve_left h0.2
    have u1 : (0 : ℚ) < 1 - uro := by rw [uro]; norm_num
    have u2 : (0 : ℚ) < 1 + uro := by rw [uro]; norm_num
    have hxy : m ^ (j + 2) ≤ x * p.rat := by
      calc m ^ (j + 2) = m ^ (j + 1) * m := pow_succ _ _
        _ ≤ x * p.rat := mul_le_mul h3 hy' hm0.le hx
    have hd : (1 - uro) ^ j * (x * p.rat) ≤ d.rat * p.rat := by rw [← mul_assoc]; exact mul_le_mul_of_nonneg_right h1 hy
    have hd' : d.rat * p.rat ≤ (1 + uro) ^ j * (x * p.rat) := by rw [← mul_assoc]; exact mul_le_mul_of_nonneg_right h2 hy
    have hxy0 : 0 ≤ x * p.rat := mul_nonneg hx hy
    have hbig : 1 / 2 ^ 1001 ≤ d.rat * p.rat := by
      refine le_trans ?_ hd
      calc (1 : ℚ) / 2 ^ 1001 = 1 / 2 * (1 / 2 ^ 1000) := by rw [pow_succ _ 1000]; field_simp
        _ ≤ (1 - uro) ^ j * (x * p.rat) := mul_le_mul (half_le_pow hj) (hm.trans hxy) (by positivity) (pow_nonneg u1.le _)
    obtain ⟨e1, e2⟩ := mul_rat_error hbig
    refine ⟨hxy0, ?_, ?_, Or.inr hxy⟩
    · calc (1 - uro) ^ (j + 1) * (x * p.rat) = (1 - uro) * ((1 - uro) ^ j * (x * p.rat)) := by ring
        _ ≤ (1 - uro) * (d.rat * p.rat) := mul_le_mul_of_nonneg_left hd u1.le
        _ ≤ _ := e1
    · calc (d * p).rat ≤ (1 + uro) * (d.rat * p.rat) := e2
        _ ≤ (1 + uro) * ((1 + uro) ^ j * (x * p.rat)) := mul_le_mul_of_nonneg_left hd' u2.le
        _ = _ := by ring

theorem ext_error (pmf : List Double) {m : ℚ} (hm0 : 0 < m) (hm1 : m ≤ 1) (hp : ∀ x ∈ pmf, 0 ≤ x.rat ∧ (x.rat = 0 ∨ m ≤ x.rat)) (K : Nat) (hK : K ≤ 2 ^ 52)
    (hm : 1 / 2 ^ 1000 ≤ m ^ K) : ∀ j, j + 1 ≤ K → List.Forall₂ (BlockClose m j) (extendedPmf pmf (j + 1)) (extendedPmf (pmf.map Double.rat) (j + 1)) := by
  intro j
  induction j with
  | zero =>
    intro _
    show List.Forall₂ _ pmf (pmf.map Double.rat)
    rw [List.forall₂_map_right_iff, List.forall₂_same]
    intro x hx
    obtain ⟨a, b⟩ := hp x hx
    refine ⟨a, by simp, by simp, by simpa using b⟩
  | succ j ih =>
    intro hj
    have hI := ih (by omega)
    rw [extendedPmf, extendedPmf]
    refine List.rel_flatMap hI ?_
    intro d x hdx
    beta_reduce
    rw [List.map_map, List.forall₂_map_right_iff, List.forall₂_map_left_iff, List.forall₂_same]
    intro p hpm
    obtain ⟨a, b⟩ := hp p hpm
    exact hdx.mul hm0 (by omega) (hm.trans (pow_le_pow_of_le_one hm0.le hm1 (by omega))) rfl a b

theorem spread_pow {N : Nat} (hN : N ≤ 2 ^ 50) : spread ^ N ≤ 1 + N / 2 ^ 50 := by
  obtain ⟨u, hu⟩ : ∃ u, u = uro := ⟨_, rfl⟩
  have hu' : u = 1 / 2 ^ 53 := by rw [hu, uro]
  have h1 : spread ≤ 1 + 3 * u := by rw [spread, hu', uro]; norm_num
  have h2 := one_add_mul_le_pow (a := -(3 * u)) (by rw [hu']; norm_num) N
  have h3 : (1 + 3 * u) ^ N * (1 + -(3 * u)) ^ N ≤ 1 := by
    rw [← mul_pow]
    exact pow_le_one₀ (by rw [hu']; norm_num) (by rw [hu']; norm_num)
  have h4 : spread ^ N ≤ (1 + 3 * u) ^ N := pow_le_pow_left₀ (by linarith [one_le_spread]) h1 N
  have hN' : (N : ℚ) ≤ 2 ^ 50 := by exact_mod_cast hN
  obtain ⟨y, hy⟩ : ∃ y, y = (N : ℚ) * (3 * u) := ⟨_, rfl⟩
  have hy0 : 0 ≤ y := by rw [hy, hu']; positivity
  have hy1 : y ≤ 3 / 8 := by rw [hy, hu']; linarith
  have hy2 : 1 + (N : ℚ) / 2 ^ 50 = 1 + 8 / 3 * y := by rw [hy, hu']; ring
  have hX : (0 : ℚ) ≤ (1 + 3 * u) ^ N := pow_nonneg (by rw [hu']; norm_num) N
  have h5 : (1 + 3 * u) ^ N * (1 - y) ≤ 1 := le_trans (mul_le_mul_of_nonneg_left (by rw [hy]; linarith) hX) h3
  rw [hy2]
  refine h4.trans ?_
  generalize (1 + 3 * u) ^ N = X at *
  by_contra hc
  rw [not_le] at hc
  have : (1 + 8 / 3 * y) * (1 - y) < X * (1 - y) := mul_lt_mul_of_pos_right hc (by linarith)
  nlinarith

theorem cost_close {m : ℚ} {j : Nat} : ∀ {ds : List Double} {xs : List ℚ}, List.Forall₂ (BlockClose m j) ds xs → ∀ ls : List Nat,
    (1 - uro) ^ j * (List.zipWith (fun (l : Nat) (p : ℚ) => (l : ℚ) * p) ls xs).sum ≤ (List.zipWith (fun (l : Nat) (p : ℚ) => (l : ℚ) * p) ls (ds.map Double.rat)).sum ∧
    (List.zipWith (fun (l : Nat) (p : ℚ) => (l : ℚ) * p) ls (ds.map Double.rat)).sum ≤ (1 + uro) ^ j * (List.zipWith (fun (l : Nat) (p : ℚ) => (l : ℚ) * p) ls xs).sum := by
  intro ds xs h
  induction h with
  | nil => intro ls; simp
  | @cons d x ds xs h _ ih =>
    intro ls
    cases ls with
    | nil => simp
    | cons l ls =>
      obtain ⟨i1, i2⟩ := ih ls
      obtain ⟨-, h1, h2, -⟩ := h
      simp only [List.map_cons, List.zipWith_cons_cons, List.sum_cons]
      have hl : (0 : ℚ) ≤ l := by positivity
      have a1 := mul_le_mul_of_nonneg_left h1 hl
      have a2 := mul_le_mul_of_nonneg_left h2 hl
      constructor <;> linarith

/-- **Near-optimality in double precision.**  For probabilities that are doubles (with exact values `q`), no positive block probability below `2⁻¹⁰⁰⁰` and `n ≤ 2²⁵` blocks: the code
that is constructed with rounded multiplications, additions and comparisons has, with respect to the exact block probabilities, an expected length of at most `1 + n² / 2⁵⁰` times that of
any uniquely decodable binary code. -/
theorem C137_huffman_near_optimal (pmf : List Double) (q : List ℚ) (hq : q.map (fun x : ℚ => (x : ℝ)) = pmf.map Double.val) (h0 : ∀ x ∈ q, 0 ≤ x)
    (k : Nat) (policy : HuffmanPolicy) (assignment : HuffmanAssignment) (h2 : 2 ≤ pmf.length) (hk : 1 ≤ k) (hn : pmf.length ^ k ≤ 2 ^ 25)
    (hsmall : ∀ x ∈ q, x = 0 ∨ (1 / 2 ^ 1000 ≤ x ^ k)) :
    ∃ c, huffmanCode pmf k policy assignment = some c ∧ c.codewords.length = pmf.length ^ k ∧
      ∀ words : List Word, words.length = pmf.length ^ k → (∀ w ∈ words, ∀ a ∈ w, a < 2) → words.Nodup → UniquelyParsable words →
        expectedLength (FVCode.blockProbabilities q k) c.codewords ≤
          (1 + (pmf.length ^ k : ℚ) ^ 2 / 2 ^ 50) * expectedLength (FVCode.blockProbabilities q k) words := by
  have hqr : q = pmf.map Double.rat := by
    have : q.map (fun x : ℚ => (x : ℝ)) = (pmf.map Double.rat).map (fun x : ℚ => (x : ℝ)) := by
      rw [hq, List.map_map]; exact List.map_congr_left fun d _ => (d.rat_val).symm
    exact List.map_injective_iff.mpr Rat.cast_injective this
  subst hqr
  clear hq
  -- a positive lower bound of the positive probabilities
  obtain ⟨m, hm0, hm1, hm, hmp⟩ : ∃ m : ℚ, 0 < m ∧ m ≤ 1 ∧ 1 / 2 ^ 1000 ≤ m ^ k ∧ ∀ x ∈ pmf.map Double.rat, x = 0 ∨ m ≤ x := by
    generalize pmf.map Double.rat = q at *
    clear h2 hn
    induction q with
    | nil => exact ⟨1, by norm_num, le_rfl, by rw [one_pow, div_le_one (by positivity)]; exact one_le_pow₀ (by norm_num), by simp⟩
    | cons x q ih =>
      obtain ⟨m, a, b, c, d⟩ := ih (fun y hy => h0 y (List.mem_cons_of_mem _ hy)) (fun y hy => hsmall y (List.mem_cons_of_mem _ hy))
      rcases hsmall x List.mem_cons_self with h | h
      · exact ⟨m, a, b, c, fun y hy => by
          rcases List.mem_cons.mp hy with rfl | hy
          · exact Or.inl h
          · exact d y hy⟩
      · have hx : 0 < x := by
          rcases (h0 x List.mem_cons_self).lt_or_eq with h' | h'
          · exact h'
          · exfalso
            rw [← h', zero_pow (by omega)] at h
            exact absurd h (not_le.mpr (by positivity))
        refine ⟨min m x, lt_min a hx, (min_le_left _ _).trans b, ?_, fun y hy => ?_⟩
        · rcases min_choice m x with e | e <;> rw [e] <;> assumption
        · rcases List.mem_cons.mp hy with rfl | hy
          · exact Or.inr (min_le_right _ _)
          · exact (d y hy).imp id fun h => (min_le_left _ _).trans h
  obtain ⟨c, h1, hcs, h3, h4, h5, h6, h7, h8, h9⟩ := huffmanCode_facts pmf k policy assignment h2 hk
  refine ⟨c, h1, h3, ?_⟩
  obtain ⟨j, rfl⟩ : ∃ j, k = j + 1 := ⟨k - 1, by omega⟩
  have hlen := extendedPmf_length pmf j
  intro words hw1 hw2 hw3 hw4
  have hzip : ∀ words : List Word, expectedLength (FVCode.blockProbabilities (pmf.map Double.rat) (j + 1)) words =
      (List.zipWith (fun (l : Nat) (p : ℚ) => (l : ℚ) * p) (words.map List.length) (extendedPmf (pmf.map Double.rat) (j + 1))).sum := by
    intro words; unfold expectedLength; rw [List.zipWith_map_left, extendedPmf_eq]
  rw [hzip, hzip]
  have hjn : j + 1 ≤ pmf.length ^ (j + 1) := (Nat.lt_pow_self (by omega : 1 < pmf.length)).le
  have hcl := ext_error pmf hm0 hm1 (fun x hx => ⟨h0 _ (List.mem_map_of_mem hx), hmp _ (List.mem_map_of_mem hx)⟩) (j + 1) (by omega) hm j le_rfl
  have h10 : 2 ≤ (extendedPmf pmf (j + 1)).length := by
    rw [hlen]
    calc 2 ≤ pmf.length := h2
      _ ≤ pmf.length ^ (j + 1) := Nat.le_self_pow (by omega) _
  obtain ⟨cs, q1, -, -, -, -, -, q7⟩ := huffmanCodewords_facts (extendedPmf pmf (j + 1)) policy assignment h10
  rw [hcs] at q1
  rw [Option.some.inj q1, q7]
  have u1 : (0 : ℚ) < 1 - uro := by rw [uro]; norm_num
  have hnn : ∀ x ∈ extendedPmf pmf (j + 1), 0 ≤ x.rat := by
    intro x hx
    obtain ⟨i, hi, rfl⟩ := List.mem_iff_getElem.mp hx
    obtain ⟨a, b, -, -⟩ := (List.forall₂_iff_get.mp hcl).2 i hi (by rw [← hcl.length_eq]; exact hi)
    exact le_trans (mul_nonneg (pow_nonneg u1.le _) a) b
  have hmc := mcmillan (b := 2) (by norm_num) hw3 hw4 hw2
  have hmain := huffman_double (extendedPmf pmf (j + 1)) (by intro h; rw [h] at h10; simp at h10) hnn policy (words.map List.length)
    (by rw [List.length_map, hw1, hlen]) (by exact_mod_cast hmc)
  obtain ⟨c1, -⟩ := cost_close hcl ((treeCodewords (huffmanTree (extendedPmf pmf (j + 1)) policy) (extendedPmf pmf (j + 1)).length).map List.length)
  obtain ⟨-, c2⟩ := cost_close hcl (words.map List.length)
  rw [hlen] at hmain c1
  rw [hlen]
  have hB0 : 0 ≤ (List.zipWith (fun (l : Nat) (p : ℚ) => (l : ℚ) * p) (words.map List.length) (extendedPmf (pmf.map Double.rat) (j + 1))).sum := by
    apply List.sum_nonneg
    intro x hx
    rw [← List.map_uncurry_zip_eq_zipWith] at hx
    obtain ⟨⟨l, p⟩, hlp, rfl⟩ := List.mem_map.mp hx
    have hpm := (List.of_mem_zip hlp).2
    obtain ⟨i, hi, rfl⟩ := List.mem_iff_getElem.mp hpm
    obtain ⟨a, -, -, -⟩ := (List.forall₂_iff_get.mp hcl).2 i (by rw [hcl.length_eq]; exact hi) hi
    exact mul_nonneg (by positivity) a
  generalize (List.zipWith (fun (l : Nat) (p : ℚ) => (l : ℚ) * p) (words.map List.length) (extendedPmf (pmf.map Double.rat) (j + 1))).sum = B at *
  generalize (List.zipWith (fun (l : Nat) (p : ℚ) => (l : ℚ) * p) ((treeCodewords (huffmanTree (extendedPmf pmf (j + 1)) policy) (pmf.length ^ (j + 1))).map List.length)
    (extendedPmf (pmf.map Double.rat) (j + 1))).sum = A at *
  obtain ⟨n, hnd⟩ : ∃ n, n = pmf.length ^ (j + 1) := ⟨_, rfl⟩
  have hcast : (pmf.length : ℚ) ^ (j + 1) = (n : ℚ) := by rw [hnd]; push_cast; rfl
  rw [hcast]
  rw [← hnd] at hmain hjn hn c1
  have hs0 : 0 ≤ spread ^ (n * (n - 1)) := pow_nonneg (by linarith [one_le_spread]) _
  have e1 : (1 - uro) ^ j * A ≤ spread ^ (n * (n - 1)) * ((1 + uro) ^ j * B) := c1.trans (hmain.trans (mul_le_mul_of_nonneg_left c2 hs0))
  have e2 : A ≤ spread ^ (n * (n - 1) + j) * B := by
    rw [pow_add, spread, div_pow _ _ j, ← spread]
    have : spread ^ (n * (n - 1)) * ((1 + uro) ^ j / (1 - uro) ^ j) * B = spread ^ (n * (n - 1)) * ((1 + uro) ^ j * B) / (1 - uro) ^ j := by ring
    rw [this, le_div_iff₀ (pow_pos u1 j), mul_comm]
    exact e1
  refine e2.trans (mul_le_mul_of_nonneg_right ?_ hB0)
  have hexp : n * (n - 1) + j ≤ n ^ 2 := by
    obtain ⟨n', rfl⟩ : ∃ n', n = n' + 1 := ⟨n - 1, by omega⟩
    rw [Nat.add_sub_cancel]
    nlinarith
  have hsp := spread_pow (N := n ^ 2) (by
    calc n ^ 2 ≤ (2 ^ 25) ^ 2 := Nat.pow_le_pow_left hn 2
      _ = 2 ^ 50 := by norm_num)
  push_cast at hsp
  exact (pow_le_pow_right₀ one_le_spread hexp).trans hsp

/-- Non-vacuity: probabilities 1/2, 1/4, 1/4 and blocks of three symbols. -/
example : ∃ pmf : List Double, pmf.map Double.val = [1 / 2, 1 / 4, 1 / 4] ∧ ∃ c, huffmanCode pmf 3 .high .tree = some c ∧ c.codewords.length = 27 ∧
    ∀ words : List Word, words.length = 27 → (∀ w ∈ words, ∀ a ∈ w, a < 2) → words.Nodup → UniquelyParsable words →
      expectedLength (FVCode.blockProbabilities [1 / 2, 1 / 4, 1 / 4] 3) c.codewords ≤ (1 + 27 ^ 2 / 2 ^ 50) * expectedLength (FVCode.blockProbabilities [1 / 2, 1 / 4, 1 / 4] 3) words := by
  obtain ⟨a, ha⟩ : ∃ d : Double, d.val = 1 / 2 := ⟨⟨1 / 2, 1, -1, by norm_num, by norm_num, by norm_num⟩, rfl⟩
  obtain ⟨b, hb⟩ : ∃ d : Double, d.val = 1 / 4 := ⟨⟨1 / 4, 1, -2, by norm_num, by norm_num, by norm_num⟩, rfl⟩
  refine ⟨[a, b, b], by simp [ha, hb], ?_⟩
  have h := C137_huffman_near_optimal [a, b, b] [1 / 2, 1 / 4, 1 / 4] (by simp [ha, hb]) (by simp) 3 .high .tree (by simp) (by norm_num) (by simp) (by
    have h6 : (1 : ℚ) / 2 ^ 1000 ≤ 1 / 2 ^ 6 := one_div_le_one_div_of_le (by positivity) (pow_le_pow_right₀ (by norm_num) (by norm_num))
    intro x hx
    right
    refine h6.trans ?_
    simp only [List.mem_cons, List.not_mem_nil, or_false] at hx
    rcases hx with rfl | rfl | rfl <;> norm_num)
  have e : (((([a, b, b] : List Double).length : ℚ)) ^ 3) = 27 := by norm_num
  rw [e] at h
  have e' : ([a, b, b] : List Double).length ^ 3 = 27 := rfl
  rw [e'] at h
  exact h

end Komm
