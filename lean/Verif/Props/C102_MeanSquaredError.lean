import Verif.Lemmas.Trapezoid
import Mathlib.Data.List.GetD
/-! C102: `mean_squared_error` of the scalar quantizers. -/
namespace Komm
section
variable {K : Type} [Field K] [LinearOrder K] [IsStrictOrderedRing K]

/-- The input range contains the thresholds. -/
def RangeContains (xmin xmax : K) (thresholds : List K) : Prop := xmin ≤ xmax ∧ ∀ t ∈ thresholds, xmin ≤ t ∧ t ≤ xmax

theorem lam_step {xmin xmax : K} {thresholds : List K} (hr : RangeContains xmin xmax thresholds) (hs : thresholds.Pairwise (· ≤ ·))
    (i : Nat) (hi : i < thresholds.length + 1) :
    (xmin :: thresholds ++ [xmax]).getD i 0 ≤ (xmin :: thresholds ++ [xmax]).getD (i + 1) 0 := by
  have hp : (xmin :: thresholds ++ [xmax]).Pairwise (· ≤ ·) := by
    rw [List.cons_append, List.pairwise_cons, List.pairwise_append]
    refine ⟨?_, hs, List.pairwise_singleton _ _, fun a ha b hb => ?_⟩
    · intro t ht
      rcases List.mem_append.mp ht with h | h
      · exact (hr.2 t h).1
      · rw [List.mem_singleton] at h; subst h; exact hr.1
    · rw [List.mem_singleton] at hb; subst hb; exact (hr.2 a ha).2
  have hl : (xmin :: thresholds ++ [xmax]).length = thresholds.length + 2 := by simp
  have h1 : i < (xmin :: thresholds ++ [xmax]).length := by omega
  have h2 : i + 1 < (xmin :: thresholds ++ [xmax]).length := by omega
  rw [List.getD_eq_getElem _ _ h1, List.getD_eq_getElem _ _ h2]
  exact List.pairwise_iff_getElem.mp hp _ _ h1 h2 (by omega)

theorem accepts_sorted {levels thresholds : List K} (ha : scalarQuantizerAccepts levels thresholds = true) :
    thresholds.Pairwise (· ≤ ·) := by
  obtain ⟨hl, h⟩ := (C71_accepts levels thresholds).mp ha
  rw [List.pairwise_iff_getElem]
  intro i j hi hj hij
  have := thresholds_mono hl h hij.le hj
  rwa [List.getD_eq_getElem _ _ hi, List.getD_eq_getElem _ _ hj] at this

/-- The computed error is non-negative for every accepted quantizer, non-negative density and range containing the thresholds. -/
theorem C102_nonneg (levels thresholds : List K) (ha : scalarQuantizerAccepts levels thresholds = true) (pdf : K → K)
    (hpdf : ∀ x, 0 ≤ pdf x) (xmin xmax : K) (hr : RangeContains xmin xmax thresholds) (pts : Nat) :
    0 ≤ meanSquaredError levels thresholds pdf xmin xmax pts := by
  obtain ⟨hl, -⟩ := (C71_accepts levels thresholds).mp ha
  rw [mse_eq]
  refine Finset.sum_nonneg fun i hi => ?_
  rw [Finset.mem_range] at hi
  have := trapF_mono (lam_step hr (accepts_sorted ha) i (by omega)) pts (f := fun _ => 0)
    (g := fun v => (levels.getD i 0 - v) ^ 2 * pdf v) fun v _ _ => mul_nonneg (sq_nonneg _) (hpdf v)
  rwa [trapF_zero] at this

/-- Finding: the range is not checked against the thresholds; if it does not contain them the result may be negative. -/
theorem C102_negative : meanSquaredError (uniformLevels 4 (1 : ℚ) 0) (uniformThresholds 4 1 0) (fun _ => 1) (-1/2) (1/2) 3 < 0 := by
  decide +kernel

/-- The levels of a Lloyd–Max quantizer are optimal for its thresholds: with the density and number of grid points of the design, no
other choice of levels gives a smaller `mean_squared_error`, whatever the number of iterations and the stopping rule. -/
theorem C102_lloyd_max (pdf : K → K) (hpdf : ∀ x, 0 ≤ pdf x) (L : Nat) (hL : 0 < L) (xmin xmax : K) (hx : xmin ≤ xmax)
    (pts maxIter : Nat) (hmax : 0 < maxIter) (stop : List K → List K → Bool) (y lam : List K)
    (h : lloydMax pdf L xmin xmax pts maxIter stop = (y, lam)) (y' : List K) (hy' : y'.length = L) :
    meanSquaredError y lam pdf xmin xmax pts ≤ meanSquaredError y' lam pdf xmin xmax pts := by
  -- the result of the loop is one step applied to some levels
  have key : ∀ n y0 lam0, y0 ≠ [] → ∃ y1, y1.length = y0.length ∧ lloydLoop pdf pts xmin xmax stop (n + 1) y0 lam0 =
      (lloydLevels pdf pts (lloydThresholds xmin xmax y1) y1, lloydThresholds xmin xmax y1) := by
    intro n
    induction n with
    | zero =>
      intro y0 lam0 _
      refine ⟨y0, rfl, ?_⟩
      rw [lloydLoop]
      simp only [lloydLoop, ite_self]
    | succ n ih =>
      intro y0 lam0 hne
      rw [lloydLoop]
      split
      · exact ⟨y0, rfl, rfl⟩
      · have hne' : lloydLevels pdf pts (lloydThresholds xmin xmax y0) y0 ≠ [] := by
          rw [← List.length_pos_iff, lloydLevels_length]; exact List.length_pos_iff.mpr hne
        obtain ⟨y1, h1, h2⟩ := ih _ (lloydThresholds xmin xmax y0) hne'
        exact ⟨y1, by rw [h1, lloydLevels_length], h2⟩
  have hord := C81_ordered pdf hpdf L hL xmin xmax hx pts maxIter hmax stop y lam h
  obtain ⟨hyl, hll, hin, hcell⟩ := hord
  obtain ⟨n, rfl⟩ : ∃ n, maxIter = n + 1 := ⟨maxIter - 1, by omega⟩
  rw [lloydMax, Prod.mk.injEq] at h
  obtain ⟨y1, hy1, hloop⟩ := key n (linspace (xmin + (xmax - xmin) / (L : K) / 2) (xmax - (xmax - xmin) / (L : K) / 2) L) []
    (by rw [← List.length_pos_iff, linspace_length]; exact hL)
  rw [linspace_length] at hy1
  rw [hloop] at h
  obtain ⟨rfl, rfl⟩ := h
  dsimp only at hll hin hcell hyl ⊢
  have hne1 : y1 ≠ [] := by rw [← List.length_pos_iff, hy1]; exact hL
  -- the thresholds with their end points are those of the design
  have hlam : xmin :: (lloydThresholds xmin xmax y1).tail.dropLast ++ [xmax] = lloydThresholds xmin xmax y1 := by
    have : lloydThresholds xmin xmax y1 = xmin :: ((List.range (y1.length - 1)).map fun i : Nat =>
      (1 / 2) * (y1.getD i 0 + y1.getD (i + 1) 0)) ++ [xmax] := rfl
    rw [this, List.cons_append, List.cons_append, List.tail_cons, List.dropLast_concat]
  rw [mse_eq, mse_eq, hlam, lloydLevels_length, hy1, hy']
  refine Finset.sum_le_sum fun i hi => ?_
  rw [Finset.mem_range] at hi
  rw [lloydLevels_getD _ _ _ _ _ (by omega)]
  apply lloydLevel_min pdf hpdf pts
  -- the cell is not reversed
  have hr : RangeContains xmin xmax (lloydThresholds xmin xmax y1).tail.dropLast := by
    refine ⟨hx, fun t ht => ?_⟩
    obtain ⟨j, hj, rfl⟩ := List.mem_iff_getElem.mp ht
    have hc := hcell j (by omega)
    rw [List.getD_eq_getElem _ _ hj] at hc
    exact ⟨(hin j (by omega)).1.trans hc.1, hc.2.trans (hin (j + 1) (by omega)).2⟩
  have hs : (lloydThresholds xmin xmax y1).tail.dropLast.Pairwise (· ≤ ·) := by
    rw [← List.isChain_iff_pairwise, List.isChain_iff_getElem]
    intro j hj
    have h1 := (hcell j (by omega)).2
    have h2 := (hcell (j + 1) (by omega)).1
    have e1 := List.getD_eq_getElem (lloydThresholds xmin xmax y1).tail.dropLast (0 : K) (n := j) (by omega)
    have e2 := List.getD_eq_getElem (lloydThresholds xmin xmax y1).tail.dropLast (0 : K) (n := j + 1) (by omega)
    rw [← e1, ← e2]
    exact h1.trans h2
  have := lam_step hr hs i (by omega)
  rwa [hlam] at this

/-- A uniform quantizer with step `Δ` and an input uniform on its granular region: `mean_squared_error` returns `Δ²/12` up to the
factor `1 + 2/(pts - 1)²` of the integration rule. -/
theorem C102_uniform (L : Nat) (Δ θ : K) (ha : uniformQuantizerAccepts L Δ = true) (pts : Nat) (hp : 2 ≤ pts) :
    meanSquaredError (uniformLevels L Δ θ) (uniformThresholds L Δ θ) (fun _ => 1 / (L * Δ)) ((θ - L / 2) * Δ) ((θ + L / 2) * Δ) pts =
      Δ ^ 2 / 12 * (1 + 2 / ((pts : K) - 1) ^ 2) := by
  obtain ⟨hL, hΔ⟩ := (uniformAccepts_iff L Δ).mp ha
  obtain ⟨n, rfl⟩ : ∃ n, pts = n + 2 := ⟨pts - 2, by omega⟩
  have hcell : ∀ i ≤ L, ((θ - L / 2) * Δ :: uniformThresholds L Δ θ ++ [(θ + L / 2) * Δ]).getD i 0 = (i - (L : K) / 2 + θ) * Δ := by
    intro i hi
    cases i with
    | zero => simp only [List.cons_append, List.getD_cons_zero, Nat.cast_zero]; ring
    | succ i =>
      rw [List.cons_append, List.getD_cons_succ]
      by_cases h : i + 1 < L
      · rw [List.getD_append _ _ _ _ (by rw [uniformThresholds_length]; omega), uniformThresholds_getD _ _ _ _ h]
        push_cast; ring
      · have : i + 1 = L := by omega
        rw [List.getD_append_right _ _ _ _ (by rw [uniformThresholds_length]; omega), uniformThresholds_length]
        rw [show i - (L - 1) = 0 by omega]
        simp only [List.getD_cons_zero, ← this]
        push_cast; ring
  have hLK : (L : K) ≠ 0 := by exact_mod_cast (by omega : L ≠ 0)
  have hn1 : (n : K) + 1 ≠ 0 := by exact_mod_cast (by omega : n + 1 ≠ 0)
  have hterm : ∀ i < L, trapF ((i - (L : K) / 2 + θ) * Δ) (((i + 1 : Nat) - (L : K) / 2 + θ) * Δ) (n + 2)
      (fun v => ((uniformLevels L Δ θ).getD i 0 - v) ^ 2 * (1 / (L * Δ))) = Δ ^ 2 / 12 * (1 + 2 / ((n : K) + 1) ^ 2) / L := by
    intro i hi
    rw [uniformLevels_getD _ _ _ _ hi, trapF_eq]
    set m : K := ((i : K) - ((L : K) - 1) / 2 + θ) * Δ
    have hpt : ∀ j < n + 2, (linspace ((i - (L : K) / 2 + θ) * Δ) (((i + 1 : Nat) - (L : K) / 2 + θ) * Δ) (n + 2)).getD j 0 =
        m - Δ / 2 + j * (Δ / (n + 1)) := by
      intro j hj
      rw [linspace_getD _ _ _ _ hj, if_neg (by omega)]
      have e : ((n + 2 : Nat) : K) - 1 = n + 1 := by push_cast; ring
      rw [e]
      simp only [m]
      push_cast
      field_simp
      ring
    have hsum : ∀ N : Nat, ∑ j ∈ Finset.range N, ((1 / 2 - ((j : K) + 1) / (n + 1)) ^ 2 + (1 / 2 - (j : K) / (n + 1)) ^ 2) =
        N / 2 - (N : K) ^ 2 / (n + 1) + (2 * (N : K) ^ 3 + N) / (3 * (n + 1) ^ 2) := by
      intro N
      induction N with
      | zero => simp
      | succ N ih => rw [Finset.sum_range_succ, ih]; push_cast; field_simp; ring
    have : ∀ j ∈ Finset.range (n + 2 - 1),
        ((linspace ((i - (L : K) / 2 + θ) * Δ) (((i + 1 : Nat) - (L : K) / 2 + θ) * Δ) (n + 2)).getD (j + 1) 0 -
          (linspace ((i - (L : K) / 2 + θ) * Δ) (((i + 1 : Nat) - (L : K) / 2 + θ) * Δ) (n + 2)).getD j 0) *
        ((m - (linspace ((i - (L : K) / 2 + θ) * Δ) (((i + 1 : Nat) - (L : K) / 2 + θ) * Δ) (n + 2)).getD (j + 1) 0) ^ 2 * (1 / (L * Δ)) +
          (m - (linspace ((i - (L : K) / 2 + θ) * Δ) (((i + 1 : Nat) - (L : K) / 2 + θ) * Δ) (n + 2)).getD j 0) ^ 2 * (1 / (L * Δ))) / 2 =
        Δ ^ 2 / (2 * (n + 1) * L) * ((1 / 2 - ((j : K) + 1) / (n + 1)) ^ 2 + (1 / 2 - (j : K) / (n + 1)) ^ 2) := by
      intro j hj
      rw [Finset.mem_range] at hj
      rw [hpt (j + 1) (by omega), hpt j (by omega)]
      have hΔ0 := hΔ.ne'
      push_cast
      field_simp
      ring
    rw [Finset.sum_congr rfl this, ← Finset.mul_sum, show n + 2 - 1 = n + 1 by omega, hsum]
    push_cast
    field_simp
    ring
  rw [mse_eq, uniformLevels_length]
  have : ∀ i ∈ Finset.range L, trapF (((θ - L / 2) * Δ :: uniformThresholds L Δ θ ++ [(θ + L / 2) * Δ]).getD i 0)
      (((θ - L / 2) * Δ :: uniformThresholds L Δ θ ++ [(θ + L / 2) * Δ]).getD (i + 1) 0) (n + 2)
      (fun v => ((uniformLevels L Δ θ).getD i 0 - v) ^ 2 * (1 / (L * Δ))) = Δ ^ 2 / 12 * (1 + 2 / ((n : K) + 1) ^ 2) / L := by
    intro i hi
    rw [Finset.mem_range] at hi
    rw [hcell i hi.le, hcell (i + 1) hi, hterm i hi]
  rw [Finset.sum_congr rfl this, Finset.sum_const, Finset.card_range, nsmul_eq_mul]
  have e : ((n + 2 : Nat) : K) - 1 = n + 1 := by push_cast; ring
  rw [e]
  field_simp

end

open MeasureTheory Filter Topology

/-- As the number of grid points grows, the result tends to the mean squared error `∫ (Q(x) - x)² p(x) dx` of the quantizer over the
range, for every accepted quantizer, continuous density and range containing the thresholds. -/
theorem C102_limit (levels thresholds : List ℝ) (ha : scalarQuantizerAccepts levels thresholds = true) (pdf : ℝ → ℝ) (xmin xmax : ℝ)
    (hr : RangeContains xmin xmax thresholds) (hc : ContinuousOn pdf (Set.Icc xmin xmax)) (Q : ℝ → ℝ)
    (hQ : ∀ x, quantize levels thresholds x = some (Q x)) :
    Tendsto (fun pts => meanSquaredError levels thresholds pdf xmin xmax pts) atTop
      (𝓝 (∫ x in xmin..xmax, (Q x - x) ^ 2 * pdf x)) := by
  obtain ⟨hl, hstrict⟩ := (C71_accepts levels thresholds).mp ha
  have hs := accepts_sorted ha
  generalize hlam : (xmin :: thresholds ++ [xmax]) = lam
  have hstep : ∀ i < levels.length, lam.getD i 0 ≤ lam.getD (i + 1) 0 := by
    intro i hi; rw [← hlam]; exact lam_step hr hs i (by omega)
  have h0 : lam.getD 0 0 = xmin := by rw [← hlam]; rfl
  have hend : lam.getD levels.length 0 = xmax := by
    rw [← hlam, hl, List.cons_append, List.getD_cons_succ, List.getD_append_right _ _ _ _ le_rfl]; simp
  have hmono : ∀ i j, i ≤ j → j ≤ levels.length → lam.getD i 0 ≤ lam.getD j 0 := by
    intro i j hij
    induction j, hij using Nat.le_induction with
    | base => intro _; exact le_rfl
    | succ j _ ih => intro hj; exact (ih (by omega)).trans (hstep j (by omega))
  have hsub : ∀ i < levels.length, Set.Icc (lam.getD i 0) (lam.getD (i + 1) 0) ⊆ Set.Icc xmin xmax := by
    intro i hi
    exact Set.Icc_subset_Icc (h0 ▸ hmono 0 i (by omega) (by omega)) (hend ▸ hmono (i + 1) _ (by omega) le_rfl)
  have hcont : ∀ i < levels.length, ContinuousOn (fun v => (levels.getD i 0 - v) ^ 2 * pdf v) (Set.Icc (lam.getD i 0) (lam.getD (i + 1) 0)) :=
    fun i hi => ContinuousOn.mul (by fun_prop) (hc.mono (hsub i hi))
  -- inside cell `i` the quantizer outputs level `i`
  have hcell : ∀ i < levels.length, Set.EqOn (fun v => (levels.getD i 0 - v) ^ 2 * pdf v) (fun x => (Q x - x) ^ 2 * pdf x)
      (Set.Ioo (lam.getD i 0) (lam.getD (i + 1) 0)) := by
    intro i hi x hx
    have : quantize levels thresholds x = some (levels.getD i 0) := by
      rw [C71_cell levels thresholds ha x i hi]
      constructor
      · intro hi0
        obtain ⟨j, rfl⟩ : ∃ j, i = j + 1 := ⟨i - 1, by omega⟩
        have h1 := hx.1
        rw [← hlam, List.cons_append, List.getD_cons_succ, List.getD_append _ _ _ _ (by omega)] at h1
        exact h1.le
      · intro hi1
        have h2 := hx.2
        rw [← hlam, List.cons_append, List.getD_cons_succ, List.getD_append _ _ _ _ hi1] at h2
        exact h2
    rw [hQ x, Option.some.injEq] at this
    simp only [this]
  have hint : ∀ i < levels.length, IntervalIntegrable (fun x => (Q x - x) ^ 2 * pdf x) volume (lam.getD i 0) (lam.getD (i + 1) 0) := by
    intro i hi
    have h1 : IntervalIntegrable (fun v => (levels.getD i 0 - v) ^ 2 * pdf v) volume (lam.getD i 0) (lam.getD (i + 1) 0) := by
      apply ContinuousOn.intervalIntegrable
      rw [Set.uIcc_of_le (hstep i hi)]; exact hcont i hi
    exact h1.congr_uIoo (by rw [Set.uIoo_of_le (hstep i hi)]; exact hcell i hi)
  have hsum := intervalIntegral.sum_integral_adjacent_intervals (a := fun i => lam.getD i 0) (n := levels.length) hint
  rw [h0, hend] at hsum
  rw [← hsum]
  have hcongr : ∀ i ∈ Finset.range levels.length, ∫ x in (lam.getD i 0)..(lam.getD (i + 1) 0), (Q x - x) ^ 2 * pdf x =
      ∫ x in (lam.getD i 0)..(lam.getD (i + 1) 0), (levels.getD i 0 - x) ^ 2 * pdf x := by
    intro i hi
    rw [Finset.mem_range] at hi
    exact (intervalIntegral.integral_congr_Ioo_of_le (hstep i hi) (hcell i hi)).symm
  rw [Finset.sum_congr rfl hcongr]
  simp only [mse_eq, hlam]
  exact tendsto_finset_sum _ fun i hi => trapF_tendsto (hstep i (Finset.mem_range.mp hi)) _ (hcont i (Finset.mem_range.mp hi))

/-- For given levels the thresholds half-way between them are optimal: no other assignment of the inputs to the levels has a smaller
squared error at any input, hence none has a smaller mean squared error. -/
theorem C102_midpoints_best (levels thresholds : List ℝ) (ha : scalarQuantizerAccepts levels thresholds = true)
    (hm : ∀ i < thresholds.length, thresholds.getD i 0 = (levels.getD i 0 + levels.getD (i + 1) 0) / 2)
    (Q : ℝ → ℝ) (hQ : ∀ x, quantize levels thresholds x = some (Q x)) (Q' : ℝ → ℝ) (hQ' : ∀ x, Q' x ∈ levels)
    (pdf : ℝ → ℝ) (hpdf : ∀ x, 0 ≤ pdf x) (xmin xmax : ℝ) (hx : xmin ≤ xmax)
    (hi : IntervalIntegrable (fun x => (Q x - x) ^ 2 * pdf x) volume xmin xmax)
    (hi' : IntervalIntegrable (fun x => (Q' x - x) ^ 2 * pdf x) volume xmin xmax) :
    ∫ x in xmin..xmax, (Q x - x) ^ 2 * pdf x ≤ ∫ x in xmin..xmax, (Q' x - x) ^ 2 * pdf x := by
  refine intervalIntegral.integral_mono hx hi hi' fun x => ?_
  have := nearest_of_midpoints levels thresholds ha hm x (Q x) (hQ x) (Q' x) (hQ' x)
  rw [abs_sub_comm, abs_sub_comm x] at this
  exact mul_le_mul_of_nonneg_right (sq_le_sq.mpr this) (hpdf x)

/-- The documented example of UniformQuantizer.py with few points, and a range of thresholds that is accepted. -/
example : meanSquaredError (uniformLevels 4 (1 : ℚ) 0) (uniformThresholds 4 1 0) (fun _ => 1 / 4) (-2) 2 3 = 1 / 12 * (1 + 2 / 4) ∧
    scalarQuantizerAccepts (uniformLevels 4 (1 : ℚ) 0) (uniformThresholds 4 1 0) = true ∧
    uniformThresholds 4 (1 : ℚ) 0 = [-1, 0, 1] := by decide +kernel

end Komm
