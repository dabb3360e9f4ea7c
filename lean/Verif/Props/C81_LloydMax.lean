import Verif.Props.C71_Quantizers
import Mathlib.Algebra.Order.BigOperators.Group.List
import Mathlib.Algebra.BigOperators.Ring.List
/-! C81: the Lloyd–Max quantizer. -/
namespace Komm
variable {K : Type} [Field K] [LinearOrder K] [IsStrictOrderedRing K]

theorem linspace_length (a b : K) (n : Nat) : (linspace a b n).length = n := by simp [linspace]

theorem linspace_getD (a b : K) (n i : Nat) (hi : i < n) :
    (linspace a b n).getD i 0 = if n = 1 then a else a + (i : K) * ((b - a) / ((n : K) - 1)) := by
  rw [linspace, List.getD_eq_getElem?_getD, List.getElem?_map, List.getElem?_range hi]; rfl

theorem linspace_step (a b : K) (hab : a ≤ b) (n i : Nat) (hi : i + 1 < n) : (linspace a b n).getD i 0 ≤ (linspace a b n).getD (i + 1) 0 := by
  rw [linspace_getD _ _ _ _ hi, linspace_getD _ _ _ _ (by omega), if_neg (by omega), if_neg (by omega)]
  have h1 : (0 : K) < (n : K) - 1 := by
    have : (1 : K) < (n : K) := by exact_mod_cast (by omega : 1 < n)
    linarith
  have h2 : 0 ≤ (b - a) / ((n : K) - 1) := div_nonneg (by linarith) h1.le
  push_cast
  nlinarith

theorem linspace_mem (a b : K) (hab : a ≤ b) (n i : Nat) (hi : i < n) : a ≤ (linspace a b n).getD i 0 ∧ (linspace a b n).getD i 0 ≤ b := by
  rw [linspace_getD _ _ _ _ hi]
  by_cases h : n = 1
  · rw [if_pos h]; exact ⟨le_rfl, hab⟩
  · rw [if_neg h]
    have h1 : (0 : K) < (n : K) - 1 := by
      have : (1 : K) < (n : K) := by exact_mod_cast (by omega : 1 < n)
      linarith
    have h2 : 0 ≤ (b - a) / ((n : K) - 1) := div_nonneg (by linarith) h1.le
    have h3 : (i : K) ≤ (n : K) - 1 := by
      have : ((i : K) + 1) ≤ n := by exact_mod_cast hi
      linarith
    have h4 : ((n : K) - 1) * ((b - a) / ((n : K) - 1)) = b - a := by field_simp
    have h5 := mul_le_mul_of_nonneg_right h3 h2
    have h6 : (0 : K) ≤ (i : K) * ((b - a) / ((n : K) - 1)) := mul_nonneg (Nat.cast_nonneg _) h2
    constructor <;> linarith

theorem sum_map_le {α : Type} (l : List α) (f g : α → K) (h : ∀ a ∈ l, f a ≤ g a) : (l.map f).sum ≤ (l.map g).sum :=
  List.sum_le_sum h

/-- A weighted mean lies between the bounds of the cell. -/
theorem lloydLevel_mem (pdf : K → K) (hpdf : ∀ x, 0 ≤ pdf x) (pts : Nat) (a b old : K) (h1 : a ≤ old) (h2 : old ≤ b) :
    a ≤ lloydLevel pdf pts a b old ∧ lloydLevel pdf pts a b old ≤ b := by
  have hab := h1.trans h2
  rw [lloydLevel]
  by_cases hd : trapezoid ((linspace a b pts).map pdf) (linspace a b pts) = 0
  · rw [if_neg (by simpa using hd)]; exact ⟨h1, h2⟩
  · rw [if_pos hd]
    have hget : ∀ (f : K → K) (i : Nat), i < pts → ((linspace a b pts).map f).getD i 0 = f ((linspace a b pts).getD i 0) := by
      intro f i hi
      have hl : i < (linspace a b pts).length := by rw [linspace_length]; exact hi
      rw [List.getD_eq_getElem?_getD, List.getElem?_map, List.getD_eq_getElem?_getD, List.getElem?_eq_getElem hl]; rfl
    have hden : 0 ≤ trapezoid ((linspace a b pts).map pdf) (linspace a b pts) := by
      apply List.sum_nonneg
      intro v hv
      obtain ⟨i, hi, rfl⟩ := List.mem_map.mp hv
      rw [List.mem_range, linspace_length] at hi
      rw [hget pdf i (by omega), hget pdf (i + 1) (by omega)]
      have := linspace_step a b hab pts i (by omega)
      exact div_nonneg (mul_nonneg (by linarith) (add_nonneg (hpdf _) (hpdf _))) (by norm_num)
    have hpos := lt_of_le_of_ne hden (Ne.symm hd)
    rw [le_div_iff₀ hpos, div_le_iff₀ hpos]
    have hlo : ∀ c : K, c * trapezoid ((linspace a b pts).map pdf) (linspace a b pts) =
        ((List.range ((linspace a b pts).length - 1)).map fun i : Nat => c * (((linspace a b pts).getD (i + 1) 0 - (linspace a b pts).getD i 0) *
          (((linspace a b pts).map pdf).getD (i + 1) 0 + ((linspace a b pts).map pdf).getD i 0) / 2)).sum := by
      intro c
      rw [trapezoid, List.sum_map_mul_left]
    constructor
    · rw [hlo a]
      apply sum_map_le
      intro i hi
      rw [List.mem_range, linspace_length] at hi
      rw [hget pdf i (by omega), hget pdf (i + 1) (by omega), hget _ i (by omega), hget _ (i + 1) (by omega)]
      have hs := linspace_step a b hab pts i (by omega)
      have hm1 := linspace_mem a b hab pts i (by omega)
      have hm2 := linspace_mem a b hab pts (i + 1) (by omega)
      have hp1 := hpdf ((linspace a b pts).getD i 0)
      have hp2 := hpdf ((linspace a b pts).getD (i + 1) 0)
      have k1 := mul_le_mul_of_nonneg_right hm1.1 hp1
      have k2 := mul_le_mul_of_nonneg_right hm2.1 hp2
      have k3 := mul_le_mul_of_nonneg_left (add_le_add k2 k1) (sub_nonneg.mpr hs)
      linarith
    · rw [hlo b]
      apply sum_map_le
      intro i hi
      rw [List.mem_range, linspace_length] at hi
      rw [hget pdf i (by omega), hget pdf (i + 1) (by omega), hget _ i (by omega), hget _ (i + 1) (by omega)]
      have hs := linspace_step a b hab pts i (by omega)
      have hm1 := linspace_mem a b hab pts i (by omega)
      have hm2 := linspace_mem a b hab pts (i + 1) (by omega)
      have hp1 := hpdf ((linspace a b pts).getD i 0)
      have hp2 := hpdf ((linspace a b pts).getD (i + 1) 0)
      have k1 := mul_le_mul_of_nonneg_right hm1.2 hp1
      have k2 := mul_le_mul_of_nonneg_right hm2.2 hp2
      have k3 := mul_le_mul_of_nonneg_left (add_le_add k2 k1) (sub_nonneg.mpr hs)
      linarith

/-- Levels in increasing order inside the range. -/
def OrderedIn (xmin xmax : K) (y : List K) : Prop :=
  (∀ i < y.length, xmin ≤ y.getD i 0 ∧ y.getD i 0 ≤ xmax) ∧ ∀ i, i + 1 < y.length → y.getD i 0 ≤ y.getD (i + 1) 0

/-- Every level lies in its cell: `lam[i] ≤ y[i] ≤ lam[i+1]`. -/
def InCells (lam y : List K) : Prop := ∀ i < y.length, lam.getD i 0 ≤ y.getD i 0 ∧ y.getD i 0 ≤ lam.getD (i + 1) 0

theorem lloydThresholds_length (xmin xmax : K) (y : List K) (hy : y ≠ []) : (lloydThresholds xmin xmax y).length = y.length + 1 := by
  have : 0 < y.length := List.length_pos_iff.mpr hy
  simp [lloydThresholds]; omega

theorem lloydThresholds_getD (xmin xmax : K) (y : List K) (i : Nat) (hi : i + 1 < y.length) :
    (lloydThresholds xmin xmax y).getD (i + 1) 0 = (1 / 2) * (y.getD i 0 + y.getD (i + 1) 0) := by
  have h : i < ((List.range (y.length - 1)).map fun i : Nat => (1 / 2) * (y.getD i 0 + y.getD (i + 1) 0)).length := by simp; omega
  rw [lloydThresholds, List.cons_append, List.getD_eq_getElem?_getD, List.getElem?_cons_succ, List.getElem?_append_left h, List.getElem?_map,
    List.getElem?_range (by omega)]
  rfl

theorem lloydThresholds_last (xmin xmax : K) (y : List K) (hy : y ≠ []) : (lloydThresholds xmin xmax y).getD y.length 0 = xmax := by
  obtain ⟨n, hn⟩ : ∃ n, y.length = n + 1 := ⟨y.length - 1, by have := List.length_pos_iff.mpr hy; omega⟩
  rw [lloydThresholds, List.cons_append, List.getD_eq_getElem?_getD, hn, List.getElem?_cons_succ, List.getElem?_append_right (by simp)]
  simp

theorem lloyd_inCells (xmin xmax : K) (y : List K) (hy : y ≠ []) (h : OrderedIn xmin xmax y) : InCells (lloydThresholds xmin xmax y) y := by
  intro i hi
  constructor
  · cases i with
    | zero => exact (h.1 0 hi).1
    | succ i =>
      rw [lloydThresholds_getD _ _ _ _ hi]
      have := h.2 i hi
      linarith
  · by_cases hl : i + 1 < y.length
    · rw [lloydThresholds_getD _ _ _ _ hl]
      have := h.2 i hl
      linarith
    · rw [show i + 1 = y.length by omega, lloydThresholds_last _ _ _ hy]
      exact (h.1 i hi).2

theorem lloydLevels_length (pdf : K → K) (pts : Nat) (lam y : List K) : (lloydLevels pdf pts lam y).length = y.length := by simp [lloydLevels]

theorem lloydLevels_getD (pdf : K → K) (pts : Nat) (lam y : List K) (i : Nat) (hi : i < y.length) :
    (lloydLevels pdf pts lam y).getD i 0 = lloydLevel pdf pts (lam.getD i 0) (lam.getD (i + 1) 0) (y.getD i 0) := by
  rw [lloydLevels, List.getD_eq_getElem?_getD, List.getElem?_map, List.getElem?_range hi]; rfl

/-- One iteration keeps the levels in their cells. -/
theorem lloydLevels_inCells (pdf : K → K) (hpdf : ∀ x, 0 ≤ pdf x) (pts : Nat) (lam y : List K) (h : InCells lam y) :
    InCells lam (lloydLevels pdf pts lam y) := by
  intro i hi
  rw [lloydLevels_length] at hi
  rw [lloydLevels_getD _ _ _ _ _ hi]
  exact lloydLevel_mem pdf hpdf pts _ _ _ (h i hi).1 (h i hi).2

theorem orderedIn_of_inCells (lam y : List K) (hl : lam.length = y.length + 1)
    (h : InCells lam y) : OrderedIn (lam.getD 0 0) (lam.getD y.length 0) y := by
  have hstep : ∀ i, i + 1 < y.length → y.getD i 0 ≤ y.getD (i + 1) 0 := fun i hi => (h i (by omega)).2.trans (h (i + 1) hi).1
  refine ⟨fun i hi => ?_, hstep⟩
  constructor
  · induction i with
    | zero => exact (h 0 hi).1
    | succ i ih => exact (ih (by omega)).trans (hstep i hi)
  · have : ∀ d i, i + 1 + d = y.length → y.getD i 0 ≤ lam.getD y.length 0 := by
      intro d
      induction d with
      | zero => intro i hi; rw [← hi]; exact (h i (by omega)).2
      | succ d ih => intro i hi; exact (hstep i (by omega)).trans (ih (i + 1) (by omega))
    exact this (y.length - 1 - i) i (by omega)

/-- The conclusions about the loop: lengths, end points, cells. -/
def LloydInv (xmin xmax : K) (L : Nat) (r : List K × List K) : Prop :=
  r.1.length = L ∧ r.2.length = L + 1 ∧ r.2.getD 0 0 = xmin ∧ r.2.getD L 0 = xmax ∧ InCells r.2 r.1

theorem lloydStep_inv (pdf : K → K) (hpdf : ∀ x, 0 ≤ pdf x) (pts : Nat) (xmin xmax : K) (y : List K) (hy : y ≠ [])
    (h : OrderedIn xmin xmax y) :
    LloydInv xmin xmax y.length (lloydLevels pdf pts (lloydThresholds xmin xmax y) y, lloydThresholds xmin xmax y) := by
  refine ⟨lloydLevels_length _ _ _ _, lloydThresholds_length _ _ _ hy, rfl, lloydThresholds_last _ _ _ hy, ?_⟩
  exact lloydLevels_inCells pdf hpdf pts _ _ (lloyd_inCells xmin xmax y hy h)

theorem LloydInv.ordered {xmin xmax : K} {L : Nat} {r : List K × List K} (h : LloydInv xmin xmax L r) : OrderedIn xmin xmax r.1 := by
  obtain ⟨h1, h2, h3, h4, h5⟩ := h
  have := orderedIn_of_inCells r.2 r.1 (by omega) h5
  rwa [h1, h3, h4] at this

theorem lloydLoop_inv (pdf : K → K) (hpdf : ∀ x, 0 ≤ pdf x) (pts : Nat) (xmin xmax : K) (stop : List K → List K → Bool) (n : Nat) :
    ∀ (y lam : List K), y ≠ [] → OrderedIn xmin xmax y →
      LloydInv xmin xmax y.length (lloydLoop pdf pts xmin xmax stop (n + 1) y lam) := by
  induction n with
  | zero =>
    intro y lam hy h
    rw [lloydLoop]
    have := lloydStep_inv pdf hpdf pts xmin xmax y hy h
    split
    · exact this
    · exact this
  | succ n ih =>
    intro y lam hy h
    rw [lloydLoop]
    have hs := lloydStep_inv pdf hpdf pts xmin xmax y hy h
    split
    · exact hs
    · have hne : lloydLevels pdf pts (lloydThresholds xmin xmax y) y ≠ [] := by
        rw [← List.length_pos_iff, lloydLevels_length]; exact List.length_pos_iff.mpr hy
      have := ih _ (lloydThresholds xmin xmax y) hne hs.ordered
      rwa [lloydLevels_length] at this

theorem tail_dropLast_getD (l : List K) (i : Nat) (hi : i + 2 < l.length) : l.tail.dropLast.getD i 0 = l.getD (i + 1) 0 := by
  rw [List.getD_eq_getElem?_getD, List.getD_eq_getElem?_getD, List.getElem?_eq_getElem (by simp; omega), List.getElem?_eq_getElem (by omega)]
  simp

/-- For every non-negative density (zero regions allowed), every range, number of levels, number of integration points and stopping rule:
`LloydMaxQuantizer` has `L` levels and `L - 1` thresholds, the levels lie in the range in non-decreasing order, and every level lies in
its own cell (`λ[i-1] ≤ y[i] ≤ λ[i]`). -/
theorem C81_ordered (pdf : K → K) (hpdf : ∀ x, 0 ≤ pdf x) (L : Nat) (hL : 0 < L) (xmin xmax : K) (hx : xmin ≤ xmax) (pts maxIter : Nat)
    (hmax : 0 < maxIter) (stop : List K → List K → Bool) (y lam : List K) (h : lloydMax pdf L xmin xmax pts maxIter stop = (y, lam)) :
    y.length = L ∧ lam.length + 1 = L ∧
    (∀ i < L, xmin ≤ y.getD i 0 ∧ y.getD i 0 ≤ xmax) ∧
    (∀ i, i + 1 < L → y.getD i 0 ≤ lam.getD i 0 ∧ lam.getD i 0 ≤ y.getD (i + 1) 0) := by
  obtain ⟨n, rfl⟩ : ∃ n, maxIter = n + 1 := ⟨maxIter - 1, by omega⟩
  have hLK : (0 : K) < (L : K) := by exact_mod_cast hL
  have hd : 0 ≤ (xmax - xmin) / (L : K) := div_nonneg (by linarith) hLK.le
  have hd2 : (xmax - xmin) / (L : K) ≤ xmax - xmin := by
    rw [div_le_iff₀ hLK]
    have h1 : (1 : K) ≤ (L : K) := by exact_mod_cast hL
    nlinarith
  rw [lloydMax] at h
  generalize hy0 : linspace (xmin + (xmax - xmin) / (L : K) / 2) (xmax - (xmax - xmin) / (L : K) / 2) L = y0 at h
  have hlen : y0.length = L := by rw [← hy0]; exact linspace_length _ _ _
  have hne : y0 ≠ [] := by rw [← List.length_pos_iff, hlen]; exact hL
  have hab : xmin + (xmax - xmin) / (L : K) / 2 ≤ xmax - (xmax - xmin) / (L : K) / 2 := by linarith
  have hord : OrderedIn xmin xmax y0 := by
    refine ⟨fun i hi => ?_, fun i hi => ?_⟩
    · rw [← hy0]
      have := linspace_mem _ _ hab L i (by omega)
      constructor <;> linarith [this.1, this.2]
    · rw [← hy0]; exact linspace_step _ _ hab L i (by omega)
  have hinv := lloydLoop_inv pdf hpdf pts xmin xmax stop n y0 [] hne hord
  rw [hlen] at hinv
  rw [Prod.mk.injEq] at h
  obtain ⟨h1, h2⟩ := h
  have ho := hinv.ordered
  obtain ⟨i1, i2, i3, i4, i5⟩ := hinv
  have hcell : ∀ i < L, _ := fun i hi => i5 i (by omega)
  rw [h1] at i1 ho hcell
  refine ⟨i1, ?_, fun i hi => ho.1 i (by omega), fun i hi => ?_⟩
  · rw [← h2]; simp; omega
  · rw [← h2, tail_dropLast_getD _ _ (by omega)]
    exact ⟨(hcell i (by omega)).2, (hcell (i + 1) hi).1⟩

/-- Consequently quantization with the computed levels never fails and is monotone, for every input. -/
theorem C81_quantize_total_monotone (pdf : K → K) (hpdf : ∀ x, 0 ≤ pdf x) (L : Nat) (hL : 0 < L) (xmin xmax : K) (hx : xmin ≤ xmax)
    (pts maxIter : Nat) (hmax : 0 < maxIter) (stop : List K → List K → Bool) (y lam : List K)
    (h : lloydMax pdf L xmin xmax pts maxIter stop = (y, lam)) (u v : K) (huv : u ≤ v) :
    ∃ qu qv, quantize y lam u = some qu ∧ quantize y lam v = some qv ∧ qu ≤ qv := by
  obtain ⟨h1, h2, h3, h4⟩ := C81_ordered pdf hpdf L hL xmin xmax hx pts maxIter hmax stop y lam h
  refine ⟨_, _, quantize_eq (by omega) u, quantize_eq (by omega) v, ?_⟩
  have hb := digitize_le lam v
  have hm : ∀ i j, i ≤ j → j < L → y.getD i 0 ≤ y.getD j 0 := by
    intro i j hij
    induction j, hij using Nat.le_induction with
    | base => intro _; exact le_rfl
    | succ j _ ih => intro hj; exact (ih (by omega)).trans ((h4 j hj).1.trans (h4 j hj).2)
  exact hm _ _ (digitize_mono huv) (by omega)

theorem inner_injective (xmin xmax : K) (y z : List K) (h : (lloydThresholds xmin xmax y).tail.dropLast = (lloydThresholds xmin xmax z).tail.dropLast) :
    lloydThresholds xmin xmax y = lloydThresholds xmin xmax z := by
  simp only [lloydThresholds, List.cons_append, List.tail_cons, List.dropLast_concat] at h ⊢
  rw [h]

theorem lloydLoop_converged (pdf : K → K) (pts : Nat) (xmin xmax : K) (n : Nat) : ∀ (y lam : List K) (r r' : List K × List K),
    lloydLoop pdf pts xmin xmax (fun a b => decide (a = b)) (n + 1) y lam = r →
    lloydLoop pdf pts xmin xmax (fun a b => decide (a = b)) (n + 2) y lam = r' →
    r.1 = r'.1 → r.2.tail.dropLast = r'.2.tail.dropLast →
    r.2 = lloydThresholds xmin xmax r.1 ∧ r.1 = lloydLevels pdf pts r.2 r.1 := by
  induction n with
  | zero =>
    intro y lam r r' h h' e1 e2
    rw [lloydLoop] at h h'
    by_cases hs : lloydLevels pdf pts (lloydThresholds xmin xmax y) y = y
    · rw [if_pos (by simpa using hs)] at h
      subst h
      refine ⟨?_, ?_⟩
      · show lloydThresholds xmin xmax y = _
        rw [hs]
      · show _ = lloydLevels pdf pts (lloydThresholds xmin xmax y) (lloydLevels pdf pts (lloydThresholds xmin xmax y) y)
        rw [hs, hs]
    · rw [if_neg (by simpa using hs)] at h h'
      simp only [lloydLoop, ite_self] at h h'
      subst h h'
      have e3 := inner_injective xmin xmax _ _ e2
      refine ⟨e3, ?_⟩
      rw [← e3] at e1
      exact e1
  | succ n ih =>
    intro y lam r r' h h' e1 e2
    rw [lloydLoop] at h h'
    by_cases hs : lloydLevels pdf pts (lloydThresholds xmin xmax y) y = y
    · rw [if_pos (by simpa using hs)] at h
      subst h
      refine ⟨?_, ?_⟩
      · show lloydThresholds xmin xmax y = _
        rw [hs]
      · show _ = lloydLevels pdf pts (lloydThresholds xmin xmax y) (lloydLevels pdf pts (lloydThresholds xmin xmax y) y)
        rw [hs, hs]
    · rw [if_neg (by simpa using hs)] at h h'
      exact ih _ _ r r' h h' e1 e2

/-- If the iteration has converged (allowing one more iteration does not change the result, the loop being stopped by exact equality), the
two optimality conditions of Lloyd and Max hold for the returned quantizer: each threshold is the midpoint of the neighbouring levels, and
each level is the centroid of its cell (integrals by the trapezoidal rule on `pts` equispaced points) unless that integral of the density
is zero. -/
theorem C81_optimality_conditions (pdf : K → K) (L : Nat) (hL : 0 < L) (xmin xmax : K) (pts maxIter : Nat) (hmax : 0 < maxIter)
    (y lam : List K) (h : lloydMax pdf L xmin xmax pts maxIter (fun a b => decide (a = b)) = (y, lam))
    (hconv : lloydMax pdf L xmin xmax pts (maxIter + 1) (fun a b => decide (a = b)) = (y, lam)) :
    (∀ i, i + 1 < y.length → lam.getD i 0 = (y.getD i 0 + y.getD (i + 1) 0) / 2) ∧
    ∀ i < y.length, ∀ a b x, a = (if i = 0 then xmin else lam.getD (i - 1) 0) →
      b = (if i + 1 = y.length then xmax else lam.getD i 0) → x = linspace a b pts → trapezoid (x.map pdf) x ≠ 0 →
      y.getD i 0 = trapezoid (x.map fun v : K => v * pdf v) x / trapezoid (x.map pdf) x := by
  obtain ⟨n, rfl⟩ : ∃ n, maxIter = n + 1 := ⟨maxIter - 1, by omega⟩
  rw [lloydMax, Prod.mk.injEq] at h hconv
  have hc := lloydLoop_converged pdf pts xmin xmax n _ [] _ _ rfl rfl (h.1.trans hconv.1.symm) (h.2.trans hconv.2.symm)
  obtain ⟨h1, h2⟩ := h
  rw [h1] at hc
  rw [hc.1] at h2 hc
  obtain ⟨-, hc⟩ := hc
  have hlam : ∀ i, i + 1 < y.length → lam.getD i 0 = (y.getD i 0 + y.getD (i + 1) 0) / 2 := by
    intro i hi
    have hne : y ≠ [] := by rintro rfl; simp at hi
    rw [← h2, tail_dropLast_getD _ _ (by rw [lloydThresholds_length _ _ _ hne]; omega), lloydThresholds_getD _ _ _ _ hi]
    ring
  refine ⟨hlam, fun i hi a b x ha hb hx hden => ?_⟩
  have hne : y ≠ [] := by rintro rfl; simp at hi
  have ea : (lloydThresholds xmin xmax y).getD i 0 = a := by
    rw [ha]
    cases i with
    | zero => rfl
    | succ i =>
      rw [if_neg (by omega), lloydThresholds_getD _ _ _ _ hi, Nat.add_sub_cancel, hlam i hi]
      ring
  have eb : (lloydThresholds xmin xmax y).getD (i + 1) 0 = b := by
    rw [hb]
    by_cases hl : i + 1 = y.length
    · rw [if_pos hl, hl, lloydThresholds_last _ _ _ hne]
    · rw [if_neg hl, lloydThresholds_getD _ _ _ _ (by omega), hlam i (by omega)]
      ring
  have := lloydLevels_getD pdf pts (lloydThresholds xmin xmax y) y i hi
  rw [← hc, ea, eb] at this
  rw [this, lloydLevel, ← hx, if_pos hden]

/-- Non-vacuity: a converged design, and one for a density that vanishes on part of the range. -/
example : lloydMax (fun _ : Rat => 1) 2 (-4) 4 5 3 (fun a b => decide (a = b)) = ([-2, 2], [0]) ∧
    lloydMax (fun _ : Rat => 1) 2 (-4) 4 5 4 (fun a b => decide (a = b)) = ([-2, 2], [0]) := by decide +kernel
example : ∃ y lam, lloydMax (fun x : Rat => if x ≤ -1 then 1 else 0) 2 (-4) 4 5 2 (fun a b => decide (a = b)) = (y, lam) ∧
    y.getD 0 0 < y.getD 1 0 := ⟨_, _, rfl, by decide +kernel⟩

end Komm
