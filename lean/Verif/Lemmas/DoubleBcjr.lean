import Verif.Model.DoubleBcjr
import Verif.Props.C138_DoubleDecoders
import Verif.Lemmas.ForwardBackward
/-! Error bounds for the forward-backward algorithm in double precision. -/
namespace Komm
open scoped BigOperators

/-- `Near E B a b`: both `-inf`, or both finite, at most `E` apart, and the first of magnitude at most `B`. -/
def Near (E B : ℝ) (a b : WithBot ℝ) : Prop :=
  (a = ⊥ ∧ b = ⊥) ∨ ∃ x y : ℝ, a = (x : WithBot ℝ) ∧ b = (y : WithBot ℝ) ∧ |y - x| ≤ E ∧ |x| ≤ B

theorem Near.mono {E E' B B' : ℝ} {a b : WithBot ℝ} (h : Near E B a b) (hE : E ≤ E') (hB : B ≤ B') : Near E' B' a b := by
  rcases h with h | ⟨x, y, h1, h2, h3, h4⟩
  · exact Or.inl h
  · exact Or.inr ⟨x, y, h1, h2, h3.trans hE, h4.trans hB⟩

theorem tiny60 : (2 : ℝ) ^ (-1075 : ℤ) ≤ 1 / 2 ^ 60 := by
  have h1 : (2 : ℝ) ^ (-1075 : ℤ) ≤ 2 ^ (-60 : ℤ) := zpow_le_zpow_right₀ (by norm_num) (by norm_num)
  have h2 : (2 : ℝ) ^ (-60 : ℤ) = 1 / 2 ^ 60 := by rw [zpow_neg, one_div]; norm_cast
  exact h1.trans h2.le

/-- The rounding error of a value of magnitude at most `G + 3`. -/
theorem rnd_unit {G x : ℝ} (h : |x| ≤ G + 3) : |rnd x - x| ≤ (G + 4) / 2 ^ 53 := by
  have h1 := rnd_error x
  have h2 := tiny60
  generalize (2 : ℝ) ^ (-1075 : ℤ) = t at *
  have h3 : |x| / 2 ^ 53 ≤ (G + 3) / 2 ^ 53 := div_le_div_of_nonneg_right h (by positivity)
  norm_num at h1 h2 h3 ⊢
  linarith

theorem Near.add {G E₁ E₂ B₁ B₂ : ℝ} {a b a' b' : WithBot ℝ} (h : Near E₁ B₁ a a') (h' : Near E₂ B₂ b b') (hG : B₁ + B₂ ≤ G) (hE : E₁ + E₂ ≤ 1) :
    Near (E₁ + E₂ + (G + 4) / 2 ^ 48) (B₁ + B₂) (a + b) (addD a' b') := by
  rcases h with ⟨rfl, rfl⟩ | ⟨x, y, rfl, rfl, h3, h4⟩
  · exact Or.inl ⟨by simp, rfl⟩
  rcases h' with ⟨rfl, rfl⟩ | ⟨z, w, rfl, rfl, k3, k4⟩
  · exact Or.inl ⟨by simp, rfl⟩
  refine Or.inr ⟨x + z, rnd (y + w), by simp, rfl, ?_, (abs_add_le _ _).trans (add_le_add h4 k4)⟩
  rw [abs_le] at h3 h4 k3 k4
  have h5 := rnd_unit (G := G) (x := y + w) (by rw [abs_le]; constructor <;> linarith)
  have h6 : (G + 4) / 2 ^ 53 ≤ (G + 4) / 2 ^ 48 := div_le_div_of_nonneg_left (by linarith) (by positivity) (by norm_num)
  rw [abs_le] at h5 ⊢
  constructor <;> linarith

theorem logaddexp_bounds (x y B : ℝ) (hx : |x| ≤ B) (hy : |y| ≤ B) : |Real.log (Real.exp x + Real.exp y)| ≤ B + 1 := by
  rw [abs_le] at hx hy ⊢
  have p1 := Real.exp_pos x
  have p2 := Real.exp_pos y
  constructor
  · rw [Real.le_log_iff_exp_le (by positivity)]
    have : Real.exp (-(B + 1)) ≤ Real.exp x := Real.exp_le_exp.mpr (by linarith)
    linarith
  · rw [Real.log_le_iff_le_exp (by positivity), Real.exp_add]
    have h1 : Real.exp x ≤ Real.exp B := Real.exp_le_exp.mpr hx.2
    have h2 : Real.exp y ≤ Real.exp B := Real.exp_le_exp.mpr hy.2
    have h3 : 2 ≤ Real.exp 1 := by have := Real.add_one_le_exp (1 : ℝ); linarith
    have h4 : Real.exp B * 2 ≤ Real.exp B * Real.exp 1 := mul_le_mul_of_nonneg_left h3 (Real.exp_pos _).le
    linarith

theorem logaddexp_lipschitz (x y x' y' h : ℝ) (hx : |x' - x| ≤ h) (hy : |y' - y| ≤ h) :
    |Real.log (Real.exp x' + Real.exp y') - Real.log (Real.exp x + Real.exp y)| ≤ h := by
  have key : ∀ x y x' y' : ℝ, |x' - x| ≤ h → |y' - y| ≤ h → Real.log (Real.exp x' + Real.exp y') ≤ Real.log (Real.exp x + Real.exp y) + h := by
    intro x y x' y' hx hy
    rw [abs_le] at hx hy
    rw [Real.log_le_iff_le_exp (by positivity), Real.exp_add, Real.exp_log (by positivity), add_mul, ← Real.exp_add, ← Real.exp_add]
    exact add_le_add (Real.exp_le_exp.mpr (by linarith)) (Real.exp_le_exp.mpr (by linarith))
  have h1 := key x y x' y' hx hy
  have h2 := key x' y' x y (by rwa [abs_sub_comm]) (by rwa [abs_sub_comm])
  rw [abs_le]; constructor <;> linarith

theorem logaddexp_alt (a b : ℝ) : Real.log (Real.exp a + Real.exp b) = a + Real.log (1 + Real.exp (b - a)) := by
  have : Real.exp a + Real.exp b = Real.exp a * (1 + Real.exp (b - a)) := by rw [mul_add, ← Real.exp_add]; ring_nf
  rw [this, Real.log_mul (Real.exp_pos a).ne' (by positivity), Real.log_exp]

/-- The correction term of `np.logaddexp`. -/
theorem correctionD_near {F : Libm} (hF : F.Accurate) {G d d' : ℝ} (hd : d ≤ 0) (hd' : d' ≤ 0) (h : |d' - d| ≤ (G + 4) / 2 ^ 53) (hs : (G + 4) / 2 ^ 48 ≤ 1) :
    0 ≤ F.log1p (F.exp d').val ∧ |F.log1p (F.exp d').val - Real.log (1 + Real.exp d)| ≤ (G + 4) / 2 ^ 53 + 4 / 2 ^ 50 := by
  obtain ⟨e0, e1⟩ := hF.exp_near d' hd'
  have q1 : Real.exp d' ≤ 1 := Real.exp_le_one_iff.mpr hd'
  have q2 : Real.exp d ≤ 1 := Real.exp_le_one_iff.mpr hd
  have t1 : (2 : ℝ) ^ (-1074 : ℤ) ≤ 1 / 2 ^ 59 := by
    have : (2 : ℝ) ^ (-1074 : ℤ) = 2 * 2 ^ (-1075 : ℤ) := by
      rw [show (-1074 : ℤ) = 1 + -1075 by norm_num, zpow_add₀ (by norm_num), zpow_one]
    rw [this]
    have := tiny60
    generalize (2 : ℝ) ^ (-1075 : ℤ) = t at *
    norm_num at this ⊢; linarith
  have p0 := Real.exp_pos d
  have key : |Real.exp d' - Real.exp d| ≤ (G + 4) / 2 ^ 53 := by
    have lip : ∀ u v : ℝ, v ≤ 0 → u ≤ 0 → Real.exp v - Real.exp u ≤ |v - u| := by
      intro u v hv _
      have h1 : Real.exp u = Real.exp v * Real.exp (u - v) := by rw [← Real.exp_add]; ring_nf
      have h2 := Real.add_one_le_exp (u - v)
      have h3 : Real.exp v ≤ 1 := Real.exp_le_one_iff.mpr hv
      have h4 := Real.exp_pos v
      have h5 : Real.exp v * (u - v + 1) ≤ Real.exp v * Real.exp (u - v) := mul_le_mul_of_nonneg_left h2 h4.le
      have h6 : Real.exp v * (v - u) ≤ |v - u| := by
        calc Real.exp v * (v - u) ≤ Real.exp v * |v - u| := mul_le_mul_of_nonneg_left (le_abs_self _) h4.le
          _ ≤ 1 * |v - u| := mul_le_mul_of_nonneg_right h3 (abs_nonneg _)
          _ = _ := one_mul _
      linarith
    have a1 := lip d d' hd' hd
    have a2 := lip d' d hd hd'
    rw [abs_sub_comm] at a2
    rw [abs_le]; constructor <;> linarith
  have e2 : |(F.exp d').val - Real.exp d| ≤ (G + 4) / 2 ^ 53 + 2 / 2 ^ 50 := by
    have : Real.exp d' / 2 ^ 50 ≤ 1 / 2 ^ 50 := div_le_div_of_nonneg_right q1 (by positivity)
    have hh := abs_sub_le (F.exp d').val (Real.exp d') (Real.exp d)
    generalize (2 : ℝ) ^ (-1074 : ℤ) = t at *
    norm_num at *
    linarith
  have e3 : (F.exp d').val ≤ 2 := by
    rw [abs_le] at e2
    have : (G + 4) / 2 ^ 53 ≤ 1 / 2 := by norm_num at hs ⊢; linarith
    norm_num at e2 this ⊢
    linarith [e2.2]
  obtain ⟨l0, l1⟩ := hF.log1p_near _ e0 e3
  have l2 := log1p_diff e0 p0.le e2
  have l3 : Real.log (1 + (F.exp d').val) ≤ 2 := by
    have := Real.log_le_sub_one_of_pos (x := 1 + (F.exp d').val) (by linarith)
    linarith
  refine ⟨l0, ?_⟩
  have hh := abs_sub_le (F.log1p (F.exp d').val) (Real.log (1 + (F.exp d').val)) (Real.log (1 + Real.exp d))
  have : Real.log (1 + (F.exp d').val) / 2 ^ 50 ≤ 2 / 2 ^ 50 := div_le_div_of_nonneg_right l3 (by positivity)
  norm_num at *
  linarith

/-- `np.logaddexp` of two doubles. -/
theorem logaddexpFinite_near {F : Libm} (hF : F.Accurate) {G a b : ℝ} (hG : 0 ≤ G) (ha : |a| ≤ G / 2 + 1) (hb : |b| ≤ G / 2 + 1) (hs : (G + 4) / 2 ^ 48 ≤ 1) :
    |logaddexpFinite F a b - Real.log (Real.exp a + Real.exp b)| ≤ (G + 4) / 2 ^ 48 := by
  have hd := rnd_unit (G := G) (x := a - b) (by rw [abs_le] at ha hb ⊢; constructor <;> linarith)
  have fin : ∀ c l m : ℝ, |c| ≤ G / 2 + 1 → 0 ≤ m → m ≤ 1 → |l - m| ≤ (G + 4) / 2 ^ 53 + 4 / 2 ^ 50 → |rnd (c + l) - (c + m)| ≤ (G + 4) / 2 ^ 49 := by
    intro c l m hc m0 m1 hl
    have : (G + 4) / 2 ^ 53 ≤ 1 / 8 := by norm_num at hs ⊢; linarith
    have hr := rnd_unit (G := G) (x := c + l) (by
      rw [abs_le] at hc hl ⊢
      norm_num at *
      constructor <;> linarith)
    rw [abs_le] at hr hl ⊢
    norm_num at *
    constructor <;> linarith
  have hh : (G + 4) / 2 ^ 49 ≤ (G + 4) / 2 ^ 48 := div_le_div_of_nonneg_left (by linarith) (by positivity) (by norm_num)
  have l2 : Real.log 2 ≤ 1 := by have := Real.log_two_lt_d9; linarith
  have bnd : ∀ d : ℝ, d ≤ 0 → 0 ≤ Real.log (1 + Real.exp d) ∧ Real.log (1 + Real.exp d) ≤ 1 := by
    intro d hd
    have h1 := Real.exp_pos d
    have h2 : Real.exp d ≤ 1 := Real.exp_le_one_iff.mpr hd
    exact ⟨Real.log_nonneg (by linarith), (Real.log_le_log (by linarith) (by linarith : 1 + Real.exp d ≤ 2)).trans l2⟩
  unfold logaddexpFinite
  split_ifs with h1 h2
  · subst h1
    have : Real.log (Real.exp a + Real.exp a) = a + Real.log 2 := by rw [logaddexp_alt, sub_self, Real.exp_zero]; norm_num
    rw [this]
    refine (fin a _ _ ha (Real.log_nonneg (by norm_num)) l2 ?_).trans hh
    have := rnd_unit (G := 0) (x := Real.log 2) (by rw [abs_of_nonneg (Real.log_nonneg (by norm_num))]; linarith)
    norm_num at *
    linarith
  · rw [logaddexp_alt]
    have h3 : 0 ≤ a - b := by
      by_contra hc
      have := rnd_mono (x := a - b) (y := 0) (by linarith)
      rw [rnd_zero] at this
      linarith
    have h4 : |(-rnd (a - b)) - (b - a)| ≤ (G + 4) / 2 ^ 53 := by
      rw [show -rnd (a - b) - (b - a) = -(rnd (a - b) - (a - b)) by ring, abs_neg]; exact hd
    exact (fin a _ _ ha (bnd _ (by linarith)).1 (bnd _ (by linarith)).2 (correctionD_near hF (by linarith) (by linarith) h4 hs).2).trans hh
  · have h3 : rnd (a - b) ≤ 0 := by linarith
    rcases le_or_gt (a - b) 0 with h4 | h4
    · rw [add_comm (Real.exp a), logaddexp_alt]
      exact (fin b _ _ hb (bnd _ h4).1 (bnd _ h4).2 (correctionD_near hF h4 h3 hd hs).2).trans hh
    · have h5 : rnd (a - b) = 0 := le_antisymm h3 (by have := rnd_mono (x := 0) (y := a - b) h4.le; rwa [rnd_zero] at this)
      rw [h5, zero_sub, abs_neg, abs_of_pos h4] at hd
      have h6 := logaddexp_lipschitz b b a b ((G + 4) / 2 ^ 53) (by rwa [abs_of_pos h4]) (by rw [sub_self, abs_zero]; positivity)
      rw [logaddexp_alt b b, sub_self] at h6
      rw [abs_sub_comm] at h6
      have h7 := fin b _ _ hb (bnd _ le_rfl).1 (bnd _ le_rfl).2 ((correctionD_near hF (d := 0) (d' := rnd (a - b)) le_rfl h3 (by rw [h5, sub_self, abs_zero]; positivity) hs).2)
      have := abs_sub_le (rnd (b + F.log1p (F.exp (rnd (a - b))).val)) (b + Real.log (1 + Real.exp 0)) (Real.log (Real.exp a + Real.exp b))
      norm_num at *
      linarith

/-- The unit of error when all magnitudes are at most `A`. -/
noncomputable def roundUnit (A : ℝ) : ℝ := (2 * A + 4) / 2 ^ 48

theorem Near.logaddexp {F : Libm} (hF : F.Accurate) {A E B : ℝ} {a b a' b' : WithBot ℝ} (h : Near E B a a') (h' : Near E B b b') (hB0 : 0 ≤ B) (hB : B ≤ A) (_ : 0 ≤ E)
    (hE : E ≤ 1) (hs : roundUnit A ≤ 1) : Near (E + roundUnit A) (B + 1) (logaddexp a b) (logaddexpD F a' b') := by
  have hu : 0 ≤ roundUnit A := by unfold roundUnit; apply div_nonneg <;> [linarith; positivity]
  rcases h with ⟨rfl, rfl⟩ | ⟨x, y, rfl, rfl, h3, h4⟩
  · exact Near.mono h' (by linarith) (by linarith)
  rcases h' with ⟨rfl, rfl⟩ | ⟨z, w, rfl, rfl, k3, k4⟩
  · exact Or.inr ⟨x, y, rfl, rfl, by linarith, by linarith⟩
  refine Or.inr ⟨_, _, rfl, rfl, ?_, logaddexp_bounds x z B h4 k4⟩
  have h5 := logaddexpFinite_near hF (G := 2 * A) (a := y) (b := w) (by linarith) (by rw [abs_le] at *; constructor <;> linarith)
    (by rw [abs_le] at *; constructor <;> linarith) hs
  have h6 := logaddexp_lipschitz x z y w E h3 k3
  have := abs_sub_le (logaddexpFinite F y w) (Real.log (Real.exp y + Real.exp w)) (Real.log (Real.exp x + Real.exp z))
  unfold roundUnit
  linarith

theorem reduce_near {F : Libm} (hF : F.Accurate) {S : Nat} {A E B : ℝ} (f f' : Fin S → WithBot ℝ) (hf : ∀ s, Near E B (f s) (f' s)) (hB0 : 0 ≤ B) (hB : B + S ≤ A)
    (hE0 : 0 ≤ E) (hE : E + S * roundUnit A ≤ 1) (hs : roundUnit A ≤ 1) : Near (E + S * roundUnit A) (B + S) (logaddexpReduce f) (logaddexpReduceD F f') := by
  have hu : 0 ≤ roundUnit A := by
    have : (0 : ℝ) ≤ S := Nat.cast_nonneg S
    unfold roundUnit; apply div_nonneg <;> [linarith; positivity]
  have key : ∀ (l : List (Fin S)) (acc acc' : WithBot ℝ) (i : Nat), Near (E + i * roundUnit A) (B + i) acc acc' → B + (i + l.length : Nat) ≤ A → E + (i + l.length : Nat) * roundUnit A ≤ 1 →
      Near (E + (i + l.length : Nat) * roundUnit A) (B + (i + l.length : Nat)) (l.foldl (fun acc s => logaddexp acc (f s)) acc) (l.foldl (fun acc s => logaddexpD F acc (f' s)) acc') := by
    intro l
    induction l with
    | nil => intro acc acc' i h _ _; exact h
    | cons s l ih =>
      intro acc acc' i h h1 h2
      rw [List.length_cons, ← add_assoc, add_right_comm] at h1 h2 ⊢
      rw [List.foldl_cons, List.foldl_cons]
      have i0 : (0 : ℝ) ≤ i := Nat.cast_nonneg i
      have l0 : (0 : ℝ) ≤ l.length := Nat.cast_nonneg _
      have iu : 0 ≤ (i : ℝ) * roundUnit A := mul_nonneg i0 hu
      have lu : 0 ≤ (l.length : ℝ) * roundUnit A := mul_nonneg l0 hu
      refine ih _ _ (i + 1) ?_ h1 h2
      push_cast at h1 h2 ⊢
      have := Near.logaddexp hF (A := A) h ((hf s).mono (by linarith : E ≤ E + i * roundUnit A) (by linarith : B ≤ B + i)) (by linarith) (by linarith) (by linarith) (by linarith) hs
      exact this.mono (by linarith) (by linarith)
  have := key (List.finRange S) ⊥ ⊥ 0 (Or.inl ⟨rfl, rfl⟩) (by simpa using hB) (by simpa using hE)
  unfold logaddexpReduce logaddexpReduceD
  simpa using this

variable {S X : Nat}

theorem trellis_near {F : Libm} (hF : F.Accurate) {A E B Eg Bg : ℝ} (x x' y y' : Fin S → WithBot ℝ) (hx : ∀ s, Near Eg Bg (x s) (x' s)) (hy : ∀ s, Near E B (y s) (y' s))
    (hB0 : 0 ≤ B) (hg0 : 0 ≤ Bg) (hE0 : 0 ≤ E) (he0 : 0 ≤ Eg) (hB : B + (Bg + S) ≤ A) (hE : E + (Eg + (S + 1) * roundUnit A) ≤ 1) (hs : roundUnit A ≤ 1) :
    Near (E + (Eg + (S + 1) * roundUnit A)) (B + (Bg + S)) (logaddexpReduce fun s => x s + y s) (logaddexpReduceD F fun s => addD (x' s) (y' s)) := by
  have s0 : (0 : ℝ) ≤ S := Nat.cast_nonneg S
  have hu : 0 ≤ roundUnit A := by unfold roundUnit; apply div_nonneg <;> [linarith; positivity]
  have su : 0 ≤ (S : ℝ) * roundUnit A := mul_nonneg s0 hu
  have h1 : ∀ s, Near (Eg + E + roundUnit A) (Bg + B) (x s + y s) (addD (x' s) (y' s)) := fun s => Near.add (G := 2 * A) (hx s) (hy s) (by linarith) (by linarith)
  exact (reduce_near hF _ _ h1 (by linarith) (by linarith) (by linarith) (by linarith) hs).mono (by linarith) (by linarith)

/-- The gammas are near, one by one. -/
abbrev GammasNear (Eg Bg : ℝ) (gs gs' : List (Fin S → Fin S → WithBot ℝ)) : Prop := List.Forall₂ (fun g g' => ∀ s0 s1, Near Eg Bg (g s0 s1) (g' s0 s1)) gs gs'

theorem alphas_near {F : Libm} (hF : F.Accurate) {A Eg Bg : ℝ} (hg0 : 0 ≤ Bg) (he0 : 0 ≤ Eg) (hs : roundUnit A ≤ 1) (hu : 0 ≤ roundUnit A) {gs gs' : List (Fin S → Fin S → WithBot ℝ)}
    (hg : GammasNear Eg Bg gs gs') : ∀ {E B : ℝ} (a a' : Fin S → WithBot ℝ), (∀ s, Near E B (a s) (a' s)) → 0 ≤ B → 0 ≤ E → B + gs.length * (Bg + S) ≤ A →
      E + gs.length * (Eg + (S + 1) * roundUnit A) ≤ 1 →
      ∀ s, Near (E + gs.length * (Eg + (S + 1) * roundUnit A)) (B + gs.length * (Bg + S)) (gs.foldl (fun a g => Mealy.alphaStep g a) a s) (gs'.foldl (fun a g => Mealy.alphaStepD F g a) a' s) := by
  have s0 : (0 : ℝ) ≤ S := Nat.cast_nonneg S
  have su : 0 ≤ Eg + (S + 1) * roundUnit A := add_nonneg he0 (mul_nonneg (by linarith) hu)
  induction hg with
  | nil => intro E B a a' ha _ _ _ _ s; simpa using ha s
  | @cons g g' gs gs' h _ ih =>
    intro E B a a' ha hB0 hE0 hB hE s
    have l0 : (0 : ℝ) ≤ gs.length := Nat.cast_nonneg _
    rw [List.length_cons] at hB hE ⊢
    push_cast at hB hE ⊢
    have p1 : 0 ≤ (gs.length : ℝ) * (Bg + S) := mul_nonneg l0 (by linarith)
    have p2 : 0 ≤ (gs.length : ℝ) * (Eg + (S + 1) * roundUnit A) := mul_nonneg l0 su
    rw [List.foldl_cons, List.foldl_cons]
    have step : ∀ s, Near (E + (Eg + (S + 1) * roundUnit A)) (B + (Bg + S)) (Mealy.alphaStep g a s) (Mealy.alphaStepD F g' a' s) := fun s =>
      trellis_near hF _ _ _ _ (fun s0 => h s0 s) ha hB0 hg0 hE0 he0 (by linarith) (by linarith) hs
    exact (ih _ _ step (by linarith) (by linarith) (by linarith) (by linarith) s).mono (by linarith) (by linarith)

theorem betas_near {F : Libm} (hF : F.Accurate) {A Eg Bg : ℝ} (hg0 : 0 ≤ Bg) (he0 : 0 ≤ Eg) (hs : roundUnit A ≤ 1) (hu : 0 ≤ roundUnit A) {gs gs' : List (Fin S → Fin S → WithBot ℝ)}
    (hg : GammasNear Eg Bg gs gs') {E B : ℝ} (a a' : Fin S → WithBot ℝ) (ha : ∀ s, Near E B (a s) (a' s)) (hB0 : 0 ≤ B) (hE0 : 0 ≤ E) : B + gs.length * (Bg + S) ≤ A →
      E + gs.length * (Eg + (S + 1) * roundUnit A) ≤ 1 →
      ∀ s, Near (E + gs.length * (Eg + (S + 1) * roundUnit A)) (B + gs.length * (Bg + S)) (gs.foldr Mealy.betaStep a s) (gs'.foldr (Mealy.betaStepD F) a' s) := by
  have s0 : (0 : ℝ) ≤ S := Nat.cast_nonneg S
  have su : 0 ≤ Eg + (S + 1) * roundUnit A := add_nonneg he0 (mul_nonneg (by linarith) hu)
  induction hg with
  | nil => intro _ _ s; simpa using ha s
  | @cons g g' gs gs' h _ ih =>
    intro hB hE s
    have l0 : (0 : ℝ) ≤ gs.length := Nat.cast_nonneg _
    rw [List.length_cons] at hB hE ⊢
    push_cast at hB hE ⊢
    have p1 : 0 ≤ (gs.length : ℝ) * (Bg + S) := mul_nonneg l0 (by linarith)
    have p2 : 0 ≤ (gs.length : ℝ) * (Eg + (S + 1) * roundUnit A) := mul_nonneg l0 su
    rw [List.foldr_cons, List.foldr_cons]
    have := ih (by linarith) (by linarith)
    exact (trellis_near hF _ _ _ _ (fun s1 => h s s1) this (by linarith) hg0 (by linarith) he0 (by linarith) (by linarith) hs).mono (by linarith) (by linarith)

/-- The log-domain posteriors at time `t`. -/
theorem labels_near {F : Libm} (hF : F.Accurate) (M : Mealy S X) {A Eg Bg E₁ B₁ E₂ B₂ : ℝ} (hg0 : 0 ≤ Bg) (he0 : 0 ≤ Eg) (hs : roundUnit A ≤ 1) (hu : 0 ≤ roundUnit A)
    {gs gs' : List (Fin S → Fin S → WithBot ℝ)} (hg : GammasNear Eg Bg gs gs') (i i' f f' : Fin S → WithBot ℝ) (hi : ∀ s, Near E₁ B₁ (i s) (i' s)) (hf : ∀ s, Near E₂ B₂ (f s) (f' s))
    (hB1 : 0 ≤ B₁) (hB2 : 0 ≤ B₂) (hE1 : 0 ≤ E₁) (hE2 : 0 ≤ E₂) (hB : B₁ + B₂ + gs.length * (Bg + S) ≤ A) (hE : E₁ + E₂ + gs.length * (Eg + (S + 1) * roundUnit A) + roundUnit A ≤ 1)
    (t : Nat) (ht : t < gs.length) (x : Fin X) :
    Near (E₁ + E₂ + gs.length * (Eg + (S + 1) * roundUnit A) + roundUnit A) A
      (logaddexpReduce fun s0 => (gs.take t).foldl (fun a g => Mealy.alphaStep g a) i s0 + gs.getD t (fun _ _ => ⊥) s0 (M.next s0 x) + (gs.drop (t + 1)).foldr Mealy.betaStep f (M.next s0 x))
      (logaddexpReduceD F fun s0 => addD (addD ((gs'.take t).foldl (fun a g => Mealy.alphaStepD F g a) i' s0) (gs'.getD t (fun _ _ => ⊥) s0 (M.next s0 x)))
        ((gs'.drop (t + 1)).foldr (Mealy.betaStepD F) f' (M.next s0 x))) := by
  have s0 : (0 : ℝ) ≤ S := Nat.cast_nonneg S
  have su : 0 ≤ Eg + (S + 1) * roundUnit A := add_nonneg he0 (mul_nonneg (by linarith) hu)
  have l1 : (gs.take t).length = t := by rw [List.length_take]; omega
  have l2 : (gs.drop (t + 1)).length = gs.length - (t + 1) := List.length_drop
  obtain ⟨r, hr⟩ : ∃ r, gs.length = t + 1 + r := ⟨gs.length - (t + 1), by omega⟩
  have l3 : (gs.drop (t + 1)).length = r := by omega
  have ht' : t < gs'.length := by rw [← hg.length_eq]; exact ht
  have hgt : ∀ s0 s1, Near Eg Bg (gs.getD t (fun _ _ => ⊥) s0 s1) (gs'.getD t (fun _ _ => ⊥) s0 s1) := by
    rw [List.getD_eq_getElem _ _ ht, List.getD_eq_getElem _ _ ht']
    exact (List.forall₂_iff_get.mp hg).2 t ht ht'
  rw [hr] at hB hE ⊢
  push_cast at hB hE ⊢
  have t0 : (0 : ℝ) ≤ t := Nat.cast_nonneg _
  have r0 : (0 : ℝ) ≤ r := Nat.cast_nonneg _
  have p1 : 0 ≤ (t : ℝ) * (Bg + S) := mul_nonneg t0 (by linarith)
  have p2 : 0 ≤ (t : ℝ) * (Eg + (S + 1) * roundUnit A) := mul_nonneg t0 su
  have p3 : 0 ≤ (r : ℝ) * (Bg + S) := mul_nonneg r0 (by linarith)
  have p4 : 0 ≤ (r : ℝ) * (Eg + (S + 1) * roundUnit A) := mul_nonneg r0 su
  have p5 : 0 ≤ (S : ℝ) * roundUnit A := mul_nonneg s0 hu
  have a1 := alphas_near hF hg0 he0 hs hu (List.forall₂_take t hg) i i' hi hB1 hE1 (by rw [l1]; linarith) (by rw [l1]; linarith)
  have b1 := betas_near hF hg0 he0 hs hu (List.forall₂_drop (t + 1) hg) f f' hf hB2 hE2 (by rw [l3]; linarith) (by rw [l3]; linarith)
  rw [l1] at a1
  rw [l3] at b1
  have c1 := fun s0 => Near.add (G := 2 * A) (a1 s0) (hgt s0 (M.next s0 x)) (by linarith) (by linarith)
  have c2 := fun s0 => Near.add (G := 2 * A) (c1 s0) (b1 (M.next s0 x)) (by linarith) (by unfold roundUnit at *; linarith)
  refine (reduce_near hF _ _ c2 (by linarith) (by linarith) (by unfold roundUnit at *; linarith) ?_ hs).mono ?_ ?_ <;> unfold roundUnit at * <;> linarith

/-- `q` is `p` up to a factor `e^{±η}` and an additive error `τ`. -/
def MulNear (η τ p q : ℝ) : Prop := p * Real.exp (-η) - τ ≤ q ∧ q ≤ p * Real.exp η + τ

theorem MulNear.mono {η η' τ τ' p q : ℝ} (h : MulNear η τ p q) (hp : 0 ≤ p) (h1 : η ≤ η') (h2 : τ ≤ τ') : MulNear η' τ' p q := by
  have a1 : p * Real.exp (-η') ≤ p * Real.exp (-η) := mul_le_mul_of_nonneg_left (Real.exp_le_exp.mpr (by linarith)) hp
  have a2 : p * Real.exp η ≤ p * Real.exp η' := mul_le_mul_of_nonneg_left (Real.exp_le_exp.mpr h1) hp
  exact ⟨by linarith [h.1], by linarith [h.2]⟩

theorem one_sub_ge_exp {c : ℝ} (h0 : 0 ≤ c) (h1 : c ≤ 1 / 2) : Real.exp (-(2 * c)) ≤ 1 - c := by
  rw [Real.exp_neg, inv_le_comm₀ (Real.exp_pos _) (by linarith)]
  have h2 := Real.add_one_le_exp (2 * c)
  refine le_trans ?_ h2
  rw [inv_le_iff_one_le_mul₀ (by linarith)]
  nlinarith

theorem MulNear.rel {η τ p q q' c t : ℝ} (h : MulNear η τ p q) (hp : 0 ≤ p) (hτ : 0 ≤ τ) (h0 : 0 ≤ c) (h1 : c ≤ 1 / 2) (hq : |q' - q| ≤ q * c + t) :
    MulNear (η + 2 * c) (2 * τ + t) p q' := by
  obtain ⟨a, b⟩ := h
  rw [abs_le] at hq
  have e1 := one_sub_ge_exp h0 h1
  have e2 : 1 + c ≤ Real.exp (2 * c) := by have := Real.add_one_le_exp (2 * c); linarith
  constructor
  · have k1 : p * Real.exp (-(η + 2 * c)) = p * Real.exp (-η) * Real.exp (-(2 * c)) := by rw [mul_assoc, ← Real.exp_add]; ring_nf
    have k2 : p * Real.exp (-η) * Real.exp (-(2 * c)) ≤ p * Real.exp (-η) * (1 - c) := mul_le_mul_of_nonneg_left e1 (by positivity)
    have k3 : (p * Real.exp (-η) - τ) * (1 - c) ≤ q * (1 - c) := mul_le_mul_of_nonneg_right a (by linarith)
    have k4 : 0 ≤ τ * c := mul_nonneg hτ h0
    rw [k1]
    nlinarith [hq.1]
  · have k1 : p * Real.exp (η + 2 * c) = p * Real.exp η * Real.exp (2 * c) := by rw [mul_assoc, ← Real.exp_add]
    have k2 : p * Real.exp η * (1 + c) ≤ p * Real.exp η * Real.exp (2 * c) := mul_le_mul_of_nonneg_left e2 (by positivity)
    have k3 : q * (1 + c) ≤ (p * Real.exp η + τ) * (1 + c) := mul_le_mul_of_nonneg_right b (by linarith)
    have k4 : τ * c ≤ τ * (1 / 2) := mul_le_mul_of_nonneg_left h1 hτ
    rw [k1]
    nlinarith [hq.2]

theorem MulNear.exp {d d' h : ℝ} (hd : |d' - d| ≤ h) : MulNear h 0 (Real.exp d) (Real.exp d') := by
  rw [abs_le] at hd
  constructor
  · rw [← Real.exp_add, sub_zero]; exact Real.exp_le_exp.mpr (by linarith)
  · rw [← Real.exp_add, add_zero]; exact Real.exp_le_exp.mpr (by linarith)

theorem MulNear.div {η η' τ a b D s : ℝ} (h : MulNear η τ a b) (ha : 0 ≤ a) (hτ : 0 ≤ τ) (hD : 0 < D) (h1 : D * Real.exp (-η') ≤ s) (h2 : s ≤ D * Real.exp η') :
    MulNear (η + η') (τ / (D * Real.exp (-η'))) (a / D) (b / s) := by
  have p0 : 0 < D * Real.exp (-η') := by positivity
  have s0 : 0 < s := by linarith
  have q1 : τ / s ≤ τ / (D * Real.exp (-η')) := div_le_div_of_nonneg_left hτ p0 h1
  constructor
  · have k1 : a / D * Real.exp (-(η + η')) = a * Real.exp (-η) / (D * Real.exp η') := by
      rw [neg_add, Real.exp_add, Real.exp_neg η']; field_simp
    have k2 : a * Real.exp (-η) / (D * Real.exp η') ≤ a * Real.exp (-η) / s := div_le_div_of_nonneg_left (by positivity) s0 h2
    have k3 : (a * Real.exp (-η) - τ) / s ≤ b / s := div_le_div_of_nonneg_right h.1 s0.le
    rw [sub_div] at k3
    rw [k1]; linarith
  · have k1 : a / D * Real.exp (η + η') = a * Real.exp η / (D * Real.exp (-η')) := by
      rw [Real.exp_add, Real.exp_neg η']; field_simp
    have k2 : a * Real.exp η / s ≤ a * Real.exp η / (D * Real.exp (-η')) := div_le_div_of_nonneg_left (by positivity) p0 h1
    have k3 : b / s ≤ (a * Real.exp η + τ) / s := div_le_div_of_nonneg_right h.2 s0.le
    rw [add_div] at k3
    rw [k1]; linarith

theorem pow_unit_le (N : Nat) (hN : (N : ℝ) ≤ 2 ^ 50) : (1 + 1 / 2 ^ 53 : ℝ) ^ N - 1 ≤ N / 2 ^ 52 := by
  have h1 : (1 + 1 / 2 ^ 53 : ℝ) ^ N ≤ Real.exp (N * (1 / 2 ^ 53)) := by
    rw [Real.exp_nat_mul]
    exact pow_le_pow_left₀ (by positivity) (by have := Real.add_one_le_exp ((1 : ℝ) / 2 ^ 53); linarith) N
  have n0 : (0 : ℝ) ≤ N := Nat.cast_nonneg N
  obtain ⟨y, hy⟩ : ∃ y, y = (N : ℝ) * (1 / 2 ^ 53) := ⟨_, rfl⟩
  have y0 : 0 ≤ y := by rw [hy]; positivity
  have y1 : y ≤ 1 / 8 := by rw [hy]; linarith
  have e : (N : ℝ) / 2 ^ 52 = 2 * y := by rw [hy]; norm_num; ring
  rw [← hy] at h1
  rw [e]
  have := Real.exp_bound' y0 (by linarith) (n := 2) (by norm_num)
  norm_num [Finset.sum_range_succ, Nat.factorial] at this
  nlinarith

/-- A sum of non-negative doubles, in any order. -/
theorem sum_mulNear {N : Nat} (hN : (N : ℝ) ≤ 2 ^ 50) {η τ : ℝ} (hτ : 0 ≤ τ) (p : Fin N → ℝ) (q : Fin N → Double) (hp : ∀ i, 0 ≤ p i) (hq : ∀ i, 0 ≤ (q i).val)
    (h : ∀ i, MulNear η τ (p i) (q i).val) {v : Double} (hv : SumOf (List.ofFn q) v) : 0 ≤ v.val ∧ MulNear (η + N / 2 ^ 51) (2 * (N * τ)) (∑ i, p i) v.val := by
  have hs := SumOf.error hv
  have r1 : realSum (List.ofFn q) = ∑ i, (q i).val := by rw [realSum, List.map_ofFn, List.sum_ofFn]; rfl
  have r2 : absSum (List.ofFn q) = ∑ i, (q i).val := by
    rw [absSum, List.map_ofFn, List.sum_ofFn]
    exact Finset.sum_congr rfl fun i _ => abs_of_nonneg (hq i)
  rw [r1, r2, List.length_ofFn] at hs
  have q0 : 0 ≤ ∑ i, (q i).val := Finset.sum_nonneg fun i _ => hq i
  have hc := pow_unit_le N hN
  have n0 : (0 : ℝ) ≤ N := Nat.cast_nonneg N
  have hs' : |v.val - ∑ i, (q i).val| ≤ (∑ i, (q i).val) * (N / 2 ^ 52) + 0 := by
    rw [add_zero, mul_comm]
    exact hs.trans (mul_le_mul_of_nonneg_right hc q0)
  have hS : MulNear η (N * τ) (∑ i, p i) (∑ i, (q i).val) := by
    constructor
    · rw [Finset.sum_mul]
      have := Finset.sum_le_sum fun i (_ : i ∈ Finset.univ) => (h i).1
      rw [Finset.sum_sub_distrib] at this
      simpa using this
    · rw [Finset.sum_mul]
      have := Finset.sum_le_sum fun i (_ : i ∈ Finset.univ) => (h i).2
      rw [Finset.sum_add_distrib] at this
      simpa using this
  have hc2 : (N : ℝ) / 2 ^ 52 ≤ 1 / 2 := by linarith
  have p0 : 0 ≤ ∑ i, p i := Finset.sum_nonneg fun i _ => hp i
  constructor
  · rw [abs_le] at hs'
    have : (∑ i, (q i).val) * (N / 2 ^ 52) ≤ (∑ i, (q i).val) * (1 / 2) := mul_le_mul_of_nonneg_left hc2 q0
    linarith [hs'.1]
  · refine (hS.rel p0 (mul_nonneg n0 hτ) (by positivity) hc2 hs').mono p0 ?_ (by linarith)
    norm_num; linarith

namespace Mealy
variable {X : Nat}

theorem amax_coe {l : Fin X → WithBot ℝ} {m : ℝ} (h : amax l = (m : WithBot ℝ)) : (∀ x, l x ≤ (m : WithBot ℝ)) ∧ ∃ x, l x = (m : WithBot ℝ) := by
  have key : ∀ (v : List (Fin X)) (a : WithBot ℝ), a ≤ v.foldl (fun acc x => max acc (l x)) a ∧ (∀ x ∈ v, l x ≤ v.foldl (fun acc x => max acc (l x)) a) ∧
      (v.foldl (fun acc x => max acc (l x)) a = a ∨ ∃ x ∈ v, v.foldl (fun acc x => max acc (l x)) a = l x) := by
    intro v
    induction v with
    | nil => intro a; simp
    | cons y v ih =>
      intro a
      obtain ⟨h1, h2, h3⟩ := ih (max a (l y))
      rw [List.foldl_cons]
      refine ⟨(le_max_left _ _).trans h1, ?_, ?_⟩
      · intro x hx
        rcases List.mem_cons.mp hx with rfl | hx
        · exact (le_max_right _ _).trans h1
        · exact h2 x hx
      · rcases h3 with h3 | ⟨x, hx, h3⟩
        · rw [h3]
          rcases max_choice a (l y) with hm | hm
          · exact Or.inl hm
          · exact Or.inr ⟨y, by simp, hm⟩
        · exact Or.inr ⟨x, by simp [hx], h3⟩
  obtain ⟨_, h2, h3⟩ := key (List.finRange X) ⊥
  unfold amax at h
  rw [h] at h2 h3
  refine ⟨fun x => h2 x (List.mem_finRange x), ?_⟩
  rcases h3 with h3 | ⟨x, _, h3⟩
  · exact absurd h3 (WithBot.coe_ne_bot)
  · exact ⟨x, h3.symm⟩

end Mealy

theorem t0_le : (2 : ℝ) ^ (-1074 : ℤ) ≤ 1 / 2 ^ 100 := by
  have h1 : (2 : ℝ) ^ (-1074 : ℤ) ≤ 2 ^ (-100 : ℤ) := zpow_le_zpow_right₀ (by norm_num) (by norm_num)
  have h2 : (2 : ℝ) ^ (-100 : ℤ) = 1 / 2 ^ 100 := by rw [zpow_neg, one_div]; norm_cast
  exact h1.trans h2.le

theorem t0_half : (2 : ℝ) ^ (-1075 : ℤ) ≤ 2 ^ (-1074 : ℤ) := zpow_le_zpow_right₀ (by norm_num) (by norm_num)

/-- One exponential. -/
theorem numerator_near {F : Libm} (hF : F.Accurate) {A E m : ℝ} {a b : WithBot ℝ} (h : Near E A a b) (hA : 0 ≤ A) (hE : E ≤ 1 / 8) (hb : b ≤ (m : WithBot ℝ)) (hm : |m| ≤ A + 1) :
    0 ≤ (Mealy.npExpD F (addD b ((-m : ℝ) : WithBot ℝ))).val ∧
      MulNear (E + 2 * roundUnit A) (2 ^ (-1074 : ℤ)) (npExp (a + ((-m : ℝ) : WithBot ℝ))) (Mealy.npExpD F (addD b ((-m : ℝ) : WithBot ℝ))).val := by
  have tp : (0 : ℝ) < 2 ^ (-1074 : ℤ) := by positivity
  rcases h with ⟨rfl, rfl⟩ | ⟨x, y, rfl, rfl, h3, h4⟩
  · have e1 : (Mealy.npExpD F (addD ⊥ ((-m : ℝ) : WithBot ℝ))).val = 0 := rfl
    have e2 : npExp (⊥ + ((-m : ℝ) : WithBot ℝ)) = 0 := by rw [WithBot.bot_add]; rfl
    rw [e1, e2]
    exact ⟨le_rfl, by constructor <;> rw [zero_mul] <;> linarith⟩
  · have e1 : (Mealy.npExpD F (addD (y : WithBot ℝ) ((-m : ℝ) : WithBot ℝ))) = F.exp (rnd (y + -m)) := rfl
    have e2 : npExp ((x : WithBot ℝ) + ((-m : ℝ) : WithBot ℝ)) = Real.exp (x + -m) := rfl
    rw [e1, e2]
    have hy : y ≤ m := WithBot.coe_le_coe.mp hb
    have hd : rnd (y + -m) ≤ 0 := by rw [← rnd_zero]; exact rnd_mono (by linarith)
    obtain ⟨x0, x1⟩ := hF.exp_near _ hd
    refine ⟨x0, ?_⟩
    have hr := rnd_unit (G := 2 * A) (x := y + -m) (by rw [abs_le] at *; constructor <;> linarith)
    have hr2 : |rnd (y + -m) - (x + -m)| ≤ E + (2 * A + 4) / 2 ^ 53 := by
      have := abs_sub_le (rnd (y + -m)) (y + -m) (x + -m)
      rw [show y + -m - (x + -m) = y - x by ring] at this
      linarith
    have h5 := (MulNear.exp hr2).rel (c := 1 / 2 ^ 50) (t := 2 ^ (-1074 : ℤ)) (q' := (F.exp (rnd (y + -m))).val) (Real.exp_pos _).le le_rfl (by positivity) (by norm_num)
      (by rw [mul_one_div]; exact x1)
    refine h5.mono (Real.exp_pos _).le ?_ (by linarith)
    unfold roundUnit
    norm_num
    linarith

/-- The normalized row. -/
theorem normalize_near {F : Libm} (hF : F.Accurate) {sum : List Double → Double} (hsum : ∀ l, SumOf l (sum l)) {X : Nat} (hX : (X : ℝ) ≤ 2 ^ 45) {A E : ℝ} (hA : 0 ≤ A) (hE : E ≤ 1 / 8)
    (hu : roundUnit A ≤ 1 / 64) (l l' : Fin X → WithBot ℝ) (h : ∀ x, Near E A (l x) (l' x)) :
    (Mealy.normalizeRow l = none ∧ Mealy.normalizeRowD F sum l' = none) ∨
      ∃ (p : Fin X → ℝ) (q : Fin X → Double), Mealy.normalizeRow l = some p ∧ Mealy.normalizeRowD F sum l' = some q ∧ ∑ x, p x = 1 ∧ ∀ x, 0 ≤ p x ∧ 0 ≤ (q x).val ∧
        MulNear (2 * E + 7 * roundUnit A + X / 2 ^ 51) (2 ^ (-1069 : ℤ)) (p x) (q x).val := by
  by_cases hb : ∀ x, l x = ⊥
  · left
    have hb' : ∀ x, l' x = ⊥ := by
      intro x
      rcases h x with ⟨_, h2⟩ | ⟨a, b, h1, _⟩
      · exact h2
      · rw [hb x] at h1; exact absurd h1.symm (WithBot.coe_ne_bot)
    have h1 := (Mealy.amax_spec l).mpr hb
    have h2 := (Mealy.amax_spec l').mpr hb'
    constructor
    · rw [Mealy.normalizeRow, h1]
    · rw [Mealy.normalizeRowD, h2]
  right
  have hnb : Mealy.amax l ≠ ⊥ := fun hc => hb ((Mealy.amax_spec l).mp hc)
  have hnb' : Mealy.amax l' ≠ ⊥ := fun hc => hb fun x => by
    have := (Mealy.amax_spec l').mp hc x
    rcases h x with ⟨h1, _⟩ | ⟨a, b, _, h2, _⟩
    · exact h1
    · rw [this] at h2; exact absurd h2.symm (WithBot.coe_ne_bot)
  obtain ⟨m0, hm0⟩ := WithBot.ne_bot_iff_exists.mp hnb
  obtain ⟨m, hm⟩ := WithBot.ne_bot_iff_exists.mp hnb'
  obtain ⟨hle, xm, hxm⟩ := Mealy.amax_coe hm.symm
  obtain ⟨a, ha, ham, haA⟩ : ∃ a : ℝ, l xm = (a : WithBot ℝ) ∧ |m - a| ≤ E ∧ |a| ≤ A := by
    rcases h xm with ⟨_, h2⟩ | ⟨a, b, h1, h2, h3, h4⟩
    · rw [hxm] at h2; exact absurd h2 (WithBot.coe_ne_bot)
    · rw [hxm] at h2
      have : m = b := WithBot.coe_injective h2
      exact ⟨a, h1, by rw [this]; exact h3, h4⟩
  have hmA : |m| ≤ A + 1 := by rw [abs_le] at *; constructor <;> linarith
  have num := fun x => numerator_near hF (h x) hA hE (hle x) hmA
  obtain ⟨W, hW⟩ : ∃ W : Fin X → ℝ, W = fun x => npExp (l x + ((-m : ℝ) : WithBot ℝ)) := ⟨_, rfl⟩
  obtain ⟨V, hV⟩ : ∃ V : Fin X → Double, V = fun x => Mealy.npExpD F (addD (l' x) ((-m : ℝ) : WithBot ℝ)) := ⟨_, rfl⟩
  have num' : ∀ x, 0 ≤ (V x).val ∧ MulNear (E + 2 * roundUnit A) (2 ^ (-1074 : ℤ)) (W x) (V x).val := by rw [hV, hW]; exact num
  have W0 : ∀ x, 0 ≤ W x := by
    intro x; rw [hW]
    cases hl : l x with
    | bot => simp only [hl, WithBot.bot_add]; exact le_rfl
    | coe y => simp only [hl]; exact (Real.exp_pos _).le
  have hrow : Mealy.normalizeRow l = some fun x => W x / ∑ x', W x' := by
    have hm0' := hm0.symm
    rw [Mealy.normalizeRow, hm0']
    simp only [Option.some.injEq]
    funext x
    have e : ∀ x, npExp (l x + ((-m0 : ℝ) : WithBot ℝ)) = W x * Real.exp (m - m0) := by
      intro x; rw [hW]
      cases hl : l x with
      | bot => simp only [hl, WithBot.bot_add]; simp [npExp]
      | coe y =>
        simp only [hl]
        have e1 : npExp ((y : WithBot ℝ) + ((-m0 : ℝ) : WithBot ℝ)) = Real.exp (y + -m0) := rfl
        have e2 : npExp ((y : WithBot ℝ) + ((-m : ℝ) : WithBot ℝ)) = Real.exp (y + -m) := rfl
        rw [e1, e2, ← Real.exp_add]; ring_nf
    simp only [e]
    rw [← Finset.sum_mul, mul_div_mul_right _ _ (Real.exp_pos _).ne']
  have hrow' : Mealy.normalizeRowD F sum l' = some fun x => ⟨rnd ((V x).val / (sum (List.ofFn V)).val), rnd_isDouble _⟩ := by
    rw [Mealy.normalizeRowD, ← hm, hV]
  suffices hh : (1 / 2 ≤ ∑ x, W x) ∧ ∀ x, 0 ≤ W x / ∑ x', W x' ∧ 0 ≤ rnd ((V x).val / (sum (List.ofFn V)).val) ∧
      MulNear (2 * E + 7 * roundUnit A + X / 2 ^ 51) (2 ^ (-1069 : ℤ)) (W x / ∑ x', W x') (rnd ((V x).val / (sum (List.ofFn V)).val)) from
    ⟨_, _, hrow, hrow', by rw [← Finset.sum_div]; exact div_self (by linarith [hh.1]), hh.2⟩
  have tp : (0 : ℝ) < 2 ^ (-1074 : ℤ) := by positivity
  have tl := t0_le
  have th := t0_half
  have t69 : (2 : ℝ) ^ (-1069 : ℤ) = 32 * 2 ^ (-1074 : ℤ) := by
    rw [show (-1069 : ℤ) = 5 + -1074 by norm_num, zpow_add₀ (by norm_num)]; norm_num
  have th0 : (0 : ℝ) < 2 ^ (-1075 : ℤ) := by positivity
  rw [t69]
  obtain ⟨s0, s1⟩ := sum_mulNear (by linarith) tp.le W V W0 (fun x => (num' x).1) (fun x => (num' x).2) (hsum (List.ofFn V))
  have rnderr := fun x => rnd_error ((V x).val / (sum (List.ofFn V)).val)
  generalize (2 : ℝ) ^ (-1074 : ℤ) = t at *
  generalize (2 : ℝ) ^ (-1075 : ℤ) = t' at *
  generalize (sum (List.ofFn V)).val = s at *
  have up : 1 / 2 ^ 46 ≤ roundUnit A := by unfold roundUnit; norm_num; linarith
  obtain ⟨D, hD⟩ : ∃ D, D = ∑ x, W x := ⟨_, rfl⟩
  rw [← hD] at s1
  have D1 : 1 / 2 ≤ D := by
    have h1 : W xm ≤ D := by rw [hD]; exact Finset.single_le_sum (fun x _ => W0 x) (Finset.mem_univ xm)
    have h2 : W xm = Real.exp (a + -m) := by rw [hW]; simp only [ha]; rfl
    have h3 : Real.exp (a + -m) ≥ 1 + (a + -m) := by have := Real.add_one_le_exp (a + -m); linarith
    rw [abs_le] at ham
    linarith [ham.1, ham.2]
  have E0 : 0 ≤ E := le_trans (abs_nonneg _) ham
  have X0 : (0 : ℝ) ≤ X := Nat.cast_nonneg X
  have Xs : (X : ℝ) / 2 ^ 51 ≤ 1 / 64 := by linarith
  have Xt : X * t ≤ 1 / 2 ^ 55 := by
    calc (X : ℝ) * t ≤ 2 ^ 45 * (1 / 2 ^ 100) := mul_le_mul hX tl tp.le (by positivity)
      _ = 1 / 2 ^ 55 := by norm_num
  obtain ⟨η₂, h2⟩ : ∃ η₂, η₂ = E + 2 * roundUnit A + X / 2 ^ 51 := ⟨_, rfl⟩
  rw [← h2] at s1
  have η0 : 0 ≤ η₂ := by rw [h2]; positivity
  have η1 : η₂ ≤ 1 / 4 := by rw [h2]; linarith
  generalize roundUnit A = u at *
  have el : 3 / 4 ≤ Real.exp (-η₂) := by have := Real.add_one_le_exp (-η₂); linarith
  have sl : D * Real.exp (-(η₂ + u)) ≤ s := by
    have k1 : Real.exp (-u) ≤ 1 - u / 2 := by have := one_sub_ge_exp (c := u / 2) (by linarith) (by linarith); rwa [show 2 * (u / 2) = u by ring] at this
    have k2 : D * Real.exp (-(η₂ + u)) ≤ D * Real.exp (-η₂) * (1 - u / 2) := by
      rw [neg_add, Real.exp_add, ← mul_assoc]
      exact mul_le_mul_of_nonneg_left k1 (by positivity)
    have k3 : 1 / 2 * (3 / 4) ≤ D * Real.exp (-η₂) := mul_le_mul D1 el (by norm_num) (by linarith)
    have k4 : 3 / 8 * (u / 2) ≤ D * Real.exp (-η₂) * (u / 2) := mul_le_mul_of_nonneg_right (by linarith) (by linarith)
    have := s1.1
    linarith
  have su : s ≤ D * Real.exp (η₂ + u) := by
    have k1 : 1 + u ≤ Real.exp u := by have := Real.add_one_le_exp u; linarith
    have k2 : D * Real.exp η₂ * (1 + u) ≤ D * Real.exp (η₂ + u) := by
      rw [Real.exp_add, ← mul_assoc]
      exact mul_le_mul_of_nonneg_left k1 (by positivity)
    have k5 : 1 ≤ Real.exp η₂ := Real.one_le_exp η0
    have k3 : 1 / 2 * 1 ≤ D * Real.exp η₂ := mul_le_mul D1 k5 (by norm_num) (by linarith)
    have k4 : 1 / 2 * u ≤ D * Real.exp η₂ * u := mul_le_mul_of_nonneg_right (by linarith) (by linarith)
    have := s1.2
    linarith
  have spos : 0 < s := lt_of_lt_of_le (by positivity) sl
  have low : 1 / 4 ≤ D * Real.exp (-(η₂ + u)) := by
    have : 1 / 2 ≤ Real.exp (-(η₂ + u)) := by have := Real.add_one_le_exp (-(η₂ + u)); linarith
    calc (1 : ℝ) / 4 = 1 / 2 * (1 / 2) := by norm_num
      _ ≤ _ := mul_le_mul D1 this (by norm_num) (by linarith)
  refine ⟨by rw [← hD]; exact D1, ?_⟩
  intro x
  have p0 : 0 ≤ W x / ∑ x', W x' := div_nonneg (W0 x) (by rw [← hD]; linarith)
  have y0 : 0 ≤ (V x).val / s := div_nonneg (num' x).1 spos.le
  refine ⟨p0, by rw [← rnd_zero]; exact rnd_mono y0, ?_⟩
  have d1 := (num' x).2.div (W0 x) tp.le (by linarith) sl su
  have d2 : t / (D * Real.exp (-(η₂ + u))) ≤ 4 * t := by
    rw [div_le_iff₀ (by positivity)]
    have : 4 * t * (1 / 4) ≤ 4 * t * (D * Real.exp (-(η₂ + u))) := mul_le_mul_of_nonneg_left low (by linarith)
    linarith
  rw [hD] at d1 d2
  have d3 := (d1.mono p0 le_rfl d2).rel p0 (by linarith) (c := 1 / 2 ^ 53) (t := t') (q' := rnd ((V x).val / s)) (by positivity) (by norm_num) (by
    have := rnderr x
    rw [abs_of_nonneg y0] at this
    rw [mul_one_div]; exact this)
  refine d3.mono p0 ?_ (by linarith)
  rw [h2]
  norm_num at up ⊢
  linarith

end Komm
