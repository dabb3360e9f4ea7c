import Verif.Lemmas.MarkovChain
/-! The breadth-first search of `period` and the gcd of the closed walks. -/
namespace Komm.MarkovChain
open Walk
variable {K : Type} [Field K] [LinearOrder K] [IsStrictOrderedRing K] {n : Nat}

/-- The states without a level. -/
def unseen (levels : Fin n → Option Nat) : Finset (Fin n) := Finset.univ.filter fun v : Fin n => levels v = none

theorem bfsVisit_spec (cls : Finset (Fin n)) (lu : Nat) : ∀ (vs : List (Fin n)) (levels : Fin n → Option Nat) (queue : List (Fin n))
    (r : (Fin n → Option Nat) × List (Fin n)), bfsVisit cls lu vs levels queue = r →
    (∀ v l, levels v = some l → r.1 v = some l) ∧
    (∀ v l, r.1 v = some l → levels v = some l ∨ (v ∈ vs ∧ v ∈ cls ∧ l = lu + 1)) ∧
    (∀ v ∈ vs, v ∈ cls → r.1 v ≠ none) ∧
    (∀ x ∈ queue, x ∈ r.2) ∧ (∀ x ∈ r.2, x ∈ queue ∨ r.1 x ≠ none) ∧ (∀ x, levels x = none → r.1 x ≠ none → x ∈ r.2) ∧
    r.2.length + (unseen r.1).card = queue.length + (unseen levels).card := by
  intro vs
  induction vs with
  | nil =>
    intro levels queue r h
    rw [bfsVisit] at h
    subst h
    exact ⟨fun _ _ h => h, fun _ _ h => Or.inl h, fun v hv => absurd hv List.not_mem_nil, fun _ h => h, fun _ h => Or.inl h,
      fun x h1 h2 => absurd h1 h2, rfl⟩
  | cons v vs ih =>
    intro levels queue r h
    rw [bfsVisit] at h
    by_cases hv : v ∈ cls ∧ levels v = none
    · rw [if_pos hv] at h
      obtain ⟨k1, k2, k3, k4, k5, k6, k7⟩ := ih _ _ r h
      have hrv : r.1 v = some (lu + 1) := k1 v (lu + 1) (Function.update_self ..)
      refine ⟨?_, ?_, ?_, ?_, ?_, ?_, ?_⟩
      · intro w l hw
        apply k1
        rw [Function.update_of_ne]
        · exact hw
        · rintro rfl; rw [hv.2] at hw; exact absurd hw (by simp)
      · intro w l hw
        rcases k2 w l hw with h1 | h1
        · by_cases hwv : w = v
          · subst hwv
            rw [Function.update_self, Option.some.injEq] at h1
            exact Or.inr ⟨List.mem_cons_self, hv.1, h1.symm⟩
          · rw [Function.update_of_ne hwv] at h1; exact Or.inl h1
        · exact Or.inr ⟨List.mem_cons_of_mem _ h1.1, h1.2⟩
      · intro w hw hc
        rcases List.mem_cons.mp hw with rfl | hw
        · rw [hrv]; simp
        · exact k3 w hw hc
      · intro x hx; exact k4 x (List.mem_append_left _ hx)
      · intro x hx
        rcases k5 x hx with h1 | h1
        · rcases List.mem_append.mp h1 with h1 | h1
          · exact Or.inl h1
          · rw [List.mem_singleton] at h1; subst h1; right; rw [hrv]; simp
        · exact Or.inr h1
      · intro x hx hx'
        by_cases hxv : x = v
        · subst hxv; exact k4 x (List.mem_append_right _ (List.mem_singleton_self x))
        · exact k6 x (by rw [Function.update_of_ne hxv]; exact hx) hx'
      · rw [k7, List.length_append, List.length_singleton]
        have : unseen (Function.update levels v (some (lu + 1))) = (unseen levels).erase v := by
          ext w
          by_cases hwv : w = v
          · subst hwv; simp [unseen]
          · simp [unseen, Function.update_of_ne hwv, hwv]
        have hmem : v ∈ unseen levels := by simp [unseen, hv.2]
        have := Finset.card_erase_of_mem hmem
        have := Finset.card_pos.mpr ⟨v, hmem⟩
        rw [‹unseen (Function.update levels v (some (lu + 1))) = _›]
        omega
    · rw [if_neg hv] at h
      obtain ⟨k1, k2, k3, k4, k5, k6, k7⟩ := ih _ _ r h
      refine ⟨k1, ?_, ?_, k4, k5, k6, k7⟩
      · intro w l hw
        rcases k2 w l hw with h1 | h1
        · exact Or.inl h1
        · exact Or.inr ⟨List.mem_cons_of_mem _ h1.1, h1.2⟩
      · intro w hw hc
        rcases List.mem_cons.mp hw with rfl | hw
        · intro hn
          cases hl : levels w with
          | none => exact hv ⟨hc, hl⟩
          | some l => rw [k1 w l hl] at hn; exact absurd hn (by simp)
        · exact k3 w hw hc

theorem bfsLoop_spec (P : TMat K n) (cls : Finset (Fin n)) (s : Fin n) (fuel : Nat) :
    ∀ (levels : Fin n → Option Nat) (queue : List (Fin n)),
    queue.length + (unseen levels).card ≤ fuel →
    (∀ v l, levels v = some l → v ∈ cls ∧ W (Step P) l s v) →
    (∀ u ∈ queue, levels u ≠ none) →
    (∀ u, levels u ≠ none → u ∈ queue ∨ ∀ v ∈ cls, Step P u v → levels v ≠ none) →
    levels s ≠ none →
    ∃ L, bfsLoop P cls fuel levels queue = some L ∧ (∀ v l, L v = some l → v ∈ cls ∧ W (Step P) l s v) ∧
      (∀ u, L u ≠ none → ∀ v ∈ cls, Step P u v → L v ≠ none) ∧ L s ≠ none := by
  induction fuel with
  | zero =>
    intro levels queue hf h1 h2 h3 hs
    have : queue = [] := List.length_eq_zero_iff.mp (by omega)
    subst this
    exact ⟨levels, by rw [bfsLoop], h1, fun u hu => (h3 u hu).resolve_left List.not_mem_nil, hs⟩
  | succ fuel ih =>
    intro levels queue hf h1 h2 h3 hs
    cases queue with
    | nil => exact ⟨levels, by rw [bfsLoop], h1, fun u hu => (h3 u hu).resolve_left List.not_mem_nil, hs⟩
    | cons u queue =>
      cases hlu : levels u with
      | none => exact absurd hlu (h2 u List.mem_cons_self)
      | some lu =>
        rw [bfsLoop]
        simp only [hlu]
        obtain ⟨k1, k2, k3, k4, k5, k6, k7⟩ := bfsVisit_spec cls lu (neighbors P u) levels queue _ rfl
        generalize bfsVisit cls lu (neighbors P u) levels queue = r at *
        rw [List.length_cons] at hf
        have hmono : ∀ v, levels v ≠ none → r.1 v ≠ none := by
          intro v hv
          cases hl : levels v with
          | none => exact absurd hl hv
          | some l => rw [k1 v l hl]; simp
        refine ih r.1 r.2 (by omega) ?_ ?_ ?_ (hmono s hs)
        · intro v l hv
          rcases k2 v l hv with h | ⟨h, hc, rfl⟩
          · exact h1 v l h
          · exact ⟨hc, W_succ.mpr ⟨u, (h1 u lu hlu).2, (mem_neighbors P u v).mp h⟩⟩
        · intro x hx
          rcases k5 x hx with h | h
          · exact hmono x (h2 x (List.mem_cons_of_mem _ h))
          · exact h
        · intro x hx
          by_cases hlx : levels x = none
          · exact Or.inl (k6 x hlx hx)
          · rcases h3 x hlx with h | h
            · rcases List.mem_cons.mp h with rfl | h
              · right
                intro v hv hst
                exact k3 v ((mem_neighbors P x v).mpr hst) hv
              · exact Or.inl (k4 x h)
            · right
              intro v hv hst
              exact hmono v (h v hv hst)

theorem gcd_inner (cls : Finset (Fin n)) (levels : Fin n → Option Nat) (lev : Fin n → Nat) (hlev : ∀ v ∈ cls, levels v = some (lev v))
    (u : Fin n) (hu : u ∈ cls) : ∀ (vs : List (Fin n)) (d0 : Nat), ∃ d, vs.foldl (gcdStep cls levels u) (some d0) = some d ∧
      ∀ g : Nat, g ∣ d ↔ g ∣ d0 ∧ ∀ v ∈ vs, v ∈ cls → (g : Int) ∣ (lev u : Int) + 1 - lev v := by
  intro vs
  induction vs with
  | nil => intro d0; exact ⟨d0, rfl, fun g => ⟨fun h => ⟨h, fun v hv => absurd hv List.not_mem_nil⟩, fun h => h.1⟩⟩
  | cons v vs ih =>
    intro d0
    rw [List.foldl_cons]
    by_cases hv : v ∈ cls
    · have e : gcdStep cls levels u (some d0) v = some (Int.gcd d0 ((lev u : Int) + 1 - lev v)) := by
        unfold gcdStep; rw [if_pos hv, hlev u hu, hlev v hv]
      rw [e]
      obtain ⟨d, h1, h2⟩ := ih (Int.gcd d0 ((lev u : Int) + 1 - lev v))
      refine ⟨d, h1, fun g => ?_⟩
      have hg : g ∣ Int.gcd d0 ((lev u : Int) + 1 - lev v) ↔ g ∣ d0 ∧ (g : Int) ∣ (lev u : Int) + 1 - lev v := by
        rw [Int.gcd_eq_natAbs_gcd_natAbs, Nat.dvd_gcd_iff, Int.natAbs_natCast, Int.natCast_dvd]
      rw [h2, hg]
      constructor
      · rintro ⟨⟨a, b⟩, c⟩
        refine ⟨a, fun w hw hc => ?_⟩
        rcases List.mem_cons.mp hw with rfl | hw
        · exact b
        · exact c w hw hc
      · rintro ⟨a, b⟩
        exact ⟨⟨a, b v List.mem_cons_self hv⟩, fun w hw hc => b w (List.mem_cons_of_mem _ hw) hc⟩
    · have e : gcdStep cls levels u (some d0) v = some d0 := by unfold gcdStep; rw [if_neg hv]
      rw [e]
      obtain ⟨d, h1, h2⟩ := ih d0
      refine ⟨d, h1, fun g => ?_⟩
      rw [h2]
      constructor
      · rintro ⟨a, c⟩
        refine ⟨a, fun w hw hc => ?_⟩
        rcases List.mem_cons.mp hw with rfl | hw
        · exact absurd hc hv
        · exact c w hw hc
      · rintro ⟨a, b⟩
        exact ⟨a, fun w hw hc => b w (List.mem_cons_of_mem _ hw) hc⟩

theorem gcd_outer (P : TMat K n) (cls : Finset (Fin n)) (levels : Fin n → Option Nat) (lev : Fin n → Nat)
    (hlev : ∀ v ∈ cls, levels v = some (lev v)) : ∀ (us : List (Fin n)), (∀ u ∈ us, u ∈ cls) → ∀ d0 : Nat,
      ∃ d, us.foldl (fun (d : Option Nat) (u : Fin n) => (neighbors P u).foldl (gcdStep cls levels u) d) (some d0) = some d ∧
      ∀ g : Nat, g ∣ d ↔ g ∣ d0 ∧ ∀ u ∈ us, ∀ v ∈ cls, Step P u v → (g : Int) ∣ (lev u : Int) + 1 - lev v := by
  intro us
  induction us with
  | nil => intro _ d0; exact ⟨d0, rfl, fun g => ⟨fun h => ⟨h, fun v hv => absurd hv List.not_mem_nil⟩, fun h => h.1⟩⟩
  | cons u us ih =>
    intro hus d0
    rw [List.foldl_cons]
    obtain ⟨d1, e1, h1⟩ := gcd_inner cls levels lev hlev u (hus u List.mem_cons_self) (neighbors P u) d0
    rw [e1]
    obtain ⟨d2, e2, h2⟩ := ih (fun w hw => hus w (List.mem_cons_of_mem _ hw)) d1
    refine ⟨d2, e2, fun g => ?_⟩
    rw [h2, h1]
    constructor
    · rintro ⟨⟨a, b⟩, c⟩
      refine ⟨a, fun w hw v hv hst => ?_⟩
      rcases List.mem_cons.mp hw with rfl | hw
      · exact b v ((mem_neighbors P w v).mpr hst) hv
      · exact c w hw v hv hst
    · rintro ⟨a, b⟩
      exact ⟨⟨a, fun v hv hc => b u List.mem_cons_self v hc ((mem_neighbors P u v).mp hv)⟩,
        fun w hw v hv hst => b w (List.mem_cons_of_mem _ hw) v hv hst⟩

/-- `period` is the gcd of the lengths of the closed walks. -/
theorem period_spec (P : TMat K n) (s : Fin n) : ∃ d, period P s = some d ∧ ∀ g : Nat, g ∣ d ↔ ∀ m, W (Step P) m s s → g ∣ m := by
  have hs : s ∈ classOf P s := mem_classOf.mpr (Comm.refl P s)
  obtain ⟨L, e, h1, h2, h3⟩ := bfsLoop_spec P (classOf P s) s n (Function.update (fun _ => none) s (some 0)) [s]
    (by
      have : unseen (Function.update (fun _ : Fin n => (none : Option Nat)) s (some 0)) = Finset.univ.erase s := by
        ext w
        by_cases h : w = s
        · subst h; simp [unseen]
        · simp [unseen, Function.update_of_ne h, h]
      rw [this, Finset.card_erase_of_mem (Finset.mem_univ s), Finset.card_univ, Fintype.card_fin, List.length_singleton]
      have := s.pos
      omega)
    (by
      intro v l hv
      by_cases h : v = s
      · subst h
        rw [Function.update_self, Option.some.injEq] at hv
        subst hv
        exact ⟨hs, W_zero.mpr rfl⟩
      · rw [Function.update_of_ne h] at hv; exact absurd hv (by simp))
    (by
      intro u hu
      rw [List.mem_singleton] at hu
      subst hu
      rw [Function.update_self]; simp)
    (by
      intro u hu
      by_cases h : u = s
      · left; rw [h]; exact List.mem_singleton_self s
      · rw [Function.update_of_ne h] at hu; exact absurd rfl hu)
    (by rw [Function.update_self]; simp)
  -- every state of the class has a level
  have hall : ∀ m v, v ∈ classOf P s → W (Step P) m s v → L v ≠ none := by
    intro m
    induction m with
    | zero => intro v _ hw; rw [W_zero] at hw; subst hw; exact h3
    | succ m ih =>
      intro v hv hw
      obtain ⟨k, hk, hst⟩ := W_succ.mp hw
      have hkc : k ∈ classOf P s := by
        rw [mem_classOf]
        refine ⟨(mem_reach P s k).mpr ⟨m, hk⟩, ?_⟩
        refine reach_trans ((mem_reach P k v).mpr ⟨1, W_one.mpr hst⟩) (mem_classOf.mp hv).2
      exact h2 k (ih k hkc hk) v hv hst
  have hlev : ∀ v ∈ classOf P s, L v = some ((L v).getD 0) := by
    intro v hv
    obtain ⟨m, hm⟩ := (mem_reach P s v).mp (mem_classOf.mp hv).1
    cases h : L v with
    | none => exact absurd h (hall m v hv hm)
    | some l => rfl
  obtain ⟨d, e2, hd⟩ := gcd_outer P (classOf P s) L (fun v => (L v).getD 0) hlev
    ((List.finRange n).filter fun u : Fin n => u ∈ classOf P s) (fun u hu => by simpa using (List.mem_filter.mp hu).2) 0
  refine ⟨d, ?_, fun g => ?_⟩
  · rw [period, find_class]
    simp only [e]
    exact e2
  rw [hd]
  constructor
  · rintro ⟨-, h⟩ m hm
    -- along a walk from `s` inside the class the level changes by the length modulo `g`
    have hwalk : ∀ m v, v ∈ classOf P s → W (Step P) m s v → (g : Int) ∣ (m : Int) - ((L v).getD 0 : Nat) + ((L s).getD 0 : Nat) := by
      intro m
      induction m with
      | zero =>
        intro v _ hw
        rw [W_zero] at hw; subst hw
        simp
      | succ m ih =>
        intro v hv hw
        obtain ⟨k, hk, hst⟩ := W_succ.mp hw
        have hkc : k ∈ classOf P s := by
          rw [mem_classOf]
          exact ⟨(mem_reach P s k).mpr ⟨m, hk⟩, reach_trans ((mem_reach P k v).mpr ⟨1, W_one.mpr hst⟩) (mem_classOf.mp hv).2⟩
        have h4 := ih k hkc hk
        have h5 := h k (List.mem_filter.mpr ⟨List.mem_finRange k, by simpa using hkc⟩) v hv hst
        have h6 := Int.dvd_add h4 h5
        have e : (m : Int) - ((L k).getD 0 : Nat) + ((L s).getD 0 : Nat) + ((((L k).getD 0 : Nat) : Int) + 1 - ((L v).getD 0 : Nat)) =
            ((m + 1 : Nat) : Int) - ((L v).getD 0 : Nat) + ((L s).getD 0 : Nat) := by push_cast; ring
        rwa [e] at h6
    have h7 := hwalk m s hs hm
    rw [sub_add_cancel] at h7
    exact_mod_cast h7
  · intro h
    refine ⟨Nat.dvd_zero g, fun u hu v hv hst => ?_⟩
    have huc : u ∈ classOf P s := by simpa using (List.mem_filter.mp hu).2
    obtain ⟨w, hw⟩ := (mem_reach P v s).mp (mem_classOf.mp hv).2
    have a1 := (h1 u _ (hlev u huc)).2
    have a2 := (h1 v _ (hlev v hv)).2
    have b1 := h _ ((a1.add (W_one.mpr hst)).add hw)
    have b2 := h _ (a2.add hw)
    have c1 : (g : Int) ∣ (((L u).getD 0 + 1 + w : Nat) : Int) := by exact_mod_cast b1
    have c2 : (g : Int) ∣ (((L v).getD 0 + w : Nat) : Int) := by exact_mod_cast b2
    have := Int.dvd_sub c1 c2
    have e : (((L u).getD 0 + 1 + w : Nat) : Int) - (((L v).getD 0 + w : Nat) : Int) = (((L u).getD 0 : Nat) : Int) + 1 - ((L v).getD 0 : Nat) := by
      push_cast; ring
    rwa [e] at this

end Komm.MarkovChain
