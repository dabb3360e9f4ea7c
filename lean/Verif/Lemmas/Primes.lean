import Verif.Model.BinaryPolynomial
import Mathlib.Data.Nat.Prime.Basic
import Mathlib.Algebra.BigOperators.Group.List.Basic
import Mathlib.Tactic.Linarith
import Mathlib.Data.List.Sort
import Mathlib.Data.List.Prime
import Mathlib.Algebra.BigOperators.Group.List.Lemmas

namespace Komm

theorem primeFactorsLoop_spec (fuel n i : Nat) (fs : List Nat) (hn : 1 ≤ n) (hi : 2 ≤ i)
    (hfuel : n - i < fuel)
    (hmin : ∀ p, p.Prime → p ∣ n → i ≤ p)
    (hfs : ∀ p ∈ fs, p.Prime ∧ p ≤ i) (hsort : fs.Pairwise (· ≤ ·)) :
    let r := primeFactorsLoop fuel n i fs
    1 ≤ r.1 ∧ (r.1 = 1 ∨ r.1.Prime) ∧ r.2.prod * r.1 = fs.prod * n ∧
      (∀ p ∈ r.2, p.Prime ∧ (r.1 ≠ 1 → p ≤ r.1)) ∧ r.2.Pairwise (· ≤ ·) := by
  induction fuel generalizing n i fs with
  | zero => omega
  | succ fuel ih =>
    rw [primeFactorsLoop]
    split
    · rename_i hle
      have hin : i < n := by nlinarith
      split
      · rename_i hmod
        apply ih n (i + 1) fs hn (by omega) (by omega)
        · intro p hp hpn
          have := hmin p hp hpn
          rcases Nat.lt_or_ge i p with h | h
          · exact h
          · have : p = i := by omega
            subst this
            exact absurd (Nat.mod_eq_zero_of_dvd hpn) hmod
        · intro p hp; have := hfs p hp; exact ⟨this.1, by omega⟩
        · exact hsort
      · rename_i hmod
        have hmod : n % i = 0 := by omega
        have hdvd : i ∣ n := Nat.dvd_of_mod_eq_zero hmod
        have hiprime : i.Prime := by
          have h1 := hmin i.minFac (Nat.minFac_prime (by omega)) ((Nat.minFac_dvd i).trans hdvd)
          have h2 := Nat.minFac_le (n := i) (by omega)
          have : i.minFac = i := le_antisymm h2 h1
          rw [← this]; exact Nat.minFac_prime (by omega)
        have hq : n / i * i = n := Nat.div_mul_cancel hdvd
        have hlt : n / i < n := Nat.div_lt_self (by omega) (by omega)
        have hpos : 1 ≤ n / i := Nat.div_pos (by omega) (by omega)
        have := ih (n / i) i (fs ++ [i]) hpos hi (by omega)
          (fun p hp hpn => hmin p hp (hpn.trans ⟨i, hq.symm⟩))
          (by
            intro p hp
            rcases List.mem_append.mp hp with h | h
            · exact hfs p h
            · simp at h; subst h; exact ⟨hiprime, le_rfl⟩)
          (by
            rw [List.pairwise_append]
            refine ⟨hsort, by simp, ?_⟩
            intro a ha b hb
            simp at hb; subst hb; exact (hfs a ha).2)
        obtain ⟨a1, a2, a3, a4, a5⟩ := this
        refine ⟨a1, a2, ?_, a4, a5⟩
        rw [a3, List.prod_append, List.prod_singleton, mul_assoc, mul_comm i, hq]
    · rename_i hgt
      refine ⟨hn, ?_, rfl, ?_, hsort⟩
      · by_contra hcon
        push Not at hcon
        obtain ⟨h1, h2⟩ := hcon
        change n ≠ 1 at h1
        change ¬ n.Prime at h2
        have h3 : 2 ≤ n := by omega
        have hm := hmin n.minFac (Nat.minFac_prime (by omega)) (Nat.minFac_dvd n)
        have := Nat.minFac_sq_le_self (by omega) h2
        rw [pow_two] at this
        have := Nat.mul_le_mul hm hm
        omega
      · intro p hp
        refine ⟨(hfs p hp).1, fun h1 => ?_⟩
        have h1 : n ≠ 1 := h1
        have hm := hmin n.minFac (Nat.minFac_prime h1) (Nat.minFac_dvd n)
        have h4 := Nat.minFac_le (n := n) (by omega)
        have := (hfs p hp).2
        show p ≤ n
        omega

theorem primeFactors_spec (n : Nat) (hn : 1 ≤ n) :
    (∀ p ∈ primeFactors n, p.Prime) ∧ (primeFactors n).prod = n ∧
      (primeFactors n).Pairwise (· ≤ ·) := by
  have := primeFactorsLoop_spec (n + 1) n 2 [] hn le_rfl (by omega)
    (fun p hp _ => hp.two_le) (by simp) (by simp)
  obtain ⟨a1, a2, a3, a4, a5⟩ := this
  unfold primeFactors
  generalize primeFactorsLoop (n + 1) n 2 [] = r at *
  obtain ⟨m, fs⟩ := r
  simp only at *
  split
  · rename_i hm
    have hp : m.Prime := by rcases a2 with h | h <;> [omega; exact h]
    refine ⟨?_, ?_, ?_⟩
    · intro p hp'
      rcases List.mem_append.mp hp' with h | h
      · exact (a4 p h).1
      · simp at h; subst h; exact hp
    · rw [List.prod_append, List.prod_singleton]; simpa using a3
    · rw [List.pairwise_append]
      refine ⟨a5, by simp, ?_⟩
      intro a ha b hb
      simp at hb; subst hb; exact (a4 a ha).2 (by omega)
  · have : m = 1 := by omega
    subst this
    exact ⟨fun p hp => (a4 p hp).1, by simpa using a3, a5⟩

theorem mem_primeFactors_iff (n : Nat) (hn : 1 ≤ n) (q : Nat) :
    q ∈ primeFactors n ↔ q.Prime ∧ q ∣ n := by
  obtain ⟨h1, h2, h3⟩ := primeFactors_spec n hn
  constructor
  · intro h; exact ⟨h1 q h, by rw [← h2]; exact List.dvd_prod h⟩
  · rintro ⟨hq, hd⟩
    rw [← h2] at hd
    obtain ⟨a, ha, hqa⟩ := (Prime.dvd_prod_iff hq.prime).mp hd
    rwa [(Nat.prime_dvd_prime_iff_eq hq (h1 a ha)).mp hqa]

end Komm
