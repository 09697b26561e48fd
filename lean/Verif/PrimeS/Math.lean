import Verif.PrimeS.Model
import Mathlib.Data.Nat.Prime.Basic
import Mathlib.Data.Int.ModEq
import Mathlib.Tactic.Ring
import Mathlib.Tactic.LinearCombination
import Mathlib.Tactic.Linarith

/-! # Number theory behind the layout -/

namespace Verif.PrimeS

/-! ## Inverses -/

/-- Loop invariant: Bézout congruences, and the classical bound on the
coefficients (they have opposite signs). -/
theorem invmodLoop_spec (a n : Int) : ∀ (t r newt newr : Int), 0 ≤ newr → newr < r →
    (∃ c, t * a = r + c * n) → (∃ c, newt * a = newr + c * n) →
    ((t ≤ 0 ∧ 0 ≤ newt ∧ r * newt - newr * t = n) ∨ (0 ≤ t ∧ newt ≤ 0 ∧ newr * t - r * newt = n)) →
    (newr = 0 → -n < t ∧ t < n) →
    Int.gcd r newr = 1 → 1 < n →
    (invmodLoop t r newt newr).2 = 1 ∧
    (∃ c, (invmodLoop t r newt newr).1 * a = 1 + c * n) ∧
    -n < (invmodLoop t r newt newr).1 ∧ (invmodLoop t r newt newr).1 < n := by
  intro t r newt newr h0 hlt hc1 hc2 hsign hz hg hn
  fun_induction invmodLoop t r newt newr with
  | case1 t r newt newr hpos hdec ih =>
    have h1 := Int.emod_add_mul_ediv r newr
    have h2 := Int.emod_nonneg r (show newr ≠ 0 by omega)
    have h3 := Int.emod_lt_of_pos r hpos
    have h4 : 1 ≤ r / newr := by rw [Int.le_ediv_iff_mul_le hpos]; omega
    generalize hq : r / newr = q at *
    generalize he : r % newr = e at *
    have hre : r - newr * q = e := by omega
    rw [hre] at ih ⊢
    apply ih h2 h3 hc2
    · obtain ⟨c, hc⟩ := hc1
      obtain ⟨d, hd⟩ := hc2
      refine ⟨c - d * q, ?_⟩
      have : e = r - newr * q := by omega
      rw [this]
      linear_combination hc - q * hd
    · have hr : r = newr * q + e := by omega
      rcases hsign with ⟨a1, a2, a3⟩ | ⟨a1, a2, a3⟩
      · right
        refine ⟨a2, ?_, ?_⟩
        · nlinarith
        · rw [hr] at a3; linear_combination a3
      · left
        refine ⟨a2, ?_, ?_⟩
        · nlinarith
        · rw [hr] at a3; linear_combination a3
    · intro he0
      have hr : r = newr * q := by omega
      -- `newr ≥ 1`, `r ≥ 2`
      have hr2 : 2 ≤ r := by omega
      rcases hsign with ⟨a1, a2, a3⟩ | ⟨a1, a2, a3⟩
      · constructor
        · omega
        · nlinarith
      · constructor
        · nlinarith
        · omega
    · rw [← hg]
      have : r = newr * q + e := by omega
      rw [this, show newr * q + e = e + newr * q by ring, Int.gcd_comm (e + newr * q)]
      simp
  | case2 t r newt newr hpos =>
    have hz0 : newr = 0 := by omega
    subst hz0
    have hr1 : r = 1 := by
      simp at hg
      omega
    subst hr1
    refine ⟨rfl, ?_, hz rfl⟩
    exact hc1

/-- `invmod` gives the inverse in `[0, n)`. -/
theorem invmod_spec {a n : Int} (h1 : 0 < a) (h2 : a < n) (hg : Int.gcd n a = 1) :
    ∃ x, invmod a n = some x ∧ 0 ≤ x ∧ x < n ∧ (x * a) % n = 1 := by
  obtain ⟨e1, ⟨c, e2⟩, e3, e4⟩ := invmodLoop_spec a n 0 n 1 a (by omega) h2 ⟨-1, by ring⟩
    ⟨0, by ring⟩ (Or.inl ⟨by omega, by omega, by ring⟩) (by omega) hg (by omega)
  unfold invmod
  simp only
  rw [if_pos e1]
  generalize (invmodLoop 0 n 1 a).1 = t at *
  have hmod : ∀ c : Int, (1 + c * n) % n = 1 := by
    intro c
    rw [Int.add_mul_emod_self_right]
    exact Int.emod_eq_of_lt (by omega) (by omega)
  refine ⟨_, rfl, ?_, ?_, ?_⟩
  · split <;> omega
  · split <;> omega
  · split
    · rw [show (t + n) * a = 1 + (c + a) * n by linear_combination e2]; exact hmod _
    · rw [e2]; exact hmod _

theorem gcd_prime {n : Nat} (hp : n.Prime) {a : Int} (h1 : 0 < a) (h2 : a < n) :
    Int.gcd n a = 1 := by
  obtain ⟨b, rfl⟩ := Int.eq_ofNat_of_zero_le (show 0 ≤ a by omega)
  rw [Int.gcd_natCast_natCast]
  exact (Nat.Prime.coprime_iff_not_dvd hp).mpr (fun hd => by
    have := Nat.le_of_dvd (by omega) hd
    omega)

/-! ## Primality -/

theorem primeLoop_spec (n i : Nat) (hi : i % 6 = 5) (h2 : ¬ 2 ∣ n) (h3 : ¬ 3 ∣ n) (hn : 1 < n)
    (hlow : ∀ p, p.Prime → p ∣ n → p * p ≤ n → i ≤ p) :
    primeLoop n i = true ↔ n.Prime := by
  fun_induction primeLoop n i with
  | case1 i hle hdvd =>
    simp only [Bool.false_eq_true, false_iff]
    intro hp
    rcases hdvd with hd | hd
    · have := (Nat.dvd_prime hp).mp (Nat.dvd_of_mod_eq_zero hd)
      rcases this with h | h
      · omega
      · subst h; nlinarith
    · have := (Nat.dvd_prime hp).mp (Nat.dvd_of_mod_eq_zero hd)
      rcases this with h | h
      · omega
      · have : i * i ≥ 5 * i := Nat.mul_le_mul_right i (by omega)
        omega
  | case2 i hle hdvd ih =>
    apply ih (by omega)
    intro p hp hpn hpp
    have hip := hlow p hp hpn hpp
    have hp2 : p % 2 ≠ 0 := fun h => h2 (Nat.dvd_trans (Nat.dvd_of_mod_eq_zero h) hpn)
    have hp3 : p % 3 ≠ 0 := fun h => h3 (Nat.dvd_trans (Nat.dvd_of_mod_eq_zero h) hpn)
    have h4 : p ≠ i := by rintro rfl; exact hdvd (Or.inl (Nat.mod_eq_zero_of_dvd hpn))
    have h5 : p ≠ i + 2 := by rintro rfl; exact hdvd (Or.inr (Nat.mod_eq_zero_of_dvd hpn))
    omega
  | case3 i hle =>
    simp only [true_iff]
    rw [Nat.prime_def_le_sqrt]
    by_contra hc
    have hnp : ¬ n.Prime := by rwa [Nat.prime_def_le_sqrt]
    have h1 := Nat.minFac_sq_le_self (by omega) hnp
    have h2 := hlow n.minFac (Nat.minFac_prime (by omega)) (Nat.minFac_dvd n) (by rw [← sq]; exact h1)
    have : i * i ≤ n.minFac * n.minFac := Nat.mul_le_mul h2 h2
    rw [sq] at h1
    omega

theorem isPrime_spec (n : Int) : isPrime n = true ↔ 0 ≤ n ∧ n.toNat.Prime := by
  unfold isPrime
  split
  · rename_i h
    simp only [Bool.false_eq_true, false_iff, not_and]
    intro h0 hp
    have := hp.one_lt
    omega
  · rename_i h1
    split
    · rename_i h2
      have : n = 2 ∨ n = 3 := by omega
      rcases this with rfl | rfl <;> decide
    · rename_i h2
      obtain ⟨m, rfl⟩ := Int.eq_ofNat_of_zero_le (show 0 ≤ n by omega)
      split
      · rename_i h
        simp only [Bool.false_eq_true, false_iff, not_and, Int.toNat_natCast]
        intro _ hp
        rcases h with h | h
        · have := (Nat.dvd_prime hp).mp (Nat.dvd_of_mod_eq_zero (n := m) (m := 2) (by omega))
          omega
        · have := (Nat.dvd_prime hp).mp (Nat.dvd_of_mod_eq_zero (n := m) (m := 3) (by omega))
          omega
      · rename_i h
        rw [Int.toNat_natCast, primeLoop_spec m 5 (by rfl) (by omega) (by omega) (by omega)]
        · simp
        · intro p hp hpm _
          have h2 : p ≠ 2 := by rintro rfl; omega
          have h3 : p ≠ 3 := by rintro rfl; omega
          have h4 : p ≠ 4 := by rintro rfl; revert hp; decide
          have := hp.two_le
          omega

end Verif.PrimeS
