import Verif.Cleaner.Model
import Mathlib.Tactic.Linarith
import Mathlib.Tactic.Ring
import Mathlib.Tactic.FieldSimp
import Mathlib.Tactic.Positivity
import Mathlib.Data.Rat.Cast.Order

/-! # Rounding -/

namespace Verif.Cleaner

theorem rne_err {a b : Nat} (hb : 0 < b) : 2 * (b * rne a b) ≤ 2 * a + b ∧ 2 * a ≤ 2 * (b * rne a b) + b := by
  have h := Nat.div_add_mod a b
  have hm := Nat.mod_lt a hb
  unfold rne
  have h1 : b * (a / b + 1) = b * (a / b) + b := by ring
  split
  · constructor <;> omega
  · split
    · rw [h1]; constructor <;> omega
    · split
      · constructor <;> omega
      · rw [h1]; constructor <;> omega

theorem rne_ge {a b : Nat} : a / b ≤ rne a b := by
  unfold rne
  repeat' split
  all_goals omega

theorem rne_le {a b : Nat} : rne a b ≤ a / b + 1 := by
  unfold rne
  repeat' split
  all_goals omega

theorem rne_mul {b : Nat} (hb : 0 < b) (q : Nat) : rne (q * b) b = q := by
  unfold rne
  rw [Nat.mul_mod_left, Nat.mul_div_cancel _ hb, if_pos (by omega)]

theorem rne_one (a : Nat) : rne a 1 = a := by
  have := rne_mul (b := 1) (by omega) a
  rwa [Nat.mul_one] at this

theorem rne_mono {a a' b : Nat} (hb : 0 < b) (h : a ≤ a') : rne a b ≤ rne a' b := by
  have hq : a / b ≤ a' / b := Nat.div_le_div_right h
  rcases Nat.lt_or_eq_of_le hq with hlt | heq
  · exact Nat.le_trans rne_le (Nat.le_trans hlt rne_ge)
  · have h1 := Nat.div_add_mod a b
    have h2 := Nat.div_add_mod a' b
    have hr : a % b ≤ a' % b := by rw [heq] at h1; omega
    unfold rne
    rw [heq]
    repeat' split
    all_goals omega

theorem rne_scale {a b c : Nat} (hc : 0 < c) : rne (c * a) (c * b) = rne a b := by
  unfold rne
  have h1 : c * a / (c * b) = a / b := Nat.mul_div_mul_left _ _ hc
  have h2 : c * a % (c * b) = c * (a % b) := Nat.mul_mod_mul_left _ _ _
  rw [h1, h2]
  have h3 : (2 * (c * (a % b)) < c * b) = (2 * (a % b) < b) := by
    rw [show 2 * (c * (a % b)) = c * (2 * (a % b)) by ring]
    exact propext (Nat.mul_lt_mul_left hc)
  have h4 : (c * b < 2 * (c * (a % b))) = (b < 2 * (a % b)) := by
    rw [show 2 * (c * (a % b)) = c * (2 * (a % b)) by ring]
    exact propext (Nat.mul_lt_mul_left hc)
  simp only [h3, h4]

theorem ofCount_small {n : Nat} (h : n < 2 ^ 24) : ofCount n = n := by
  have : n.log2 - 23 = 0 := by
    rcases Nat.eq_zero_or_pos n with rfl | hp
    · rfl
    · have := (Nat.log2_lt (by omega)).2 h
      omega
  unfold ofCount
  rw [this, Nat.pow_zero, rne_one, Nat.mul_one]

theorem ofCount_bounds {n : Nat} (h : 0 < n) : 2 ^ n.log2 ≤ ofCount n ∧ ofCount n ≤ 2 ^ (n.log2 + 1) := by
  have h1 : 2 ^ n.log2 ≤ n := Nat.log2_self_le (by omega)
  have h2 : n < 2 ^ (n.log2 + 1) := Nat.lt_log2_self
  unfold ofCount
  generalize hs : n.log2 - 23 = s
  have hle : s ≤ n.log2 := by omega
  have hp : 0 < 2 ^ s := Nat.two_pow_pos s
  have e1 : 2 ^ n.log2 = 2 ^ (n.log2 - s) * 2 ^ s := by rw [← Nat.pow_add]; congr 1; omega
  have e2 : 2 ^ (n.log2 + 1) = 2 ^ (n.log2 + 1 - s) * 2 ^ s := by rw [← Nat.pow_add]; congr 1; omega
  constructor
  · have := rne_mono hp h1
    rw [e1, rne_mul hp] at this
    rw [e1]
    exact Nat.mul_le_mul_right _ this
  · have := rne_mono hp (Nat.le_of_lt h2)
    rw [e2, rne_mul hp] at this
    rw [e2]
    exact Nat.mul_le_mul_right _ this

theorem ofCount_zero : ofCount 0 = 0 := rfl

theorem ofCount_pos {n : Nat} (h : 0 < n) : 0 < ofCount n :=
  Nat.lt_of_lt_of_le (Nat.two_pow_pos _) (ofCount_bounds h).1

theorem ofCount_mono {m n : Nat} (h : m ≤ n) : ofCount m ≤ ofCount n := by
  rcases Nat.eq_zero_or_pos m with rfl | hm
  · rw [ofCount_zero]; omega
  · have hn : 0 < n := by omega
    have hl : m.log2 ≤ n.log2 := by
      rw [Nat.le_log2 (by omega)]
      exact Nat.le_trans (Nat.log2_self_le (by omega)) h
    rcases Nat.lt_or_eq_of_le hl with hlt | heq
    · exact Nat.le_trans (ofCount_bounds hm).2
        (Nat.le_trans (Nat.pow_le_pow_right (by omega) hlt) (ofCount_bounds hn).1)
    · unfold ofCount
      rw [heq]
      exact Nat.mul_le_mul_right _ (rne_mono (Nat.two_pow_pos _) h)

theorem ofCount_double (n : Nat) : ofCount (2 * n) = 2 * ofCount n := by
  rcases Nat.eq_zero_or_pos n with rfl | hn
  · rfl
  · have hl : (2 * n).log2 = n.log2 + 1 := by
      rw [Nat.log2_two_mul (by omega)]
    by_cases hs : n.log2 < 23
    · have hlt : n < 2 ^ 23 := (Nat.log2_lt (by omega)).1 hs
      rw [ofCount_small (by omega), ofCount_small (by omega)]
    · unfold ofCount
      rw [hl, show n.log2 + 1 - 23 = (n.log2 - 23) + 1 by omega, Nat.pow_succ,
        Nat.mul_comm (2 ^ (n.log2 - 23)) 2, rne_scale (by omega)]
      ring

/-- A quotient of at most one is rounded by at most `2 ^ -25`, and by half of that below one half. -/
theorem quotient_err {a b : Nat} (ha : 0 < a) (hab : a ≤ b) :
    ∃ k, 24 ≤ k ∧ (2 * a ≤ b → 25 ≤ k) ∧ (b ≤ 2 * a → 1 / 2 ≤ quotient a b) ∧
      |quotient a b - (a : Rat) / b| ≤ 1 / 2 ^ (k + 1) := by
  have hb : 0 < b := by omega
  have hq : 0 < b / a := Nat.div_pos hab ha
  have hlo : 2 ^ (b / a).log2 ≤ b / a := Nat.log2_self_le (by omega)
  have hhi : b / a < 2 ^ ((b / a).log2 + 1) := Nat.lt_log2_self
  generalize hl : (b / a).log2 = l at hlo hhi
  have h1 : 2 ^ l * a ≤ b := (Nat.le_div_iff_mul_le ha).1 hlo
  have h2 : b < 2 ^ (l + 1) * a := (Nat.div_lt_iff_lt_mul ha).1 hhi
  have eA : a * 2 ^ (24 + l) = 2 ^ 24 * (2 ^ l * a) := by rw [Nat.pow_add]; ring
  have eB : a * 2 ^ (24 + l) = 2 ^ 23 * (2 ^ (l + 1) * a) := by
    rw [show 24 + l = 23 + (l + 1) by omega, Nat.pow_add]; ring
  generalize hA : a * 2 ^ (24 + l) = A at eA eB
  have hAle : A ≤ 2 ^ 24 * b := by rw [eA]; exact Nat.mul_le_mul_left _ h1
  have hAge : 2 ^ 23 * b < A := by rw [eB]; exact (Nat.mul_lt_mul_left (by omega)).2 h2
  have hA0 : 0 < A := by omega
  -- the rounded numerator
  have key : 2 * (b * (rne A (b * 2 ^ ((A / b).log2 - 23)) * 2 ^ ((A / b).log2 - 23))) ≤ 2 * A + b ∧
      2 * A ≤ 2 * (b * (rne A (b * 2 ^ ((A / b).log2 - 23)) * 2 ^ ((A / b).log2 - 23))) + b ∧
      2 ^ 23 ≤ rne A (b * 2 ^ ((A / b).log2 - 23)) * 2 ^ ((A / b).log2 - 23) := by
    by_cases hs : A / b < 2 ^ 24
    · have h0 : (A / b).log2 - 23 = 0 := by
        rcases Nat.eq_zero_or_pos (A / b) with h | h
        · rw [h]; rfl
        · have := (Nat.log2_lt (by omega)).2 hs
          omega
      rw [h0, Nat.pow_zero, Nat.mul_one, Nat.mul_one]
      refine ⟨(rne_err hb).1, (rne_err hb).2, ?_⟩
      refine Nat.le_trans ?_ rne_ge
      rw [Nat.le_div_iff_mul_le hb]
      omega
    · have hge : 2 ^ 24 * b ≤ A := by
        rw [← Nat.le_div_iff_mul_le hb]; omega
      have heq : A = 2 ^ 24 * b := Nat.le_antisymm hAle hge
      have hdiv : A / b = 2 ^ 24 := by rw [heq, Nat.mul_div_cancel _ hb]
      have h0 : (A / b).log2 - 23 = 1 := by rw [hdiv, Nat.log2_two_pow]
      rw [h0, Nat.pow_one]
      have h3 : rne A (b * 2) = 2 ^ 23 := by
        rw [show A = 2 ^ 23 * (b * 2) by rw [heq]; ring, rne_mul (by omega)]
      rw [h3]
      refine ⟨?_, ?_, by omega⟩
      · rw [heq]; omega
      · rw [heq]; omega
  have hquot : quotient a b = ((rne A (b * 2 ^ ((A / b).log2 - 23)) * 2 ^ ((A / b).log2 - 23) : Nat) : Rat) /
      ((2 ^ (24 + l) : Nat) : Rat) := by
    unfold quotient
    simp only [hl, hA]
  generalize rne A (b * 2 ^ ((A / b).log2 - 23)) * 2 ^ ((A / b).log2 - 23) = N at key hquot
  obtain ⟨k1, k2, k3⟩ := key
  refine ⟨24 + l, by omega, ?_, ?_, ?_⟩
  · intro h
    have : l ≠ 0 := by
      rintro rfl
      rw [Nat.zero_add, Nat.pow_one] at h2
      omega
    omega
  · intro h
    rw [hquot]
    have hbq : (0 : Rat) < b := by exact_mod_cast hb
    by_cases h' : l = 0
    · subst h'
      rw [div_le_div_iff₀ (by norm_num) (by positivity)]
      have : (2 ^ 23 : Rat) ≤ N := by exact_mod_cast k3
      push_cast
      linarith
    · -- then `b = 2 a` exactly
      have hpow : 2 ^ l = 2 * 2 ^ (l - 1) := by
        rw [← Nat.pow_succ']; congr 1; omega
      have hle : 2 * a ≤ 2 ^ l * a := by
        rw [hpow, Nat.mul_assoc]
        exact Nat.mul_le_mul_left _ (Nat.le_mul_of_pos_left _ (Nat.two_pow_pos _))
      have hl1 : l = 1 := by
        by_contra hne
        have : 2 ^ 2 ≤ 2 ^ l := Nat.pow_le_pow_right (by omega) (by omega)
        have := Nat.mul_le_mul_right a this
        omega
      subst hl1
      have hb2 : b = 2 * a := by omega
      have hAb : A = 2 ^ 24 * b := by rw [eA, hb2, Nat.pow_one]
      have hN : 2 ^ 24 * b ≤ b * N + b / 2 := by omega
      have : 2 ^ 24 ≤ N := by
        by_contra hlt
        have : b * N + b ≤ b * 2 ^ 24 := by
          have : N + 1 ≤ 2 ^ 24 := by omega
          calc b * N + b = b * (N + 1) := by ring
            _ ≤ b * 2 ^ 24 := Nat.mul_le_mul_left _ this
        omega
      rw [div_le_div_iff₀ (by norm_num) (by positivity)]
      have : (2 ^ 24 : Rat) ≤ N := by exact_mod_cast this
      push_cast
      linarith
  · rw [hquot]
    have hbq : (0 : Rat) < b := by exact_mod_cast hb
    have hpq : (0 : Rat) < 2 ^ (24 + l) := by positivity
    have k1' : 2 * ((b : Rat) * N) ≤ 2 * (a * 2 ^ (24 + l)) + b := by rw [← hA] at k1; exact_mod_cast k1
    have k2' : 2 * ((a : Rat) * 2 ^ (24 + l)) ≤ 2 * (b * N) + b := by rw [← hA] at k2; exact_mod_cast k2
    push_cast
    have e : (N : Rat) / 2 ^ (24 + l) - a / b = (b * N - a * 2 ^ (24 + l)) / (b * 2 ^ (24 + l)) := by
      field_simp
    rw [e, abs_le, pow_succ]
    constructor
    · rw [neg_le_iff_add_nonneg, div_add_div _ _ (by positivity) (by positivity)]
      apply div_nonneg _ (by positivity)
      nlinarith [mul_pos hbq hpq]
    · rw [div_le_div_iff₀ (by positivity) (by positivity)]
      nlinarith [mul_pos hbq hpq]

end Verif.Cleaner
