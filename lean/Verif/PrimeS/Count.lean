import Verif.PrimeS.Math

/-! # Counting the stripes that use a disk

`e` is the residue of the disk (`disk * y⁻¹ mod n`): within one iteration the
disk holds a chunk of stripe `s` iff `(e - s * m) mod n < k`, and that remainder
is the chunk's position in the stripe. -/

namespace Verif.PrimeS

/-- How many of the first `s` stripes have position `< w` on the disk. -/
def cnt (n m w e : Int) (s : Nat) : Nat :=
  ((List.range s).filter (fun x : Nat => (e - x * m) % n < w)).length

/-- How many of the first `s` stripes have position `c` on the disk. -/
def cntEq (n m c e : Int) (s : Nat) : Nat :=
  ((List.range s).filter (fun x : Nat => (e - x * m) % n = c)).length

theorem cnt_succ (n m w e : Int) (s : Nat) :
    cnt n m w e (s + 1) = cnt n m w e s + (if (e - s * m) % n < w then 1 else 0) := by
  unfold cnt
  rw [List.range_succ, List.filter_append, List.length_append]
  congr 1
  by_cases h : (e - s * m) % n < w <;> simp [h]

theorem cntEq_succ (n m w e : Int) (s : Nat) :
    cntEq n m w e (s + 1) = cntEq n m w e s + (if (e - s * m) % n = w then 1 else 0) := by
  unfold cntEq
  rw [List.range_succ, List.filter_append, List.length_append]
  congr 1
  by_cases h : (e - s * m) % n = w <;> simp [h]

/-- The number of data chunks on the disk in the first `s` stripes. -/
theorem cnt_data {n m e : Int} (hm : 0 < m) (hmn : m ≤ n) (he0 : 0 ≤ e) (hen : e < n) (s : Nat) :
    (cnt n m m e s : Int) = (s * m + n - 1 - e) / n := by
  induction s with
  | zero =>
    simp only [cnt, List.range_zero, List.filter_nil, List.length_nil]
    rw [Int.ediv_eq_zero_of_lt (by simp; omega) (by simp; omega)]; rfl
  | succ s ih =>
    rw [cnt_succ]
    generalize hw : (s : Int) * m + n - 1 - e = w at *
    have hw' : ((s + 1 : Nat) : Int) * m + n - 1 - e = w + m := by
      push_cast; linarith
    rw [hw']
    have h1 := Int.emod_add_mul_ediv w n
    have h2 := Int.emod_nonneg w (show n ≠ 0 by omega)
    have h3 := Int.emod_lt_of_pos w (show 0 < n by omega)
    have hrem : (e - s * m) % n = n - 1 - w % n := by
      have : e - s * m = (n - 1 - w % n) + n * (- (w / n)) := by
        have : e - s * m = n - 1 - w := by omega
        rw [this]; linarith
      rw [this, Int.add_mul_emod_self_left]
      exact Int.emod_eq_of_lt (by omega) (by omega)
    rw [hrem]
    push_cast
    rw [ih]
    by_cases hc : n - 1 - w % n < m
    · rw [if_pos hc]
      have : w + m = (w % n + m - n) + n * (w / n + 1) := by linarith
      rw [this, Int.add_mul_ediv_left _ _ (by omega), Int.ediv_eq_zero_of_lt (a := w % n + m - n) (b := n) (by omega) (by omega)]
      omega
    · rw [if_neg hc]
      have : w + m = (w % n + m) + n * (w / n) := by linarith
      rw [this, Int.add_mul_ediv_left _ _ (by omega), Int.ediv_eq_zero_of_lt (a := w % n + m) (b := n) (by omega) (by omega)]
      omega

/-- `o0` of `offset_within_iteration`. -/
theorem ediv_eq_cnt {n m e b : Int} {s : Nat} (hm : 0 < m) (hmn : m ≤ n) (he0 : 0 ≤ e) (hen : e < n)
    (hb0 : 0 ≤ b) (hbn : b < n) (h : (s * m + b) % n = e) :
    (s * m + b) / n = cnt n m m e s := by
  rw [cnt_data hm hmn he0 hen]
  have h1 := Int.emod_add_mul_ediv (s * m + b) n
  rw [h] at h1
  have : (s : Int) * m + n - 1 - e = (n - 1 - b) + n * ((s * m + b) / n) := by linarith
  rw [this, Int.add_mul_ediv_left _ _ (by omega), Int.ediv_eq_zero_of_lt (a := n - 1 - b) (b := n) (by omega) (by omega)]
  simp

theorem cnt_add_one {n m w e : Int} (s : Nat) :
    cnt n m (w + 1) e s = cnt n m w e s + cntEq n m w e s := by
  induction s with
  | zero => rfl
  | succ s ih =>
    rw [cnt_succ, cnt_succ, cntEq_succ, ih]
    split_ifs <;> omega

/-- Data and parity chunks. -/
theorem cnt_split {n m e : Int} (s f : Nat) :
    cnt n m (m + f) e s = cnt n m m e s + ((List.range f).map (fun j : Nat => cntEq n m (m + j) e s)).sum := by
  induction f with
  | zero => simp
  | succ f ih =>
    rw [List.range_succ, List.map_append, List.sum_append, ← Nat.add_assoc, ← ih]
    have : m + ((f + 1 : Nat) : Int) = m + f + 1 := by push_cast; ring
    rw [this, cnt_add_one]
    simp

/-- Exactly one stripe of an iteration has position `c` on the disk. -/
theorem cntEq_unique {n m c e cb : Int} (hcb : (e - cb * m) % n = c) (h0 : 0 ≤ cb) (h1 : cb < n)
    (hinj : ∀ x y : Int, 0 ≤ x → x < n → 0 ≤ y → y < n → (e - x * m) % n = (e - y * m) % n → x = y)
    (s : Nat) (hs : s ≤ n) : (cntEq n m c e s : Int) = if cb < s then 1 else 0 := by
  induction s with
  | zero => rw [if_neg (by simp; omega)]; rfl
  | succ s ih =>
    rw [cntEq_succ]
    push_cast
    rw [ih (by omega)]
    by_cases h : (e - s * m) % n = c
    · have := hinj s cb (by omega) (by omega) h0 h1 (by rw [h, hcb])
      rw [if_pos h, if_neg (by omega), if_pos (by omega)]; rfl
    · rw [if_neg h]
      have : (s : Int) ≠ cb := by rintro hc; rw [hc] at h; exact h hcb
      split_ifs <;> omega

/-! ## Selecting from a filtered range -/

theorem filter_range_get {p : Nat → Bool} {N i s : Nat} (h : ((List.range N).filter p)[i]? = some s) :
    p s = true ∧ s < N ∧ ((List.range s).filter p).length = i := by
  induction N with
  | zero => simp at h
  | succ N ih =>
    rw [List.range_succ, List.filter_append, List.getElem?_append] at h
    split at h
    · obtain ⟨h1, h2, h3⟩ := ih h
      exact ⟨h1, by omega, h3⟩
    · rename_i hlt
      by_cases hp : p N = true
      · simp only [List.filter_cons, hp, if_true, List.filter_nil, List.getElem?_singleton] at h
        split at h
        · cases h; exact ⟨hp, by omega, by omega⟩
        · cases h
      · simp [hp] at h

theorem filter_range_get_of {p : Nat → Bool} {N s : Nat} (hp : p s = true) (hs : s < N) :
    ((List.range N).filter p)[((List.range s).filter p).length]? = some s := by
  induction N with
  | zero => omega
  | succ N ih =>
    rw [List.range_succ, List.filter_append]
    by_cases h : s < N
    · have := ih h
      rw [List.getElem?_append_left (List.getElem?_eq_some_iff.mp this).1]; exact this
    · have : s = N := by omega
      subst this
      rw [List.getElem?_append_right (Nat.le_refl _)]
      simp [hp]

end Verif.PrimeS
