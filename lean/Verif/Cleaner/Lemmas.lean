import Verif.Cleaner.Float
import Verif.Cleaner.Spec
import Verif.Cluster.Props

/-! # Lemmas about the selection -/

namespace Verif.Cleaner

open Verif.Cluster

theorem dirtiness_pos {z : ClosedZone} (ht : 0 < z.total) (hf : 0 < z.freed) :
    dirtiness z = .fin (quotient (ofCount z.freed) (ofCount z.total)) := by
  unfold dirtiness div
  rw [if_neg (by have := ofCount_pos ht; omega), if_neg (by have := ofCount_pos hf; omega)]

theorem dirtiness_zero {z : ClosedZone} (ht : 0 < z.total) (hf : z.freed = 0) : dirtiness z = .fin 0 := by
  unfold dirtiness div
  rw [hf, ofCount_zero, if_neg (by have := ofCount_pos ht; omega), if_pos rfl]

theorem dirtiness_nan {z : ClosedZone} (ht : z.total = 0) (hf : z.freed = 0) : dirtiness z = .nan := by
  unfold dirtiness div
  rw [ht, hf, ofCount_zero, if_pos rfl, if_pos rfl]

theorem ge_fin (a b : Rat) : (F32.fin a).ge (.fin b) = true ↔ b ≤ a := by
  simp only [F32.ge, F32.partialCmp]
  split
  · rename_i h
    split at h
    · cases h
    · split at h
      · cases h
      · rename_i h1 h2
        simp only [true_iff]
        exact not_lt.mp h1
  · rename_i h
    split at h
    · cases h
    · split at h
      · rename_i h2
        simp [h2]
      · cases h
  · rename_i h1 h2
    simp only [Bool.false_eq_true, false_iff, not_le]
    by_contra hc
    by_cases he : a = b
    · apply h2
      rw [if_neg hc, if_pos he]
    · apply h1
      rw [if_neg hc, if_neg he]

theorem half_ofCount {f t : Nat} (h : t ≤ 2 * f) : ofCount t ≤ 2 * ofCount f := by
  rw [← ofCount_double]; exact ofCount_mono h

theorem dirty_of_half {z : ClosedZone} (ht : 0 < z.total) (hle : z.freed ≤ z.total) (h : z.total ≤ 2 * z.freed) :
    dirty DEFAULT_THRESHOLD z = true := by
  have hf : 0 < z.freed := by omega
  unfold dirty DEFAULT_THRESHOLD
  rw [dirtiness_pos ht hf, ge_fin]
  obtain ⟨k, -, -, h1, -⟩ := quotient_err (ofCount_pos hf) (ofCount_mono hle)
  exact h1 (half_ofCount h)

/-- Of a zone with fewer than `2 ^ 24` blocks, the fraction is known up to `2 ^ -25`, and up to
`2 ^ -26` if it is less than one half. -/
theorem dirtiness_err {z : ClosedZone} (ht : 0 < z.total) (hle : z.freed ≤ z.total) (hs : z.total < 2 ^ 24) :
    ∃ q, dirtiness z = .fin q ∧ |q - (z.freed : Rat) / z.total| ≤ 1 / 2 ^ 25 ∧
      (2 * z.freed ≤ z.total → |q - (z.freed : Rat) / z.total| ≤ 1 / 2 ^ 26) := by
  by_cases hf : z.freed = 0
  · refine ⟨0, dirtiness_zero ht hf, ?_, fun _ => ?_⟩
    · rw [hf]; norm_num
    · rw [hf]; norm_num
  · have hf : 0 < z.freed := by omega
    refine ⟨_, dirtiness_pos ht hf, ?_, ?_⟩
    · rw [ofCount_small (by omega), ofCount_small hs]
      obtain ⟨k, h1, -, -, h2⟩ := quotient_err hf hle
      refine le_trans h2 ?_
      exact one_div_le_one_div_of_le (by positivity) (pow_le_pow_right₀ (by norm_num) (by omega))
    · intro hhalf
      rw [ofCount_small (by omega), ofCount_small hs]
      obtain ⟨k, -, h1, -, h2⟩ := quotient_err hf hle
      refine le_trans h2 ?_
      exact one_div_le_one_div_of_le (by positivity) (pow_le_pow_right₀ (by norm_num) (by have := h1 hhalf; omega))

theorem half_of_dirty {z : ClosedZone} (hle : z.freed ≤ z.total) (hs : z.total < 2 ^ 24)
    (h : dirty DEFAULT_THRESHOLD z = true) : 0 < z.total ∧ z.total ≤ 2 * z.freed := by
  have ht : 0 < z.total := by
    by_contra hc
    unfold dirty at h
    rw [dirtiness_nan (by omega) (by omega)] at h
    cases h
  refine ⟨ht, ?_⟩
  by_contra hc
  obtain ⟨q, h1, -, h2⟩ := dirtiness_err ht hle hs
  have h3 := h2 (by omega)
  unfold dirty DEFAULT_THRESHOLD at h
  rw [h1, ge_fin] at h
  have h4 := (abs_le.mp h3).2
  have htq : (0 : Rat) < z.total := by exact_mod_cast ht
  have h5 : (1 : Rat) / 2 - 1 / 2 ^ 26 ≤ (z.freed : Rat) / z.total := by linarith
  rw [le_div_iff₀ htq] at h5
  have h6 : (2 * (z.freed : Rat)) + 1 ≤ z.total := by exact_mod_cast (by omega : 2 * z.freed + 1 ≤ z.total)
  have h7 : (z.total : Rat) < 16777216 := by exact_mod_cast hs
  norm_num at h5
  linarith

theorem dirty_total {z : ClosedZone} (hle : z.freed ≤ z.total) {q : Rat} (h : dirty (.fin q) z = true) :
    0 < z.total := by
  by_contra hc
  unfold dirty at h
  rw [dirtiness_nan (by omega) (by omega)] at h
  cases h

/-- The comparison of numbers. -/
theorem compare_fin {a b : ClosedZone} {p q : Rat} (ha : dirtiness a = .fin p) (hb : dirtiness b = .fin q) :
    (compareZones a b = some .lt ∨ compareZones a b = some .eq) ↔ q ≤ p := by
  unfold compareZones
  rw [ha, hb]
  simp only [F32.neg, F32.partialCmp, Option.some.injEq]
  rcases lt_trichotomy q p with h | h | h
  · rw [if_pos (by linarith)]
    simp [h.le]
  · subst h
    simp
  · rw [if_neg (by linarith), if_neg (by intro h'; linarith)]
    simp [h]

theorem liveBlocks_eq (g : Geo) (h : Hist) (z : Nat) : liveBlocks g h z = liveIn g h.recs z := by
  unfold liveBlocks liveIn
  generalize h.recs = l
  induction l with
  | nil => rfl
  | cons a l ih =>
    rw [List.map_cons, List.sum_cons, List.filter_cons]
    unfold wt at *
    by_cases h1 : a.live = true ∧ g.lba2zone a.lba = some z
    · rw [if_pos (by simp [h1.1, h1.2]), if_pos h1, List.map_cons, List.sum_cons, ih]
    · rw [if_neg (by simpa using h1), if_neg h1, ih, Nat.zero_add]

/-- What is listed for a closed zone. -/
theorem closed_entry {g : Geo} {H : Nat → List ZoneOnDisk → Nat} {n : Nat} (geo : GeoOk g n) {h : Hist}
    (hr : Reachable g H n h) {z : Nat} (hc : h.c.fsm.isClosed z = true) :
    let e := h.c.fsm.closedEntry z (g.limits z).1
    0 < e.total ∧ e.total = size g z ∧ e.freed + liveBlocks g h z = e.total ∧ e.zid = z ∧ e.start = (g.limits z).1 := by
  have G := good_reachable geo hr
  obtain ⟨zn, hv⟩ := (FSM.isClosed_view z).mp hc
  have hzn : z < n := by
    by_contra hlt
    have := G.inv.out z (by omega)
    rw [hv] at this
    cases this
  have hI := G.inv.zone z hzn
  rw [hv] at hI
  obtain ⟨h1, h2, -⟩ := hI
  have hget : h.c.fsm.zones[z]? = some zn := by
    unfold FSM.view at hv
    split at hv
    · cases hv
    · rename_i zn' hz'
      split at hv
      · split at hv <;> cases hv
      · split at hv
        · cases hv
        · cases hv; exact hz'
  have hsz := (geo.size z hzn).1
  unfold FSM.closedEntry
  rw [hget]
  simp only [Option.getD_some]
  rw [liveBlocks_eq]
  unfold size
  refine ⟨by omega, h1, h2, trivial, trivial⟩

end Verif.Cleaner
