import Verif.Raid.ReconReads

/-!
# C62: reads of a RAID vdev whose disks fail or are absent
-/

namespace Verif.Raid

open Verif.Bytes Verif.Codec

variable {g : Geom}

/-- What the disks of a stripe that holds the data `y` return: those whose read succeeds return
their chunk as it was written, the others may leave anything in the buffers. -/
structure Stripe (g : Geom) (y : Buf) (got : Nat → Buf) (res : Nat → Res) : Prop where
  data : g.stripe ≤ y.length
  len : ∀ b < g.Y.k, (got b).length = g.col
  good : ∀ b < g.Y.k, res b = .ok → got b = column g y b

/-- The number of disks of a stripe that failed. -/
def failures (g : Geom) (res : Nat → Res) : Nat := (List.range g.Y.k).countP fun b => (res b).isErr

/-- Either the wanted data, or, if more than `f` disks failed, the error of one of them. -/
def Served (g : Geom) (f u e : Nat) (y : Buf) (res : Nat → Res) (o : Out) : Prop :=
  o = .ok (wanted g u e y) ∨ (f < failures g res ∧ ∃ b < g.Y.k, ∃ n, res b = .err n ∧ o = .err n)

theorem nErr_le_failures {res : Nat → Res} {n : Nat} (h : n ≤ g.Y.k) :
    nErr ((List.range n).map res) ≤ failures g res := by
  unfold nErr failures
  rw [List.countP_map]
  have : List.range g.Y.k = List.range n ++ List.range' n (g.Y.k - n) := by
    rw [← range_split]; congr 1; omega
  rw [this, List.countP_append]
  exact Nat.le_add_right _ _

theorem errAt_range {res : Nat → Res} {n i : Nat} (hi : i < n) :
    errAt ((List.range n).map res) i = (res i).isErr := by
  unfold errAt
  simp [List.getD_eq_getElem?_getD, hi]

theorem isErr_false {r : Res} (h : r.isErr = false) : r = .ok := by
  cases r with
  | ok => rfl
  | err e => cases h

/-- The end of `read_at_one`, once all data chunks and `w` parity chunks have been read. -/
theorem finish (h : g.Lawful) {f : Nat} (hf : g.Y.k = g.Y.m + f) (hk : g.Y.k ≤ 256)
    (hE : g.enc = codecEnc g.Y.m f g.col) {invert : Nat → Mat → Option Mat} (hI : Inverts invert)
    {y : Buf} {got : Nat → Buf} {res : Nat → Res} (hs : Stripe g y got res) {u e : Nat}
    (hr : InStripe g u e) {w : Nat} (hw : w ≤ f)
    (hn : nErr ((List.range (g.Y.m + w)).map res) ≤ w ∨
      f < nErr ((List.range (g.Y.m + w)).map res)) :
    Served g f u e y res
      (if f < nErr ((List.range (g.Y.m + w)).map res) then firstErr ((List.range (g.Y.m + w)).map res)
      else if 0 < nErr ((List.range (g.Y.m + w)).map res) then
        reconstruct g (codecDec invert g.Y.m f) u (usersB g.col (lo g u) (hi g u e) got 0 g.Y.m)
          (exsB g.col (lo g u) (hi g u e) got 0 (g.Y.m + w)) ((List.range (g.Y.m + w)).map res)
      else .ok (usersB g.col (lo g u) (hi g u e) got 0 g.Y.m)) := by
  have hy := hs.data
  by_cases h1 : f < nErr ((List.range (g.Y.m + w)).map res)
  · rw [if_pos h1]
    right
    refine ⟨Nat.lt_of_lt_of_le h1 (nErr_le_failures (by omega)), ?_⟩
    obtain ⟨n, e1, e2⟩ := firstErr_spec (v := (List.range (g.Y.m + w)).map res) (by omega)
    obtain ⟨b, hb, hbe⟩ := List.mem_map.mp e2
    have := List.mem_range.mp hb
    exact ⟨b, by omega, n, hbe, e1⟩
  · rw [if_neg h1]
    left
    by_cases h2 : 0 < nErr ((List.range (g.Y.m + w)).map res)
    · rw [if_pos h2]
      have := reconstruct_ok h hf hk hE hI hy hr (got := got)
        (v := (List.range (g.Y.m + w)).map res) (by simp; omega) (by simp; omega)
        (fun i hi => by
          simp only [List.length_map, List.length_range] at hi
          exact hs.len i (by omega))
        (fun i hi he => by
          simp only [List.length_map, List.length_range] at hi
          rw [errAt_range hi] at he
          exact hs.good i (by omega) (isErr_false he)) []
      simpa using this
    · rw [if_neg h2]
      congr 1
      apply users_all h hr hy
      intro j hj
      apply hs.good j (by omega)
      apply isErr_false
      have h3 : nErr ((List.range (g.Y.m + w)).map res) = 0 := by omega
      unfold nErr at h3
      rw [List.countP_eq_zero] at h3
      have := h3 (res j) (List.mem_map.mpr ⟨j, List.mem_range.mpr (by omega), rfl⟩)
      simpa using this

theorem leftB_zero (h : g.Lawful) {u e : Nat} (hr : InStripe g u e) :
    leftB g u e 0 = (e - u) * g.bpl := by
  have := lo_lt_hi h hr
  rw [← hi_sub_lo hr]
  unfold leftB
  omega

/-- C62: in an array with absent disks, a read of any part of a stripe never panics.  It returns
the data, whatever the failed disks left in the buffers, or, if more than `f` of the stripe's
disks failed, the error of one of them. -/
theorem C62_read_one_degraded (h : g.Lawful) {f : Nat} (hf : g.Y.k = g.Y.m + f) (hk : g.Y.k ≤ 256)
    (hE : g.enc = codecEnc g.Y.m f g.col) {invert : Nat → Mat → Option Mat} (hI : Inverts invert)
    {y : Buf} {got : Nat → Buf} {res : Nat → Res} (hs : Stripe g y got res) {u e : Nat}
    (hr : InStripe g u e) {nf : Nat} (hnf : 0 < nf) :
    Served g f u e y res (readAtOne g f (codecDec invert g.Y.m f) nf u e got res) := by
  have hcol : 0 < g.col := Nat.mul_pos h.cs h.bpl
  unfold readAtOne firstRange
  rw [if_pos hnf]
  dsimp only
  rw [decide_eq_true hnf, ← leftB_zero h hr,
    firstReads_deg h hr _ _ (fun j _ hj => hs.len j (by omega))]
  dsimp only
  rw [← List.range_eq_range']
  obtain ⟨w', k1, k2, k3, k4⟩ := moreReads_whole (m := g.Y.m) (f := f) (got := got) (res := res)
    h.layout.m_pos hcol (lo_lt_hi h hr) (hi_le hr) (f + 1) nf (min nf f) (by omega) (by omega)
  rw [k4]
  dsimp only
  have hu : usersB g.col (lo g u) (hi g u e) got 0 (g.Y.m + min nf f) =
      usersB g.col (lo g u) (hi g u e) got 0 g.Y.m := by
    rw [usersB_add, Nat.zero_add, usersB_nil (min nf f) g.Y.m (hi_le hr), List.append_nil]
  rw [hu]
  exact finish h hf hk hE hI hs hr k2 k3

theorem Served.ok {f u e : Nat} {y : Buf} {res : Nat → Res} {o : Out} (hs : Served g f u e y res o)
    (hle : failures g res ≤ f) : o = .ok (wanted g u e y) := by
  rcases hs with hs | hs
  · exact hs
  · omega

/-- The whole of a healthy read of part of a stripe, up to the results. -/
theorem readAtOne_healthy (h : g.Lawful) {f : Nat} {dec : Decoder}
    {got : Nat → Buf} {res : Nat → Res} (hlen : ∀ b < g.Y.m, (got b).length = g.col) {u e : Nat}
    (hr : InStripe g u e) :
    ∃ b s, b < s ∧ s ≤ g.Y.m ∧ b * g.col ≤ lo g u ∧ lo g u < b * g.col + g.col ∧
      (s - 1) * g.col < hi g u e ∧ hi g u e ≤ s * g.col ∧
      readAtOne g f dec 0 u e got res =
        match moreReads g.Y.m f got res (f + 1) 0 b ((List.range' b (s - b)).map res) [] with
        | none => .panic
        | some (nerrs, dv, ex) =>
          if f < nerrs then firstErr dv
          else if 0 < nerrs then
            reconstruct g dec u (usersB g.col (lo g u) (hi g u e) got 0 g.Y.m) ex dv
          else .ok (usersB g.col (lo g u) (hi g u e) got 0 g.Y.m) := by
  have hLH := lo_lt_hi h hr
  obtain ⟨b, s, hfr, k1, k2, k3, k4, k5, k6⟩ := firstRange_healthy h hr f
  refine ⟨b, s, k1, k2, k3, k4, k5, k6, ?_⟩
  unfold readAtOne
  rw [hfr]
  dsimp only
  have hleft : (e - u) * g.bpl = leftB g u e b := by
    rw [← hi_sub_lo hr]; unfold leftB; omega
  have hs1 : ∀ j, b ≤ j → j < b + (s - b) → Touches g u e j := by
    intro j h1 h2
    have e1 : b * g.col ≤ j * g.col := Nat.mul_le_mul_right _ h1
    have e2 : j * g.col ≤ (s - 1) * g.col := Nat.mul_le_mul_right _ (by omega)
    exact ⟨by omega, by omega, by omega⟩
  rw [decide_eq_false (by omega), hleft, firstReads_healthy h hr _ _ hs1
    (fun j _ hj => hlen j (by omega)), usersB_touched hlen k1 k2 k3 k6]
  rfl

/-- C62: in an array without absent disks, a read of whole chunks of one stripe is served too,
whichever disks fail.  Missing: ranges that are not whole chunks (`C62_unaligned_panics`). -/
theorem C62_read_one_healthy_partial (h : g.Lawful) {f : Nat} (hf : g.Y.k = g.Y.m + f)
    (hk : g.Y.k ≤ 256) (hE : g.enc = codecEnc g.Y.m f g.col) {invert : Nat → Mat → Option Mat}
    (hI : Inverts invert) {y : Buf} {got : Nat → Buf} {res : Nat → Res} (hs : Stripe g y got res)
    {u e : Nat} (hr : InStripe g u e) (hu : g.cs ∣ u) (he : g.cs ∣ e) :
    Served g f u e y res (readAtOne g f (codecDec invert g.Y.m f) 0 u e got res) := by
  have hcol : 0 < g.col := Nat.mul_pos h.cs h.bpl
  have hLH := lo_lt_hi h hr
  obtain ⟨b, s, k1, k2, k3, k4, k5, k6, heq⟩ := readAtOne_healthy h (f := f)
    (dec := codecDec invert g.Y.m f) (got := got) (res := res) (fun j hj => hs.len j (by omega)) hr
  rw [heq]
  have hL : lo g u = b * g.col := by
    rcases Nat.lt_or_ge (b * g.col) (lo g u) with hlt | hge
    · have := mod_mid hlt k4
      rw [mod_lo, Nat.mod_eq_zero_of_dvd hu, Nat.zero_mul] at this
      omega
    · omega
  have hH : hi g u e = s * g.col := by
    have hsc : s * g.col = (s - 1) * g.col + g.col := by
      conv => lhs; rw [show s = s - 1 + 1 by omega, Nat.add_mul, Nat.one_mul]
    rcases Nat.lt_or_ge (hi g u e) (s * g.col) with hlt | hge
    · have := mod_mid k5 (by omega)
      rw [mod_hi hr, Nat.mod_eq_zero_of_dvd he, Nat.zero_mul] at this
      omega
    · omega
  have hu' := usersB_touched (H := hi g u e) (L := lo g u) (got := got) (m := g.Y.m)
    (fun j hj => hs.len j (by omega)) k1 k2 k3 k6
  by_cases h0 : nErr ((List.range' b (s - b)).map res) = 0
  · have hm : moreReads g.Y.m f got res (f + 1) 0 b ((List.range' b (s - b)).map res) [] =
        some (0, (List.range' b (s - b)).map res, []) := by
      unfold moreReads
      show (if nErr _ ≤ 0 then some (nErr _, _, _) else _) = _
      rw [h0]
      rfl
    rw [hm]
    dsimp only
    rw [if_neg (by omega), if_neg (by omega)]
    left
    congr 1
    have hval : ∀ j, b ≤ j → j < s → got j = column g y j := by
      intro j h1 h2
      apply hs.good j (by omega)
      apply isErr_false
      unfold nErr at h0
      rw [List.countP_eq_zero] at h0
      have := h0 (res j) (List.mem_map.mpr ⟨j, by rw [List.mem_range'_1]; omega, rfl⟩)
      simpa using this
    have hy := hs.data
    rw [← users_all h hr hy (got := column g y) (fun j _ => rfl), ← hu',
      ← usersB_touched (fun j hj => column_length h hy (by omega)) k1 k2 k3 k6]
    unfold usersB
    simp only [List.flatMap]
    congr 1
    apply List.map_congr_left
    intro j hj
    rw [List.mem_range'_1] at hj
    rw [hval j (by omega) (by omega)]
  · by_cases h1 : f < nErr ((List.range' b (s - b)).map res)
    · have hm : moreReads g.Y.m f got res (f + 1) 0 b ((List.range' b (s - b)).map res) [] =
          some (nErr ((List.range' b (s - b)).map res), (List.range' b (s - b)).map res, []) := by
        unfold moreReads
        show (if nErr _ ≤ 0 then some (nErr _, _, _) else if g.Y.m ≤ _ - nErr _ then none else
          if f < nErr _ then some (nErr _, _, _) else _) = _
        rw [if_neg (by omega), if_neg (by simp; omega), if_pos h1]
      rw [hm]
      dsimp only
      rw [if_pos h1]
      right
      obtain ⟨n, e1, e2⟩ := firstErr_spec (v := (List.range' b (s - b)).map res) (by omega)
      obtain ⟨j, hj, hbe⟩ := List.mem_map.mp e2
      rw [List.mem_range'_1] at hj
      refine ⟨Nat.lt_of_lt_of_le h1 ?_, j, by omega, n, hbe, e1⟩
      unfold nErr failures
      rw [List.countP_map]
      have : List.range g.Y.k = List.range b ++ List.range' b (s - b) ++
          List.range' s (g.Y.k - s) := by
        rw [← range_split, show b + (s - b) = s by omega, ← range_split]; congr 1; omega
      rw [this, List.countP_append, List.countP_append]
      have : (List.range' b (s - b)).countP (Res.isErr ∘ res) =
          (List.range' b (s - b)).countP fun b => (res b).isErr := rfl
      omega
    · rw [moreReads_first (H := hi g u e) hcol hLH k1 k2 hL hH (by omega) (by omega)]
      obtain ⟨w', j1, j2, j3, j4⟩ := moreReads_whole (m := g.Y.m) (f := f) (got := got) (res := res)
        h.layout.m_pos hcol hLH (hi_le hr) f (nErr ((List.range' b (s - b)).map res))
        (nErr ((List.range' b (s - b)).map res)) (by omega) (by omega)
      rw [j4]
      exact finish h hf hk hE hI hs hr j2 j3

/-- C62: in an array without absent disks, a read of any part of a stripe returns the data if the
disks that hold some of the range succeed. -/
theorem C62_read_one_no_error (h : g.Lawful) {f : Nat} {dec : Decoder}
    {y : Buf} {got : Nat → Buf} {res : Nat → Res} (hs : Stripe g y got res)
    {u e : Nat} (hr : InStripe g u e) (hok : ∀ b, Touches g u e b → res b = .ok) :
    readAtOne g f dec 0 u e got res = .ok (wanted g u e y) := by
  have hmk := h.layout.m_lt
  obtain ⟨b, s, k1, k2, k3, k4, k5, k6, heq⟩ := readAtOne_healthy h (f := f)
    (dec := dec) (got := got) (res := res) (fun j hj => hs.len j (by omega)) hr
  rw [heq]
  have hval : ∀ j, b ≤ j → j < s → res j = .ok := by
    intro j h1 h2
    have e1 : b * g.col ≤ j * g.col := Nat.mul_le_mul_right _ h1
    have e2 : j * g.col ≤ (s - 1) * g.col := Nat.mul_le_mul_right _ (by omega)
    have := lo_lt_hi h hr
    exact hok j ⟨by omega, by omega, by omega⟩
  have h0 : nErr ((List.range' b (s - b)).map res) = 0 := by
    unfold nErr
    rw [List.countP_eq_zero]
    intro r hr
    obtain ⟨j, hj, rfl⟩ := List.mem_map.mp hr
    rw [List.mem_range'_1] at hj
    rw [hval j (by omega) (by omega)]
    simp [Res.isErr]
  have hm : moreReads g.Y.m f got res (f + 1) 0 b ((List.range' b (s - b)).map res) [] =
      some (0, (List.range' b (s - b)).map res, []) := by
    unfold moreReads
    show (if nErr _ ≤ 0 then some (nErr _, _, _) else _) = _
    rw [h0]
    rfl
  rw [hm]
  dsimp only
  rw [if_neg (by omega), if_neg (by omega)]
  congr 1
  have hy := hs.data
  have hu' := usersB_touched (H := hi g u e) (L := lo g u) (got := got) (m := g.Y.m)
    (fun j hj => hs.len j (by omega)) k1 k2 k3 k6
  rw [← users_all h hr hy (got := column g y) (fun j _ => rfl), ← hu',
    ← usersB_touched (fun j hj => column_length h hy (by omega)) k1 k2 k3 k6]
  unfold usersB
  simp only [List.flatMap]
  congr 1
  apply List.map_congr_left
  intro j hj
  rw [List.mem_range'_1] at hj
  rw [hs.good j (by omega) (hval j (by omega) (by omega))]

end Verif.Raid
