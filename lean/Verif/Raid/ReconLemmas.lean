import Verif.Raid.ReconDecode

/-! `read_at_reconstruction` gives the caller's data. -/

namespace Verif.Raid

open Verif.Bytes Verif.Codec

variable {g : Geom}

theorem filter_range_index {q : Nat → Bool} : ∀ (N i x : Nat),
    ((List.range N).filter q)[i]? = some x → x < N ∧ ((List.range (x + 1)).filter q).length = i + 1 := by
  intro N
  induction N with
  | zero => intro i x h; simp at h
  | succ N ih =>
    intro i x h
    rw [List.range_succ, List.filter_append] at h
    by_cases hi : i < ((List.range N).filter q).length
    · rw [List.getElem?_append_left hi] at h
      have := ih i x h
      exact ⟨by omega, this.2⟩
    · rw [List.getElem?_append_right (by omega)] at h
      by_cases hq : q N = true
      · rw [List.filter_cons_of_pos hq, List.filter_nil] at h
        have h0 : i - ((List.range N).filter q).length = 0 := by
          rcases Nat.eq_zero_or_pos (i - ((List.range N).filter q).length) with h1 | h1
          · exact h1
          · rw [List.getElem?_eq_none (by simp; omega)] at h; cases h
        rw [h0] at h
        simp only [List.getElem?_cons_zero, Option.some.injEq] at h
        subst h
        refine ⟨by omega, ?_⟩
        rw [List.range_succ, List.filter_append, List.length_append, List.filter_cons_of_pos hq]
        simp
        omega
      · rw [List.filter_cons_of_neg hq, List.filter_nil] at h
        simp at h

/-- The number of errors. -/
def nErr (v : List Res) : Nat := v.countP Res.isErr

theorem good_count (v : List Res) :
    ((List.range v.length).filter fun i => !errAt v i).length + nErr v = v.length := by
  have h1 := filter_not_length (errAt v) (List.range v.length)
  rw [List.length_range] at h1
  have h2 : ((List.range v.length).filter (errAt v)).length = nErr v := by
    unfold nErr
    conv => rhs; rw [show v = (List.range v.length).map fun i => v.getD i .ok by
      apply List.ext_getElem (by simp)
      intro i h1 h2
      simp [List.getD_eq_getElem?_getD, h1]]
    rw [List.countP_map, List.countP_eq_length_filter]
    rfl
  omega

theorem disksNeeded_some {m : Nat} {v : List Res} (hm : 0 < m) (h : m + nErr v ≤ v.length) :
    ∃ need, disksNeeded m v = some need ∧ m ≤ need ∧ need ≤ v.length ∧
      ((List.range need).filter fun i => !errAt v i).length = m := by
  have hc := good_count v
  have hlt : m - 1 < ((List.range v.length).filter fun i => !errAt v i).length := by omega
  have hg := List.getElem?_eq_getElem hlt
  obtain ⟨h1, h2⟩ := filter_range_index _ _ _ hg
  generalize ((List.range v.length).filter fun i => !errAt v i)[m - 1] = x at *
  refine ⟨x + 1, ?_, ?_, by omega, by omega⟩
  · unfold disksNeeded
    have : ((List.range v.length).filter fun i => !(v.getD i .ok).isErr)[m - 1]? = some x := hg
    rw [this]
    rfl
  · have := List.length_filter_le (fun i => !errAt v i) (List.range (x + 1))
    rw [List.length_range] at this
    omega

theorem disksNeeded_none {m : Nat} {v : List Res} (hm : 0 < m) (h : v.length < m + nErr v) :
    disksNeeded m v = none := by
  have hc := good_count v
  unfold disksNeeded
  have : ((List.range v.length).filter fun i => !(v.getD i .ok).isErr)[m - 1]? = none := by
    apply List.getElem?_eq_none
    show ((List.range v.length).filter fun i => !errAt v i).length ≤ m - 1
    omega
  rw [this]
  rfl

theorem firstErr_spec {v : List Res} (h : 0 < nErr v) : ∃ e, firstErr v = .err e ∧ .err e ∈ v := by
  unfold firstErr
  cases hf : v.find? Res.isErr with
  | none =>
    rw [List.find?_eq_none] at hf
    obtain ⟨r, hr, he⟩ := List.countP_pos_iff.mp h
    exact absurd he (hf r hr)
  | some r =>
    have h1 := List.find?_some hf
    have h2 := List.mem_of_find?_eq_some hf
    cases r with
    | ok => cases h1
    | err e => exact ⟨e, rfl, h2⟩

theorem lo_lt_hi (h : g.Lawful) {u e : Nat} (hr : InStripe g u e) : lo g u < hi g u e := by
  unfold lo hi
  have h1 := hr.lt
  have h2 := Nat.mod_le u g.slbas
  exact (Nat.mul_lt_mul_right h.bpl).2 (by omega)

theorem hi_le {u e : Nat} (hr : InStripe g u e) : hi g u e ≤ g.stripe := by
  have h1 := hr.le
  have : g.stripe = g.slbas * g.bpl := by
    unfold Geom.stripe Geom.col Geom.slbas
    rw [Nat.mul_assoc]
  rw [this]
  unfold hi
  exact Nat.mul_le_mul_right _ (by omega)

theorem hi_sub_lo {u e : Nat} (hr : InStripe g u e) : hi g u e - lo g u = (e - u) * g.bpl := by
  have h1 := hr.lt
  have h2 := Nat.mod_le u g.slbas
  unfold hi lo
  rw [← Nat.sub_mul]
  congr 1
  omega

/-- What the caller should get. -/
def wanted (g : Geom) (u e : Nat) (y : Buf) : Buf :=
  (y.drop (u % g.slbas * g.bpl)).take ((e - u) * g.bpl)

theorem wanted_eq {u e : Nat} (hr : InStripe g u e) (y : Buf) :
    wanted g u e y = slice (lo g u) (hi g u e - lo g u) y := by
  rw [hi_sub_lo hr]; rfl

theorem errAt_take {v : List Res} {n i : Nat} (h : i < n) : errAt (v.take n) i = errAt v i := by
  unfold errAt
  rw [List.getD_eq_getElem?_getD, List.getD_eq_getElem?_getD, List.getElem?_take, if_pos h]

/-- Byte `p` of what was read is right, if its chunk was. -/
theorem users_right (h : g.Lawful) {u e : Nat} (hr : InStripe g u e) {y : Buf}
    {got : Nat → Buf} (hlen : ∀ j < g.Y.m, (got j).length = g.col) {p j : Nat}
    (hp : p < hi g u e - lo g u) (hj : j < g.Y.m) (h1 : j * g.col ≤ lo g u + p)
    (h2 : lo g u + p < j * g.col + g.col) (hg : got j = column g y j) :
    (usersB g.col (lo g u) (hi g u e) got 0 g.Y.m)[p]? = (wanted g u e y)[p]? := by
  have hLH := lo_lt_hi h hr
  have := usersB_get (col := g.col) (L := lo g u) (H := hi g u e) (got := got) g.Y.m 0 p j
    (fun j _ hj => hlen j (by omega)) (by omega) hp (by omega) (by omega) h1 h2
  rw [show p - (min (max (0 * g.col) (lo g u)) (hi g u e) - lo g u) = p by omega] at this
  rw [this, hg, column_get hj (by omega), wanted_eq hr]
  unfold slice
  rw [List.getElem?_take, if_pos hp, List.getElem?_drop]
  congr 1
  omega

theorem users_length (h : g.Lawful) {u e : Nat} (hr : InStripe g u e)
    {got : Nat → Buf} (hlen : ∀ j < g.Y.m, (got j).length = g.col) :
    (usersB g.col (lo g u) (hi g u e) got 0 g.Y.m).length = hi g u e - lo g u := by
  rw [usersB_length _ _ (fun j _ hj => hlen j (by omega))]
  have h1 := lo_lt_hi h hr
  have h2 := hi_le hr
  unfold Geom.stripe at h2
  rw [Nat.zero_add]
  omega

theorem chunk_of (h : g.Lawful) {u e : Nat} (hr : InStripe g u e) {p : Nat}
    (hp : p < hi g u e - lo g u) : ∃ j < g.Y.m, j * g.col ≤ lo g u + p ∧
      lo g u + p < j * g.col + g.col := by
  have hcol : 0 < g.col := Nat.mul_pos h.cs h.bpl
  have h2 := hi_le hr
  refine ⟨(lo g u + p) / g.col, ?_, Nat.div_mul_le_self _ _, ?_⟩
  · rw [Nat.div_lt_iff_lt_mul hcol]
    unfold Geom.stripe at h2
    omega
  · have := Nat.lt_div_mul_add hcol (a := lo g u + p)
    omega

/-- If all data chunks are right, so is the buffer. -/
theorem users_all (h : g.Lawful) {u e : Nat} (hr : InStripe g u e) {y : Buf}
    (hy : g.stripe ≤ y.length) {got : Nat → Buf} (hg : ∀ j < g.Y.m, got j = column g y j) :
    usersB g.col (lo g u) (hi g u e) got 0 g.Y.m = wanted g u e y := by
  have hmk : g.Y.m ≤ g.Y.k := Nat.le_of_lt h.layout.m_lt
  have hlen : ∀ j < g.Y.m, (got j).length = g.col := fun j hj => by
    rw [hg j hj, column_length h hy (by omega)]
  have h2 := hi_le hr
  have h3 := lo_lt_hi h hr
  apply List.ext_getElem?
  intro p
  by_cases hp : p < hi g u e - lo g u
  · obtain ⟨j, hj, h4, h5⟩ := chunk_of h hr hp
    exact users_right h hr hlen hp hj h4 h5 (hg j hj)
  · rw [List.getElem?_eq_none (by rw [users_length h hr hlen]; omega), List.getElem?_eq_none]
    rw [wanted_eq hr, slice_length (by omega)]
    omega

theorem reconstruct_ok (h : g.Lawful) {f : Nat} (hf : g.Y.k = g.Y.m + f) (hk : g.Y.k ≤ 256)
    (hE : g.enc = codecEnc g.Y.m f g.col) {invert : Nat → Mat → Option Mat} (hI : Inverts invert)
    {y : Buf} (hy : g.stripe ≤ y.length) {u e : Nat} (hr : InStripe g u e) {got : Nat → Buf}
    {v : List Res} (hv1 : v.length ≤ g.Y.m + f) (hv2 : g.Y.m + nErr v ≤ v.length)
    (hlen : ∀ i < v.length, (got i).length = g.col)
    (hgot : ∀ i < v.length, errAt v i = false → got i = column g y i) (tail : List Buf) :
    reconstruct g (codecDec invert g.Y.m f) u (usersB g.col (lo g u) (hi g u e) got 0 g.Y.m)
      (exsB g.col (lo g u) (hi g u e) got 0 v.length ++ tail) v = .ok (wanted g u e y) := by
  have hcol : 0 < g.col := Nat.mul_pos h.cs h.bpl
  have hLH := lo_lt_hi h hr
  have hH := hi_le hr
  obtain ⟨need, hd, hn1, hn2, hn3⟩ := disksNeeded_some h.layout.m_pos hv2
  have hlen' : ∀ j < g.Y.m, (got j).length = g.col := fun j hj => hlen j (by omega)
  have hul := users_length h hr hlen'
  unfold reconstruct
  rw [hd]
  dsimp only
  by_cases hnm : need ≤ g.Y.m
  · rw [if_pos hnm]
    have hne : need = g.Y.m := by omega
    subst hne
    congr 1
    apply users_all h hr hy
    intro j hj
    refine hgot j (by omega) ?_
    have hall := List.length_filter_eq_length_iff.mp (hn3.trans List.length_range.symm) j
      (List.mem_range.mpr hj)
    simpa using hall
  · rw [if_neg hnm]
    have he : u + (usersB g.col (lo g u) (hi g u e) got 0 g.Y.m).length / g.bpl = e := by
      rw [hul, hi_sub_lo hr, Nat.mul_div_cancel _ h.bpl]
      have := hr.lt
      omega
    rw [he]
    -- the buffer does not depend on the positions after the data
    have husers : usersB g.col (lo g u) (hi g u e) got 0 g.Y.m =
        usersB g.col (lo g u) (hi g u e) got 0 v.length := by
      have e1 : v.length = g.Y.m + (v.length - g.Y.m) := by omega
      conv => rhs; rw [e1]
      unfold usersB
      rw [← List.range'_append_1, List.flatMap_append, Nat.zero_add]
      have := usersB_nil (col := g.col) (L := lo g u) (H := hi g u e) (got := got)
        (v.length - g.Y.m) g.Y.m (by unfold Geom.stripe at hH; omega)
      unfold usersB at this
      rw [this, List.append_nil]
    obtain ⟨segs, hs1, hs2, hs3⟩ := gather_ok h hr (got := got) tail need v.length 0 hn2
      (fun j _ hj => hlen j (by omega))
    rw [show min (max (0 * g.col) (lo g u)) (hi g u e) - lo g u = 0 by omega, ← husers] at hs1
    rw [hs1]
    dsimp only
    have hvt : (v.take need).length = need := by rw [List.length_take]; omega
    have hfilt : ((List.range (v.take need).length).filter fun i => !errAt (v.take need) i).length
        = g.Y.m := by
      rw [hvt, ← hn3]
      congr 1
      apply List.filter_congr
      intro i hi
      rw [errAt_take (List.mem_range.mp hi)]
    have hgot' : ∀ i < (v.take need).length, errAt (v.take need) i = false → got i = column g y i := by
      intro i hi he'
      rw [hvt] at hi
      rw [errAt_take hi] at he'
      exact hgot i (by omega) he'
    have hseg : ∀ (F : Piece × Piece × Piece → Piece) (a n : Nat),
        (∀ j s, segs[j]? = some s → SegOk (lo g u) (hi g u e) ((0 + j) * g.col) a n (got (0 + j)) (F s)) →
        ∀ i < (v.take need).length, SegOk (lo g u) (hi g u e) (i * g.col) a n (got i)
          ((segs.map F).getD i ⟨[], none⟩) := by
      intro F a n hF i hi
      have hi' : i < segs.length := by omega
      have := hF i _ (List.getElem?_eq_getElem hi')
      rw [Nat.zero_add] at this
      simpa [List.getD_eq_getElem?_getD, hi'] using this
    rw [codecBytes_eq h hr]
    unfold cbB
    dsimp only
    obtain ⟨d1, q1, l1, r1⟩ := decodePart_ok h hf hk hE hI hy hLH hH (got := got)
      (v := v.take need) (by omega) (by omega) hfilt hgot' (Or.inl ⟨rfl, rfl⟩)
      (segs := segs.map fun s => s.1) (by rw [List.length_map]; omega)
      (hseg _ _ _ fun j s hj => (hs3 j s hj).1) hul
    obtain ⟨d2, q2, l2, r2⟩ := decodePart_ok h hf hk hE hI hy hLH hH (got := got)
      (v := v.take need) (by omega) (by omega) hfilt hgot' (Or.inr (Or.inl ⟨rfl, rfl⟩))
      (segs := segs.map fun s => s.2.1) (by rw [List.length_map]; omega)
      (hseg _ _ _ fun j s hj => (hs3 j s hj).2.1) l1
    obtain ⟨d3, q3, l3, r3⟩ := decodePart_ok h hf hk hE hI hy hLH hH (got := got)
      (v := v.take need) (by omega) (by omega) hfilt hgot' (Or.inr (Or.inr ⟨rfl, rfl⟩))
      (segs := segs.map fun s => s.2.2) (by rw [List.length_map]; omega)
      (hseg _ _ _ fun j s hj => (hs3 j s hj).2.2) l2
    have her : (fun i => ((v.take need).getD i Res.ok).isErr) = errAt (v.take need) := rfl
    rw [her, q1]
    dsimp only
    rw [q2]
    dsimp only
    rw [q3]
    dsimp only
    congr 1
    rw [wanted_eq hr]
    apply List.ext_getElem?
    intro p
    by_cases hp : p < hi g u e - lo g u
    · obtain ⟨j, hj, h4, h5⟩ := chunk_of h hr hp
      cases hej : errAt (v.take need) j with
      | false =>
        apply r3; left; apply r2; left; apply r1; left
        rw [← wanted_eq hr]
        exact users_right h hr hlen' hp hj h4 h5 (hgot' j (by omega) hej)
      | true =>
        have hcf := @cb_facts g.col (lo g u) (hi g u e) hcol
        generalize cbPre g.col (lo g u) (hi g u e) = P at *
        generalize cbPost g.col (lo g u) (hi g u e) = Q at *
        by_cases hp1 : lo g u + p < j * g.col + P
        · apply r3; left; apply r2; left; apply r1; right
          exact ⟨j, hj, hej, by omega, by omega, hp⟩
        · by_cases hp2 : lo g u + p < j * g.col + (g.col - Q)
          · apply r3; left; apply r2; right
            exact ⟨j, hj, hej, by omega, by omega, hp⟩
          · apply r3; right
            exact ⟨j, hj, hej, by omega, by omega, hp⟩
    · rw [List.getElem?_eq_none (by omega), List.getElem?_eq_none]
      rw [slice_length (by omega)]
      omega

end Verif.Raid
