import Verif.Raid.ReconEnd

/-! Reads of part of a chunk from a healthy array. -/

namespace Verif.Raid

open Verif.Bytes Verif.Codec

variable {g : Geom}

/-- Chunk `i` is wholly wanted. -/
def Full (g : Geom) (u e i : Nat) : Prop :=
  u ≤ u - u % g.slbas + i * g.cs ∧ u - u % g.slbas + i * g.cs + g.cs ≤ e

instance (u e i : Nat) : Decidable (Full g u e i) := by unfold Full; infer_instance

theorem nextEx_length {ex : List Buf} {x : Piece} {ex' : List Buf} (h : nextEx ex = some (x, ex')) :
    ex'.length + 1 = ex.length := by
  cases ex with
  | nil => cases h
  | cons b bs => simp only [nextEx, Option.some.injEq, Prod.mk.injEq] at h; rw [← h.2]; rfl

/-- A chunk that isn't wholly wanted takes an extra buffer. -/
theorem colPieces_ex {u e i : Nat} {data data' : Piece} {ex ex' : List Buf} {cols : List Piece}
    (h : colPieces g u e i data ex = some (cols, data', ex')) :
    ex'.length + (if Full g u e i then 0 else 1) ≤ ex.length := by
  unfold colPieces at h
  dsimp only at h
  have hle : ∀ x, x + (if Full g u e i then 0 else 1) ≤ x + 1 := by
    intro x; split <;> omega
  split at h
  · obtain ⟨⟨x, ex1⟩, h1, h2⟩ := Option.map_eq_some_iff.mp h
    have := nextEx_length h1
    simp only [Prod.mk.injEq] at h2
    rw [← h2.2.2, ← this]
    exact hle _
  · split at h
    · split at h
      · cases h
      · split at h
        · cases h
        · rename_i x ex1 h1
          have hn := nextEx_length h1
          split at h
          · cases h
          · split at h
            · cases h
            · split at h
              · obtain ⟨⟨x', ex2⟩, h3, h4⟩ := Option.map_eq_some_iff.mp h
                have hn2 := nextEx_length h3
                simp only [Prod.mk.injEq] at h4
                rw [← h4.2.2]
                have := hle ex2.length
                omega
              · simp only [Option.some.injEq, Prod.mk.injEq] at h
                rw [← h.2.2, ← hn]
                exact hle _
    · split at h
      · rename_i h1 h2 h3
        obtain ⟨⟨d, data1⟩, h4, h5⟩ := Option.map_eq_some_iff.mp h
        simp only [Prod.mk.injEq] at h5
        rw [← h5.2.2, if_pos ⟨by omega, h3⟩]
        omega
      · split at h
        · split at h
          · cases h
          · split at h
            · cases h
            · rename_i x ex1 h1
              have hn := nextEx_length h1
              split at h
              · obtain ⟨⟨d, data1⟩, h4, h5⟩ := Option.map_eq_some_iff.mp h
                simp only [Prod.mk.injEq] at h5
                rw [← h5.2.2, ← hn]
                exact hle _
              · cases h
        · obtain ⟨⟨x, ex1⟩, h1, h2⟩ := Option.map_eq_some_iff.mp h
          have := nextEx_length h1
          simp only [Prod.mk.injEq] at h2
          rw [← h2.2.2, ← this]
          exact hle _

theorem gather_ex {u e : Nat} : ∀ (n i : Nat) (data : Piece) (ex : List Buf) segs,
    gather g u e n i data ex = some segs →
    (List.range' i n).countP (fun j => !decide (Full g u e j)) ≤ ex.length := by
  intro n
  induction n with
  | zero => intro i data ex segs _; simp
  | succ n ih =>
    intro i data ex segs h
    unfold gather at h
    split at h
    · cases h
    · rename_i cols data' ex' hc
      have h1 := colPieces_ex hc
      split at h
      · cases h
      · obtain ⟨l, h2, -⟩ := Option.map_eq_some_iff.mp h
        have h3 := ih _ _ _ _ h2
        rw [List.range'_succ, List.countP_cons]
        by_cases hf : Full g u e i
        · rw [if_pos hf] at h1
          simp only [hf, decide_true, Bool.not_true, Bool.false_eq_true, if_false]
          omega
        · rw [if_neg hf] at h1
          simp only [hf, decide_false, Bool.not_false, if_true]
          omega

theorem nErr_split (res : Nat → Res) (a n : Nat) : nErr ((List.range (a + n)).map res) =
    nErr ((List.range a).map res) + (List.range' a n).countP (fun b => (res b).isErr) := by
  unfold nErr
  rw [range_split, List.map_append, List.countP_append, List.countP_map, List.countP_map]
  rfl

/-- The further rounds: what is read, and that the chunk read last succeeded. -/
theorem moreReads_count {m f t : Nat} {got : Nat → Buf} {res : Nat → Res} (hm : 0 < m) :
    ∀ (fuel old w0 : Nat) (ex : List Buf), old ≤ f → f < fuel + old → 0 < old → w0 < old →
    nErr ((List.range (m + w0)).map res) = old ∨ old ≤ nErr ((List.range m).map res) →
    ex.length + t = m + old →
    ∃ w' ex', old ≤ w' ∧ w' ≤ f ∧ ex'.length + t = m + w' ∧
      moreReads m f got res fuel old 0 ((List.range (m + old)).map res) ex =
        some (nErr ((List.range (m + w')).map res), (List.range (m + w')).map res, ex') ∧
      (f < nErr ((List.range (m + w')).map res) ∨
        (nErr ((List.range (m + w')).map res) = w' ∧ (res (m + w' - 1)).isErr = false)) := by
  intro fuel
  induction fuel with
  | zero => intro old w0 ex h1 h2; omega
  | succ fuel ih =>
    intro old w0 ex h1 h2 h0 hw0 hold hex
    have hge : old ≤ nErr ((List.range (m + old)).map res) := by
      rcases hold with hold | hold
      · rw [show m + old = m + w0 + (old - w0) by omega, nErr_split]; omega
      · rw [nErr_split]; omega
    have hle := nErr_range res (m + old)
    by_cases hc : nErr ((List.range (m + old)).map res) ≤ old
    · have heq : nErr ((List.range (m + old)).map res) = old := by omega
      refine ⟨old, ex, Nat.le_refl _, h1, hex, ?_, Or.inr ⟨heq, ?_⟩⟩
      · unfold moreReads
        show (if nErr _ ≤ old then _ else _) = _
        rw [if_pos hc]
        rfl
      · -- no error in the chunks read last
        have hz : ∀ a n, a + n = m + old → 0 < n → nErr ((List.range a).map res) ≥ old →
            (res (m + old - 1)).isErr = false := by
          intro a n han hn hae
          have hs := nErr_split res a n
          rw [han, heq] at hs
          have h0 : (List.range' a n).countP (fun b => (res b).isErr) = 0 := by omega
          rw [List.countP_eq_zero] at h0
          have := h0 (m + old - 1) (by rw [List.mem_range'_1]; omega)
          simpa using this
        rcases hold with hold | hold
        · exact hz (m + w0) (old - w0) (by omega) (by omega) (by omega)
        · exact hz m old rfl h0 hold
    · have hmlt : ¬ m ≤ ((List.range (m + old)).map res).length -
          nErr ((List.range (m + old)).map res) := by
        simp only [List.length_map, List.length_range]; omega
      by_cases hf : f < nErr ((List.range (m + old)).map res)
      · refine ⟨old, ex, Nat.le_refl _, h1, hex, ?_, Or.inl hf⟩
        unfold moreReads
        show (if nErr _ ≤ old then _ else _) = _
        rw [if_neg hc]
        show (if m ≤ _ - nErr _ then _ else _) = _
        rw [if_neg hmlt]
        show (if f < nErr _ then _ else _) = _
        rw [if_pos hf]
        rfl
      · generalize hN : nErr ((List.range (m + old)).map res) = N at *
        have hN' : ((List.range (m + old)).map res).countP Res.isErr = N := hN
        have hmore : (List.range (m + N)).mapM (moreOne m old 0 ((List.range (m + old)).map res) res) =
            some ((List.range (m + N)).map fun b => (res b, decide (m + old ≤ b))) := by
          apply mapM_some'
          intro b hb
          have hb := List.mem_range.mp hb
          unfold moreOne
          by_cases hbm : m ≤ b
          · rw [if_pos hbm]
            by_cases hbo : b - m < old
            · rw [if_pos hbo, List.getElem?_map, List.getElem?_range (by omega),
                decide_eq_false (by omega)]
              rfl
            · rw [if_neg hbo, decide_eq_true (by omega)]
          · rw [if_neg hbm, if_neg (by omega), Nat.sub_zero, if_pos (by simp; omega),
              List.getElem?_map, List.getElem?_range (by omega), decide_eq_false (by omega)]
            rfl
        have e2 : ((List.range (m + N)).filter ((fun x : Nat × Res × Bool => x.2.2) ∘
            fun b => (b, res b, decide (m + old ≤ b)))) = List.range' (m + old) (N - old) := by
          rw [show m + N = m + old + (N - old) by omega, range_split, List.filter_append]
          have f1 : (List.range (m + old)).filter ((fun x : Nat × Res × Bool => x.2.2) ∘
              fun b => (b, res b, decide (m + old ≤ b))) = [] := by
            rw [List.filter_eq_nil_iff]
            intro b hb
            have := List.mem_range.mp hb
            simp; omega
          have f2 : (List.range' (m + old) (N - old)).filter ((fun x : Nat × Res × Bool => x.2.2) ∘
              fun b => (b, res b, decide (m + old ≤ b))) = List.range' (m + old) (N - old) := by
            rw [List.filter_eq_self]
            intro b hb
            rw [List.mem_range'_1] at hb
            simp; omega
          rw [f1, f2, List.nil_append]
        have e1 : (List.range (m + N)).map ((fun r : Res × Bool => r.1) ∘
            fun b => (res b, decide (m + old ≤ b))) = (List.range (m + N)).map res := rfl
        obtain ⟨w', ex', k1, k2, k3, k4, k5⟩ := ih N old
          (ex ++ (List.range' (m + old) (N - old)).map
            ((fun x : Nat × Res × Bool => got x.1) ∘ fun b => (b, res b, decide (m + old ≤ b))))
          (by omega) (by omega) (by omega) (by omega) (Or.inl hN) (by simp; omega)
        refine ⟨w', ex', by omega, k2, k3, ?_, k5⟩
        conv => lhs; unfold moreReads
        dsimp only
        rw [hN', if_neg hc, if_neg hmlt, if_neg hf, hmore]
        dsimp only
        rw [List.map_map, zip_map_self, List.filter_map, List.map_map, e1, e2]
        exact k4

/-- The first further round, in a healthy array. -/
theorem moreReads_start {m f : Nat} {got : Nat → Buf} {res : Nat → Res} {b s : Nat} (hbs : b < s)
    (hsm : s ≤ m) {fuel : Nat} (h0 : 0 < nErr ((List.range' b (s - b)).map res))
    (hf : nErr ((List.range' b (s - b)).map res) ≤ f) :
    ∃ ex, ex.length + (s - b) = m + nErr ((List.range' b (s - b)).map res) ∧
      moreReads m f got res (fuel + 1) 0 b ((List.range' b (s - b)).map res) [] =
      moreReads m f got res fuel (nErr ((List.range' b (s - b)).map res)) 0
        ((List.range (m + nErr ((List.range' b (s - b)).map res))).map res) ex := by
  -- an aligned range of the same chunks behaves alike
  have := moreReads_first (got := got) (res := res) (m := m) (f := f) (col := 1) (L := b) (H := s)
    (b := b) (s := s) (by omega) (by omega) hbs hsm (by omega) (by omega) (fuel := fuel) h0 hf
  refine ⟨_, ?_, this⟩
  generalize nErr ((List.range' b (s - b)).map res) = N
  rw [show m + N = b + (s - b) + (m + N - s) by omega, exsB_add 1 b s got 0 (b + (s - b)),
    exsB_add 1 b s got 0 b, Nat.zero_add, exsB_before b 0 (by omega) (by omega) (by omega),
    exsB_inside (s - b) b (by omega) (by omega) (by omega) (by omega), Nat.zero_add,
    show b + (s - b) = s by omega, exsB_outside (by omega) (by omega) got _ _ (by omega)]
  simp
  omega

theorem unaligned (h : g.Lawful) {f : Nat} {dec : Decoder} {y : Buf} {got : Nat → Buf}
    {res : Nat → Res} (hs : Stripe g y got res) {u e : Nat} (hr : InStripe g u e)
    (hf : g.Y.k = g.Y.m + f) (hun : ¬ (g.cs ∣ u ∧ g.cs ∣ e))
    (hbad : ∃ b, Touches g u e b ∧ (res b).isErr = true) :
    readAtOne g f dec 0 u e got res = .panic ∨
    (f < failures g res ∧ ∃ b < g.Y.k, ∃ n, res b = .err n ∧
      readAtOne g f dec 0 u e got res = .err n) := by
  have hcol : 0 < g.col := Nat.mul_pos h.cs h.bpl
  have hLH := lo_lt_hi h hr
  have hHm := hi_le hr
  have hmk := h.layout.m_lt
  obtain ⟨b, s, k1, k2, k3, k4, k5, k6, heq⟩ := readAtOne_healthy h (f := f)
    (dec := dec) (got := got) (res := res) (fun j hj => hs.len j (by omega)) hr
  rw [heq]
  have hsc : s * g.col = (s - 1) * g.col + g.col := by
    conv => lhs; rw [show s = s - 1 + 1 by omega, Nat.add_mul, Nat.one_mul]
  -- the failed disk is read at first
  have h0 : 0 < nErr ((List.range' b (s - b)).map res) := by
    obtain ⟨j, ⟨t1, t2, t3⟩, hj⟩ := hbad
    unfold nErr
    rw [List.countP_pos_iff]
    refine ⟨res j, List.mem_map.mpr ⟨j, ?_, rfl⟩, hj⟩
    have hbj : b < j + 1 := by
      apply Nat.lt_of_mul_lt_mul_right (a := g.col)
      rw [Nat.add_mul, Nat.one_mul]; omega
    have hjs : j < s := by
      apply Nat.lt_of_mul_lt_mul_right (a := g.col)
      omega
    rw [List.mem_range'_1]; omega
  have hf1 : nErr ((List.range' b (s - b)).map res) ≤ nErr ((List.range g.Y.m).map res) := by
    unfold nErr
    rw [List.countP_map, List.countP_map, show g.Y.m = b + (s - b) + (g.Y.m - s) by omega, range_split,
      range_split, List.countP_append, List.countP_append]
    omega
  by_cases hfirst : f < nErr ((List.range' b (s - b)).map res)
  · right
    have hm : moreReads g.Y.m f got res (f + 1) 0 b ((List.range' b (s - b)).map res) [] =
        some (nErr ((List.range' b (s - b)).map res), (List.range' b (s - b)).map res, []) := by
      unfold moreReads
      show (if nErr _ ≤ 0 then some (nErr _, _, _) else if g.Y.m ≤ _ - nErr _ then none else
        if f < nErr _ then some (nErr _, _, _) else _) = _
      rw [if_neg (by omega), if_neg (by simp; omega), if_pos hfirst]
    rw [hm]
    dsimp only
    rw [if_pos hfirst]
    obtain ⟨n, e1, e2⟩ := firstErr_spec (v := (List.range' b (s - b)).map res) (by omega)
    obtain ⟨j, hj, hbe⟩ := List.mem_map.mp e2
    rw [List.mem_range'_1] at hj
    have hf2 := nErr_le_failures (g := g) (res := res) (n := g.Y.m) (by omega)
    exact ⟨by omega, j, by omega, n, hbe, e1⟩
  obtain ⟨ex, hexl, hmore⟩ := moreReads_start (m := g.Y.m) (f := f) (got := got) k1 k2 (fuel := f) h0
    (by omega)
  rw [hmore]
  obtain ⟨w', ex', j1, j2, j3, j4, j5⟩ := moreReads_count (f := f) (t := s - b) (got := got)
    (res := res) h.layout.m_pos f _ 0 ex (by omega) (by omega) h0 h0 (Or.inr hf1) hexl
  rw [j4]
  dsimp only
  have hf3 := nErr_le_failures (g := g) (res := res) (n := g.Y.m + w') (by omega)
  rcases j5 with j5 | ⟨j5, j6⟩
  · right
    rw [if_pos j5]
    obtain ⟨n, e1, e2⟩ := firstErr_spec (v := (List.range (g.Y.m + w')).map res) (by omega)
    obtain ⟨j, hj, hbe⟩ := List.mem_map.mp e2
    have hj := List.mem_range.mp hj
    exact ⟨by omega, j, by omega, n, hbe, e1⟩
  · left
    rw [if_neg (by omega), if_pos (by omega)]
    -- all the chunks are needed
    have hneed : disksNeeded g.Y.m ((List.range (g.Y.m + w')).map res) = some (g.Y.m + w') := by
      obtain ⟨need, n1, n2, n3, n4⟩ := disksNeeded_some (v := (List.range (g.Y.m + w')).map res)
        h.layout.m_pos (by simp; omega)
      rw [n1]
      congr 1
      simp only [List.length_map, List.length_range] at n3
      apply Nat.le_antisymm n3
      rcases Nat.lt_or_ge need (g.Y.m + w') with hlt | hge
      · exfalso
        have hgc := good_count ((List.range (g.Y.m + w')).map res)
        rw [j5] at hgc
        simp only [List.length_map, List.length_range] at hgc
        have hsp : List.range (g.Y.m + w') = List.range need ++ List.range' need (g.Y.m + w' - need) := by
          rw [← range_split]; congr 1; omega
        rw [hsp, List.filter_append, List.length_append, ← hsp, n4] at hgc
        have hz : ((List.range' need (g.Y.m + w' - need)).filter fun i =>
            !errAt ((List.range (g.Y.m + w')).map res) i).length = 0 := by omega
        rw [List.length_eq_zero_iff, List.filter_eq_nil_iff] at hz
        have := hz (g.Y.m + w' - 1) (by rw [List.mem_range'_1]; omega)
        rw [errAt_range (by omega), j6] at this
        simp at this
      · exact hge
    have hul := users_length h hr (got := got) (fun j hj => hs.len j (by omega))
    unfold reconstruct
    rw [hneed]
    dsimp only
    rw [if_neg (by omega)]
    have hee : u + (usersB g.col (lo g u) (hi g u e) got 0 g.Y.m).length / g.bpl = e := by
      rw [hul, hi_sub_lo hr, Nat.mul_div_cancel _ h.bpl]
      have := hr.lt
      omega
    rw [hee]
    cases hg : gather g u e (g.Y.m + w') 0
        ⟨usersB g.col (lo g u) (hi g u e) got 0 g.Y.m, some 0⟩ ex' with
    | none => rfl
    | some segs =>
      exfalso
      have hcnt := gather_ex _ _ _ _ _ hg
      -- the chunks that aren't wholly wanted
      have hfull : ∀ j, Full g u e j ↔ (lo g u ≤ j * g.col ∧ j * g.col + g.col ≤ hi g u e) := by
        intro j
        obtain ⟨-, c2, c3, -, -⟩ := chunk_conds h hr j
        unfold Full
        rw [c3]
        have : (u ≤ u - u % g.slbas + j * g.cs) ↔ (lo g u ≤ j * g.col) := by
          rw [← Nat.not_lt, ← Nat.not_lt, c2]
        rw [this]
      have hout : ∀ j, j < b ∨ s ≤ j → ¬ Full g u e j := by
        intro j hj hfj
        rw [hfull] at hfj
        rcases hj with hj | hj
        · have : (j + 1) * g.col ≤ b * g.col := Nat.mul_le_mul_right _ hj
          rw [Nat.add_mul, Nat.one_mul] at this
          have : j * g.col + g.col ≤ lo g u := by omega
          omega
        · have : s * g.col ≤ j * g.col := Nat.mul_le_mul_right _ hj
          omega
      have hin : ∃ j, b ≤ j ∧ j < s ∧ ¬ Full g u e j := by
        apply Classical.byContradiction
        intro hno
        have hall : ∀ j, b ≤ j → j < s → Full g u e j := by
          intro j h1 h2
          apply Classical.byContradiction
          intro hne
          exact hno ⟨j, h1, h2, hne⟩
        have f1 := (hfull b).mp (hall b (Nat.le_refl _) k1)
        have f2 := (hfull (s - 1)).mp (hall (s - 1) (by omega) (by omega))
        apply hun
        constructor
        · have hL : lo g u = b * g.col := by omega
          have := mod_lo (g := g) (u := u)
          rw [hL, Nat.mul_mod_left] at this
          have hz := (Nat.mul_eq_zero.mp this.symm).resolve_right (by have := h.bpl; omega)
          exact Nat.dvd_of_mod_eq_zero hz
        · have hH : hi g u e = s * g.col := by omega
          have := mod_hi hr
          rw [hH, Nat.mul_mod_left] at this
          have hz := (Nat.mul_eq_zero.mp this.symm).resolve_right (by have := h.bpl; omega)
          exact Nat.dvd_of_mod_eq_zero hz
      rw [← List.range_eq_range', show g.Y.m + w' = b + (s - b) + (g.Y.m + w' - s) by omega, range_split,
        range_split, List.countP_append, List.countP_append] at hcnt
      have c1 : (List.range b).countP (fun j => !decide (Full g u e j)) = b := by
        have := List.countP_eq_length (p := fun j => !decide (Full g u e j)) (l := List.range b)
        rw [List.length_range] at this
        apply this.mpr
        intro j hj
        simpa using hout j (Or.inl (List.mem_range.mp hj))
      have c3 : (List.range' (b + (s - b)) (g.Y.m + w' - s)).countP
          (fun j => !decide (Full g u e j)) = g.Y.m + w' - s := by
        have := List.countP_eq_length (p := fun j => !decide (Full g u e j))
          (l := List.range' (b + (s - b)) (g.Y.m + w' - s))
        rw [List.length_range'] at this
        apply this.mpr
        intro j hj
        rw [List.mem_range'_1] at hj
        simpa using hout j (Or.inr (by omega))
      have c2 : 0 < (List.range' b (s - b)).countP (fun j => !decide (Full g u e j)) := by
        rw [List.countP_pos_iff]
        obtain ⟨j, g1, g2, g3⟩ := hin
        exact ⟨j, by rw [List.mem_range'_1]; omega, by simpa using g3⟩
      omega

/-- C62, violated: reading part of a chunk from a healthy array panics as soon as one of the
disks that it reads from fails, although the data could be recovered. -/
theorem C62_unaligned_panics (h : g.Lawful) {f : Nat} {dec : Decoder} {y : Buf} {got : Nat → Buf}
    {res : Nat → Res} (hs : Stripe g y got res) {u e : Nat} (hr : InStripe g u e)
    (hf : g.Y.k = g.Y.m + f) (hun : ¬ (g.cs ∣ u ∧ g.cs ∣ e)) (hle : failures g res ≤ f)
    (hbad : ∃ b, Touches g u e b ∧ (res b).isErr = true) :
    readAtOne g f dec 0 u e got res = .panic := by
  rcases unaligned h hs hr hf hun hbad (dec := dec) with h1 | ⟨h1, -⟩
  · exact h1
  · omega

/-- C62: a healthy array never returns wrong data for a part of one stripe, and returns the data
if the disks that hold the wanted chunks succeed; an error it returns is that of a disk, when more
than `f` failed.  Missing: it may panic. -/
theorem C62_read_one_never_wrong_partial (h : g.Lawful) {f : Nat} (hf : g.Y.k = g.Y.m + f)
    (hk : g.Y.k ≤ 256) (hE : g.enc = codecEnc g.Y.m f g.col) {invert : Nat → Mat → Option Mat}
    (hI : Inverts invert) {y : Buf} {got : Nat → Buf} {res : Nat → Res} (hs : Stripe g y got res)
    {u e : Nat} (hr : InStripe g u e) :
    Served g f u e y res (readAtOne g f (codecDec invert g.Y.m f) 0 u e got res) ∨
    (¬ (g.cs ∣ u ∧ g.cs ∣ e) ∧ (∃ b, Touches g u e b ∧ (res b).isErr = true) ∧
      readAtOne g f (codecDec invert g.Y.m f) 0 u e got res = .panic) := by
  by_cases hal : g.cs ∣ u ∧ g.cs ∣ e
  · exact Or.inl (C62_read_one_healthy_partial h hf hk hE hI hs hr hal.1 hal.2)
  · by_cases hbad : ∃ b, Touches g u e b ∧ (res b).isErr = true
    · rcases unaligned h hs hr hf hal hbad (dec := codecDec invert g.Y.m f) with h1 | ⟨h1, h2⟩
      · exact Or.inr ⟨hal, hbad, h1⟩
      · exact Or.inl (Or.inr ⟨h1, h2⟩)
    · exact Or.inl (Or.inl (C62_read_one_no_error h hs hr (fun b hb => by
        apply isErr_false
        cases hbe : (res b).isErr with
        | false => rfl
        | true => exact absurd ⟨b, hb, hbe⟩ hbad)))

end Verif.Raid
