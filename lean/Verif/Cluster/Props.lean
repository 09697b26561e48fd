import Verif.Cluster.Copies
import Verif.Cluster.Pool

/-! # C24-C30, C60: space allocation -/

namespace Verif.Cluster

open Verif

variable {g : Geo} {n : Nat} {H : Nat → List ZoneOnDisk → Nat}

/-! ## A concrete device -/

/-- `n` zones of ten blocks each. -/
def exGeo (n : Nat) : Geo where
  limits z := (z * 10, z * 10 + 10)
  lba2zone lba := if lba < n * 10 then some (lba / 10) else none

theorem exGeo_ok (n : Nat) : GeoOk (exGeo n) n where
  size z _ := by simp only [exGeo, CLOSED]; omega
  zone lba z := by
    simp only [exGeo]
    split
    · simp only [Option.some.injEq]; omega
    · simp; omega

def exH : Nat → List ZoneOnDisk → Nat := fun i l => i + l.length

/-- Runs the calls; used to exhibit concrete histories. -/
def runOps (g : Geo) (H : Nat → List ZoneOnDisk → Nat) : Hist → List Op → Option Hist
  | s, [] => some s
  | s, op :: ops => (step g H s op).bind (fun s => runOps g H s ops)

/-- Two zones; a record of 4 blocks, one of 8 that does not fit beside it, so that
zone 0 is closed. -/
def exS : Hist := (runOps (exGeo 3) exH (Hist.init 3) [.write 4 1, .write 8 1]).getD (Hist.init 3)

theorem exS_reachable : Reachable (exGeo 3) exH 3 exS :=
  ⟨[.write 4 1, .write 8 1], .cons ⟨by omega, by unfold TXG_MAX; omega⟩ (by rfl) (.cons ⟨by omega, by unfold TXG_MAX; omega⟩ (by rfl) (.nil _))⟩

example : exS.recs = [⟨0, 4, true⟩, ⟨10, 8, true⟩] ∧ exS.c.fsm.isClosed 0 = true ∧ exS.c.fsm.isOpen 1 = true := by
  decide +kernel

/-! ## C24 -/

/-- **C24**, one call: the range a write is given lies in one zone and has no block
in common with any range given out before in a zone not erased since. -/
theorem C24_alloc_disjoint (geo : GeoOk g n) {s : Hist} (hs : Reachable g H n s) {space txg z lba : Nat} {c : Cluster}
    (hpos : 0 < space) (htxg : txg ≤ TXG_MAX) (hw : s.c.write g space txg = some (c, some (z, lba))) :
    z < n ∧ (⟨lba, space, true⟩ : Rec).Within g z ∧ ∀ r ∈ s.recs, r.Disjoint ⟨lba, space, true⟩ := by
  have G := good_reachable geo hs
  rcases write_spec geo G hpos htxg with ⟨c', h, -⟩ | ⟨c', z', lba', h, hz, hG, -⟩
  · rw [hw] at h; cases h
  · rw [hw] at h
    cases h
    obtain ⟨hzn, hlo, -⟩ := in_zone geo hz
    refine ⟨hzn, ⟨hlo, ?_⟩, ?_⟩
    · obtain ⟨-, z2, h1, h2⟩ := hG.inv.recOk ⟨lba, space, true⟩ (by simp)
      simp only [hz] at h1
      cases h1
      exact h2
    · intro r hr
      have := hG.inv.disj
      rw [List.pairwise_append] at this
      exact this.2.2 r hr _ (by simp)

example : ∃ c, exS.c.write (exGeo 3) 2 1 = some (c, some (1, 18)) := ⟨_, rfl⟩

/-- **C24**, whole histories: at any time, the ranges given out in zones not erased
since are pairwise disjoint and each lies within one zone. -/
theorem C24_log_disjoint (geo : GeoOk g n) {s : Hist} (hs : Reachable g H n s) :
    s.recs.Pairwise Rec.Disjoint ∧ ∀ r ∈ s.recs, 0 < r.len ∧ ∃ z, z < n ∧ r.Within g z := by
  have G := good_reachable geo hs
  refine ⟨G.inv.disj, fun r hr => ?_⟩
  obtain ⟨h1, z, h2, h3⟩ := G.inv.recOk r hr
  exact ⟨h1, z, (in_zone geo h2).1, (in_zone geo h2).2.1, h3⟩

/-! ## C25 -/

/-- **C25**: no legal sequence of calls panics or underflows. -/
theorem C25_no_panic (geo : GeoOk g n) {s : Hist} (hs : Reachable g H n s) {op : Op} (hl : op.Legal s) :
    ∃ s', step g H s op = some s' ∧ Reachable g H n s' := by
  obtain ⟨s', h, -⟩ := good_step (H := H) geo (good_reachable geo hs) hl
  obtain ⟨ops, R⟩ := hs
  refine ⟨s', h, ops ++ [op], ?_⟩
  have : ∀ {s0 s1 : Hist} {ops}, Run g H s0 ops s1 → op.Legal s1 → step g H s1 op = some s' → Run g H s0 (ops ++ [op]) s' := by
    intro s0 s1 ops R hl h
    induction R with
    | nil => exact .cons hl h (.nil _)
    | cons hl' hs' _ ih => exact .cons hl' hs' (ih hl h)
  exact this R hl h

/-- **C25**: the used space is the number of blocks in ranges that were given out and
not freed, and is never more than the device holds. -/
theorem C25_used_exact (geo : GeoOk g n) {s : Hist} (hs : Reachable g H n s) :
    s.c.used = liveSum s.recs ∧ s.c.used ≤ s.c.allocatedSpace ∧ s.c.allocatedSpace ≤ capacity g n := by
  have G := good_reachable geo hs
  have hu := used_eq geo G
  refine ⟨hu, ?_, ?_⟩
  · rw [hu, liveSum_eq (g := g) (n := n) s.recs (fun r hr => by
      obtain ⟨-, z, hz, -⟩ := G.inv.recOk r hr
      exact ⟨z, (in_zone geo hz).1, hz⟩), G.inv.alloc]
    apply sum_le
    intro z hz
    have hZ := G.inv.zone z hz
    cases hv : s.c.fsm.view z with
    | empty => rw [hv] at hZ; rw [liveIn_zero (fun r hr hzr => absurd hzr (hZ r hr))]; omega
    | dead => rw [hv] at hZ; rw [liveIn_zero hZ]; omega
    | opn zn oz => rw [hv] at hZ; obtain ⟨-, -, -, -, h, -⟩ := hZ; simp only [ZState.alloc]; omega
    | closed zn => rw [hv] at hZ; obtain ⟨-, h, -⟩ := hZ; simp only [ZState.alloc]; omega
  · rw [G.inv.alloc]
    apply sum_le
    intro z hz
    have hZ := G.inv.zone z hz
    have := geo.size z hz
    cases hv : s.c.fsm.view z with
    | empty => simp [ZState.alloc]
    | dead => simp [ZState.alloc]
    | opn zn oz => rw [hv] at hZ; obtain ⟨-, h1, -, h2, -⟩ := hZ; simp only [ZState.alloc]; omega
    | closed zn => rw [hv] at hZ; obtain ⟨h, -⟩ := hZ; simp only [ZState.alloc]; omega

/-- **C25**: the counter of allocated space, which is updated incrementally, agrees
with the sum over all zones. -/
theorem C25_counter_exact (geo : GeoOk g n) {s : Hist} (hs : Reachable g H n s) :
    s.c.fsm.allocatedTotal = some s.c.allocatedSpace := by
  have G := good_reachable geo hs
  rw [FSM.allocatedTotal_view G.wf, G.inv.alloc]
  congr 1
  rw [FSM.sum_extend (fun z => (s.c.fsm.view z).alloc) s.c.fsm.zones.length n
      (by rw [← G.total]; exact G.wf.len) (fun z hz => by rw [FSM.view_ge hz]; rfl)]

example : exS.c.used = 12 ∧ exS.c.allocatedSpace = 18 ∧ capacity (exGeo 3) 3 = 30 := by decide +kernel

/-! ## C26 -/

/-- **C26**: a zone that is erased is neither open nor empty, and no range given out
in it is live. -/
theorem C26_erased_unused (geo : GeoOk g n) {s : Hist} (hs : Reachable g H n s) {z : Nat} (hz : z ∈ s.c.advance.2) :
    s.c.fsm.isOpen z = false ∧ s.c.fsm.isEmpty z = false ∧ s.c.fsm.inUse z = 0 ∧
      ∀ r ∈ s.recs, g.lba2zone r.lba = some z → r.live = false := by
  have G := good_reachable geo hs
  have hv := ((advance_spec G).2.2.1 z).mp hz
  have hzn : z < n := G.inv.lt (by rw [hv]; simp)
  have hZ := G.inv.zone z hzn
  rw [hv] at hZ
  refine ⟨?_, ?_, ?_, hZ⟩
  · cases h : s.c.fsm.isOpen z with
    | false => rfl
    | true =>
      obtain ⟨zn, oz, h⟩ := (FSM.isOpen_view G.wf z).mp h
      rw [hv] at h; cases h
  · cases h : s.c.fsm.isEmpty z with
    | false => rfl
    | true =>
      have h := (FSM.isEmpty_view _ z).mp h
      rw [hv] at h; cases h
  · rw [FSM.inUse_view, hv]; rfl

/-- Live ranges survive the end of a transaction, and so does every range of a zone
that is not erased. -/
theorem C26_live_survives (geo : GeoOk g n) {s s' : Hist} (hs : Reachable g H n s) (hst : step g H s .advance = some s') :
    ∀ r ∈ s.recs, r.live = true → r ∈ s'.recs := by
  intro r hr hl
  cases hst
  simp only [List.mem_filter, decide_eq_true_eq]
  refine ⟨hr, fun z hz hc => ?_⟩
  have := (C26_erased_unused geo hs hz).2.2.2 r hr hc
  rw [hl] at this; cases this

/-- Until the next `advance`, the log only grows. -/
theorem log_run {s s' : Hist} {ops : List Op} (R : Run g H s ops s') (hna : Op.advance ∉ ops) :
    s.recs.length ≤ s'.recs.length ∧
    ∀ (i : Nat) r, s.recs[i]? = some r → ∃ r', s'.recs[i]? = some r' ∧ r'.lba = r.lba ∧ r'.len = r.len := by
  induction R with
  | nil => exact ⟨Nat.le_refl _, fun i r h => ⟨r, h, rfl, rfl⟩⟩
  | cons hl hs _ ih =>
    obtain ⟨h1, h2⟩ := log_step hs (fun e => hna (by simp [e]))
    obtain ⟨h3, h4⟩ := ih (fun h => hna (List.mem_cons_of_mem _ h))
    refine ⟨by omega, fun i r h => ?_⟩
    obtain ⟨r1, e1, e2, e3⟩ := h2 i r h
    obtain ⟨r2, e4, e5, e6⟩ := h4 i r1 e1
    exact ⟨r2, e4, e5.trans e2, e6.trans e3⟩

theorem Run.append {s s' s'' : Hist} {ops ops' : List Op} (R : Run g H s ops s') (R' : Run g H s' ops' s'') :
    Run g H s (ops ++ ops') s'' := by
  induction R with
  | nil => exact R'
  | cons hl hs _ ih => exact .cons hl hs (ih R')

theorem Reachable.run {s s' : Hist} {ops : List Op} (hs : Reachable g H n s) (R : Run g H s ops s') :
    Reachable g H n s' := by
  obtain ⟨ops0, R0⟩ := hs
  exact ⟨_, R0.append R⟩

/-- **C26**: until the transaction ends, no block of a range that was given out, live
or freed, is given out again: everything written later is disjoint from it. -/
theorem C26_not_reused_before_commit (geo : GeoOk g n) {s s' : Hist} (hs : Reachable g H n s) {ops : List Op}
    (R : Run g H s ops s') (hna : Op.advance ∉ ops) {i j : Nat} {r r' : Rec} (hr : s.recs[i]? = some r)
    (hj : s.recs.length ≤ j) (hr' : s'.recs[j]? = some r') : r.Disjoint r' := by
  obtain ⟨-, hlog⟩ := log_run R hna
  obtain ⟨r1, h1, h2, h3⟩ := hlog i r hr
  have G := good_reachable geo (hs.run R)
  have hij : i < j := by have := (List.getElem?_eq_some_iff.mp hr).1; omega
  have := G.inv.disj
  rw [List.pairwise_iff_getElem] at this
  obtain ⟨hi', e1⟩ := List.getElem?_eq_some_iff.mp h1
  obtain ⟨hj', e2⟩ := List.getElem?_eq_some_iff.mp hr'
  have := this i j hi' hj' hij
  rw [e1, e2] at this
  unfold Rec.Disjoint at *
  omega

/-- A zone that is killed and erased: the record in zone 0 is freed after the zone
was closed. -/
def exDead : Hist := (runOps (exGeo 3) exH exS [.free 0]).getD exS

theorem exDead_reachable : Reachable (exGeo 3) exH 3 exDead := by
  refine exS_reachable.run (ops := [.free 0]) (.cons ⟨⟨0, 4, true⟩, by rfl, rfl⟩ (by rfl) (.nil _))

example : exDead.c.advance.2 = [0] := by decide +kernel
/-- Before the end of the transaction zone 0 is not used, although it is free ... -/
example : ((runOps (exGeo 3) exH exDead [.write 8 1]).map (·.recs)) =
    some [⟨0, 4, false⟩, ⟨10, 8, true⟩, ⟨20, 8, true⟩] := by decide +kernel
/-- ... and afterwards it is. -/
example : ((runOps (exGeo 3) exH exDead [.advance, .write 8 2]).map (·.recs)) =
    some [⟨10, 8, true⟩, ⟨0, 8, true⟩] := by decide +kernel

/-! ## C27 -/

theorem dead_run (geo : GeoOk g n) {s s' : Hist} {ops : List Op} (R : Run g H s ops s') (hna : Op.advance ∉ ops)
    (G : Good g n s) {z : Nat} (hv : s.c.fsm.view z = .dead) : s'.c.fsm.view z = .dead := by
  induction R with
  | nil => exact hv
  | cons hl hs _ ih =>
    obtain ⟨s1, h1, G1⟩ := good_step (H := H) geo G hl
    rw [hs] at h1
    cases h1
    exact ih (fun h => hna (List.mem_cons_of_mem _ h)) G1
      (dead_step geo G hl hs hv (fun e => hna (by simp [e])))

/-- **C27**, in part.  If the last live range of a zone is freed while the zone is
closed, then the zone is erased and empty when the transaction ends.  Missing: the
last live range of a zone may be freed while the zone is still open; see
`C27_leak`. -/
theorem C27_reclaimed_partial (geo : GeoOk g n) {s s1 s2 s3 : Hist} (hs : Reachable g H n s) {i z : Nat} {r : Rec}
    (hclosed : s.c.fsm.isClosed z = true) (hr : s.recs[i]? = some r) (hlive : r.live = true)
    (hz : g.lba2zone r.lba = some z)
    (hlast : ∀ (j : Nat) x, s.recs[j]? = some x → j ≠ i → g.lba2zone x.lba = some z → x.live = false)
    (hf : step g H s (.free i) = some s1) {ops : List Op} (R : Run g H s1 ops s2) (hna : Op.advance ∉ ops)
    (ha : step g H s2 .advance = some s3) :
    z ∈ s2.c.advance.2 ∧ s3.c.fsm.isEmpty z = true ∧ ∀ x ∈ s3.recs, g.lba2zone x.lba ≠ some z := by
  have G := good_reachable geo hs
  obtain ⟨zn, hv⟩ := FSM.isClosed_view z |>.mp hclosed
  have hleg : (Op.free i).Legal s := ⟨r, hr, hlive⟩
  obtain ⟨s1', h1, G1⟩ := good_step (H := H) geo G hleg
  rw [hf] at h1
  cases h1
  have hd : s1.c.fsm.view z = .dead := by
    rcases closed_step geo G hleg hf hv with ⟨zn', h1, h2, -⟩ | ⟨-, h, -⟩
    · exfalso
      have hpos := (G.inv.recOk r (List.mem_of_getElem? hr)).1
      have := h2 (by have := le_liveIn (g := g) (List.mem_of_getElem? hr) hlive hz; omega)
      have h0 : liveIn g s1.recs z = 0 := by
        unfold step at hf
        simp only [hr, Option.map_eq_some_iff] at hf
        obtain ⟨c, -, rfl⟩ := hf
        apply liveIn_zero
        intro x hx hxz
        obtain ⟨j, hj⟩ := List.getElem?_of_mem hx
        simp only [List.getElem?_set] at hj
        split at hj
        · split at hj
          · cases hj; rfl
          · cases hj
        · rename_i hne
          exact hlast j x hj (fun e => hne e.symm) hxz
      omega
    · exact h
  have hd2 := dead_run geo R hna G1 hd
  have G2 := good_run geo R G1
  obtain ⟨G3, -, h4, h5⟩ := advance_spec G2
  have hin := (h4 z).mpr hd2
  cases ha
  refine ⟨hin, ?_, ?_⟩
  · rw [FSM.isEmpty_view]
    simp only
    rw [h5, if_pos hd2]
  · intro x hx
    simp only [List.mem_filter, decide_eq_true_eq] at hx
    exact hx.2 z hin

example : exS.c.fsm.isClosed 0 = true ∧ exS.recs[0]? = some ⟨0, 4, true⟩ ∧
    (exGeo 3).lba2zone 0 = some 0 ∧ (exGeo 3).lba2zone 10 = some 1 := by decide +kernel

/-- **C27**: an empty zone can be used: if there is one, a record that is no larger
than any zone can be written. -/
theorem C27_available (geo : GeoOk g n) {s : Hist} (hs : Reachable g H n s) {z space txg : Nat} (hz : z < n)
    (he : s.c.fsm.isEmpty z = true) (hpos : 0 < space) (htxg : txg ≤ TXG_MAX)
    (hfit : ∀ z, z < n → space ≤ (g.limits z).2 - (g.limits z).1) :
    ∃ c z' lba, s.c.write g space txg = some (c, some (z', lba)) := by
  have G := good_reachable geo hs
  rcases write_spec geo G hpos htxg with ⟨c', h, -, -, h2, -⟩ | ⟨c', z', lba', h, -⟩
  · obtain ⟨z2, h3, h4⟩ := h2 z hz ((FSM.isEmpty_view _ z).mp he)
    have := hfit z2 h3
    omega
  · exact ⟨c', z', lba', h⟩

example : exS.c.fsm.isEmpty 2 = true ∧ ∀ z, z < 3 → 8 ≤ ((exGeo 3).limits z).2 - ((exGeo 3).limits z).1 := by
  refine ⟨by decide +kernel, fun z _ => ?_⟩
  simp only [exGeo]; omega

/-- **C27 is violated.**  A closed zone in which no range is live, and which is not
already waiting to be erased, stays closed for ever: no sequence of calls makes it
available again. -/
theorem C27_leak (geo : GeoOk g n) {s s' : Hist} (hs : Reachable g H n s) {z : Nat}
    (hclosed : s.c.fsm.isClosed z = true) (hfree : ∀ r ∈ s.recs, g.lba2zone r.lba = some z → r.live = false)
    {ops : List Op} (R : Run g H s ops s') :
    s'.c.fsm.isClosed z = true ∧ ∀ r ∈ s'.recs, g.lba2zone r.lba = some z → r.live = false := by
  have G := good_reachable geo hs
  have h0 := liveIn_zero hfree
  obtain ⟨zn, hv⟩ := FSM.isClosed_view z |>.mp hclosed
  have key : ∀ {s s' : Hist} {ops} {zn : Zone}, Run g H s ops s' → Good g n s → s.c.fsm.view z = .closed zn →
      liveIn g s.recs z = 0 → ∃ zn', s'.c.fsm.view z = .closed zn' ∧ liveIn g s'.recs z = 0 ∧ Good g n s' := by
    intro s s' ops zn R
    induction R generalizing zn with
    | nil => intro G h1 h2; exact ⟨zn, h1, h2, G⟩
    | cons hl hs _ ih =>
      intro G h1 h2
      obtain ⟨s1, e1, G1⟩ := good_step (H := H) geo G hl
      rw [hs] at e1
      cases e1
      rcases closed_step geo G hl hs h1 with ⟨zn', h3, -, h4⟩ | ⟨h5, -⟩
      · exact ih G1 h3 (h4 h2)
      · omega
  obtain ⟨zn', h1, h2, G'⟩ := key R G hv h0
  refine ⟨(FSM.isClosed_view z).mpr ⟨zn', h1⟩, ?_⟩
  exact dead_of_liveIn (fun r hr => (G'.inv.recOk r hr).1) h2

/-- Such a zone is reached by freeing a record before its zone is full: write 4
blocks, free them, and write 8, which do not fit. -/
def exLeak : Hist := (runOps (exGeo 3) exH (Hist.init 3) [.write 4 1, .free 0, .write 8 1]).getD (Hist.init 3)

theorem C27_leak_reachable : Reachable (exGeo 3) exH 3 exLeak ∧ exLeak.c.fsm.isClosed 0 = true ∧
    ∀ r ∈ exLeak.recs, (exGeo 3).lba2zone r.lba = some 0 → r.live = false := by
  refine ⟨⟨[.write 4 1, .free 0, .write 8 1], .cons ⟨by omega, by unfold TXG_MAX; omega⟩ (by rfl)
    (.cons ⟨⟨0, 4, true⟩, by rfl, rfl⟩ (by rfl) (.cons ⟨by omega, by unfold TXG_MAX; omega⟩ (by rfl) (.nil _)))⟩, ?_⟩
  decide +kernel

/-! ## C28 -/

/-- **C28**: reading back the blocks of the spacemap gives the same zones, in the same
states, with the same write pointers, freed blocks and transaction ranges, and the
cluster reports the same space. -/
theorem C28_spacemap_roundtrip (geo : GeoOk g n) {s : Hist} (hs : Reachable g H n s) :
    ∃ f c, FSM.deserialize H g.limits n (s.c.fsm.allBlocks H) = .ok f ∧ Cluster.ofFSM f = some c ∧
      c.fsm = f ∧ c.allocatedSpace = s.c.allocatedSpace ∧ c.used = s.c.used ∧
      ∀ z, f.isEmpty z = s.c.fsm.isEmpty z ∧ f.isDead z = s.c.fsm.isDead z ∧ f.isOpen z = s.c.fsm.isOpen z ∧
        f.isClosed z = s.c.fsm.isClosed z ∧ f.opn.get z = s.c.fsm.opn.get z ∧
        (f.isOpen z = true ∨ f.isClosed z = true → f.zones[z]? = s.c.fsm.zones[z]?) := by
  have G := good_reachable geo hs
  obtain ⟨f, c, h1, h2, h3, h4, h5, h6, -⟩ := reload_spec geo H G
  refine ⟨f, c, h1, h2, h3, h4, ?_, ?_⟩
  · have e1 := used_eq geo h5
    simp only at e1
    rw [e1, used_eq geo G]
  · intro z
    have hv := h6 z
    have hwf : f.WF := by have := h5.wf; simp only [h3] at this; exact this
    have hb : ∀ {a b : Bool}, (a = true ↔ b = true) → a = b := by
      intro a b h; cases a <;> cases b <;> simp_all
    refine ⟨hb ?_, hb ?_, hb ?_, hb ?_, ?_, ?_⟩
    · rw [FSM.isEmpty_view, FSM.isEmpty_view, hv]
    · rw [FSM.isDead_view, FSM.isDead_view, hv]
    · rw [FSM.isOpen_view hwf, FSM.isOpen_view G.wf, hv]
    · rw [FSM.isClosed_view, FSM.isClosed_view, hv]
    · cases ho : s.c.fsm.opn.get z with
      | some oz =>
        obtain ⟨zn, -, h⟩ := FSM.view_of_open G.wf ho
        rw [h] at hv
        exact (FSM.view_open hv).2.1
      | none =>
        cases ho' : f.opn.get z with
        | none => rfl
        | some oz =>
          obtain ⟨zn, -, h⟩ := FSM.view_of_open hwf ho'
          rw [h] at hv
          have := (FSM.view_open hv.symm).2.1
          rw [ho] at this; cases this
    · rintro (ho | hc)
      · obtain ⟨zn, oz, h⟩ := (FSM.isOpen_view hwf z).mp ho
        rw [(FSM.view_open h).1, (FSM.view_open (hv.symm.trans h)).1]
      · obtain ⟨zn, h⟩ := (FSM.isClosed_view z).mp hc
        rw [(FSM.view_closed h).1, (FSM.view_closed (hv.symm.trans h)).1]

/-- **C28**: a block whose checksum does not match is rejected. -/
theorem C28_bad_checksum_rejected {limits : Nat → Nat × Nat} {bs : List SpacemapBlock} {i : Nat} {b : SpacemapBlock}
    (hb : bs[i]? = some b) (hbad : b.checksum ≠ H i b.zones) : FSM.deserialize H limits n bs = .error := by
  have key : ∀ (bs : List SpacemapBlock) (k i : Nat), bs[i]? = some b → b.checksum ≠ H (k + i) b.zones →
      FSM.checkBlocks H k bs = none := by
    intro bs
    induction bs with
    | nil => intro k i h; cases h
    | cons a bs ih =>
      intro k i h hne
      unfold FSM.checkBlocks
      cases i with
      | zero =>
        simp at h
        subst h
        have hne' : H k a.zones ≠ a.checksum := fun e => hne e.symm
        simp [SpacemapBlock.check, hne']
      | succ i =>
        simp at h
        have := ih (k + 1) i h (by rw [show k + 1 + i = k + (i + 1) from by omega]; exact hne)
        rw [this]
        simp
  unfold FSM.deserialize
  rw [key bs 0 i hb (by rw [Nat.zero_add]; exact hbad)]

/-! ## C29 -/

/-- **C29**, in part.  After any history of calls, syncs and restarts of a new cluster,
a sync leaves in the first copy exactly the blocks of the map in memory, although it
writes only those that changed; opening the cluster from that copy gives zones in the
same states.  Missing: the second copy; see `C29_second_copy_stale`. -/
theorem C29_first_copy_partial (geo : GeoOk g n) (d : Nat → Nat → Option SpacemapBlock) {ops : List DOp} {s : DHist}
    (R : DRun g H (DHist.init n d) ops s) {gap : Nat → Nat} (hl : (Op.flush gap).Legal s.h) :
    ∃ s' s'', s.sync H gap = some s' ∧
      (∀ i, i < spacemapSpace n → s'.d 0 i = (s'.h.c.fsm.allBlocks H)[i]?) ∧
      s'.reopen g H = some s'' ∧ s''.h.c.allocatedSpace = s'.h.c.allocatedSpace ∧
      (∀ z, s''.h.c.fsm.view z = s'.h.c.fsm.view z) := by
  have D := dgood_run geo R (dgood_init d)
  obtain ⟨s1, h1, G1, -, hcur⟩ := sync_spec D hl
  obtain ⟨s2, h2, -, -, -, h3, h4⟩ := reopen_spec geo G1 hcur
  refine ⟨s1, s2, h1, ?_, h2, h3, h4⟩
  intro i hi
  rw [hcur i hi]
  unfold FSM.allBlocks
  rw [G1.good.total, List.getElem?_map, List.getElem?_range hi]
  rfl

/-- No legal call of such a history panics. -/
theorem C29_no_panic (geo : GeoOk g n) (d : Nat → Nat → Option SpacemapBlock) {ops : List DOp} {s : DHist}
    (R : DRun g H (DHist.init n d) ops s) {op : DOp} (hl : op.Legal s) : ∃ s', dstep g H s op = some s' := by
  have D := dgood_run geo R (dgood_init d)
  cases op with
  | op o =>
    obtain ⟨h', e, -⟩ := good_step (H := H) geo D.good hl.1
    exact ⟨_, by unfold dstep; simp only [e, Option.map_some]; rfl⟩
  | sync gap =>
    obtain ⟨s1, h1, -⟩ := sync_spec D hl
    exact ⟨s1, h1⟩
  | restart gap =>
    obtain ⟨s1, h1, G1, -, hcur⟩ := sync_spec D hl
    obtain ⟨s2, h2, -⟩ := reopen_spec geo G1 hcur
    exact ⟨s2, by unfold dstep; simp only [h1, Option.bind_some, h2]⟩

/-- Runs calls with syncs. -/
def runD (g : Geo) (H : Nat → List ZoneOnDisk → Nat) : DHist → List DOp → Option DHist
  | s, [] => some s
  | s, op :: ops => (dstep g H s op).bind (fun s => runD g H s ops)

example : ((runD (exGeo 3) exH (DHist.init 3 (fun _ _ => none))
    [.op (.write 4 1), .sync (fun _ => 0), .op (.write 3 2), .sync (fun _ => 1)]).map
      (fun s => s.d 0 0)) = some (some ⟨3, [⟨8, 1, 1, 4294967294⟩, ⟨0, 0, 0, 0⟩, ⟨0, 0, 0, 0⟩]⟩) := by decide +kernel

/-- **C29 is violated** for the second copy: the first flush of a sync marks every
block clean, so that the second flush writes to copy 1 only the blocks with an open
zone (which `waste_space` marks dirty even if it wastes nothing).  Here the only zone
is closed by a write that does not fit, and after the next sync copy 1 still says that
it is open, with 6 blocks to allocate. -/
theorem C29_second_copy_stale :
    ((runD (exGeo 1) exH (DHist.init 1 (fun _ _ => none))
      [.op (.write 4 1), .sync (fun _ => 0), .op (.write 8 2), .sync (fun _ => 0)]).map
      (fun s => (s.d 0 0, s.d 1 0, s.h.c.fsm.isOpen 0))) =
      some (some ⟨1, [⟨CLOSED, 6, 1, 3⟩]⟩, some ⟨1, [⟨4, 0, 1, 4294967294⟩]⟩, false) := by
  decide +kernel

/-! ## C30 -/

theorem mem_closedOf {c : Cluster} {ci : Nat} {x : Nat × ClosedZone} :
    x ∈ closedOf g c ci ↔ x.1 = ci ∧ c.fsm.isClosed x.2.zid = true ∧ x.2 = c.fsm.closedEntry x.2.zid (g.limits x.2.zid).1 := by
  unfold closedOf
  simp only [List.mem_map, List.mem_filter, List.mem_range]
  constructor
  · rintro ⟨z, ⟨h1, h2⟩, rfl⟩
    exact ⟨rfl, h2, rfl⟩
  · rintro ⟨h1, h2, h3⟩
    refine ⟨x.2.zid, ⟨?_, h2⟩, ?_⟩
    · unfold FSM.isClosed at h2
      simp only [Bool.and_eq_true, decide_eq_true_eq] at h2
      omega
    · rw [← h3, ← h1]

theorem mem_closedOfAll (cs : List (Geo × Cluster)) (k : Nat) (x : Nat × ClosedZone) :
    x ∈ closedOfAll cs k ↔ ∃ g c, k ≤ x.1 ∧ cs[x.1 - k]? = some (g, c) ∧ c.fsm.isClosed x.2.zid = true ∧
      x.2 = c.fsm.closedEntry x.2.zid (g.limits x.2.zid).1 := by
  induction cs generalizing k with
  | nil => simp [closedOfAll]
  | cons e cs ih =>
    obtain ⟨g, c⟩ := e
    unfold closedOfAll
    rw [List.mem_append, mem_closedOf, ih]
    constructor
    · rintro (⟨h1, h2, h3⟩ | ⟨g', c', h1, h2, h3, h4⟩)
      · exact ⟨g, c, by omega, by rw [show x.1 - k = 0 from by omega]; rfl, h2, h3⟩
      · refine ⟨g', c', by omega, ?_, h3, h4⟩
        rw [show x.1 - k = (x.1 - (k + 1)) + 1 from by omega, List.getElem?_cons_succ]
        exact h2
    · rintro ⟨g', c', h1, h2, h3, h4⟩
      by_cases e : x.1 = k
      · rw [show x.1 - k = 0 from by omega] at h2
        simp at h2
        obtain ⟨rfl, rfl⟩ := h2
        exact Or.inl ⟨e, h3, h4⟩
      · rw [show x.1 - k = (x.1 - (k + 1)) + 1 from by omega, List.getElem?_cons_succ] at h2
        exact Or.inr ⟨g', c', by omega, h2, h3, h4⟩

/-- The order of a listing: by cluster, then by zone. -/
def Before (a b : Nat × ClosedZone) : Prop := a.1 < b.1 ∨ a.1 = b.1 ∧ a.2.zid < b.2.zid

theorem closedOf_sorted (c : Cluster) (ci : Nat) : (closedOf g c ci).Pairwise Before := by
  unfold closedOf
  rw [List.pairwise_map]
  refine List.Pairwise.imp ?_ (List.Pairwise.filter _ List.pairwise_lt_range)
  intro a b h
  exact Or.inr ⟨rfl, h⟩

theorem closedOfAll_sorted (cs : List (Geo × Cluster)) (k : Nat) : (closedOfAll cs k).Pairwise Before := by
  induction cs generalizing k with
  | nil => exact .nil
  | cons e cs ih =>
    obtain ⟨g, c⟩ := e
    unfold closedOfAll
    rw [List.pairwise_append]
    refine ⟨closedOf_sorted c k, ih (k + 1), ?_⟩
    intro a ha b hb
    obtain ⟨h1, -⟩ := mem_closedOf.mp ha
    obtain ⟨-, -, h2, -⟩ := (mem_closedOfAll cs (k + 1) b).mp hb
    left; omega

/-- **C30**: for any clusters in any state, calling the iterator until it is exhausted
terminates, and lists every closed zone of every cluster, nothing else, each once, in
the order of clusters and zones. -/
theorem C30_list_closed_zones (cs : List (Geo × Cluster)) (hne : cs ≠ []) :
    ∃ xs, Lists cs 0 0 xs ∧ (∀ ys, Lists cs 0 0 ys → ys = xs) ∧ xs.Pairwise Before ∧
      ∀ (ci : Nat) z, (∃ g c, cs[ci]? = some (g, c) ∧ c.fsm.isClosed z = true) ↔ ∃ x ∈ xs, x.1 = ci ∧ x.2.zid = z := by
  have hlen : 0 < cs.length := List.length_pos_iff.mpr hne
  have hrem := remaining_next cs 0
  rw [List.drop_zero] at hrem
  have hL := lists_remaining cs (closedOfAll cs 0) 0 0 hlen hrem
  refine ⟨_, hL, fun ys h => h.unique hL, closedOfAll_sorted cs 0, ?_⟩
  intro ci z
  constructor
  · rintro ⟨g, c, h1, h2⟩
    refine ⟨(ci, c.fsm.closedEntry z (g.limits z).1), ?_, rfl, rfl⟩
    rw [mem_closedOfAll]
    exact ⟨g, c, Nat.zero_le _, h1, h2, rfl⟩
  · rintro ⟨x, hx, rfl, rfl⟩
    obtain ⟨g, c, -, h1, h2, -⟩ := (mem_closedOfAll cs 0 x).mp hx
    exact ⟨g, c, h1, h2⟩

/-- **C30**: each entry describes its zone: where it starts, its size, the freed blocks
and the range of transactions. -/
theorem C30_entries (cs : List (Geo × Cluster)) (hne : cs ≠ []) {xs : List (Nat × ClosedZone)} (hl : Lists cs 0 0 xs)
    {x : Nat × ClosedZone} (hx : x ∈ xs) : ∃ g c zn, cs[x.1]? = some (g, c) ∧ c.fsm.zones[x.2.zid]? = some zn ∧
      x.2.start = (g.limits x.2.zid).1 ∧ x.2.freed = zn.freed ∧ x.2.total = zn.total ∧
      x.2.txgStart = zn.txgStart ∧ x.2.txgEnd = zn.txgEnd := by
  have hlen : 0 < cs.length := List.length_pos_iff.mpr hne
  have hrem := remaining_next cs 0
  rw [List.drop_zero] at hrem
  have := hl.unique (lists_remaining cs (closedOfAll cs 0) 0 0 hlen hrem)
  subst this
  obtain ⟨g, c, -, h1, h2, h3⟩ := (mem_closedOfAll cs 0 x).mp hx
  have hlt : x.2.zid < c.fsm.zones.length := by
    unfold FSM.isClosed at h2
    simp only [Bool.and_eq_true, decide_eq_true_eq] at h2
    omega
  have hget := List.getElem?_eq_getElem hlt
  generalize c.fsm.zones[x.2.zid] = zn at hget
  refine ⟨g, c, zn, h1, hget, ?_⟩
  unfold FSM.closedEntry at h3
  rw [hget, Option.getD_some] at h3
  rw [h3]
  exact ⟨rfl, rfl, rfl, rfl, rfl⟩

example : closedOfAll [(exGeo 3, exS.c), (exGeo 3, (Hist.init 3).c), (exGeo 3, exLeak.c)] 0 =
    [(0, ⟨6, 0, 10, 1, 2, 0⟩), (2, ⟨10, 0, 10, 1, 2, 0⟩)] := by decide +kernel

/-! ## C60 -/

/-- **C60**, in part.  From a pool whose clusters have any reachable state, after any
writes, completions of writes, frees, flushes and ends of transactions, if no write
failed and none is outstanding then the pool's used space is the sum of what the
clusters report.  Missing: writes that fail; see `C60_failed_write`. -/
theorem C60_pool_used_partial {gs : List Geo} {ns : List Nat} {hs : List Hist}
    (hreach : ∀ (ci : Nat) h, hs[ci]? = some h → ∃ g n, gs[ci]? = some g ∧ ns[ci]? = some n ∧ GeoOk g n ∧ Reachable g H n h)
    {ops : List POp} {s : PHist} (R : PRun gs H (PHist.new hs) ops s) (hnf : ∀ j, POp.fail j ∉ ops)
    (hdone : s.pend = []) : s.used = s.clustersUsed := by
  have G : PGood gs ns (PHist.new hs) := by
    intro ci h hh
    obtain ⟨g, n, h1, h2, geo, hr⟩ := hreach ci h hh
    exact ⟨g, n, h1, h2, geo, good_reachable geo hr⟩
  obtain ⟨G', e⟩ := pool_run R G hnf
  rw [clustersUsed_eq G']
  have h0 : (PHist.new hs).used = poolLive hs := by
    have h := clustersUsed_eq G
    have h' : (PHist.new hs).used = ((PHist.new hs).clustersUsed : Nat) := rfl
    rw [h', h]; rfl
  rw [hdone, h0] at e
  simp only [PHist.new, List.sum_nil] at e
  omega

/-- Runs a pool's calls. -/
def runP (gs : List Geo) (H : Nat → List ZoneOnDisk → Nat) : PHist → List POp → Option PHist
  | s, [] => some s
  | s, op :: ops => (pstep gs H s op).bind (fun s => runP gs H s ops)

example : (runP [exGeo 3, exGeo 3] exH (PHist.new [exS, Hist.init 3])
    [.write 1 5 2, .free 0 1, .done 0, .write 0 2 2, .done 0, .advance 0]).map (fun s => (s.used, s.clustersUsed, s.pend)) =
    some (11, 11, []) := by decide +kernel

/-- **C60 is violated** by a write that fails: its blocks stay allocated in the
cluster, which reports them as used, but the pool does not count them. -/
theorem C60_failed_write :
    (runP [exGeo 3] exH (PHist.new [Hist.init 3]) [.write 0 5 1, .fail 0]).map
      (fun s => (s.used, s.clustersUsed, s.pend)) = some (0, 5, []) := by decide +kernel

end Verif.Cluster
