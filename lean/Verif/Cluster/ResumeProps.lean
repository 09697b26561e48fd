import Verif.Cluster.Resume
import Verif.Cluster.RebuildProps
import Verif.Mirror.Props

/-!
# C83: a rebuild that is interrupted can be taken up again
-/

namespace Verif.Cluster

open Verif

variable {g : Geo} {n : Nat} {H : Nat → List ZoneOnDisk → Nat}

/-- A zone that a rebuild from transaction `l` on looks at, by the free-space map `f`: it is open,
or it is closed and its last transaction is not before `l`. -/
def Resumes (f : FSM) (l z : Nat) : Prop :=
  f.isOpen z = true ∨ f.isClosed z = true ∧ ∃ zn, f.zones[z]? = some zn ∧ l < zn.txgEnd

/-- A rebuild which starts at a time when the history of the cluster is `s`, its latest transaction
`T`, and the last free-space map on disk `disk`: the zones that are closed on disk are still
closed, with the same transactions, or free. -/
structure Begins (g : Geo) (H : Nat → List ZoneOnDisk → Nat) (n T : Nat) (s : TxgHist) (disk : FSM) : Prop where
  order : InOrder g H n T s
  small : T + 2 < TXG_MAX
  disk : ∀ z zn, disk.isClosed z = true → disk.zones[z]? = some zn → s.h.c.fsm.isDead z = true ∨
    s.h.c.fsm.isClosed z = true ∧ ∃ zn', s.h.c.fsm.zones[z]? = some zn' ∧ zn'.txgEnd = zn.txgEnd

theorem Begins.ready (geo : GeoOk g n) {T : Nat} {s : TxgHist} {disk : FSM} (h : Begins g H n T s disk) :
    Ready g n s.h T disk := by
  have I := dinv_inOrder geo h.order
  refine ⟨I.good, h.small, I.opened, closeds_inOrder geo h.order, ?_⟩
  intro z zn hv
  rcases h.disk z zn ((FSM.isClosed_view z).mpr ⟨zn, hv⟩) (FSM.view_closed hv).1 with h1 | ⟨h1, zn', h2, h3⟩
  · exact Or.inl ((FSM.isDead_view _ z).mp h1)
  · obtain ⟨zn2, hv2⟩ := (FSM.isClosed_view z).mp h1
    have := (FSM.view_closed hv2).1
    rw [h2] at this
    cases this
    exact Or.inr ⟨zn', hv2, h3⟩

/-- **C83, in part.**  At every point of a rebuild, whatever other calls came between its steps
(within `Calm`), a zone with data that the child lacks, written before or during the rebuild, is
one that a rebuild from the transaction on the child's label will look at: both by the free-space
map in memory (the pool is closed in order) and by the last one that was written (crash), if the
zone holds data according to that.

Missing: zones all of whose data is freed before they have been copied, see
`C83_reused_counterexample` and `C83_crash_counterexample`; transactions before the task's
`next_txg`, as in C31. -/
theorem C83_resumable_partial (geo : GeoOk g n) {T : Nat} {s : TxgHist} {disk : FSM} (hb : Begins g H n T s disk)
    {l : Nat} (hl : l ≤ T) {b : Bool} {r : LB} (hr : Rebuilding g H (Calm g H) (LB.start s.h T disk l) b r)
    {z : Nat} (hz : z ∈ r.need) (hd : z ∉ r.done) :
    Resumes r.h.c.fsm r.label z ∧
      (r.disk.isOpen z = true ∨ r.disk.isClosed z = true → Resumes r.disk r.label z) := by
  have I := rebuilding_inv geo (hb.ready geo) hl hr
  have key : Good g n r.h ∧ (r.h.c.fsm.view z ≠ .empty ∧ r.h.c.fsm.view z ≠ .dead) ∧
      (∀ zn, r.h.c.fsm.view z = .closed zn → r.label < zn.txgEnd) ∧
      (∀ z zn, r.disk.view z = .closed zn → r.h.c.fsm.view z = .dead ∨
        ∃ zn', r.h.c.fsm.view z = .closed zn' ∧ zn'.txgEnd = zn.txgEnd) := by
    cases b with
    | false =>
      obtain ⟨T0, I⟩ := I
      exact ⟨I.good, I.held z hz hd, I.lab z hz hd, I.disk⟩
    | true => exact ⟨I.good, I.listed z (I.sub z hz hd), I.lab z hz hd, I.disk⟩
  obtain ⟨G, ⟨h1, h2⟩, h3, h4⟩ := key
  refine ⟨?_, ?_⟩
  · cases hv : r.h.c.fsm.view z with
    | empty => exact absurd hv h1
    | dead => exact absurd hv h2
    | opn zn oz => exact Or.inl ((FSM.isOpen_view G.wf z).mpr ⟨zn, oz, hv⟩)
    | closed zn =>
      exact Or.inr ⟨(FSM.isClosed_view z).mpr ⟨zn, hv⟩, zn, (FSM.view_closed hv).1, h3 zn hv⟩
  · rintro (h | h)
    · exact Or.inl h
    · obtain ⟨zn, hv⟩ := (FSM.isClosed_view z).mp h
      rcases h4 z zn hv with h5 | ⟨zn', h5, h6⟩
      · exact absurd h5 h2
      · exact Or.inr ⟨h, zn, (FSM.view_closed hv).1, by have := h3 zn' h5; omega⟩

/-- A rebuild from transaction `l` on does look at such a zone. -/
theorem C83_resumes (h : Hist) (l z : Nat) (now : Nat) (disk : FSM) (hl : l < TXG_MAX) (hwf : h.c.fsm.WF) :
    z ∈ (LB.start h now disk l).need ↔ Resumes h.c.fsm l z := by
  simp only [LB.start, mem_contains, Resumes]
  constructor
  · rintro ⟨-, ⟨zn, hv, he⟩ | ⟨zn, oz, hv⟩⟩
    · exact Or.inr ⟨(FSM.isClosed_view z).mpr ⟨zn, hv⟩, zn, (FSM.view_closed hv).1, he⟩
    · exact Or.inl ((FSM.isOpen_view hwf z).mpr ⟨zn, oz, hv⟩)
  · rintro (h1 | ⟨h1, zn, h2, h3⟩)
    · obtain ⟨zn, oz, hv⟩ := (FSM.isOpen_view hwf z).mp h1
      exact ⟨hl, Or.inr ⟨zn, oz, hv⟩⟩
    · obtain ⟨zn', hv⟩ := (FSM.isClosed_view z).mp h1
      have := (FSM.view_closed hv).1
      rw [h2] at this
      cases this
      exact ⟨hl, Or.inl ⟨zn, hv, h3⟩⟩

/-- **C83, in part.**  No step of such a rebuild panics, and the label never names a transaction
after the latest.  Missing: as above, see `C83_panic_counterexample` and
`C83_ahead_counterexample`. -/
theorem C83_step_partial (geo : GeoOk g n) {T : Nat} {s : TxgHist} {disk : FSM} (hb : Begins g H n T s disk)
    {l : Nat} (hl : l ≤ T) {b : Bool} {r : LB} (hr : Rebuilding g H (Calm g H) (LB.start s.h T disk l) b r) :
    r.label ≤ r.now ∧ ∃ r' more, r.repair b = some (r', more) := by
  have I := rebuilding_inv geo (hb.ready geo) hl hr
  cases b with
  | false =>
    obtain ⟨T0, I⟩ := I
    obtain ⟨r', b, T0', h1, -⟩ := jinv_repair I
    exact ⟨I.labNow, r', b, h1⟩
  | true =>
    obtain ⟨r', b, h1, -⟩ := kinv_repair (I : KInv g n r)
    exact ⟨KInv.labNow I, r', b, h1⟩

/-- **C83, in part** (and C31 for what is written during the rebuild).  When the last step has
reported the end, every zone with data that was missing when the rebuild started or that was
written since has been copied after the last write to it.  Missing: as above. -/
theorem C83_complete_partial (geo : GeoOk g n) {T : Nat} {s : TxgHist} {disk : FSM} (hb : Begins g H n T s disk)
    {l : Nat} (hl : l ≤ T) {r r' : LB} (hr : Rebuilding g H (Calm g H) (LB.start s.h T disk l) true r)
    (he : r.repair true = some (r', false)) : ∀ z ∈ r'.need, z ∈ r'.done := by
  have I : KInv g n r := rebuilding_inv geo (hb.ready geo) hl hr
  obtain ⟨r2, b, h1, h2, h3⟩ := kinv_repair I
  rw [he] at h1
  cases h1
  intro z hz
  by_cases hd : z ∈ r'.done
  · exact hd
  · have := h2.sub z hz hd
    rw [h3 rfl] at this
    cases this

/-! ### A case that meets the hypotheses -/

/-- Runs calls, keeping the log. -/
def runHist (g : Geo) (H : Nat → List ZoneOnDisk → Nat) : TxgHist → List Op → Option TxgHist
  | s, [] => some s
  | s, op :: ops => (txgStep g H s op).bind fun s => runHist g H s ops

/-- Four closed zones and an open one; the zones are filled by transactions 1 to 5. -/
def exQ : TxgHist :=
  (runHist (exGeo 7) exH ⟨Hist.init 7, []⟩ [.write 8 1, .write 8 2, .write 8 3, .write 8 4, .write 8 5]).getD ⟨Hist.init 7, []⟩

theorem exQ_order : InOrder (exGeo 7) exH 7 5 exQ := by
  have w : ∀ {s : Hist} {t : Nat}, t < 10 → (Op.write 8 t).Legal s := fun h => ⟨by omega, by unfold TXG_MAX; omega⟩
  exact .step (op := .write 8 5) (.step (op := .write 8 4) (.step (op := .write 8 3) (.step (op := .write 8 2)
    (.step (op := .write 8 1) .init (w (by omega)) (by decide) (by rfl)) (w (by omega)) (by decide) (by rfl))
    (w (by omega)) (by decide) (by rfl)) (w (by omega)) (by decide) (by rfl)) (w (by omega)) (by decide) (by rfl)

theorem begins_now {T : Nat} {s : TxgHist} (h : InOrder g H n T s) (hT : T + 2 < TXG_MAX) :
    Begins g H n T s s.h.c.fsm :=
  ⟨h, hT, fun z zn h1 h2 => Or.inr ⟨h1, zn, h2, rfl⟩⟩

/-- The start of the rebuild of a child that has everything up to transaction 1. -/
def exQ0 : LB := LB.start exQ.h 5 exQ.h.c.fsm 1

/-- Runs calls and steps. -/
def runLB (g : Geo) (H : Nat → List ZoneOnDisk → Nat) : LB → List (Sum Op Bool) → Option LB
  | r, [] => some r
  | r, .inl op :: es => (r.env g H op).bind fun r => runLB g H r es
  | r, .inr b :: es => (r.repair b).bind fun x => runLB g H x.1 es

/-- The state after the first `k` of these calls and steps. -/
def exAt (r0 : LB) (es : List (Sum Op Bool)) (k : Nat) : LB := (runLB (exGeo 7) exH r0 (es.take k)).getD r0

/-- The rebuild copies two zones, a write closes zone 4 and opens zone 5, and it goes on.  A new
list, of zone 4, follows; then the pool is locked. -/
def exEs : List (Sum Op Bool) :=
  [.inr false, .inr false, .inl (.write 8 8), .inr false, .inr false, .inr false, .inr false, .inr false,
    .inr true, .inr true, .inr true]

/-- When the first list has been done, the label has reached transaction 3, with zones 4 and 5 still
to do. -/
example : ((fun r => (r.label, r.done, r.need, r.t.zones, r.t.nextTxg)) (exAt exQ0 exEs 5)) =
    (3, [3, 2, 1, 0], [5, 0, 1, 2, 3, 4], [], 7) := by
  decide +kernel

example : ((fun r => (r.label, r.done, r.need, r.t.zones)) (exAt exQ0 exEs 11)) =
    (3, [5, 4, 3, 2, 1, 0], [5, 0, 1, 2, 3, 4], []) := by
  decide +kernel

theorem exQ0_mid : Rebuilding (exGeo 7) exH (Calm (exGeo 7) exH) exQ0 false (exAt exQ0 exEs 5) := by
  have h2 : Rebuilding (exGeo 7) exH (Calm (exGeo 7) exH) exQ0 false (exAt exQ0 exEs 2) :=
    .closed (r := exAt exQ0 exEs 1) (.closed .start (by rfl)) (by rfl)
  have h3 : Rebuilding (exGeo 7) exH (Calm (exGeo 7) exH) exQ0 false (exAt exQ0 exEs 3) :=
    .env (op := .write 8 8) h2 ⟨by omega, by unfold TXG_MAX; omega⟩
      ⟨by decide +kernel, by decide +kernel, by unfold TXG_MAX; omega⟩ (by rfl)
  exact .closed (r := exAt exQ0 exEs 4) (.closed h3 (by rfl)) (by rfl)

/-- A case that meets the hypotheses of `C83_resumable_partial`, with a zone that is open in memory
but not on disk and one that is closed in memory and open on disk. -/
example : Begins (exGeo 7) exH 7 5 exQ exQ.h.c.fsm ∧
    Rebuilding (exGeo 7) exH (Calm (exGeo 7) exH) exQ0 false (exAt exQ0 exEs 5) ∧
    4 ∈ (exAt exQ0 exEs 5).need ∧ 4 ∉ (exAt exQ0 exEs 5).done ∧
    (exAt exQ0 exEs 5).h.c.fsm.isClosed 4 = true ∧ (exAt exQ0 exEs 5).disk.isOpen 4 = true ∧
    5 ∈ (exAt exQ0 exEs 5).need ∧ 5 ∉ (exAt exQ0 exEs 5).done :=
  ⟨begins_now exQ_order (by unfold TXG_MAX; omega), exQ0_mid, by decide +kernel⟩

/-- A case that meets those of `C83_complete_partial`. -/
example : ∃ r', Rebuilding (exGeo 7) exH (Calm (exGeo 7) exH) exQ0 true (exAt exQ0 exEs 10) ∧
    (exAt exQ0 exEs 10).repair true = some (r', false) ∧ r'.need = [5, 0, 1, 2, 3, 4] := by
  have h7 : Rebuilding (exGeo 7) exH (Calm (exGeo 7) exH) exQ0 false (exAt exQ0 exEs 7) :=
    .closed (r := exAt exQ0 exEs 6) (.closed exQ0_mid (by rfl)) (by rfl)
  exact ⟨exAt exQ0 exEs 11, .locked (r := exAt exQ0 exEs 9) (.lock (r' := exAt exQ0 exEs 8) h7 (by rfl) (by rfl)) (by rfl),
    by rfl, by decide +kernel⟩

/-! ### What the code does not do -/

/-- The calls and steps of a rebuild that the code allows; both lists are checked to be possible. -/
def runOrder (g : Geo) (H : Nat → List ZoneOnDisk → Nat) (n : Nat) (ops : List Op) : TxgHist :=
  (runHist g H ⟨Hist.init n, []⟩ ops).getD ⟨Hist.init n, []⟩

def atEv (g : Geo) (r0 : LB) (es : List (Sum Op Bool)) (k : Nat) : LB := (runLB g exH r0 (es.take k)).getD r0

/-- A flush that pads nothing is legal. -/
theorem flush_legal {s : Hist} (h : ∀ e ∈ s.c.fsm.opn, ∀ zn ∈ s.c.fsm.zones, e.2.allocated ≤ zn.total) :
    (Op.flush fun _ => 0).Legal s := by
  intro z zn oz h1 h2
  exact h (z, oz) (OMap.mem_of_get h2) zn (List.mem_of_getElem? h1)

/-- A pool of four zones is full; no zone is open. -/
def exFull : TxgHist :=
  runOrder (exGeo 4) exH 4 [.write 8 1, .write 8 2, .write 8 3, .write 8 4, .write 8 5]

theorem exFull_order : InOrder (exGeo 4) exH 4 5 exFull := by
  have w : ∀ {s : Hist} {t : Nat}, t < 10 → (Op.write 8 t).Legal s := fun h => ⟨by omega, by unfold TXG_MAX; omega⟩
  exact .step (op := .write 8 5) (.step (op := .write 8 4) (.step (op := .write 8 3) (.step (op := .write 8 2)
    (.step (op := .write 8 1) .init (w (by omega)) (by decide) (by rfl)) (w (by omega)) (by decide) (by rfl))
    (w (by omega)) (by decide) (by rfl)) (w (by omega)) (by decide) (by rfl)) (w (by omega)) (by decide) (by rfl)

def exReuse0 : LB := LB.start exFull.h 5 exFull.h.c.fsm 0

/-- The record in zone 1 is freed and transaction 5 committed.  In transaction 6 zone 1 is used
again.  Then the rebuild copies zone 0. -/
def exReuse : List (Sum Op Bool) :=
  [.inl (.free 1), .inl (.flush fun _ => 0), .inl .advance, .inl (.write 8 6), .inr false]

/-- **C83 is violated.**  The next zone of the list has been erased and used again meanwhile.  The
label is set by when it was used again, although zones with older data that come after it on the
list have not been copied.  If the pool is now closed or crashes, the next rebuild leaves out
zone 2, on disk and in memory closed, with data that the child lacks. -/
theorem C83_reused_counterexample :
    Begins (exGeo 4) exH 4 5 exFull exFull.h.c.fsm ∧
    ∃ r, Rebuilding (exGeo 4) exH Plain exReuse0 false r ∧ 2 ∈ r.need ∧ 2 ∉ r.done ∧
      r.h.c.fsm.isClosed 2 = true ∧ r.disk.isClosed 2 = true ∧
      ¬ Resumes r.h.c.fsm r.label 2 ∧ ¬ Resumes r.disk r.label 2 := by
  refine ⟨begins_now exFull_order (by unfold TXG_MAX; omega), atEv (exGeo 4) exReuse0 exReuse 5, ?_, ?_⟩
  · have h1 : Rebuilding (exGeo 4) exH Plain exReuse0 false (atEv (exGeo 4) exReuse0 exReuse 1) :=
      .env (op := .free 1) .start ⟨_, rfl, rfl⟩ trivial (by rfl)
    have h2 : Rebuilding (exGeo 4) exH Plain exReuse0 false (atEv (exGeo 4) exReuse0 exReuse 2) :=
      .env (op := .flush fun _ => 0) h1 (flush_legal (by decide +kernel)) trivial (by rfl)
    have h3 : Rebuilding (exGeo 4) exH Plain exReuse0 false (atEv (exGeo 4) exReuse0 exReuse 3) :=
      .env (op := .advance) h2 trivial (fun _ h => h) (by rfl)
    have h4 : Rebuilding (exGeo 4) exH Plain exReuse0 false (atEv (exGeo 4) exReuse0 exReuse 4) :=
      .env (op := .write 8 6) h3 ⟨by omega, by unfold TXG_MAX; omega⟩
        ⟨by decide +kernel, by unfold TXG_MAX; omega⟩ (by rfl)
    exact .closed h4 (by rfl)
  · refine ⟨by decide +kernel, by decide +kernel, by decide +kernel, by decide +kernel, ?_, ?_⟩
    · rintro (h | ⟨-, zn, h1, h2⟩)
      · revert h; decide +kernel
      · revert h2
        have h3 : ∀ zn ∈ (atEv (exGeo 4) exReuse0 exReuse 5).h.c.fsm.zones[2]?,
          ¬ (atEv (exGeo 4) exReuse0 exReuse 5).label < zn.txgEnd := by decide +kernel
        exact h3 zn h1
    · rintro (h | ⟨-, zn, h1, h2⟩)
      · revert h; decide +kernel
      · revert h2
        have h3 : ∀ zn ∈ (atEv (exGeo 4) exReuse0 exReuse 5).disk.zones[2]?,
          ¬ (atEv (exGeo 4) exReuse0 exReuse 5).label < zn.txgEnd := by decide +kernel
        exact h3 zn h1

/-- Zones 1 and 2 are closed and zone 0, used for the second time, is open. -/
def exLow : TxgHist :=
  runOrder (exGeo 3) exH 3 [.write 8 1, .write 8 2, .write 8 3, .free 0, .advance, .write 8 4]

theorem exLow_order : InOrder (exGeo 3) exH 3 4 exLow := by
  have w : ∀ {s : Hist} {t : Nat}, t < 10 → (Op.write 8 t).Legal s := fun h => ⟨by omega, by unfold TXG_MAX; omega⟩
  exact .step (op := .write 8 4) (.step (op := .advance) (.step (op := .free 0) (.step (op := .write 8 3)
    (.step (op := .write 8 2) (.step (op := .write 8 1) .init (w (by omega)) (by decide) (by rfl))
    (w (by omega)) (by decide) (by rfl)) (w (by omega)) (by decide) (by rfl)) ⟨_, rfl, rfl⟩ (by decide) (by rfl))
    trivial (by decide) (by rfl)) (w (by omega)) (by decide) (by rfl)

def exLow0 : LB := LB.start exLow.h 4 exLow.h.c.fsm 1

def exPanic : List (Sum Op Bool) := [.inl (.free 1), .inl (.flush fun _ => 0), .inl .advance]

/-- **C83 is violated.**  The next zone of the list is the last zone in use, its data is freed and
it is erased: the free-space map forgets it, and the step, which looks it up, panics. -/
theorem C83_panic_counterexample :
    Begins (exGeo 3) exH 3 4 exLow exLow.h.c.fsm ∧
    ∃ r, Rebuilding (exGeo 3) exH Plain exLow0 false r ∧ r.repair false = none := by
  refine ⟨begins_now exLow_order (by unfold TXG_MAX; omega), atEv (exGeo 3) exLow0 exPanic 3, ?_, by rfl⟩
  have h1 : Rebuilding (exGeo 3) exH Plain exLow0 false (atEv (exGeo 3) exLow0 exPanic 1) :=
    .env (op := .free 1) .start ⟨_, rfl, rfl⟩ trivial (by rfl)
  have h2 : Rebuilding (exGeo 3) exH Plain exLow0 false (atEv (exGeo 3) exLow0 exPanic 2) :=
    .env (op := .flush fun _ => 0) h1 (flush_legal (by decide +kernel)) trivial (by rfl)
  exact .env (op := .advance) h2 trivial (fun _ h => h) (by rfl)

def exCrash : List (Sum Op Bool) := [.inl (.free 0), .inr false, .inr false, .inr false]

/-- **C83 is violated.**  The data of zone 0 is freed by a transaction that is not committed.  The
rebuild does not copy it, and the label moves on to transaction 3.  A crash at this point brings
the data back, but the next rebuild leaves it out. -/
theorem C83_crash_counterexample :
    Begins (exGeo 7) exH 7 5 exQ exQ.h.c.fsm ∧
    ∃ r, Rebuilding (exGeo 7) exH Plain exQ0 false r ∧ 0 ∈ r.need ∧ 0 ∉ r.done ∧
      r.disk.isClosed 0 = true ∧ ¬ Resumes r.disk r.label 0 := by
  refine ⟨begins_now exQ_order (by unfold TXG_MAX; omega), atEv (exGeo 7) exQ0 exCrash 4, ?_, ?_⟩
  · have h1 : Rebuilding (exGeo 7) exH Plain exQ0 false (atEv (exGeo 7) exQ0 exCrash 1) :=
      .env (op := .free 0) .start ⟨_, rfl, rfl⟩ trivial (by rfl)
    exact .closed (r := atEv (exGeo 7) exQ0 exCrash 3) (.closed (r := atEv (exGeo 7) exQ0 exCrash 2)
      (.closed h1 (by rfl)) (by rfl)) (by rfl)
  · refine ⟨by decide +kernel, by decide +kernel, by decide +kernel, ?_⟩
    rintro (h | ⟨-, zn, h1, h2⟩)
    · revert h; decide +kernel
    · revert h2
      have h3 : ∀ zn ∈ (atEv (exGeo 7) exQ0 exCrash 4).disk.zones[0]?,
        ¬ (atEv (exGeo 7) exQ0 exCrash 4).label < zn.txgEnd := by decide +kernel
      exact h3 zn h1

/-- The same pool of four zones before the write that finds it full. -/
def exFull4 : TxgHist := runOrder (exGeo 4) exH 4 [.write 8 1, .write 8 2, .write 8 3, .write 8 4]

def exAhead0 : LB := LB.start exFull.h 5 exFull4.h.c.fsm 0

def exAhead : List (Sum Op Bool) := [.inr false, .inr false, .inr false, .inr false]

/-- **C83 is violated.**  Transaction 5 closes the last open zone, because the pool is full, and has
not been committed.  The label of the child is set to 5, which is ahead of the other disks' labels.
After a crash the mirror takes the child that has been rebuilt in part as the one with the data,
and rebuilds the good disk from it. -/
theorem C83_ahead_counterexample :
    Begins (exGeo 4) exH 4 5 exFull exFull4.h.c.fsm ∧
    ∃ r, Rebuilding (exGeo 4) exH Plain exAhead0 false r ∧
      ∀ a b size lpz, a ≠ b →
        Mirror.openMirror [⟨a, size, lpz, 4, [a, b]⟩, ⟨b, size, lpz, r.label, [a, b]⟩] =
          some (.ok ([⟨a, .rebuilding, size, lpz⟩, ⟨b, .present, size, lpz⟩], ⟨b, size, lpz, r.label, [a, b]⟩)) := by
  refine ⟨⟨exFull_order, by unfold TXG_MAX; omega, ?_⟩, atEv (exGeo 4) exAhead0 exAhead 4, ?_, ?_⟩
  · have key : ∀ z < 4, ∀ zn ∈ exFull4.h.c.fsm.zones[z]?, exFull4.h.c.fsm.isClosed z = true →
        exFull.h.c.fsm.isClosed z = true ∧ exFull.h.c.fsm.zones[z]? = some zn := by decide +kernel
    intro z zn h1 h2
    have hz : z < 4 := by
      have h3 : exFull4.h.c.fsm.zones.length = 4 := by decide +kernel
      have := (List.getElem?_eq_some_iff.mp h2).1
      omega
    obtain ⟨h3, h4⟩ := key z hz zn h2 h1
    exact Or.inr ⟨h3, zn, h4, rfl⟩
  · exact .closed (r := atEv (exGeo 4) exAhead0 exAhead 3) (.closed (r := atEv (exGeo 4) exAhead0 exAhead 2)
      (.closed (r := atEv (exGeo 4) exAhead0 exAhead 1) (.closed .start (by rfl)) (by rfl)) (by rfl)) (by rfl)
  · intro a b size lpz hab
    have hl : (atEv (exGeo 4) exAhead0 exAhead 4).label = 5 := by decide +kernel
    rw [hl]
    simp [Mirror.openMirror, Mirror.labelLeaf, Mirror.highestTxg, Mirror.openChild, Mirror.new, Mirror.Child.isPresent, hab]

/-- **The sync does not reach the disk.**  The label of the rebuilding child is written after a
sync that is to put the copied data on the disk first, cluster.rs:1186-1193.  The sync is sent to
the children in service only, the label to the others only. -/
theorem C83_not_synced (m : Mirror.Mirror) (i : Nat) (h : i ∈ Mirror.targets m (.writeLabel true)) :
    i ∉ Mirror.targets m .syncAll := by
  unfold Mirror.targets at *
  rw [List.mem_filter] at *
  rintro ⟨-, h2⟩
  have h1 := h.2
  cases hc : m[i]? with
  | none => rw [hc] at h1; cases h1
  | some c =>
    rw [hc] at h1 h2
    simp [Mirror.Child.takes, Mirror.Child.isPresent] at h1 h2
    simp [Mirror.Child.isRebuilding, h2] at h1

example : Mirror.targets [⟨1, .present, 9, 9⟩, ⟨2, .rebuilding, 9, 9⟩] (.writeLabel true) = [1] ∧
    Mirror.targets [⟨1, .present, 9, 9⟩, ⟨2, .rebuilding, 9, 9⟩] .syncAll = [0] := by
  decide

end Verif.Cluster
