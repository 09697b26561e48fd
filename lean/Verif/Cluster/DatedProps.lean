import Verif.Cluster.Dated
import Verif.Cluster.Props
import Verif.Tree.CleanProps

/-!
# C65: the transactions recorded for a zone cover everything written to it
-/

namespace Verif.Cluster

open Verif

variable {g : Geo} {n : Nat} {H : Nat → List ZoneOnDisk → Nat}

/-- C65.  Whatever happened to a cluster, as long as each write is in a transaction no earlier
than those of the writes before it: every closed zone that `find_closed_zone` reports comes with a
range of transactions that includes those of all writes whose blocks lie in the zone. -/
theorem C65_zone_txgs_partial (geo : GeoOk g n) {T : Nat} {s : TxgHist} (hs : InOrder g H n T s)
    {z : Nat} {cz : ClosedZone} (hz : s.h.c.findClosed g z = some cz) {lba txg : Nat}
    (hx : (lba, txg) ∈ s.log) (hin : cz.start ≤ lba ∧ lba < cz.start + cz.total) :
    cz.txgStart ≤ txg ∧ txg < cz.txgEnd := by
  have I := dinv_inOrder geo hs
  obtain ⟨k, hk, rfl⟩ := Option.map_eq_some_iff.mp hz
  have hc : s.h.c.fsm.isClosed k = true := by
    unfold FSM.findClosed at hk
    split at hk
    · cases hk
    · have h1 := List.find?_some hk
      have h2 := List.mem_of_find?_eq_some hk
      simp only [List.mem_range'_1] at h2
      simp only [Bool.and_eq_true, Bool.not_eq_eq_eq_not, Bool.not_true] at h1
      simp only [FSM.isClosed, Bool.and_eq_true, decide_eq_true_eq]
      refine ⟨⟨by omega, ?_⟩, ?_⟩
      · cases h : s.h.c.fsm.empty.get k <;> simp_all
      · cases h : s.h.c.fsm.opn.get k <;> simp_all
  obtain ⟨zn, hv⟩ := (FSM.isClosed_view k).mp hc
  have hzn := (FSM.view_closed hv).1
  have hlt : k < n := I.good.inv.lt (by rw [hv]; simp)
  have hZ := I.good.inv.zone k hlt
  rw [hv] at hZ
  simp only [FSM.closedEntry, hzn, Option.getD_some] at hin ⊢
  have hsz := geo.size k hlt
  have hzone : g.lba2zone lba = some k := (geo.zone lba k).mpr ⟨hlt, hin.1, by have := hZ.1; omega⟩
  have := I.covers _ hx k hzone
  rw [hv] at this
  exact this

/-- What `IDML::clean_zone` passes on to the trees, `idml.rs:200, 222-240`. -/
def ClosedZone.toTree (cz : ClosedZone) : Tree.Zone :=
  { pbaLo := cz.start, pbaHi := cz.start + cz.total, txgLo := cz.txgStart, txgHi := cz.txgEnd }

/-- C65.  So the condition of C64 is met: if the nodes of a tree were all written to the cluster,
each in the transaction of its address, then the zone is cleaned with the right transactions. -/
theorem C65_recorded_partial (geo : GeoOk g n) {T : Nat} {s : TxgHist} (hs : InOrder g H n T s)
    {z : Nat} {cz : ClosedZone} (hz : s.h.c.findClosed g z = some cz) {V : Type} {t : Tree.Tree V}
    (ht : ∀ a ∈ t.addrs, (a.pba, a.txg) ∈ s.log) : cz.toTree.Recorded t := by
  intro a ha hh
  simp only [Tree.Zone.holds, ClosedZone.toTree, Bool.and_eq_true] at hh
  exact C65_zone_txgs_partial geo hs hz (ht a ha) ⟨of_decide_eq_true hh.1, of_decide_eq_true hh.2⟩

/-! ## A concrete case -/

/-- A history in order: zone 0 is closed, freed and erased, and then zone 1 is closed. -/
def datedOps : List Op :=
  [.write 4 1, .write 4 2, .write 8 3, .free 0, .free 1, .advance, .reload, .write 2 4, .write 3 5]

/-- The state after a history. -/
def runTxg (g : Geo) (H : Nat → List ZoneOnDisk → Nat) : TxgHist → List Op → Option TxgHist
  | s, [] => some s
  | s, op :: ops => (txgStep g H s op).bind fun s => runTxg g H s ops

/-- Whether a call is legal and in order, for calls other than flushes. -/
def okTxg (T : Nat) (s : TxgHist) : Op → Bool
  | .write space txg => decide (0 < space ∧ txg ≤ TXG_MAX ∧ T ≤ txg)
  | .free i => match s.h.recs[i]? with
    | some r => r.live
    | none => false
  | .flush _ => false
  | _ => true

def okTxgs (g : Geo) (H : Nat → List ZoneOnDisk → Nat) : Nat → TxgHist → List Op → Bool
  | _, _, [] => true
  | T, s, op :: ops => okTxg T s op && match txgStep g H s op with
    | some s => okTxgs g H (op.txg T) s ops
    | none => false

theorem inOrder_run : ∀ (ops : List Op) {T : Nat} {s : TxgHist}, InOrder g H n T s →
    okTxgs g H T s ops = true →
    ∃ T' s', runTxg g H s ops = some s' ∧ InOrder g H n T' s'
  | [], T, s, h, _ => ⟨T, s, rfl, h⟩
  | op :: ops, T, s, h, hok => by
    simp only [okTxgs, Bool.and_eq_true] at hok
    obtain ⟨h1, h2⟩ := hok
    cases hs : txgStep g H s op with
    | none => rw [hs] at h2; cases h2
    | some s' =>
      rw [hs] at h2
      have hl : op.Legal s.h ∧ T ≤ op.txg T := by
        cases op with
        | write space txg =>
          have := of_decide_eq_true h1
          exact ⟨⟨this.1, this.2.1⟩, this.2.2⟩
        | free i =>
          simp only [okTxg] at h1
          split at h1
          · next r hr => exact ⟨⟨r, hr, h1⟩, Nat.le_refl _⟩
          · cases h1
        | flush => cases h1
        | advance => exact ⟨trivial, Nat.le_refl _⟩
        | reload => exact ⟨trivial, Nat.le_refl _⟩
      obtain ⟨T', s'', h3, h4⟩ := inOrder_run ops (.step h hl.1 hl.2 hs) h2
      exact ⟨T', s'', by simp only [runTxg, hs, Option.bind_some]; exact h3, h4⟩

def datedS : TxgHist := (runTxg (exGeo 3) exH ⟨Hist.init 3, []⟩ datedOps).getD ⟨Hist.init 3, []⟩

theorem datedS_inOrder : ∃ T, InOrder (exGeo 3) exH 3 T datedS := by
  obtain ⟨T, s, h1, h2⟩ := inOrder_run (g := exGeo 3) (H := exH) datedOps (.init (n := 3))
    (by decide +kernel)
  exact ⟨T, by unfold datedS; rw [h1]; exact h2⟩

/-- Zone 1 holds blocks of transactions 3 and 4, and the next one closed it. -/
theorem datedS_closed : datedS.log = [(10, 3), (18, 4), (0, 5)] ∧
    datedS.h.c.findClosed (exGeo 3) 0 = some ⟨0, 10, 10, 3, 6, 1⟩ := by decide +kernel

example : 3 ≤ 4 ∧ 4 < 6 := by
  obtain ⟨T, h⟩ := datedS_inOrder
  exact C65_zone_txgs_partial (exGeo_ok 3) h datedS_closed.2 (lba := 18) (txg := 4)
    (by rw [datedS_closed.1]; decide) (by decide)

/-- A tree with one node, which is the block at 18. -/
example : (ClosedZone.toTree ⟨0, 10, 10, 3, 6, 1⟩).Recorded
    (⟨0, { start := 4, stop := 5, addr := some ⟨18, 4⟩, mark := false }, [(7, (70 : Nat))]⟩ : Tree.Tree Nat) := by
  obtain ⟨T, h⟩ := datedS_inOrder
  exact C65_recorded_partial (exGeo_ok 3) h datedS_closed.2
    (by rw [datedS_closed.1]; decide)

/-! ## Where the property fails -/

/-- The writes of a cleaner that was given transaction 2 and goes on with it in transaction 3. -/
def staleOps : List Op := [.write 1 3, .write 1 3, .write 1 3, .write 8 2]

def staleS : TxgHist := (runTxg (exGeo 3) exH ⟨Hist.init 3, []⟩ staleOps).getD ⟨Hist.init 3, []⟩

/-- C65 fails if a write uses an earlier transaction than one before it: the zone which it closes
is reported with a range of transactions that leaves out its own blocks.  The cleaner does such
writes: `cleaner.rs:47-52` passes the number of the current transaction to `clean_zone` and lets
go of the guard that keeps the transaction from ending as soon as the future has been made, before
it has run. -/
theorem C65_stale_txg_counterexample : ∃ cz lba txg,
    runTxg (exGeo 3) exH ⟨Hist.init 3, []⟩ staleOps = some staleS ∧
      staleS.h.c.findClosed (exGeo 3) 0 = some cz ∧ (lba, txg) ∈ staleS.log ∧
      cz.start ≤ lba ∧ lba < cz.start + cz.total ∧ ¬(cz.txgStart ≤ txg ∧ txg < cz.txgEnd) := by
  refine ⟨⟨7, 0, 10, 3, 3, 0⟩, 0, 3, by rfl, ?_⟩
  decide +kernel

/-- A tree whose nodes are the first three blocks of `staleOps`. -/
def staleTree : Tree.Tree Nat :=
  (Tree.runS Tree.cleanL false Tree.Tree.empty
    [.insert 3 0 0, .insert 3 1 1, .insert 3 2 2, .flush 3 0]).getD Tree.Tree.empty

/-- As a consequence, cleaning that zone panics: its nodes are not within the transactions
reported for it. -/
theorem C65_stale_txg_panics : ∃ cz, staleS.h.c.findClosed (exGeo 3) 0 = some cz ∧
    Tree.Reached Tree.cleanL false 3 staleTree ∧
    (∀ a ∈ staleTree.addrs, (a.pba, a.txg) ∈ staleS.log) ∧
    Tree.evStep Tree.cleanL false (staleTree, Tree.Job.start cz.toTree staleTree) .look = none := by
  refine ⟨⟨7, 0, 10, 3, 3, 0⟩, by decide +kernel, ?_, by decide +kernel, by decide +kernel⟩
  obtain ⟨rs, h⟩ := Tree.runS_run (L := Tree.cleanL) (seq := false) (t := Tree.Tree.empty)
    (ops := [.insert 3 0 0, .insert 3 1 1, .insert 3 2 2, .flush 3 0]) (by decide +kernel)
  exact Tree.reached_run _ .empty (by decide +kernel) h

end Verif.Cluster
