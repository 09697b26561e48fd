import Verif.Cluster.Rebuild
import Verif.Cluster.Props

/-! # C31 -/

namespace Verif.Cluster

open Verif

variable {g : Geo} {n : Nat} {H : Nat → List ZoneOnDisk → Nat}

/-- **C31**, in part.  Whatever else happens to the cluster during a rebuild (writes,
frees, flushes and ends of transactions between any two of its steps), if every write
that can close a zone is in a transaction not before the task's `next_txg`, then at the
end of the rebuild every zone that may hold data the child missed (it is closed and its
last transaction is after `s`, or it is open) has been repaired, unless all its data
has been freed or the zone has been erased meanwhile.  Missing: zones that were open at
the start and are closed during the rebuild in an earlier transaction; see
`C31_zone_missed`. -/
theorem C31_rebuild_complete_partial (geo : GeoOk g n) {h : Hist} (hr : Reachable g H n h) {s : Nat}
    (hsmall : ∀ z zn, h.c.fsm.isClosed z = true → h.c.fsm.zones[z]? = some zn → zn.txgEnd + 1 < TXG_MAX)
    {r1 r2 : RB} (h1 : Phase1 g H Late (RB.start h s) r1) (h2 : Phase2 r1 r2) :
    ∀ z ∈ r2.need, z ∈ r2.done ∨ r2.h.c.fsm.isDead z = true := by
  have I := rinv_start (good_reachable geo hr) (fun z zn hv => hsmall z zn ((FSM.isClosed_view z).mpr ⟨zn, hv⟩)
    (FSM.view_closed hv).1) s
  obtain ⟨F, h0⟩ := phase2_fin h2 (phase1_inv geo h1 I) (phase1_done h1)
  intro z hz
  rcases F.cov z hz with h | h | h
  · exact Or.inl h
  · rw [h0] at h; cases h
  · exact Or.inr ((FSM.isDead_view _ z).mpr h)

/-- What is to be repaired is what may hold data of transactions from `s` on; only the
end of a transaction, by erasing a zone, takes something off that list. -/
theorem C31_need_start (h : Hist) (s z : Nat) :
    z ∈ (RB.start h s).need ↔ z < h.c.fsm.zones.length ∧ s < TXG_MAX ∧
      ((h.c.fsm.isClosed z = true ∧ ∃ zn, h.c.fsm.zones[z]? = some zn ∧ s < zn.txgEnd) ∨
       ((h.c.fsm.empty.get z).isSome = false ∧ h.c.fsm.isOpen z = true)) := by
  unfold RB.start FSM.contains FSM.isClosed FSM.isOpen
  simp only [List.mem_filter, List.mem_range, Bool.and_eq_true, Bool.or_eq_true, Bool.not_eq_true', decide_eq_true_eq]
  constructor
  · rintro ⟨h1, ⟨h2, h3⟩, h4⟩
    refine ⟨h1, h3, ?_⟩
    rw [List.getElem?_eq_getElem h1] at h4 ⊢
    cases ho : h.c.fsm.opn.get z with
    | some oz => exact Or.inr ⟨h2, rfl⟩
    | none =>
      rw [ho] at h4
      rcases h4 with h4 | h4
      · exact Or.inl ⟨⟨⟨h1, by simpa using h2⟩, rfl⟩, _, rfl, by simpa using h4⟩
      · cases h4
  · rintro ⟨h1, h3, ⟨⟨⟨-, h2⟩, h5⟩, zn, h6, h7⟩ | ⟨h2, h4⟩⟩
    · exact ⟨h1, ⟨by simpa using h2, h3⟩, Or.inl (by rw [h6]; exact h7)⟩
    · exact ⟨h1, ⟨h2, h3⟩, Or.inr h4⟩

/-- Zone 0 is closed and zone 1 is open, both with data of transaction 1. -/
def exR : Hist := (runOps (exGeo 4) exH (Hist.init 4) [.write 8 1, .write 8 1]).getD (Hist.init 4)

theorem exR_reachable : Reachable (exGeo 4) exH 4 exR :=
  ⟨[.write 8 1, .write 8 1], .cons ⟨by omega, by unfold TXG_MAX; omega⟩ (by rfl) (.cons ⟨by omega, by unfold TXG_MAX; omega⟩ (by rfl) (.nil _))⟩

/-- A rebuild of `exR` during which zone 1 is closed by a write in transaction `txg`. -/
def exRebuild (txg : Nat) : Option (RB × RB) :=
  let r0 := RB.start exR 1
  (r0.env (exGeo 4) exH (.write 8 txg)).map (fun r =>
    let r := (r.repair false).1
    let r := (r.repair false).1
    let r := (r.repair false).1
    let r1 := (r.repair false).1
    let r := (r1.repair true).1
    let r := (r.repair true).1
    (r1, (r.repair true).1))

/-- With a late enough transaction all zones are repaired ... -/
example : (exRebuild 3).map (fun r => (r.2.need, r.2.done, r.2.t.zones)) = some ([0, 1], [2, 1, 0], []) := by
  decide +kernel

/-- ... and that is a history the theorem above speaks about. -/
example : ∃ r1 r2, Phase1 (exGeo 4) exH Late (RB.start exR 1) r1 ∧ Phase2 r1 r2 ∧ r2.need = [0, 1] := by
  refine ⟨((exRebuild 3).get (by decide +kernel)).1, ((exRebuild 3).get (by decide +kernel)).2, ?_, ?_, by decide +kernel⟩
  · refine .env (op := .write 8 3) ⟨by omega, by unfold TXG_MAX; omega⟩ ⟨by simp, ?_⟩ (by rfl) ?_
    · intro space txg h
      cases h
      exact ⟨by decide +kernel, by decide +kernel⟩
    · exact .more (by rfl) (.more (by rfl) (.more (by rfl) (.done (by rfl))))
  · exact .more (by rfl) (.more (by rfl) (.done (by rfl)))

/-- **C31 is violated.**  Zone 1, which was open when the rebuild started, is closed by
a write in the next transaction, transaction 2, while the rebuild runs.  The task's next
list starts after transaction 3, so the zone is never repaired, and the child is
returned to service without the data that it missed. -/
theorem C31_zone_missed : ∃ r1 r2, Phase1 (exGeo 4) exH (fun _ op => op ≠ .reload) (RB.start exR 1) r1 ∧ Phase2 r1 r2 ∧
    1 ∈ r2.need ∧ 1 ∉ r2.done ∧ r2.h.c.fsm.isClosed 1 = true := by
  refine ⟨((exRebuild 2).get (by decide +kernel)).1, ((exRebuild 2).get (by decide +kernel)).2, ?_, ?_, by decide +kernel⟩
  · refine .env (op := .write 8 2) ⟨by omega, by unfold TXG_MAX; omega⟩ (by simp) (by rfl) ?_
    exact .more (by rfl) (.done (by rfl))
  · exact .more (by rfl) (.more (by rfl) (.done (by rfl)))

end Verif.Cluster
