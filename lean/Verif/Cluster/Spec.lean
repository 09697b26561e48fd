import Verif.Cluster.Model

/-!
# What a cluster's client sees

A history of calls of a cluster's public functions, with a log of the block ranges
that the client was given.  Everything here is stated with the arguments and
results of the calls; the log is not part of the code.
-/

namespace Verif.Cluster

/-- The zones `0..n` are disjoint intervals of LBAs, and `lba2zone` is the inverse
of `zone_limits`.  This is what the vdev below the cluster provides.  The sizes of
zones fit in a `u32` and differ from `u32::MAX`. -/
structure GeoOk (g : Geo) (n : Nat) : Prop where
  size : ∀ z, z < n → (g.limits z).1 < (g.limits z).2 ∧ (g.limits z).2 - (g.limits z).1 < CLOSED
  zone : ∀ lba z, g.lba2zone lba = some z ↔ z < n ∧ (g.limits z).1 ≤ lba ∧ lba < (g.limits z).2

/-- A range of blocks that a write was given; `live` until the client frees it. -/
structure Rec where
  lba : Nat
  len : Nat
  live : Bool
  deriving DecidableEq, Repr

/-- The ranges have no block in common. -/
def Rec.Disjoint (r r' : Rec) : Prop := r.lba + r.len ≤ r'.lba ∨ r'.lba + r'.len ≤ r.lba

/-- The range lies within zone `z`. -/
def Rec.Within (g : Geo) (z : Nat) (r : Rec) : Prop :=
  (g.limits z).1 ≤ r.lba ∧ r.lba + r.len ≤ (g.limits z).2

/-- A cluster and the log of the ranges it gave out in zones that have not been
erased since. -/
structure Hist where
  c : Cluster
  recs : List Rec

/-- The calls. -/
inductive Op where
  /-- Write a record of `space` blocks in transaction `txg`. -/
  | write (space txg : Nat)
  /-- Free the `i`th range of the log. -/
  | free (i : Nat)
  /-- Flush; `gap z` is what the vdev pads zone `z` with. -/
  | flush (gap : Nat → Nat)
  /-- End the transaction. -/
  | advance
  /-- Shut down, having written the whole spacemap, and open the cluster again. -/
  | reload

/-- What the client must respect: records are not empty and fit in a `u32`,
transaction numbers are legal, only live ranges are freed, each once.  The gaps are
the vdev's: they never go beyond the end of the zone. -/
def Op.Legal (s : Hist) : Op → Prop
  | .write space txg => 0 < space ∧ txg ≤ TXG_MAX
  | .free i => ∃ r, s.recs[i]? = some r ∧ r.live = true
  | .flush gap => ∀ z zn oz, s.c.fsm.zones[z]? = some zn → s.c.fsm.opn.get z = some oz →
      oz.allocated + gap z ≤ zn.total
  | .advance => True
  | .reload => True

/-- The spacemap's blocks, all of them. -/
def FSM.allBlocks (H : Nat → List ZoneOnDisk → Nat) (f : FSM) : List SpacemapBlock :=
  (List.range (spacemapSpace f.total)).map (fun i => mkBlock H i (f.blockZones i))

/-- One call; `none` is a panic. -/
def step (g : Geo) (H : Nat → List ZoneOnDisk → Nat) (s : Hist) : Op → Option Hist
  | .write space txg =>
    match s.c.write g space txg with
    | none => none
    | some (c, none) => some ⟨c, s.recs⟩
    | some (c, some (_, lba)) => some ⟨c, s.recs ++ [⟨lba, space, true⟩]⟩
  | .free i =>
    match s.recs[i]? with
    | none => none
    | some r => (s.c.free g r.lba r.len).map (fun c => ⟨c, s.recs.set i { r with live := false }⟩)
  | .flush gap => (s.c.flush H gap).map (fun r => ⟨r.1, s.recs⟩)
  | .advance =>
    let r := s.c.advance
    some ⟨r.1, s.recs.filter (fun x => decide (∀ z ∈ r.2, g.lba2zone x.lba ≠ some z))⟩
  | .reload =>
    match FSM.deserialize H g.limits s.c.fsm.total (s.c.fsm.allBlocks H) with
    | .ok f => (Cluster.ofFSM f).map (fun c => ⟨c, s.recs⟩)
    | _ => none

/-- A sequence of legal calls, none of which panics. -/
inductive Run (g : Geo) (H : Nat → List ZoneOnDisk → Nat) : Hist → List Op → Hist → Prop where
  | nil (s : Hist) : Run g H s [] s
  | cons {s s' s'' : Hist} {op : Op} {ops : List Op} : op.Legal s → step g H s op = some s' →
      Run g H s' ops s'' → Run g H s (op :: ops) s''

/-- A new cluster of `n` zones. -/
def Hist.init (n : Nat) : Hist := ⟨Cluster.create n, []⟩

/-- What can become of a new cluster of `n` zones. -/
def Reachable (g : Geo) (H : Nat → List ZoneOnDisk → Nat) (n : Nat) (s : Hist) : Prop :=
  ∃ ops, Run g H (Hist.init n) ops s

/-- The number of blocks in live ranges. -/
def liveSum (recs : List Rec) : Nat := (recs.map (fun r => if r.live then r.len else 0)).sum

/-- The number of blocks of the device. -/
def capacity (g : Geo) (n : Nat) : Nat :=
  ((List.range n).map (fun z => (g.limits z).2 - (g.limits z).1)).sum

end Verif.Cluster
