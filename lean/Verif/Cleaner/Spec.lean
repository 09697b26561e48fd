import Verif.Cluster.Spec

/-!
# What cleaning is for

A closed zone takes no more data until all that is in it has been freed.  The cleaner is to empty the
closed zones of which at least half is free, the emptiest first.
-/

namespace Verif.Cleaner

open Verif.Cluster

/-- The number of blocks of a zone. -/
def size (g : Geo) (z : Nat) : Nat := (g.limits z).2 - (g.limits z).1

/-- The number of blocks of a zone that belong to live ranges. -/
def liveBlocks (g : Geo) (h : Hist) (z : Nat) : Nat :=
  ((h.recs.filter fun r => r.live && decide (g.lba2zone r.lba = some z)).map (·.len)).sum

/-- A closed zone, at least half of which is free. -/
def HalfFree (g : Geo) (h : Hist) (z : Nat) : Prop :=
  h.c.fsm.isClosed z = true ∧ 2 * liveBlocks g h z ≤ size g z

end Verif.Cleaner
