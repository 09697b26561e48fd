import Verif.Crash.Model

/-!
# What a user expects of sync and crashes
-/

namespace Verif.Crash

open Verif.Cluster (Cluster FSM Geo SpacemapBlock ZoneOnDisk spacemapSpace mkBlock TXG_MAX)

variable {β : Type}

/-- What can be on the disk after a power failure: every label, spacemap block and data block is as it
was when last made durable, or is what one of the writes since then made it, or was torn by one of them.
A torn label or spacemap block does not pass its checksum.  A torn data block can hold anything. -/
structure CrashTo (d : Disk β) (m : Media β) : Prop where
  label : ∀ i, m.label i = d.durable.label i ∨
    ∃ l, Wr.label i l ∈ d.cache ∧ (m.label i = some l ∨ m.label i = none)
  smap : ∀ c i, m.smap c i = d.durable.smap c i ∨
    ∃ b, Wr.smap c i b ∈ d.cache ∧ (m.smap c i = some b ∨ m.smap c i = none)
  blk : ∀ a, m.blk a = d.durable.blk a ∨ (∃ v, Wr.blk a v ∈ d.cache) ∨
    ∃ lo hi, Wr.erase lo hi ∈ d.cache ∧ lo ≤ a ∧ a < hi

/-- All blocks of the records are on the medium. -/
def Intact (m : Media β) (refs : List (Ref β)) : Prop :=
  ∀ r ∈ refs, ∀ i v, r.2[i]? = some v → m.blk (r.1 + i) = some v

/-- What the user put in and has not removed, and the states that may be found after a crash: that of
the last sync that returned, and those of syncs called later. -/
structure Client (β : Type) where
  contents : List (List β)
  synced : List (List β)
  later : List (List (List β))

def Client.init : Client β := ⟨[], [], []⟩

variable [DecidableEq β]

def Client.op (k : Client β) : Op β → Client β
  | .put d => { k with contents := k.contents ++ [d] }
  | .evict _ => k
  | .drop _ d => { k with contents := k.contents.erase d }
  | .free _ d => { k with contents := k.contents.erase d }

/-- A sync is called. -/
def Client.called (k : Client β) : Client β := { k with later := k.later ++ [k.contents] }

/-- A sync returns. -/
def Client.returned (k : Client β) : Client β := ⟨k.contents, k.contents, []⟩

/-- Calls the user may make: records are not empty; those removed are there. -/
def Legal (s : Sys β) : Op β → Prop
  | .put d => d ≠ []
  | .evict i => i < s.mem.length ∧ s.txg ≤ TXG_MAX
  | .drop i d => s.mem[i]? = some d
  | .free i d => ∃ a, s.trees[i]? = some (a, d)

/-- A sync: the transaction number is legal, and the vdev does not pad beyond the end of a zone. -/
def SyncLegal (s : Sys β) (gap : Nat → Nat) : Prop :=
  s.txg ≤ TXG_MAX ∧ ∀ z zn oz, s.c.fsm.zones[z]? = some zn → s.c.fsm.opn.get z = some oz →
    oz.allocated + gap z ≤ zn.total

/-- From the first flush of the spacemap until the first label is durable. -/
def Window (s : Sys β) : Prop := 2 ≤ s.pc ∧ s.pc ≤ 5

/-- What can happen. -/
inductive Ev (β : Type) where
  /-- The user does something. -/
  | op (o : Op β)
  /-- A sync is called, and does its first step. -/
  | call (gap : Nat → Nat)
  /-- A sync does another step. -/
  | sync (gap : Nat → Nat)
  /-- A sync does its last step and returns. -/
  | ret (gap : Nat → Nat)
  /-- Power is lost, and the pool is imported from what is found.  The user goes on from there. -/
  | crash (m : Media β)

/-- One event.  No operation runs while a sync does, and no crash happens in the window. -/
inductive Step (g : Geo) (H : Nat → List ZoneOnDisk → Nat) (n : Nat) :
    Sys β → Client β → Ev β → Sys β → Client β → Prop where
  | op {s k s'} (o : Op β) : s.pc = 0 → Legal s o → s.step g o = some s' → Step g H n s k (.op o) s' (k.op o)
  | call {s k s'} (gap : Nat → Nat) : s.pc = 0 → SyncLegal s gap → s.sync g H gap = some s' →
      Step g H n s k (.call gap) s' k.called
  | sync {s k s'} (gap : Nat → Nat) : 0 < s.pc → s.pc < 8 → SyncLegal s gap → s.sync g H gap = some s' →
      Step g H n s k (.sync gap) s' k
  | ret {s k s'} (gap : Nat → Nat) : s.pc = 8 → s.sync g H gap = some s' →
      Step g H n s k (.ret gap) s' k.returned
  | crash {s k s'} (m : Media β) : ¬ Window s → CrashTo s.disk m → «import» g H n m = some s' →
      Step g H n s k (.crash m) s' { k with contents := s'.trees.map Prod.snd }

/-- A sequence of events. -/
inductive Run (g : Geo) (H : Nat → List ZoneOnDisk → Nat) (n : Nat) :
    Sys β → Client β → List (Ev β) → Sys β → Client β → Prop where
  | nil (s k) : Run g H n s k [] s k
  | cons {s k e s' k' es s'' k''} : Step g H n s k e s' k' → Run g H n s' k' es s'' k'' →
      Run g H n s k (e :: es) s'' k''

/-- What can become of a new pool. -/
inductive Reach (g : Geo) (H : Nat → List ZoneOnDisk → Nat) (n : Nat) : Sys β → Client β → Prop where
  | init : Reach g H n (Sys.init H n) Client.init
  | step {s k e s' k'} : Reach g H n s k → Step g H n s k e s' k' → Reach g H n s' k'

/-- The event does not remove the record. -/
def Ev.Keeps (d : List β) : Ev β → Prop
  | .op (.drop _ d') => d' ≠ d
  | .op (.free _ d') => d' ≠ d
  | _ => True

def Ev.NoCrash : Ev β → Prop
  | .crash _ => False
  | _ => True

/-- The contents found are among those that may be found. -/
def Client.Allowed (k : Client β) (found : List (List β)) : Prop :=
  found.Perm k.synced ∨ ∃ x ∈ k.later, found.Perm x

end Verif.Crash
