import Verif.Cluster.Spec

/-!
# Syncing a transaction on a disk with a write cache, and importing after a crash

The pool has one cluster.  What the trees of a pool hold is represented by their records: those in
memory that have not been written yet, and those on disk with their address.  The label holds the
roots of the trees, so it determines the records they refer to; the model's label has the list of them.
A disk may hold back any writes until it is told to sync, and persist them in any order.
-/

namespace Verif.Crash

open Verif.Cluster (Cluster FSM Geo SpacemapBlock ZoneOnDisk spacemapSpace mkBlock TXG_MAX)

variable {β : Type}

/-- A record on disk: its first block's address and the blocks' contents. -/
abbrev Ref (β : Type) := Nat × List β

/-- The label: idml.rs:678-685 with `Database::Label` (the root of the forest) inside.  The tree roots
are represented by the records that can be reached from them.  `next_rid` is not modelled here. -/
structure Label (β : Type) where
  txg : Nat
  refs : List (Ref β)
  deriving DecidableEq

/-- What is on a disk (label.rs:14-34): two labels, two copies of the spacemap, and blocks.  A label or
spacemap block whose checksum does not match is `none`, and so is a block that was erased. -/
structure Media (β : Type) where
  label : Nat → Option (Label β)
  smap : Nat → Nat → Option SpacemapBlock
  blk : Nat → Option β

/-- A write command. -/
inductive Wr (β : Type) where
  | label (i : Nat) (l : Label β)
  | smap (copy i : Nat) (b : SpacemapBlock)
  | blk (a : Nat) (v : β)
  | erase (lo hi : Nat)

/-- The effect of a write. -/
def Wr.apply (m : Media β) : Wr β → Media β
  | .label i l => { m with label := fun j => if j = i then some l else m.label j }
  | .smap c i b => { m with smap := fun c' j => if c' = c ∧ j = i then some b else m.smap c' j }
  | .blk a v => { m with blk := fun x => if x = a then some v else m.blk x }
  | .erase lo hi => { m with blk := fun x => if lo ≤ x ∧ x < hi then none else m.blk x }

/-- A disk: what is durable, and the writes done since the last sync, oldest first. -/
structure Disk (β : Type) where
  durable : Media β
  cache : List (Wr β)

/-- What reads see. -/
def Disk.view (d : Disk β) : Media β := d.cache.foldl Wr.apply d.durable

def Disk.write (d : Disk β) (ws : List (Wr β)) : Disk β := { d with cache := d.cache ++ ws }

/-- `sync_all` of the disks: pool.rs:485-495, vdev_file.rs:472-476. -/
def Disk.sync (d : Disk β) : Disk β := ⟨d.view, []⟩

/-- The pool while it is imported. -/
structure Sys (β : Type) where
  c : Cluster
  txg : Nat
  /-- Records of the trees that are dirty, in memory. -/
  mem : List (List β)
  /-- Records of the trees that are on disk. -/
  trees : List (Ref β)
  disk : Disk β
  /-- How many steps of a sync have been done; 0 when the transaction lock is not held by a sync. -/
  pc : Nat

/-- The steps of a sync. -/
inductive Micro where
  | flushTrees
  | flush (copy : Nat)
  | syncAll
  | label (i : Nat)
  | advance
  deriving DecidableEq

/-- database.rs:737-767 inside idml.rs:472-486 `advance_transaction`.  Flushing the file systems, the
forest and the two tables of the IDML is one step, `flushTrees`. -/
def prog : List Micro :=
  [.flushTrees, .flush 0, .syncAll, .label 0, .flush 1, .syncAll, .label 1, .syncAll, .advance]

/-- The blocks of a record. -/
def blkWrites (lba : Nat) : List β → List (Wr β)
  | [] => []
  | v :: vs => .blk lba v :: blkWrites (lba + 1) vs

/-- Write one record: cluster.rs:1247-1298.  `false` is `ENOSPC`; `none` is a panic. -/
def Sys.store (g : Geo) (s : Sys β) (d : List β) : Option (Sys β × Bool) :=
  match s.c.write g d.length s.txg with
  | none => none
  | some (c, none) => some ({ s with c := c }, false)
  | some (c, some (_, lba)) =>
    some ({ s with
            c := c
            trees := s.trees ++ [(lba, d)]
            disk := s.disk.write (blkWrites lba d) }, true)

/-- Write all dirty records (`Tree::flush`, tree.rs:896-1087, for all trees).  A sync that fails is not
modelled: `none`. -/
def Sys.storeAll (g : Geo) : Sys β → List (List β) → Option (Sys β)
  | s, [] => some s
  | s, d :: ds =>
    match s.store g d with
    | some (s, true) => s.storeAll g ds
    | _ => none

/-- One step of a sync.  `gap` is what the vdev pads the open zones with at the first flush; at the
second there is nothing left to pad. -/
def Sys.micro (g : Geo) (H : Nat → List ZoneOnDisk → Nat) (gap : Nat → Nat) (s : Sys β) :
    Micro → Option (Sys β)
  | .flushTrees => (s.storeAll g s.mem).map fun s => { s with mem := [] }
  | .flush copy =>
    match s.c.flush H (if copy = 0 then gap else fun _ => 0) with
    | none => none
    | some (c, bs) =>
      some { s with
             c := c
             disk := s.disk.write (bs.map fun x => .smap copy x.1 x.2) }
  | .syncAll => some { s with disk := s.disk.sync }
  | .label i => some { s with disk := s.disk.write [.label i ⟨s.txg, s.trees⟩] }
  | .advance =>
    some { s with
           c := s.c.advance.1
           txg := s.txg + 1
           disk := s.disk.write (s.c.advance.2.map fun z => .erase (g.limits z).1 (g.limits z).2) }

/-- The next step of a sync. -/
def Sys.sync (g : Geo) (H : Nat → List ZoneOnDisk → Nat) (gap : Nat → Nat) (s : Sys β) : Option (Sys β) :=
  match prog[s.pc]? with
  | none => none
  | some m =>
    (s.micro g H gap m).map fun s => { s with pc := if s.pc + 1 = prog.length then 0 else s.pc + 1 }

/-- vdev_block.rs:1215-1243 `read_label`: the first label, or else the second. -/
def readLabel (m : Media β) : Option (Label β) :=
  match m.label 0 with
  | some l => some l
  | none => m.label 1

/-- cluster.rs:495-508 `FreeSpaceMap::open` and `Cluster::open`: always the first copy of the spacemap. -/
def load (g : Geo) (H : Nat → List ZoneOnDisk → Nat) (n : Nat) (m : Media β) : Option Cluster :=
  match (List.range (spacemapSpace n)).mapM (m.smap 0) with
  | none => none
  | some bs =>
    match FSM.deserialize H g.limits n bs with
    | .ok f => Cluster.ofFSM f
    | _ => none

/-- Import: `Pool::open`, `IDML::open` (idml.rs:341-363), `Database::open` (database.rs:668-673). -/
def «import» (g : Geo) (H : Nat → List ZoneOnDisk → Nat) (n : Nat) (m : Media β) : Option (Sys β) :=
  match readLabel m, load g H n m with
  | some l, some c => some ⟨c, l.txg, [], l.refs, ⟨m, []⟩, 0⟩
  | _, _ => none

/-- What the trees' users do between syncs. -/
inductive Op (β : Type) where
  /-- Add a record to the trees, in memory. -/
  | put (d : List β)
  /-- Write record `i` of those in memory early. -/
  | evict (i : Nat)
  /-- Remove record `i` of those in memory, whose contents are `d`. -/
  | drop (i : Nat) (d : List β)
  /-- Remove record `i` of those on disk, whose contents are `d`: cluster.rs:1005-1022. -/
  | free (i : Nat) (d : List β)

def Sys.step (g : Geo) (s : Sys β) : Op β → Option (Sys β)
  | .put d => some { s with mem := s.mem ++ [d] }
  | .evict i =>
    match s.mem[i]? with
    | none => none
    | some d =>
      match s.store g d with
      | none => none
      | some (s', true) => some { s' with mem := s.mem.eraseIdx i }
      | some (s', false) => some s'
  | .drop i _ => some { s with mem := s.mem.eraseIdx i }
  | .free i _ =>
    match s.trees[i]? with
    | none => none
    | some r =>
      (s.c.free g r.1 r.2.length).map fun c =>
        { s with
          c := c
          trees := s.trees.eraseIdx i }

/-- A pool that has just been formatted and synced. -/
def Sys.init (H : Nat → List ZoneOnDisk → Nat) (n : Nat) : Sys β where
  c := Cluster.create n
  txg := 1
  mem := []
  trees := []
  disk :=
    { durable :=
        { label := fun i => if i < 2 then some ⟨0, []⟩ else none
          smap := fun c i => if c = 0 then some (mkBlock H i ((FSM.new n).blockZones i)) else none
          blk := fun _ => none }
      cache := [] }
  pc := 0

end Verif.Crash
