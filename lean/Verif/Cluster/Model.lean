import Verif.Common.OMap

/-!
# Model of the free-space map and of the cluster: `bfffs-core/src/cluster.rs`

Block counts, LBAs, zone ids and transaction numbers are `Nat`.  In the code the
per-zone counts are `u32`s; they are bounded by the zone's size, which is assumed
to be less than 2^32 - 1 blocks.  A failed `assert!`, an `unwrap` of `None` and an
index out of range are panics, modelled as `none`.

The vdev below the cluster is represented by its zone limits (`Geo`), by the gaps
that `flush_zone` returns (an argument of `Cluster.flush`), and by the LBAs and
zone ids that are passed to it.
-/

namespace Verif.Cluster

open Verif

/-- `TXG_MAX`, types.rs:  the largest legal transaction number. -/
def TXG_MAX : Nat := 4294967294

/-- `SPACEMAP_ZONES_PER_LBA`, label.rs:47. -/
def ZPL : Nat := 255

/-- `spacemap_space`, label.rs:50-52. -/
def spacemapSpace (nzones : Nat) : Nat := (nzones + (ZPL - 1)) / ZPL

/-- `Zone`, cluster.rs:79-92. -/
structure Zone where
  freed : Nat
  total : Nat
  txgStart : Nat
  txgEnd : Nat
  deriving DecidableEq, Repr

/-- `Zone::default`, cluster.rs:94-99. -/
def Zone.default : Zone := ⟨0, 0, 0, 0⟩

/-- `OpenZone`, cluster.rs:118-125. -/
structure OpenZone where
  start : Nat
  allocated : Nat
  deriving DecidableEq, Repr

/-- `OpenZone::write_pointer`, cluster.rs:129-131. -/
def OpenZone.writePointer (oz : OpenZone) : Nat := oz.start + oz.allocated

/-- `FreeSpaceMap`, cluster.rs:148-171.  The bit set `dirty` is a list of booleans,
the `BTreeSet` and the `BTreeMap` are sorted association lists. -/
structure FSM where
  dirty : List Bool
  empty : OMap Unit
  opn : OMap OpenZone
  total : Nat
  zones : List Zone
  deriving DecidableEq, Repr

namespace FSM

/-- `is_closed`, cluster.rs:375-379. -/
def isClosed (f : FSM) (z : Nat) : Bool :=
  decide (z < f.zones.length) && (f.empty.get z).isNone && (f.opn.get z).isNone

/-- `is_dead`, cluster.rs:382-386. -/
def isDead (f : FSM) (z : Nat) : Bool :=
  match f.zones[z]? with
  | none => false
  | some zn => (f.empty.get z).isSome && decide (0 < zn.txgEnd)

/-- `is_empty`, cluster.rs:389-393. -/
def isEmpty (f : FSM) (z : Nat) : Bool :=
  match f.zones[z]? with
  | none => true
  | some zn => (f.empty.get z).isSome && decide (zn.txgEnd = 0)

/-- `is_open`, cluster.rs:396-398. -/
def isOpen (f : FSM) (z : Nat) : Bool := (f.opn.get z).isSome

/-- `allocated`, cluster.rs:177-185.  The indexing panics past the end of
`zones`. -/
def allocated (f : FSM) (z : Nat) : Option Nat :=
  match f.opn.get z with
  | some oz => some oz.allocated
  | none => if (f.empty.get z).isSome then some 0 else (f.zones[z]?).map (·.total)

/-- `allocated_total`, cluster.rs:189-193. -/
def allocatedTotal (f : FSM) : Option Nat :=
  ((List.range f.zones.length).mapM f.allocated).map List.sum

/-- `in_use`, cluster.rs:355-365. -/
def inUse (f : FSM) (z : Nat) : Nat :=
  if f.isDead z || f.isEmpty z then 0
  else match f.zones[z]? with
    | none => 0
    | some zn =>
      match f.opn.get z with
      | some oz => oz.allocated - zn.freed
      | none => zn.total - zn.freed

/-- `in_use_total`, cluster.rs:368-372. -/
def inUseTotal (f : FSM) : Nat := ((List.range f.zones.length).map f.inUse).sum

/-- `dirty_zone` and `dirty_zone_priv`, cluster.rs:282-290.  (Zone ids are below
`total`, so the bit is always in range.) -/
def dirtyZone (f : FSM) (z : Nat) : FSM := { f with dirty := f.dirty.set (z / ZPL) true }

/-- `clear_dirty_zones`, cluster.rs:215-217. -/
def clearDirty (f : FSM) : FSM := { f with dirty := f.dirty.map (fun _ => false) }

/-- `self.zones[z] = zn` -/
def setZone (f : FSM) (z : Nat) (zn : Zone) : FSM := { f with zones := f.zones.set z zn }

/-- `kill_zone`, cluster.rs:294-308.  Returns the number of formerly allocated
blocks. -/
def killZone (f : FSM) (z : Nat) : Option (FSM × Nat) :=
  if f.isOpen z then none
  else match f.zones[z]?, f.allocated z with
    | some zn, some n =>
      some ({ (f.dirtyZone z).setZone z { zn with txgStart := 0, txgEnd := 1 } with
              empty := f.empty.insert z () }, n)
    | _, _ => none

/-- `find_empty`, cluster.rs:311-322. -/
def findEmpty (f : FSM) : Option Nat :=
  match f.empty.find? (fun e => match f.zones[e.1]? with
      | some zn => decide (zn.txgEnd = 0)
      | none => false) with
  | some e => some e.1
  | none => if f.zones.length < f.total then some f.zones.length else none

/-- `finish_zone`, cluster.rs:327-335, and `available`, cluster.rs:204-211.
Returns the number of wasted blocks. -/
def finishZone (f : FSM) (z txg : Nat) : Option (FSM × Nat) :=
  match f.opn.get z, f.zones[z]? with
  | some oz, some zn =>
    if oz.allocated ≤ zn.total then
      let available := zn.total - oz.allocated
      some ({ (f.dirtyZone z).setZone z { zn with freed := zn.freed + available, txgEnd := txg + 1 } with
              opn := f.opn.remove z }, available)
    else none
  | _, _ => none

/-- `free`, cluster.rs:338-352. -/
def free (f : FSM) (z len : Nat) : Option FSM :=
  if f.isEmpty z then none
  else match f.zones[z]? with
    | none => none
    | some zn =>
      if zn.freed + len ≤ zn.total then
        let f' := (f.dirtyZone z).setZone z { zn with freed := zn.freed + len }
        match f.opn.get z with
        | none => some f'
        | some oz => if zn.freed + len ≤ oz.allocated then some f' else none
      else none

/-- `new`, cluster.rs:427-439. -/
def new (total : Nat) : FSM :=
  { dirty := List.replicate (spacemapSpace total) true, empty := [], opn := [], total, zones := [] }

/-- `for z in self.zones.len()..idx { self.empty_zones.insert(z) }`,
cluster.rs:474-476.  The insertions are asserted to be new. -/
def fillEmpty (e : OMap Unit) (lo n : Nat) : OMap Unit :=
  (List.range n).foldl (fun e i => e.insert (lo + i) ()) e

/-- `open_zone`, cluster.rs:462-492.  The inner result is `none` for `ENOSPC`. -/
def openZone (f : FSM) (id start stop lbas txg : Nat) : Option (FSM × Option (Option (Nat × Nat))) :=
  if txg ≤ TXG_MAX ∧ start ≤ stop ∧ f.isEmpty id = true ∧ f.isOpen id = false then
    let space := stop - start
    let f := f.dirtyZone id
    if space < lbas then some (f, none)
    else
      let f := if f.zones.length ≤ id then
          { f with empty := fillEmpty f.empty f.zones.length (id - f.zones.length),
                   zones := f.zones ++ List.replicate (id + 1 - f.zones.length) Zone.default }
        else f
      some ({ f.setZone id ⟨0, space, txg, TXG_MAX⟩ with
              empty := f.empty.remove id, opn := f.opn.insert id ⟨start, lbas⟩ },
            some (if 0 < lbas then some (id, start) else none))
  else none

/-- Whether `reap` erases the zone. -/
def reaped (f : FSM) : List Nat := (f.empty.map (·.1)).filter f.isDead

/-- Setting `txgs.end = 0` of a zone, cluster.rs:530. -/
def unkill (zs : List Zone) (z : Nat) : List Zone :=
  match zs[z]? with
  | some zn => zs.set z { zn with txgEnd := 0 }
  | none => zs

/-- One more than the last index at which `p` is false, or 0;
cluster.rs:537-544. -/
def firstTrailing (p : Nat → Bool) : Nat → Nat
  | 0 => 0
  | n + 1 => if p n then firstTrailing p n else n + 1

/-- `reap`, cluster.rs:517-548.  The `debug_assert`s are not modelled here. -/
def reap (f : FSM) : FSM × List Nat :=
  let zs := f.reaped
  let highest := zs.foldl max 0
  let f1 := { f with dirty := zs.foldl (fun d z => d.set (z / ZPL) true) f.dirty,
                     zones := zs.foldl unkill f.zones }
  if highest + 1 = f1.zones.length then
    let first := firstTrailing f1.isEmpty f1.zones.length
    ({ f1 with zones := f1.zones.take first, empty := f1.empty.rangeDeleteFrom first }, zs)
  else (f1, zs)

/-- The search of `try_allocate`, cluster.rs:601-616: the first open zone with
enough space and the zones before it.  A zone with less space than allocated
would panic (`none`). -/
def searchOpen (zones : List Zone) (space : Nat) : OMap OpenZone → Option (Option (Nat × OpenZone) × List Nat)
  | [] => some (none, [])
  | (z, oz) :: rest =>
    match zones[z]? with
    | none => none
    | some zn =>
      if oz.allocated ≤ zn.total then
        if zn.total - oz.allocated < space then
          (searchOpen zones space rest).map (fun r => (r.1, z :: r.2))
        else some (some (z, oz), [])
      else none

/-- `try_allocate`, cluster.rs:597-622. -/
def tryAllocate (f : FSM) (space : Nat) : Option (FSM × Option (Nat × Nat) × List Nat) :=
  match searchOpen f.zones space f.opn with
  | none => none
  | some (none, full) => some (f, none, full)
  | some (some (z, oz), full) =>
    some ({ f.dirtyZone z with opn := f.opn.insert z { oz with allocated := oz.allocated + space } },
          some (z, oz.writePointer), full)

/-- `waste_space`, cluster.rs:625-635. -/
def wasteSpace (f : FSM) (z space : Nat) : Option FSM :=
  match f.opn.get z, f.zones[z]? with
  | some oz, some zn =>
    if oz.allocated + space ≤ zn.total then
      some { (f.dirtyZone z).setZone z { zn with freed := zn.freed + space } with
             opn := f.opn.insert z { oz with allocated := oz.allocated + space } }
    else none
  | _, _ => none

/-- `write_pointer`, cluster.rs:639-641. -/
def writePointer (f : FSM) (z : Nat) : Option Nat := (f.opn.get z).map (·.allocated)

end FSM

/-! ## On disk -/

/-- `ZoneOnDisk`, cluster.rs:741-763. -/
structure ZoneOnDisk where
  allocated : Nat
  freed : Nat
  txgStart : Nat
  txgEnd : Nat
  deriving DecidableEq, Repr

/-- `u32::MAX`: the zone is closed. -/
def CLOSED : Nat := 4294967295

/-- The closure of cluster.rs:560-580. -/
def FSM.zoneOnDisk (f : FSM) (z : Nat) : ZoneOnDisk :=
  let zn := (f.zones[z]?).getD Zone.default
  let de := f.isDead z || f.isEmpty z
  { allocated := if de then 0 else match f.opn.get z with
      | some oz => oz.allocated
      | none => CLOSED
    freed := if de then 0 else zn.freed
    txgStart := if f.isEmpty z then 0 else zn.txgStart
    txgEnd := if f.isEmpty z then 0 else zn.txgEnd }

/-- `SpacemapOnDisk`, cluster.rs:765-774.  How it is encoded in bytes (by the
`speedy` crate, then zero-padded to a block) is not modelled. -/
structure SpacemapBlock where
  checksum : Nat
  zones : List ZoneOnDisk
  deriving DecidableEq, Repr

/-- `SpacemapOnDisk::new`, cluster.rs:797-805.  `H` is MetroHash64 of the block's
index and its zones. -/
def mkBlock (H : Nat → List ZoneOnDisk → Nat) (i : Nat) (v : List ZoneOnDisk) : SpacemapBlock := ⟨H i v, v⟩

/-- `SpacemapOnDisk::deserialize`, cluster.rs:777-795; `none` is `EINTEGRITY`. -/
def SpacemapBlock.check (H : Nat → List ZoneOnDisk → Nat) (i : Nat) (b : SpacemapBlock) :
    Option (List ZoneOnDisk) :=
  if H i b.zones = b.checksum then some b.zones else none

namespace FSM

/-- The zones of block `i`, cluster.rs:555-582. -/
def blockZones (f : FSM) (i : Nat) : List ZoneOnDisk :=
  (List.range (min ((i + 1) * ZPL) f.total - i * ZPL)).map (fun j => f.zoneOnDisk (i * ZPL + j))

/-- `serialize`, cluster.rs:552-588: the dirty blocks. -/
def serialize (H : Nat → List ZoneOnDisk → Nat) (f : FSM) : List (Nat × SpacemapBlock) :=
  ((List.range f.dirty.length).filter (fun i => f.dirty[i]? = some true)).map
    (fun i => (i, mkBlock H i (f.blockZones i)))

/-- Restoring one zone, cluster.rs:250-276.  `zl` is the vdev's zone limits. -/
def restoreZone (f : FSM) (zl : Nat × Nat) (zid : Nat) (zod : ZoneOnDisk) : Option FSM :=
  if 0 < zod.txgEnd then do
    let (f, _) ← f.openZone zid zl.1 zl.2 0 zod.txgStart
    let f ←
      if zod.allocated = CLOSED then (f.finishZone zid (zod.txgEnd - 1)).map (·.1)
      else if 0 < zod.allocated then
        match f.tryAllocate zod.allocated with
        | some (f, some (azid, _), _) => if azid = zid then some f else none
        | _ => none
      else do
        let (f, _) ← f.finishZone zid (zod.txgEnd - 1)
        (f.killZone zid).map (·.1)
    let zn ← f.zones[zid]?
    some (f.setZone zid { zn with freed := zod.freed, txgStart := zod.txgStart, txgEnd := zod.txgEnd })
  else some f

/-- Restoring the zones from `zid` on. -/
def restoreZones (geo : Nat → Nat × Nat) : FSM → Nat → List ZoneOnDisk → Option FSM
  | f, _, [] => some f
  | f, zid, zod :: rest => (f.restoreZone (geo zid) zid zod).bind (fun f => restoreZones geo f (zid + 1) rest)

/-- What `deserialize` does. -/
inductive Loaded where
  | panic
  | error
  | ok (f : FSM)

/-- The blocks' contents, or `none` if a checksum does not match.  (The code checks
each block just before it restores its zones.) -/
def checkBlocks (H : Nat → List ZoneOnDisk → Nat) : Nat → List SpacemapBlock → Option (List ZoneOnDisk)
  | _, [] => some []
  | i, b :: bs => do
    let v ← b.check H i
    let vs ← checkBlocks H (i + 1) bs
    some (v ++ vs)

/-- `deserialize`, cluster.rs:238-280. -/
def deserialize (H : Nat → List ZoneOnDisk → Nat) (geo : Nat → Nat × Nat) (total : Nat)
    (bs : List SpacemapBlock) : Loaded :=
  match checkBlocks H 0 bs with
  | none => .error
  | some zods =>
    match restoreZones geo (new total) 0 zods with
    | none => .panic
    | some f => if zods.length = total then .ok f.clearDirty else .panic

end FSM

/-! ## The cluster -/

/-- Zone limits and their inverse: `zone_limits` and `lba2zone` of the vdev. -/
structure Geo where
  limits : Nat → Nat × Nat
  lba2zone : Nat → Option Nat

/-- `Cluster`, cluster.rs:862-872. -/
structure Cluster where
  allocatedSpace : Nat
  fsm : FSM
  deriving DecidableEq, Repr

namespace Cluster

/-- `close_zones`, cluster.rs:891-904. -/
def closeZones (c : Cluster) (txg : Nat) : List Nat → Option Cluster
  | [] => some c
  | z :: zs =>
    match c.fsm.finishZone z txg with
    | none => none
    | some (fsm, n) => closeZones ⟨c.allocatedSpace + n, fsm⟩ txg zs

/-- `create`, cluster.rs:909-914, and `new`, cluster.rs:1025-1029. -/
def create (total : Nat) : Cluster := ⟨0, FSM.new total⟩

/-- `new`, cluster.rs:1025-1029. -/
def ofFSM (f : FSM) : Option Cluster := f.allocatedTotal.map (⟨·, f⟩)

/-- `flush`, cluster.rs:950-966: wastes the gaps that the vdev reports.  `gap z` is
the first component of `vdev.flush_zone(z)`. -/
def wasteGaps (c : Cluster) (gap : Nat → Nat) : List Nat → Option Cluster
  | [] => some c
  | z :: zs =>
    match c.fsm.wasteSpace z (gap z) with
    | none => none
    | some fsm => wasteGaps ⟨c.allocatedSpace + gap z, fsm⟩ gap zs

/-- `flush`, cluster.rs:950-985.  Returns the spacemap blocks it writes. -/
def flush (H : Nat → List ZoneOnDisk → Nat) (c : Cluster) (gap : Nat → Nat) :
    Option (Cluster × List (Nat × SpacemapBlock)) :=
  (c.wasteGaps gap (c.fsm.opn.map (·.1))).map
    (fun c => (⟨c.allocatedSpace, c.fsm.clearDirty⟩, c.fsm.serialize H))

/-- `advance_transaction`, cluster.rs:988-999.  Returns the zones it erases. -/
def advance (c : Cluster) : Cluster × List Nat :=
  let r := c.fsm.reap
  (⟨c.allocatedSpace, r.1⟩, r.2)

/-- `kill_zone`, cluster.rs:922-926.  (The subtraction would wrap around; that it
does not is proved.) -/
def killZone (c : Cluster) (z : Nat) : Option Cluster :=
  match c.fsm.killZone z with
  | none => none
  | some (fsm, n) => if n ≤ c.allocatedSpace then some ⟨c.allocatedSpace - n, fsm⟩ else none

/-- `free`, cluster.rs:1005-1022. -/
def free (g : Geo) (c : Cluster) (lba len : Nat) : Option Cluster :=
  match g.lba2zone lba with
  | none => none
  | some z =>
    match c.fsm.free z len with
    | none => none
    | some fsm =>
      let c' : Cluster := ⟨c.allocatedSpace, fsm⟩
      if fsm.isClosed z && decide (fsm.inUse z = 0) then c'.killZone z else some c'

/-- `used`, cluster.rs:1232-1234. -/
def used (c : Cluster) : Nat := c.fsm.inUseTotal

/-- `write`, cluster.rs:1247-1298, for `space` blocks.  The inner result is the
zone and LBA where the data is written, or `none` for `ENOSPC`. -/
def write (g : Geo) (c : Cluster) (space txg : Nat) : Option (Cluster × Option (Nat × Nat)) :=
  match c.fsm.tryAllocate space with
  | none => none
  | some (fsm, ac, full) =>
    match closeZones ⟨c.allocatedSpace, fsm⟩ txg full with
    | none => none
    | some c =>
      match ac with
      | some ac => some (⟨c.allocatedSpace + space, c.fsm⟩, some ac)
      | none =>
        match c.fsm.findEmpty with
        | none => some (c, none)
        | some z =>
          match c.fsm.openZone z (g.limits z).1 (g.limits z).2 space txg with
          | none => none
          | some (fsm, none) => some (⟨c.allocatedSpace, fsm⟩, none)
          | some (_, some none) => none
          | some (fsm, some (some oza)) => some (⟨c.allocatedSpace + space, fsm⟩, some oza)

end Cluster

end Verif.Cluster
