import Verif.Mirror.Spec
import Verif.Ddml.Model

/-!
# A cluster on a single mirror or disk (`bfffs-core/src/raid/null_raid.rs`)

`NullRaid` passes its calls on to one mirror.  What the mirror does with them is `Mirror`; the
disks hold blocks of `BYTES_PER_LBA` bytes.
-/

namespace Verif.NullRaid

open Verif.Bytes (Byte Buf lbaBytes)
open Verif.Mirror (Mirror Disks Wr applyAll targets)

/-- The data of a write, padded to whole blocks: null_raid.rs:213-228 (`write_at`).  The scatter-
gather list is the concatenation of its buffers. -/
def padded (b : Buf) : Buf :=
  if b.length % lbaBytes = 0 then b else b ++ List.replicate (lbaBytes - b.length % lbaBytes) 0

/-- A buffer of whole blocks, as blocks. -/
def chop (b : Buf) : List Buf :=
  (List.range (b.length / lbaBytes)).map fun i => (b.drop (i * lbaBytes)).take lbaBytes

/-- The mirror's writes: null_raid.rs:213-228 (`write_at`), mirror.rs:800-867 (`write_at` and
`writev_at` send the data to every child that takes it). -/
def writes (m : Mirror) (b : Buf) (lba : Nat) : List (Wr Buf) :=
  (targets m .writeAt).map fun c => ⟨c, lba, chop (padded b)⟩

/-- Erasing on the mirror, mirror.rs:402-409 (`erase_zone`).  The end is inclusive.  What is left in
the blocks is up to the device: `junk`. -/
def mirrorErase (m : Mirror) (start end_ : Nat) (junk d : Disks Buf) : Disks Buf := fun c a =>
  if c ∈ targets m .eraseZone ∧ start ≤ a ∧ a ≤ end_ then junk c a else d c a

/-- null_raid.rs:108-111 (`erase_zone`); `lim` is `zone_limits`. -/
def eraseZone (m : Mirror) (lim : Nat → Nat × Nat) (z : Nat) (junk d : Disks Buf) : Disks Buf :=
  mirrorErase m (lim z).1 ((lim z).2 - 1) junk d

/-- null_raid.rs:121-127 (`fault`). -/
def fault (uuid : Nat) (m : Mirror) (u : Nat) : Except Mirror.Err Mirror :=
  if u = uuid then .error .einval else Mirror.fault m u

/-- null_raid.rs:113-119 (`attach`): `u` names a member of the mirror, or the mirror `mu` itself
(mirror.rs:372-374, `contains_uuid`); the others are those of the new device. -/
def attach (mu : Nat) (m : Mirror) (u new size lpz : Nat) : Option (Except Mirror.Err Mirror) :=
  if u = mu ∨ (m.any fun c => decide (c.uuid = u)) then Mirror.attach m new size lpz else some (.error .enoent)

/-- What disk `c` holds in `n` blocks from `lba` on. -/
def held (d : Disks Buf) (c lba n : Nat) : Buf := (List.range n).flatMap fun i => d c (lba + i)

/-- Errors of the device as errors of the layers above (`types.rs`, one type in the code). -/
def toErr : Mirror.Err → Ddml.Err
  | .eintegrity => .eintegrity
  | .enoent => .enoent
  | .ebusy => .other 16
  | .einval => .other 22
  | .enxio => .other 6
  | .eio n => .other (100 + n)

def lift {α : Type} : Except Mirror.Err α → Except Ddml.Err α
  | .ok a => .ok a
  | .error e => .error (toErr e)

/-- null_raid.rs:145-147 (`read_at`), up to cluster.rs and pool.rs, which pass it on.  `dev c` is
what the device of child `c` answers. -/
def readAt (m : Mirror) (idx : Nat) (dev : Nat → Except Mirror.Err Buf) : Except Ddml.Err Buf :=
  lift (Mirror.read m idx dev).1

/-- null_raid.rs:149-155 (`read_long`). -/
def readLong (m : Mirror) (order : List Nat) (dev : Nat → Except Mirror.Err Buf) : Except Ddml.Err (List Buf) :=
  lift (Mirror.readLong m order dev)

/-! ## Histories -/

/-- The device and its disks.  Ghost state: `live` are the zones, addresses and bytes of the
records that were written and not deleted since, `copied` the zones that were copied to the
children being rebuilt since they were last written to. -/
structure State where
  m : Mirror
  d : Disks Buf
  live : List (Nat × Nat × Buf)
  copied : List Nat

/-- The blocks of a record. -/
def ext (r : Nat × Nat × Buf) : Nat × Nat := (r.2.1, r.2.1 + Ddml.blocks r.2.2.length)

/-- What happens to a cluster on this device. -/
inductive Step (uuid mu : Nat) (lim : Nat → Nat × Nat) : State → State → Prop where
  /-- A record is written to free blocks of a zone (C24). -/
  | write {s : State} {z lba : Nat} {b : Buf} : (lim z).1 ≤ lba → lba + Ddml.blocks b.length ≤ (lim z).2 →
      (∀ r ∈ s.live, (ext r).2 ≤ lba ∨ lba + Ddml.blocks b.length ≤ (ext r).1) →
      Step uuid mu lim s { s with
        d := applyAll (writes s.m b lba) s.d
        live := (z, lba, b) :: s.live
        copied := s.copied.filter (· ≠ z) }
  /-- Records are deleted. -/
  | delete {s : State} {l : List (Nat × Nat × Buf)} : (∀ r ∈ l, r ∈ s.live) → Step uuid mu lim s { s with live := l }
  /-- A zone without live records is erased (C27). -/
  | erase {s : State} {z : Nat} {junk : Disks Buf} : (∀ r ∈ s.live, r.1 ≠ z) →
      Step uuid mu lim s { s with d := eraseZone s.m lim z junk s.d }
  | fault {s : State} {u : Nat} {m' : Mirror} : fault uuid s.m u = .ok m' → Step uuid mu lim s { s with m := m' }
  | attach {s : State} {u new size lpz : Nat} {m' : Mirror} : attach mu s.m u new size lpz = some (.ok m') →
      Step uuid mu lim s { s with m := m', copied := [] }
  /-- mirror.rs:742-750: a faulted child is to be rebuilt. -/
  | rebuild {s : State} {u : Nat} {m' : Mirror} : Mirror.rebuild s.m u = .ok m' →
      Step uuid mu lim s { s with m := m', copied := [] }
  /-- null_raid.rs:175-180 (`repair_mirror_zone`).  The length, if given, is the zone's write pointer
  (cluster.rs:1174-1184), so that all its records are before it. -/
  | repair {s : State} {z idx : Nat} {lbas : Option Nat} {rd : Nat → Nat → Nat → Option (List Buf)}
      {r : List (Wr Buf) × Bool} {ok : Bool} {d' : Disks Buf} : Mirror.Faithful s.d rd →
      (∀ x ∈ s.live, x.1 = z → (ext x).2 ≤ Mirror.repairEnd (lim z) lbas) →
      Mirror.repairZone s.m idx (lim z) lbas rd = some r → Mirror.Repaired s.d r ok d' →
      Step uuid mu lim s { s with d := d', copied := if ok then z :: s.copied else s.copied }
  /-- null_raid.rs:186-189 (`restore`), after a complete rebuild (C31, C83). -/
  | restore {s : State} {m' : Mirror} : (∀ r ∈ s.live, r.1 ∈ s.copied) → Mirror.restore s.m = some m' →
      Step uuid mu lim s { s with m := m' }

inductive Reach (uuid mu : Nat) (lim : Nat → Nat × Nat) (m0 : Mirror) : State → Prop where
  | new (d : Disks Buf) : Reach uuid mu lim m0 ⟨m0, d, [], []⟩
  | step {s s' : State} : Reach uuid mu lim m0 s → Step uuid mu lim s s' → Reach uuid mu lim m0 s'

end Verif.NullRaid
