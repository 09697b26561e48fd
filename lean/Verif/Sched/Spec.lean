import Verif.Sched.Model

/-! Specification vocabulary for the block scheduler properties.  Nothing here
refers to the scheduler's queues. -/

namespace Verif.Sched

/-- The submitted operations that have left the scheduler, in the order in which
they were handed to the device (or, once the device is being removed, failed
with `ENXIO`). -/
def handled (s : S) : List BlockOp := s.log.flatMap (fun e => e.2.parts)

/-- The operations that were taken from the queue but that the device refused with
`EAGAIN`; they are retried first. -/
def refused (s : S) : List BlockOp :=
  match s.delayed with
  | some io => io.parts
  | none => []

/-- The operations still waiting in the scheduler's queues. -/
def waiting (s : S) : List BlockOp := s.q.ahead ++ s.q.behind ++ s.q.afterSync

/-- `x` comes before `y` in `l`. -/
def Before (l : List BlockOp) (x y : BlockOp) : Prop :=
  ∃ l1 l2, l = l1 ++ l2 ∧ x ∈ l1 ∧ y ∈ l2

/-- The kinds of operation that matter for merging. -/
inductive Kind where
  | read | write | sync | other
deriving DecidableEq

def kind : Cmd → Kind
  | .readAt _ => .read
  | .readvAt _ => .read
  | .writeAt _ => .write
  | .writevAt _ => .write
  | .syncAll => .sync
  | _ => .other

/-- The number of bytes an operation transfers. -/
def bytes : Cmd → Nat
  | .readAt l => l
  | .readvAt ls => ls.sum
  | .writeAt d => d.length
  | .writevAt ds => (ds.map List.length).sum
  | _ => 0

/-- The contents of a device, byte by byte. -/
abbrev Disk := Nat → Byte

/-- Write `d` at byte offset `off`. -/
def put (disk : Disk) (off : Nat) (d : List Byte) : Disk := fun a =>
  if off ≤ a ∧ a < off + d.length then d.getD (a - off) 0 else disk a

/-- Write several buffers one after the other. -/
def putv (disk : Disk) (off : Nat) : List (List Byte) → Disk
  | [] => disk
  | d :: ds => putv (put disk off d) (off + d.length) ds

/-- Read `len` bytes at byte offset `off`. -/
def fetch (disk : Disk) (off len : Nat) : List Byte :=
  (List.range len).map fun i => disk (off + i)

/-- Fill several buffers one after the other. -/
def fetchv (disk : Disk) (off : Nat) : List Nat → List (List Byte)
  | [] => []
  | l :: ls => fetch disk off l :: fetchv disk (off + l) ls

/-- What the device does for a read or write: its new contents and the contents of
the caller's buffers, in order. -/
def perform (disk : Disk) (op : BlockOp) : Disk × List (List Byte) :=
  let off := op.lba * lbaBytes
  match op.cmd with
  | .readAt l => (disk, [fetch disk off l])
  | .readvAt ls => (disk, fetchv disk off ls)
  | .writeAt d => (put disk off d, [])
  | .writevAt ds => (putv disk off ds, [])
  | _ => (disk, [])

/-- Performing operations one at a time. -/
def performAll (disk : Disk) : List BlockOp → Disk × List (List Byte)
  | [] => (disk, [])
  | op :: ops =>
    let r := perform disk op
    let r' := performAll r.1 ops
    (r'.1, r.2 ++ r'.2)

/-- Number of scatter-gather elements of an operation. -/
def iovecs : Cmd → Nat
  | .readvAt ls => ls.length
  | .writevAt ds => ds.length
  | _ => 1

/-- Every operation to an LBA of `[lo, hi]` that lies beyond a write of the same range is
submitted after that write: nothing runs ahead of the zone's write pointer. -/
def WritePointerOrder (subm : List BlockOp) (lo hi : Nat) : Prop :=
  ∀ (i j : Nat) x c, subm[i]? = some x → subm[j]? = some c →
    kind x.cmd = .write → c.cmd.isSync = false →
    lo ≤ x.lba → x.lba < c.lba → c.lba ≤ hi → i < j

end Verif.Sched
