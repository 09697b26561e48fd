/-!
# The block device scheduler (`bfffs-core/src/vdev_block.rs`)

`VdevBlock` queues operations, issues them to the leaf device in C-LOOK order,
merges adjacent operations of the same kind, and treats `sync_all` as a
barrier.  The model follows `Inner` function by function.

Simplifications.
* A `oneshot::Sender` is modelled by a number: the position of the operation in
  the order of submission.  `BlockOp.senders` is then the list of the waiters of
  a (possibly merged) operation.
* A `BinaryHeap` is modelled by the list of its elements.  `pop` and `peek`
  return *some* greatest element for `BlockOp`'s `Ord`; which of several equal
  elements is on top is left open (`IsTop`).
* The device's answer to the first poll of a future (`EAGAIN`, `Pending` or
  ready) is nondeterministic, and so is the time at which a pending operation
  completes.
* Each lock-protected section is one atomic step.  The statement that decrements
  `queue_depth` on completion (line 525) and the later `issue_all` of
  `ReschedFut` (652-663) are separate steps, since the lock is released between
  them.
* A `oneshot::Sender::send(..).unwrap()` on a dropped receiver panics in the
  code; callers are assumed not to drop a polled future.
-/

namespace Verif.Sched

/-- `util.rs:16` `BYTES_PER_LBA`. -/
def lbaBytes : Nat := 4096

abbrev Byte := UInt8

/-- `vdev_block.rs:99-113` `Cmd`.  A buffer to be filled by a read is
represented by its length, a buffer to be written by its contents. -/
inductive Cmd where
  | openZone
  | readAt (len : Nat)
  | readSpacemap (len : Nat)
  | readvAt (lens : List Nat)
  | writeAt (buf : List Byte)
  | writevAt (bufs : List (List Byte))
  | eraseZone (start : Nat)
  | finishZone (start : Nat)
  | writeLabel (buf : List Byte)
  | writeSpacemap (bufs : List (List Byte))
  | syncAll
deriving DecidableEq, Repr

/-- `vdev_block.rs:99-145`: `Cmd`'s discriminants; `PartialEq` and `Ord` for `Cmd`
compare only these. -/
def Cmd.disc : Cmd → Nat
  | .openZone => 0
  | .readAt _ => 1
  | .readSpacemap _ => 2
  | .readvAt _ => 3
  | .writeAt _ => 4
  | .writevAt _ => 5
  | .eraseZone _ => 6
  | .finishZone _ => 7
  | .writeLabel _ => 8
  | .writeSpacemap _ => 9
  | .syncAll => 10

/-- `op.cmd == Cmd::SyncAll` (lines 605, 615, 634). -/
def Cmd.isSync : Cmd → Bool
  | .syncAll => true
  | _ => false

/-- `vdev_block.rs:147-155` `BlockOp`. -/
structure BlockOp where
  lba : Nat
  cmd : Cmd
  senders : List Nat
deriving DecidableEq, Repr

/-- `vdev_block.rs:160-174`: `x` is strictly greater than `y` in `BlockOp`'s reversed
order, that is, `x` has the lower LBA, or the same LBA and the smaller command. -/
def BlockOp.above (x y : BlockOp) : Prop :=
  x.lba < y.lba ∨ (x.lba = y.lba ∧ x.cmd.disc < y.cmd.disc)

/-- `IOV_MAX` check, `vdev_block.rs:196-201`. -/
def iovMaxOk (iovMax : Option Nat) (len0 len1 : Nat) : Bool :=
  match iovMax with
  | some m => decide (len0 + len1 ≤ m)
  | none => true

/-- `sglist_len`: total bytes of a scatter-gather list. -/
def sglistLen (l : List Nat) : Nat := l.sum

/-- `vdev_block.rs:187-246` `BlockOp::can_accumulate`. -/
def canAccumulate (iovMax : Option Nat) (a b : BlockOp) : Bool :=
  let bytesOk (len0 : Nat) : Bool := decide (b.lba = a.lba + len0 / lbaBytes)
  match a.cmd, b.cmd with
  | .readAt l0, .readAt _ => bytesOk l0
  | .readAt l0, .readvAt s1 => bytesOk l0 && iovMaxOk iovMax 1 s1.length
  | .readvAt s0, .readAt _ => bytesOk (sglistLen s0) && iovMaxOk iovMax s0.length 1
  | .readvAt s0, .readvAt s1 =>
      bytesOk (sglistLen s0) && iovMaxOk iovMax s0.length s1.length
  | .syncAll, .syncAll => true
  | .writeAt d0, .writeAt _ => bytesOk d0.length
  | .writeAt d0, .writevAt s1 => bytesOk d0.length && iovMaxOk iovMax 1 s1.length
  | .writevAt s0, .writeAt _ =>
      bytesOk (sglistLen (s0.map List.length)) && iovMaxOk iovMax s0.length 1
  | .writevAt s0, .writevAt s1 =>
      bytesOk (sglistLen (s0.map List.length)) && iovMaxOk iovMax s0.length s1.length
  | _, _ => false

/-- `vdev_block.rs:263-305`: the command of the merged operation.  The code's
`todo!()` arm is unreachable after `can_accumulate`; here it yields `a`. -/
def mergeCmd (a b : Cmd) : Cmd :=
  match a, b with
  | .syncAll, .syncAll => .syncAll
  | .readAt l0, .readAt l1 => .readvAt [l0, l1]
  | .readAt l0, .readvAt s1 => .readvAt (l0 :: s1)
  | .readvAt s0, .readAt l1 => .readvAt (s0 ++ [l1])
  | .readvAt s0, .readvAt s1 => .readvAt (s0 ++ s1)
  | .writeAt d0, .writeAt d1 => .writevAt [d0, d1]
  | .writeAt d0, .writevAt s1 => .writevAt (d0 :: s1)
  | .writevAt s0, .writeAt d1 => .writevAt (s0 ++ [d1])
  | .writevAt s0, .writevAt s1 => .writevAt (s0 ++ s1)
  | a, _ => a

/-- `vdev_block.rs:256-312` `BlockOp::accumulate`.  `other.senders` has one
element (debug assertion at 259), which is appended. -/
def accumulate (a b : BlockOp) : BlockOp :=
  { lba := a.lba, cmd := mergeCmd a.cmd b.cmd, senders := a.senders ++ b.senders }

/-- The queues of `Inner` (`vdev_block.rs:371-430`). -/
structure Q where
  lastLba : Nat := 0
  ahead : List BlockOp := []
  behind : List BlockOp := []
  afterSync : List BlockOp := []
  syncing : Bool := false

/-- `vdev_block.rs:633-643` `sched`. -/
def sched (q : Q) (op : BlockOp) : Q :=
  if op.cmd.isSync || q.syncing then
    { q with syncing := true, afterSync := q.afterSync ++ [op] }
  else if q.lastLba ≤ op.lba then
    { q with ahead := op :: q.ahead }
  else
    { q with behind := op :: q.behind }

/-- `vdev_block.rs:610-622`: the loop in `pop_op` that reschedules the operations
behind a `sync_all`, up to the next one.  The first argument is the contents of
`after_sync`. -/
def drain : List BlockOp → Q → Q
  | [], q => { q with afterSync := [] }
  | op :: rest, q =>
    if op.cmd.isSync then { q with syncing := true, afterSync := op :: rest }
    else drain rest (sched { q with afterSync := rest } op)

/-- `BinaryHeap::peek`: `op` is on top of the heap holding `l`. -/
def IsTop (op : BlockOp) (l : List BlockOp) : Prop :=
  op ∈ l ∧ ∀ x ∈ l, ¬ x.above op

/-- `vdev_block.rs:588-628` `pop_op` returning `Some(op)`. -/
inductive Pop : Q → BlockOp → Q → Prop where
  /-- 589-591 -/
  | ahead {q op} (h : IsTop op q.ahead) :
      Pop q op { q with ahead := q.ahead.erase op, lastLba := op.lba }
  /-- 592-598 -/
  | behind {q op} (ha : q.ahead = []) (h : IsTop op q.behind) :
      Pop q op { q with ahead := q.behind.erase op, behind := [], lastLba := op.lba }
  /-- 599-623 -/
  | sync {q op rest} (ha : q.ahead = []) (hb : q.behind = []) (hs : q.syncing = true)
      (hf : q.afterSync = op :: rest) :
      Pop q op (if op.cmd.isSync then drain rest { q with afterSync := rest, syncing := false }
        else { q with afterSync := rest })

/-- `pop_op` returning `None` (`vdev_block.rs:624-627`). -/
def PopNone (q : Q) : Prop := q.ahead = [] ∧ q.behind = [] ∧ q.syncing = false

/-- `pop_op` panicking: `after_sync.pop_front().unwrap()` on an empty queue (601). -/
def PopPanics (q : Q) : Prop :=
  q.ahead = [] ∧ q.behind = [] ∧ q.syncing = true ∧ q.afterSync = []

/-- `vdev_block.rs:575-585` `peek_op` returning `Some(op)`. -/
inductive Peek : Q → BlockOp → Prop where
  | ahead {q op} (h : IsTop op q.ahead) : Peek q op
  | behind {q op} (ha : q.ahead = []) (h : IsTop op q.behind) : Peek q op
  | sync {q op rest} (ha : q.ahead = []) (hb : q.behind = [])
      (hf : q.afterSync = op :: rest) : Peek q op

/-- `peek_op` returning `None`. -/
def PeekNone (q : Q) : Prop := q.ahead = [] ∧ q.behind = [] ∧ q.afterSync = []

/-- A request to the device: the operation as issued, and (ghost) the submitted
operations it was merged from, in the order in which they left the queues. -/
structure Io where
  op : BlockOp
  parts : List BlockOp
deriving DecidableEq

/-- `vdev_block.rs:438-443`: the merging loop of `issue_all`. -/
inductive Gather (iovMax : Option Nat) : Q → Io → Q → Io → Prop where
  /-- nothing left to look at -/
  | none {q io} (h : PeekNone q) : Gather iovMax q io q io
  /-- the next operation cannot be merged -/
  | stop {q io op2} (h : Peek q op2) (hc : canAccumulate iovMax io.op op2 = false) :
      Gather iovMax q io q io
  | more {q io op2 q1 q2 io2} (h : Peek q op2) (hc : canAccumulate iovMax io.op op2 = true)
      (hp : Pop q op2 q1)
      (hg : Gather iovMax q1 ⟨accumulate io.op op2, io.parts ++ [op2]⟩ q2 io2) :
      Gather iovMax q io q2 io2

/-- What became of a request. -/
inductive Fate where
  /-- accepted by the device -/
  | issued
  /-- dropped with `ENXIO` because the device is being removed -/
  | aborted
deriving DecidableEq

/-- The state of a `VdevBlock`.  `subm`, `log` and `done` are ghosts: the
operations submitted, the requests in the order in which they were issued or
aborted, and the requests whose waiters have been told the result. -/
structure S where
  q : Q := {}
  depth : Nat := 0
  delayed : Option Io := none
  flight : List Io := []
  /-- number of `ReschedFut`s that have been spawned and are ready to run -/
  wakes : Nat := 0
  remover : Bool := false
  removed : Bool := false
  subm : List BlockOp := []
  log : List (Fate × Io) := []
  done : List Io := []

/-- Device parameters: `IOV_MAX` and `optimum_queue_depth`. -/
structure Cfg where
  iovMax : Option Nat
  opt : Nat

/-- `vdev_block.rs:434-453`: `issue_all` selects the next request: the delayed one, or
one made from the queues (`make_fut` adds one to `queue_depth`, line 552). -/
inductive Take (c : Cfg) : S → Io → S → Prop where
  | delayed {s io} (h : s.delayed = some io) : Take c s io { s with delayed := none }
  | pop {s op q1 q2 io} (h : s.delayed = none) (hp : Pop s.q op q1)
      (hg : Gather c.iovMax q1 ⟨op, [op]⟩ q2 io) :
      Take c s io { s with q := q2, depth := s.depth + 1 }

/-- `vdev_block.rs:474-479`: the end of `issue_all`. -/
def finish (s : S) : S :=
  if s.depth = 0 && s.remover then { s with remover := false, removed := true } else s

/-- `vdev_block.rs:432-541`: `issue_all` with `issue_fut`. -/
inductive IssueAll (c : Cfg) : S → S → Prop where
  /-- the loop condition (433) is false -/
  | full {s} (h : c.opt ≤ s.depth) : IssueAll c s (finish s)
  /-- nothing to issue (454-457) -/
  | idle {s} (h : s.depth < c.opt) (hd : s.delayed = none) (hp : PopNone s.q) :
      IssueAll c s (finish s)
  /-- the device is being removed (499-506).  `queue_depth -= 1` for each sender
  must not underflow. -/
  | abort {s io s1 s2} (h : s.depth < c.opt) (ht : Take c s io s1) (hr : s1.remover = true)
      (hu : io.op.senders.length ≤ s1.depth)
      (hi : IssueAll c { s1 with depth := s1.depth - io.op.senders.length,
                                 log := s1.log ++ [(.aborted, io)] } s2) :
      IssueAll c s s2
  /-- `EAGAIN` (516-519, 458-472) -/
  | again {s io s1} (h : s.depth < c.opt) (ht : Take c s io s1) (hr : s1.remover = false) :
      IssueAll c s (finish { s1 with
        delayed := some io
        wakes := if s1.depth = 1 then s1.wakes + 1 else s1.wakes })
  /-- `Pending` (520-531) -/
  | pending {s io s1 s2} (h : s.depth < c.opt) (ht : Take c s io s1) (hr : s1.remover = false)
      (hi : IssueAll c { s1 with flight := s1.flight ++ [io],
                                 log := s1.log ++ [(.issued, io)] } s2) :
      IssueAll c s s2
  /-- immediately ready (532-539) -/
  | ready {s io s1 s2} (h : s.depth < c.opt) (ht : Take c s io s1) (hr : s1.remover = false)
      (hi : IssueAll c { s1 with depth := s1.depth - 1, done := s1.done ++ [io],
                                 log := s1.log ++ [(.issued, io)] } s2) :
      IssueAll c s s2

/-- One event. -/
inductive Step (c : Cfg) : S → S → Prop where
  /-- first poll of a `VdevBlockFut`: `sched_and_issue` (`vdev_block.rs:646-649, 680-683`) -/
  | submit {s s'} (op : BlockOp) (hs : op.senders = [s.subm.length])
      (hi : IssueAll c { s with q := sched s.q op, subm := s.subm ++ [op] } s') :
      Step c s s'
  /-- a pending request completes (521-527) -/
  | complete {s} (io : Io) (hm : io ∈ s.flight) (hu : 1 ≤ s.depth) :
      Step c s { s with flight := s.flight.erase io, done := s.done ++ [io],
                        depth := s.depth - 1, wakes := s.wakes + 1 }
  /-- a `ReschedFut` runs (652-663) -/
  | resched {s s'} (hw : 0 < s.wakes) (hi : IssueAll c { s with wakes := s.wakes - 1 } s') :
      Step c s s'
  /-- first poll of a `RemoveFut` (714-721) -/
  | remove {s s'} (hr : s.remover = false) (hi : IssueAll c { s with remover := true } s') :
      Step c s s'

/-- States reachable from a newly opened device (`vdev_block.rs:971-985`). -/
inductive Reach (c : Cfg) : S → Prop where
  | init : Reach c {}
  | step {s s'} (h : Reach c s) (st : Step c s s') : Reach c s'

end Verif.Sched
