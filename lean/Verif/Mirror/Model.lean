/-!
# Mirrors: child states, reads with error recovery, zone repair and opening

Models `/repo/bfffs-core/src/mirror.rs`.  A child is named by its position in the mirror's
`children` vector or, where the code does so, by its uuid (a `Nat` here).
-/

namespace Verif.Mirror

/-- The four states of a mirror child.  `mirror.rs:132-139` (`enum Child`). -/
inductive St | present | missing | rebuilding | faulted
deriving DecidableEq, Repr

/-- A mirror child: its uuid, its state and the geometry of its device.  For a missing
child the geometry is not known to the code; here it is carried along and never looked at.
`mirror.rs:132-139`. -/
structure Child where
  uuid : Nat
  st : St
  size : Nat
  lpz : Nat
deriving DecidableEq, Repr

/-- `mirror.rs:205-207` (`Child::is_present`). -/
def Child.isPresent (c : Child) : Bool := c.st == .present

/-- `mirror.rs:209-211` (`Child::is_rebuilding`). -/
def Child.isRebuilding (c : Child) : Bool := c.st == .rebuilding

/-- `mirror.rs:191-199` (`Child::fault`). -/
def Child.fault (c : Child) : Child :=
  match c.st with
  | .present => { c with st := .faulted }
  | .faulted => { c with st := .faulted }
  | .rebuilding => { c with st := .faulted }
  | .missing => { c with st := .missing }

/-- `mirror.rs:218-226` (`Child::rebuild`). -/
def Child.rebuild (c : Child) : Child :=
  match c.st with
  | .present => { c with st := .present }
  | .faulted => { c with st := .rebuilding }
  | .rebuilding => { c with st := .rebuilding }
  | .missing => { c with st := .missing }

/-- `mirror.rs:232-240` (`Child::restore`).  `none` is the panic "Must rebuild before
restore". -/
def Child.restore (c : Child) : Option Child :=
  match c.st with
  | .present => some { c with st := .present }
  | .faulted => none
  | .rebuilding => some { c with st := .present }
  | .missing => some { c with st := .missing }

/-- A device's or mirror's health.  `vdev.rs:13-39`; of the fault reasons only those used by
`mirror.rs` are listed. -/
inductive Health
  | online
  | degraded (n : Nat)
  | faultedUser
  | faultedRemoved
  | faultedInsufficient
deriving DecidableEq, Repr

/-- The health of one leaf in the mirror's status report: `mirror.rs:242-257`
(`Child::status`), `mirror.rs:770-776` (what `Mirror::status` puts in for a missing child)
and `vdev_block.rs:1061-1067` (a `VdevBlock` always reports `Online`). -/
def Child.health (c : Child) : Health :=
  match c.st with
  | .present => .online
  | .faulted => .faultedUser
  | .rebuilding => .degraded 1
  | .missing => .faultedRemoved

/-- A mirror is its vector of children (`mirror.rs:326-343`).  `next_read_idx`, which the
code wraps at `2^32`, is a parameter of the operations that use it. -/
abbrev Mirror := List Child

/-- Errors returned by the functions below. -/
inductive Err | ebusy | einval | enoent | enxio | eintegrity | eio (n : Nat)
deriving DecidableEq, Repr

/-- `mirror.rs:440-447` (`Mirror::first_present_child`); `none` is the panic "No present
children". -/
def firstPresent (m : Mirror) : Option Child := m.find? Child.isPresent

/-- `mirror.rs:350-369` (`Mirror::attach`).  The new device is given by the child record
`VdevBlock::create` would produce.  `none` is a panic. -/
def attach (m : Mirror) (uuid size lpz : Nat) : Option (Except Err Mirror) :=
  if m.any Child.isRebuilding then some (.error .ebusy)
  else match firstPresent m with
    | none => none
    | some r =>
      if size ≠ r.size ∨ lpz ≠ r.lpz then some (.error .einval)
      else some (.ok (m ++ [⟨uuid, .rebuilding, size, lpz⟩]))

/-- The loop shared by `Mirror::fault` and `Mirror::rebuild`: change the first child with
the given uuid and stop. -/
def updFirst (f : Child → Child) (u : Nat) : Mirror → Option Mirror
  | [] => none
  | c :: m => if c.uuid = u then some (f c :: m) else (updFirst f u m).map (c :: ·)

/-- `mirror.rs:416-424` (`Mirror::fault`). -/
def fault (m : Mirror) (u : Nat) : Except Err Mirror :=
  match updFirst Child.fault u m with
  | some m' => .ok m'
  | none => .error .enoent

/-- `mirror.rs:742-750` (`Mirror::rebuild`). -/
def rebuild (m : Mirror) (u : Nat) : Except Err Mirror :=
  match updFirst Child.rebuild u m with
  | some m' => .ok m'
  | none => .error .enoent

/-- `mirror.rs:758-764` (`Mirror::restore`).  `none` is the panic in `Child::restore`. -/
def restore (m : Mirror) : Option Mirror :=
  m.mapM fun c => if c.isRebuilding then c.restore else some c

/-- `mirror.rs:767-798` (`Mirror::status`), the health only.  `sick_children as u8`
truncates, and `NonZeroU8::new` turns zero into `None`. -/
def status (m : Mirror) : Health :=
  let sick := (m.filter fun c => decide (c.health ≠ .online)).length
  if sick = m.length then .faultedInsufficient
  else if sick % 256 = 0 then .online else .degraded (sick % 256)

/-! ### Reads -/

/-- `mirror.rs:597-622` (`Mirror::read_something`): the position of the child to read
first, and those of the other present children.  `idx` is the value of `next_read_idx`
before the increment; `read_idx` (`mirror.rs:557-560`) takes it modulo the number of
children. -/
def readSomething (m : Mirror) (idx : Nat) : Option Nat × List Nat :=
  let n := m.length
  let idx := idx % n
  let present := fun (i : Nat) => (m[i]?.map Child.isPresent).getD false
  match ((List.range n).map fun j => (idx + j) % n).find? present with
  | some i => (some i, (List.range n).filter fun j => decide (j ≠ i) && present j)
  | none => (none, [])

/-- The retry loop of the read futures: `mirror.rs:905-928` (`ReadAt::poll`),
`944-967` (`ReadSpacemap::poll`), `983-1008` (`ReadvAt::poll`).  `io i` is what the device
of child `i` answers; `cur` is the child being read, `rest` the children left to try, and
`Vec::pop` takes the last one.  The result is paired with the children tried, in order. -/
def readLoop {D : Type} (io : Nat → Except Err D) (cur : Nat) (rest : List Nat) :
    Except Err D × List Nat :=
  match io cur with
  | .ok d => (.ok d, [cur])
  | .error e =>
    if h : rest = [] then (.error e, [cur])
    else
      let r := readLoop io (rest.getLast h) rest.dropLast
      (r.1, cur :: r.2)
termination_by rest.length
decreasing_by
  have := List.length_pos_iff.mpr h
  simp only [List.length_dropLast]
  omega

/-- `mirror.rs:544-554` (`Mirror::read_at`), `624-636` (`read_spacemap`) and `639-653`
(`readv_at`) driven to completion. -/
def read {D : Type} (m : Mirror) (idx : Nat) (io : Nat → Except Err D) :
    Except Err D × List Nat :=
  match readSomething m idx with
  | (none, _) => (.error .enxio, [])
  | (some i, rest) => readLoop io i rest

/-- `mirror.rs:570-592` (`Mirror::read_long`): every reconstruction is one present child's
copy.  `order` is the order in which the `FuturesUnordered` of the present children's reads
complete (a permutation of the present positions). -/
def readLong {D : Type} (m : Mirror) (order : List Nat) (io : Nat → Except Err D) :
    Except Err (List D) :=
  if (m.filter Child.isPresent).length ≤ 1 then .error .eintegrity
  else
    let r := order.map io
    match r with
    | .error e :: _ =>
      if r.all (fun x => match x with | .error _ => true | .ok _ => false) then .error e
      else .ok (r.filterMap (fun x => match x with | .error _ => none | .ok d => some d))
    | _ => .ok (r.filterMap (fun x => match x with | .error _ => none | .ok d => some d))

/-! ### Writes -/

/-- The commands a mirror passes on to its children. -/
inductive Cmd
  | writeAt | writevAt | writeSpacemap | eraseZone | finishZone | openZone | syncAll
  | writeLabel (repairing : Bool)
deriving DecidableEq, Repr

/-- Does a child take the command?  `mirror.rs:187-189, 201-203, 213-215` (zone commands),
`259-286` (writes, labels, spacemaps), `300-302` (`sync_all`). -/
def Child.takes (c : Child) : Cmd → Bool
  | .writeLabel true => c.isRebuilding
  | .writeAt | .writevAt | .writeSpacemap | .eraseZone | .finishZone | .openZone
  | .syncAll | .writeLabel false => c.isPresent

/-- The positions of the children a mirror command is sent to: `mirror.rs:402-409`
(`erase_zone`), `431-438`, `535-542`, `800-808`, `815-867`. -/
def targets (m : Mirror) (c : Cmd) : List Nat :=
  (List.range m.length).filter fun i => (m[i]?.map fun ch => ch.takes c).getD false

/-! ### Repairing a zone -/

/-- The size of a repair block in LBAs.  `mirror.rs:681-682`: `2^18` bytes of 4096-byte
LBAs. -/
def BLOCK : Nat := 64

/-- The reader of `Mirror::repair_zone` (`mirror.rs:708-723`).  `rd c lba len` is what the
device of child `c` returns, one value per LBA; `none` is a read error, which ends the
reader.  The result is the list of blocks read before the error or the end, and whether the
end was reached.  The read of the next block does not depend on the writer, except that
the reader stops early if the writer has failed; that case is covered by `Repaired`. -/
def repairRead {B : Type} (rd : Nat → Nat → Nat → Option (List B)) (rc : List Nat)
    (idx start end_ : Nat) : List (List B) × Bool :=
  if _h : start < end_ then
    match rc[idx % rc.length]? with
    | none => ([], false)
    | some c =>
      match rd c start (min BLOCK (end_ - start)) with
      | none => ([], false)
      | some b =>
        let r := repairRead rd rc (idx + 1) (start + BLOCK) end_
        (b :: r.1, r.2)
  else ([], true)
termination_by end_ - start
decreasing_by simp only [BLOCK]; omega

/-- One write to one child. -/
structure Wr (B : Type) where
  child : Nat
  lba : Nat
  data : List B

/-- The writer of `Mirror::repair_zone` (`mirror.rs:724-733`): each block goes to every
rebuilding child at `wlba`, which then advances by a whole block. -/
def repairWrites {B : Type} (wc : List Nat) : Nat → List (List B) → List (Wr B)
  | _, [] => []
  | wlba, b :: bs => (wc.map fun c => ⟨c, wlba, b⟩) ++ repairWrites wc (wlba + BLOCK) bs

/-- Positions of the children in a given state. -/
def positions (m : Mirror) (s : St) : List Nat :=
  (List.range m.length).filter fun i => (m[i]?.map fun c => decide (c.st = s)).getD false

/-- The range `repair_zone` works on (`mirror.rs:685-691`): `lim` is the zone's limits, from
the first present child; `lbas` the optional length.  `none` is the failed
`debug_assert`. -/
def repairRange (lim : Nat × Nat) (lbas : Option Nat) : Option (Nat × Nat) :=
  match lbas with
  | none => some lim
  | some n => if n ≤ lim.2 - lim.1 then some (lim.1, lim.1 + n) else none

/-- `mirror.rs:671-735` (`Mirror::repair_zone`): the writes it issues, in order, and whether
its reader reached the end of the range.  `idx` is the value of `read_idx`.  `none` is a
panic. -/
def repairZone {B : Type} (m : Mirror) (idx : Nat) (lim : Nat × Nat) (lbas : Option Nat)
    (rd : Nat → Nat → Nat → Option (List B)) : Option (List (Wr B) × Bool) :=
  match firstPresent m, repairRange lim lbas with
  | some _, some (start, end_) =>
    let rc := positions m .present
    let wc := positions m .rebuilding
    if wc = [] then some ([], true)
    else
      let r := repairRead rd rc idx start end_
      some (repairWrites wc start r.1, r.2)
  | _, _ => none

/-- What the disks hold: child position and LBA to contents. -/
abbrev Disks (B : Type) := Nat → Nat → B

/-- Carrying out a write. -/
def Wr.apply {B : Type} (w : Wr B) (d : Disks B) : Disks B := fun c a =>
  if c = w.child ∧ w.lba ≤ a then (w.data[a - w.lba]?).getD (d c a) else d c a

/-- Carrying out writes in order. -/
def applyAll {B : Type} (ws : List (Wr B)) (d : Disks B) : Disks B :=
  ws.foldl (fun d w => w.apply d) d

/-! ### Opening -/

/-- A leaf device found at import time: its uuid, geometry, and the contents of its newest
label that matter here, namely the transaction group and the mirror's list of children. -/
structure Leaf where
  uuid : Nat
  size : Nat
  lpz : Nat
  txg : Nat
  children : List Nat
deriving DecidableEq, Repr

/-- The highest transaction group among the leaves.  `mirror.rs:502-505`. -/
def highestTxg (ls : List Leaf) : Nat := ls.foldl (fun a l => max a l.txg) 0

/-- The leaf whose label is used, the first one at the highest transaction group.
`mirror.rs:513-515`. -/
def labelLeaf (ls : List Leaf) : Option Leaf := ls.find? fun l => decide (l.txg = highestTxg ls)

/-- The state given to one child listed in the label.  `mirror.rs:522-531`.  The code
removes each leaf from a map as it goes; with distinct uuids that is a lookup. -/
def openChild (ls : List Leaf) (u : Nat) : Child :=
  match ls.find? (fun l => decide (l.uuid = u)) with
  | some l =>
    if l.txg = highestTxg ls then ⟨u, .present, l.size, l.lpz⟩ else ⟨u, .rebuilding, l.size, l.lpz⟩
  | none => ⟨u, .missing, 0, 0⟩

/-- `mirror.rs:449-488` (`Mirror::new`): `none` is a panic (no children, or none present,
so that the minimum queue depth does not exist). -/
def new (cs : List Child) : Option (Except Err Mirror) :=
  if cs = [] then none
  else
    let vdevs := cs.filter fun c => decide (c.st ≠ .missing)
    match vdevs with
    | f :: rest =>
      if rest.any fun c => decide (c.size ≠ f.size ∨ c.lpz ≠ f.lpz) then some (.error .einval)
      else if cs.any Child.isPresent then some (.ok cs) else none
    | [] => none

/-- `mirror.rs:498-533` (`Mirror::open`).  The result is paired with the leaf whose label
the rest of the pool is read from. -/
def openMirror (ls : List Leaf) : Option (Except Err (Mirror × Leaf)) :=
  match labelLeaf ls with
  | none => none
  | some l =>
    match new (l.children.map (openChild ls)) with
    | none => none
    | some (.error e) => some (.error e)
    | some (.ok m) => some (.ok (m, l))

end Verif.Mirror
