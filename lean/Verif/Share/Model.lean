import Verif.Common.OMap
import Verif.Share.Spec

/-!
# Model of the buffers that tasks share: `fs.rs`, `fs_tree.rs`, `cache/mod.rs`

The extents of a file are in the tree as buffers (`Arc<DivBufShared>`).  A read
holds clones of the `Arc`s that it has not looked at yet, and then `DivBuf`s; a
write that changes part of a record has a `DivBufMut` of the record's buffer
until it is done, which is after the buffer is back in the tree.  The flusher
needs extents' buffers for itself: `Arc::try_unwrap(..).unwrap()` and
`try_const().unwrap()` panic when others have them.

The model is one regular file, with any number of concurrent reads and, at other
times, one write of any number of records: the kernel locks the vnode, shared
for reads and exclusively for writes.  The flusher runs at any time.  Every
await point is a place where other tasks may run, and so are the places where
a lock of a tree node has been released (the runtime has several threads).
Not modelled: deallocation (which holds its buffer the same way, fs.rs:886-913),
extended attributes, the cache's copies of records.
-/

namespace Verif.Share
open Verif (OMap)

abbrev Bytes := List UInt8

/-- `BLOB_THRESHOLD`, fs_tree.rs:44. -/
def threshold : Nat := 4096 / 4

/-- An extent in a leaf: an `InlineExtent` with the identity of its buffer, or a
`BlobExtent`, fs_tree.rs:1045-1049 and 1156-1160. -/
inductive Ent where
  | inline (b : Nat) (data : Bytes)
  | blob (rid : Nat)
  deriving Repr, DecidableEq

/-- A read in progress, `do_read`, fs.rs:701-770.  `todo` are the items of
`RangeQuery::data` (tree/mod.rs:137-168), `cur` is its cursor; `out` has what
the `try_fold` collected and `held` the buffers it has `DivBuf`s of. -/
structure Reader where
  lo : Nat
  hi : Nat
  cur : Nat
  todo : List (Nat × Ent)
  out : List (Nat × Bytes)
  held : List Nat
  deriving Repr, DecidableEq

/-- Where `write_record` (fs.rs:2491-2551) is. -/
inductive Phase where
  | start
  /-- the old record was removed from the tree and is in buffer `b` -/
  | got (b : Nat) (old : Option Bytes)
  /-- buffer `b` is in the tree, and `base` is still alive -/
  | placed (b : Nat)
  | done
  deriving Repr, DecidableEq

/-- One record of a write.  `full` writes replace the whole record. -/
structure RecW where
  k : Nat
  f : Spec.Update
  full : Bool
  ph : Phase

structure St where
  tree : OMap Ent
  recs : OMap Bytes
  nextRid : Nat
  nextBuf : Nat
  readers : OMap Reader
  /-- the write in progress -/
  writer : Option (List RecW)

def St.empty : St := ⟨[], [], 0, 0, [], none⟩

inductive Res where
  | ok (s : St) (out : Option (List (Nat × Bytes)))
  | err
  | panic

/-- Has a reader an `Arc` of this buffer? -/
def St.arcHeld (s : St) (b : Nat) : Bool :=
  s.readers.any fun r => r.2.todo.any fun e =>
    match e.2 with
    | .inline b' _ => b' == b
    | .blob _ => false

/-- Has a reader a `DivBuf` of this buffer? -/
def St.constHeld (s : St) (b : Nat) : Bool := s.readers.any fun r => r.2.held.contains b

def Phase.isPlaced (b : Nat) : Phase → Bool
  | .placed b' => b' == b
  | _ => false

/-- Has a writer a `DivBufMut` of this buffer? -/
def St.mutHeld (s : St) (b : Nat) : Bool :=
  match s.writer with
  | none => false
  | some l => l.any fun w => w.ph.isPlaced b

/-! ## Reading -/

/-- `Tree::get_range`, tree/mod.rs:1138-1157: the items of one leaf, which ends
at `n`, are cloned. -/
def fill (s : St) (r : Reader) (n : Nat) : Reader :=
  { r with cur := n, todo := s.tree.filter fun e => decide (r.cur ≤ e.1 ∧ e.1 < n) }

inductive ReadRes where
  | ok (r : Reader)
  | err
  | panic

/-- The `and_then` of `do_read` for the next item, fs.rs:722-735, with
`try_const().unwrap()` for inline extents and `get_blob` for others. -/
def next (s : St) (r : Reader) : Nat × Ent → List (Nat × Ent) → ReadRes
  | (k, .inline b d), l =>
    if s.mutHeld b then .panic
    else .ok { r with todo := l, out := r.out ++ [(k, d)], held := b :: r.held }
  | (k, .blob rid), l =>
    match s.recs.get rid with
    | none => .err
    | some d => .ok { r with todo := l, out := r.out ++ [(k, d)] }

/-! ## Writing -/

/-- The record of a removed or replaced extent is deleted: `FSValue::dpop`,
fs_tree.rs:1413-1439.  `none` is `ENOENT`. -/
def dpop (s : St) : Ent → Option (St × Nat × Bytes)
  | .inline b d => some (s, b, d)
  | .blob rid =>
    match s.recs.get rid with
    | none => none
    | some d =>
      some ({ s with recs := s.recs.remove rid, nextBuf := s.nextBuf + 1 }, s.nextBuf, d)

/-- `dataset.remove(k)`, fs.rs:2507. -/
def popRec (s : St) (k : Nat) : Option (St × Phase) :=
  match s.tree.get k with
  | none => some ({ s with nextBuf := s.nextBuf + 1 }, .got s.nextBuf none)
  | some e =>
    match dpop s e with
    | none => none
    | some (s', b, d) => some ({ s' with tree := s'.tree.remove k }, .got b (some d))

/-- `dataset.insert(k, v)` with a buffer that the task holds, fs.rs:2540-2543. -/
def placeBuf (s : St) (k b : Nat) (d : Bytes) : Option St :=
  match s.tree.get k with
  | none => some { s with tree := s.tree.insert k (.inline b d) }
  | some e =>
    match dpop s e with
    | none => none
    | some (s', _, _) => some { s' with tree := s'.tree.insert k (.inline b d) }

inductive StepRes where
  | ok (s : St) (w : RecW)
  | err
  | panic

/-- The next step of `write_record`. -/
def advance (s : St) (w : RecW) : StepRes :=
  match w.ph with
  | .start =>
    if w.full then
      -- fs.rs:2544-2548; the buffer is the task's own
      let b := s.nextBuf
      match placeBuf { s with nextBuf := b + 1 } w.k b (w.f none) with
      | none => .err
      | some s' => .ok s' { w with ph := .done }
    else
      match popRec s w.k with
      | none => .err
      | some (s', ph) => .ok s' { w with ph := ph }
  | .got b old =>
    -- `dbs.try_mut().unwrap()`, fs.rs:2530
    if s.constHeld b || s.mutHeld b then .panic
    else
      match placeBuf s w.k b (w.f old) with
      | none => .err
      | some s' => .ok s' { w with ph := .placed b }
  | .placed _ => .ok s { w with ph := .done }
  | .done => .ok s w

/-! ## Flushing -/

/-- Writing one item of a leaf: `InlineExtent::flush` (fs_tree.rs:1060-1074) for
long extents, with `Arc::try_unwrap(..).unwrap()` and the `make_ref` of
cache/mod.rs:88-90; serialisation (fs_tree.rs:1120-1128) for others.  `none` is
a panic. -/
def flushEnt (s : St) : Ent → Option (Ent × OMap Bytes × Nat)
  | .inline b d =>
    if s.mutHeld b then none
    else if d.length > threshold then
      if s.arcHeld b then none
      else some (.blob s.nextRid, s.recs.insert s.nextRid d, s.nextRid + 1)
    else some (.inline b d, s.recs, s.nextRid)
  | .blob rid => some (.blob rid, s.recs, s.nextRid)

/-- The flusher writes the leaves with the keys that `p` selects. -/
def flushItems (p : Nat → Bool) (s : St) : OMap Ent → Option (OMap Ent × OMap Bytes × Nat)
  | [] => some ([], s.recs, s.nextRid)
  | (k, e) :: m =>
    if p k then
      match flushEnt s e with
      | none => none
      | some (e', recs, n) =>
        match flushItems p { s with recs := recs, nextRid := n } m with
        | none => none
        | some (m', x) => some ((k, e') :: m', x)
    else
      match flushItems p s m with
      | none => none
      | some (m', x) => some ((k, e) :: m', x)

/-! ## Everything -/

inductive Ev where
  /-- a read of the extents from `lo` up to `hi` starts -/
  | openR (id lo hi : Nat)
  /-- a read gets the items of the next leaf, which ends at `n` -/
  | fill (id n : Nat)
  /-- a read handles one item -/
  | next (id : Nat)
  /-- a read that is through answers -/
  | closeR (id : Nat)
  /-- a write starts -/
  | openW (l : List (Nat × Spec.Update × Bool))
  /-- the next step of the write's `i`th record -/
  | advance (i : Nat)
  /-- a write that is through answers -/
  | closeW
  | flush (p : Nat → Bool)

/-- A write of a whole record does not depend on the old one. -/
def okWrite (l : List (Nat × Spec.Update × Bool)) : Prop :=
  (l.map (·.1)).Nodup ∧ ∀ w ∈ l, w.2.2 = true → ∀ x y, w.2.1 x = w.2.1 y

def Phase.isDone : Phase → Bool
  | .done => true
  | _ => false

/-- What an event does; `none` if it cannot happen now. -/
def step (s : St) : Ev → Option Res
  | .openR id lo hi =>
    match s.readers.get id, s.writer with
    | none, none =>
      some (.ok { s with readers := s.readers.insert id ⟨lo, hi, lo, [], [], []⟩ } none)
    | _, _ => none
  | .fill id n =>
    match s.readers.get id with
    | none => none
    | some r =>
      if r.todo = [] ∧ r.cur ≤ n ∧ n ≤ r.hi then
        some (.ok { s with readers := s.readers.insert id (fill s r n) } none)
      else none
  | .next id =>
    match s.readers.get id with
    | none => none
    | some r =>
      match r.todo with
      | [] => none
      | e :: l =>
        match next s r e l with
        | .ok r' => some (.ok { s with readers := s.readers.insert id r' } none)
        | .err => some .err
        | .panic => some .panic
  | .closeR id =>
    match s.readers.get id with
    | none => none
    | some r =>
      if r.todo = [] ∧ r.hi ≤ r.cur then
        some (.ok { s with readers := s.readers.remove id } (some r.out))
      else none
  | .openW l =>
    match s.readers, s.writer with
    | [], none => some (.ok { s with writer := some (l.map fun w => ⟨w.1, w.2.1, w.2.2, .start⟩) } none)
    | _, _ => none
  | .advance i =>
    match s.writer with
    | none => none
    | some l =>
      match l[i]? with
      | none => none
      | some w =>
        match advance s w with
        | .ok s' w' => some (.ok { s' with writer := some (l.set i w') } none)
        | .err => some .err
        | .panic => some .panic
  | .closeW =>
    match s.writer with
    | none => none
    | some l => if l.all fun w => w.ph.isDone then some (.ok { s with writer := none } none) else none
  | .flush p =>
    match flushItems p s s.tree with
    | none => some .panic
    | some (t, recs, n) => some (.ok { s with tree := t, recs := recs, nextRid := n } none)

/-- The state after a history in which nothing panicked or failed, and the
answers of the reads. -/
inductive Steps : St → List Ev → List (List (Nat × Bytes)) → St → Prop where
  | nil (s : St) : Steps s [] [] s
  | cons {s s' s'' : St} {ev : Ev} {evs : List Ev} {o : Option (List (Nat × Bytes))}
      {outs : List (List (Nat × Bytes))} :
      step s ev = some (.ok s' o) → Steps s' evs outs s'' → Steps s (ev :: evs) (o.toList ++ outs) s''

end Verif.Share
