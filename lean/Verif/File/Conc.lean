import Verif.File.Steps

/-!
# Concurrent writes to one file: `Fs::write`, fs.rs:2416-2551

`Fs::write` takes `&self`: any number of writes to one file may be in
progress.  Each one is cut at its await points into the atomic accesses it makes
to the file system tree, and a history is any interleaving of those accesses:

* `read`: `dataset.get(inode_key)` in its own read transaction (2432-2437);
* `full i`: the single `dataset.insert` of a record that is written whole
  (2545-2549);
* `take i`: the `dataset.remove(k)` that starts the update of a partly written
  record (2509);
* `put i`: the `dataset.insert(k, ..)` that ends it (2542-2543);
* `fin`: the `dataset.insert(inode_key, value)` of the inode *as it was read by
  `read`*, with its size and byte count brought up to date (2464-2480).

The records of one write are processed by a `FuturesUnordered` (2456-2462), so
their accesses interleave too.  Simplifications: one tree access is atomic (the
tree's locking is not modelled here); errors, credit and timestamps are left
out; the syncer does not appear, since it changes no contents.
-/

namespace Verif.File.Conc

open OMap

/-- The arguments of one call of `Fs::write`. -/
structure Arg where
  offset : Nat
  data : List Byte

/-- How far one `write_record` future has got, fs.rs:2491-2551. -/
inductive RecSt where
  /-- not started -/
  | todo
  /-- the old record (if there was one) has been removed from the tree and is
  being modified -/
  | held (old : Option (List Byte))
  /-- finished -/
  | done

def RecSt.isDone : RecSt → Bool
  | .done => true
  | _ => false

/-- The local variables of one `Fs::write` call: the inode as read at
fs.rs:2432, the futures of 2456 and the sum of their results. -/
structure Task where
  size : Nat
  bytes : Nat
  recs : List RecSt
  delta : Int

inductive Phase where
  | idle
  | running (t : Task)
  | done

def Phase.isDone : Phase → Bool
  | .done => true
  | _ => false

/-- The file, and the calls: call number `t` has arguments `arg t`. -/
structure St where
  file : File
  ph : Nat → Phase

inductive Ev where
  | read (t : Nat)
  | full (t i : Nat)
  | take (t i : Nat)
  | put (t i : Nat)
  | fin (t : Nat)
  deriving DecidableEq

/-- `offs`, fs.rs:2497-2498. -/
def recKey (rs : Nat) (a : Arg) (i : Nat) : Nat := a.offset - a.offset % rs + i * rs

/-- The part of the data that goes to record `i`, fs.rs:2451-2454. -/
def recData (rs : Nat) (a : Arg) (i : Nat) : List Byte := chunk a.data (a.offset % rs) rs i

/-- The number of records, fs.rs:2444. -/
def recCount (rs : Nat) (a : Arg) : Nat := nrecs (a.offset % rs) rs a.data.length

/-- The buffer inserted at fs.rs:2543, built at 2510-2540 from the removed record. -/
def modify (junk : Nat → Byte) (rs : Nat) (a : Arg) (i : Nat) (old : Option (List Byte)) :
    List Byte :=
  let offsetIntoRec := if i = 0 then a.offset - (a.offset - a.offset % rs) else 0
  let d := recData rs a i
  let base := match old with
    | none =>
      overlayAt (uninit junk (d.length + offsetIntoRec)) 0 (List.replicate offsetIntoRec 0)
    | some b => b
  overlayAt (resize base (max (offsetIntoRec + d.length) base.length)) offsetIntoRec d

/-- Length of an extent that may not be there. -/
def oldLen : Option (List Byte) → Int
  | none => 0
  | some b => b.length

def setPh (s : St) (t : Nat) (p : Phase) : Nat → Phase := fun u => if u = t then p else s.ph u

/-- `Fs::write` up to the start of its transaction, fs.rs:2432-2447. -/
def stepRead (arg : Nat → Arg) (s : St) (t : Nat) : Option St :=
  match s.ph t with
  | .idle => some
      { s with
        ph := setPh s t (.running
          ⟨s.file.size, s.file.bytes, List.replicate (recCount s.file.rs (arg t)) .todo, 0⟩) }
  | _ => none

/-- The `else` branch of `write_record`, fs.rs:2544-2550. -/
def stepFull (arg : Nat → Arg) (s : St) (t i : Nat) : Option St :=
  match s.ph t with
  | .running k =>
    match k.recs[i]? with
    | some .todo =>
      let d := recData s.file.rs (arg t) i
      let o := recKey s.file.rs (arg t) i
      if d.length < s.file.rs then none
      else some
        { file := { s.file with ext := s.file.ext.insert o d }
          ph := setPh s t (.running
            { k with
              recs := k.recs.set i .done
              delta := k.delta + ((d.length : Int) - oldLen (s.file.ext.get o)) }) }
    | _ => none
  | _ => none

/-- `dataset.remove(k).await`, fs.rs:2506-2509. -/
def stepTake (arg : Nat → Arg) (s : St) (t i : Nat) : Option St :=
  match s.ph t with
  | .running k =>
    match k.recs[i]? with
    | some .todo =>
      let o := recKey s.file.rs (arg t) i
      if (recData s.file.rs (arg t) i).length < s.file.rs then some
        { file := { s.file with ext := s.file.ext.remove o }
          ph := setPh s t (.running { k with recs := k.recs.set i (.held (s.file.ext.get o)) }) }
      else none
    | _ => none
  | _ => none

/-- `dataset.insert(k, new_v).await`, fs.rs:2510-2543. -/
def stepPut (junk : Nat → Byte) (arg : Nat → Arg) (s : St) (t i : Nat) : Option St :=
  match s.ph t with
  | .running k =>
    match k.recs[i]? with
    | some (.held old) =>
      let b := modify junk s.file.rs (arg t) i old
      some
        { file := { s.file with ext := s.file.ext.insert (recKey s.file.rs (arg t) i) b }
          ph := setPh s t (.running
            { k with
              recs := k.recs.set i .done
              delta := k.delta + ((b.length : Int) - oldLen old) }) }
    | _ => none
  | _ => none

/-- The end of `Fs::write`, fs.rs:2459-2482: all records are done. -/
def stepFin (arg : Nat → Arg) (s : St) (t : Nat) : Option St :=
  match s.ph t with
  | .running k =>
    if k.recs.all RecSt.isDone then some
      { file :=
          { s.file with
            size := max k.size ((arg t).offset + (arg t).data.length)
            bytes := satAddSigned k.bytes k.delta }
        ph := setPh s t .done }
    else none
  | _ => none

/-- One atomic access; `none` if it is not possible in this state. -/
def step (junk : Nat → Byte) (arg : Nat → Arg) (s : St) : Ev → Option St
  | .read t => stepRead arg s t
  | .full t i => stepFull arg s t i
  | .take t i => stepTake arg s t i
  | .put t i => stepPut junk arg s t i
  | .fin t => stepFin arg s t

/-- A history, latest access first. -/
def run (junk : Nat → Byte) (arg : Nat → Arg) (f : File) : List Ev → Option St
  | [] => some ⟨f, fun _ => .idle⟩
  | e :: es =>
    match run junk arg f es with
    | some s => step junk arg s e
    | none => none

/-! ## Specification -/

/-- The end of write `t`. -/
def writeEnd (arg : Nat → Arg) (t : Nat) : Nat := (arg t).offset + (arg t).data.length

/-- Write `a` was overtaken: some write `b` that had begun before `a` finished
finished after it.  (Histories are listed latest first.) -/
def Overtaken (es : List Ev) (a : Nat) : Prop :=
  ∃ b e1 e2 e3, es = e3 ++ .fin b :: (e2 ++ .fin a :: e1) ∧ .read b ∈ e1

/-- Record number `x` of the file contains a byte of `[offset, offset + len)`, or is the record
that a zero-length write in the middle of a record touches. -/
def Touches (rs : Nat) (a : Arg) (x : Nat) : Prop :=
  x * rs < a.offset + a.data.length ∧ a.offset < (x + 1) * rs

/-- The file after the writes `ts`, one after the other. -/
def serially (junk : Nat → Byte) (arg : Nat → Arg) (f : File) (ts : List Nat) : File :=
  ts.foldl (fun f t => write junk (writeOrder f (arg t).offset (arg t).data) f
    (arg t).offset (arg t).data) f

end Verif.File.Conc
