import Verif.File.Model
import Verif.Dir.Model

/-!
# Model of values kept outside their tree node: `fs_tree.rs`, `tree/node.rs`, `fs.rs`

When a dirty leaf of a file system's tree is written to disk, file extents and
extended attributes longer than a quarter of a block are stored as records of
their own ("blobs") and the leaf keeps only their record ids.  When such a value
is later replaced or removed the record is read back and deleted.  This model
keeps the tree (a map from keys to values, of which C38 is the refinement) and
the records of the data management layer, and models the flushing of leaves as
an event that may happen before any tree operation.

Not modelled here: the sharing of buffers between tasks (see `Verif/Share`),
writeback credit (C01-C03), errors of the lower layers (an error below is always
the `ENOENT` of an unknown record id).
-/

namespace Verif.Blob
open Verif (OMap)

abbrev Bytes := List UInt8

/-- `BLOB_THRESHOLD`, fs_tree.rs:44 (a quarter of the 4096 bytes of an LBA). -/
def threshold : Nat := 4096 / 4

/-- `ExtAttr`, fs_tree.rs:669-675: `InlineExtAttr` (554-566) or `BlobExtAttr`
(624-635).  `N` is the full name, namespace included. -/
inductive Attr (N : Type) where
  | inline (name : N) (data : Bytes)
  | blob (name : N) (lsize rid : Nat)
  deriving Repr, DecidableEq

/-- `FSValue`, fs_tree.rs:1146-1165.  Directory entries, inodes, dying inodes
and properties never have out-of-line parts; the model has them as `other`. -/
inductive Val (N : Type) where
  | other (x : Nat)
  | inline (data : Bytes)
  | blob (lsize rid : Nat)
  | attr (a : Attr N)
  | attrs (l : List (Attr N))
  deriving Repr, DecidableEq

/-- The records of the data management layer, and `next_rid`, idml.rs:645. -/
structure Dml where
  recs : OMap Bytes
  next : Nat
  deriving Repr, DecidableEq

/-- The tree and the records. -/
structure St (N : Type) where
  tree : OMap (Val N)
  dml : Dml
  deriving Repr, DecidableEq

inductive Res (α : Type) where
  | ok (a : α)
  /-- an error is returned to the user -/
  | err
  | panic
  deriving Repr, DecidableEq

variable {N : Type}

/-! ## Records -/

/-- `IDML::put`, idml.rs:632-665 (its refinement to a map is C36). -/
def Dml.put (d : Dml) (b : Bytes) : Nat × Dml :=
  (d.next, ⟨d.recs.insert d.next b, d.next + 1⟩)

/-- `IDML::get`, idml.rs:562-579; `none` is `ENOENT`. -/
def Dml.get (d : Dml) (r : Nat) : Option Bytes := d.recs.get r

/-- `IDML::pop`, idml.rs:582-629, for a record with one reference; `none` is
`ENOENT`. -/
def Dml.pop (d : Dml) (r : Nat) : Option (Bytes × Dml) :=
  match d.recs.get r with
  | none => none
  | some b => some (b, ⟨d.recs.remove r, d.next⟩)

/-- `IDML::delete`, idml.rs:520-554, for a record with one reference; `none` is
the panic "Double delete detected". -/
def Dml.delete (d : Dml) (r : Nat) : Option Dml :=
  match d.recs.get r with
  | none => none
  | some _ => some ⟨d.recs.remove r, d.next⟩

/-! ## Values -/

def u32 (n : Nat) : Nat := n % 2 ^ 32

def Attr.name : Attr N → N
  | .inline n _ => n
  | .blob n _ _ => n

/-- `ExtAttr::needs_flush`, fs_tree.rs:591-593 and 747-752. -/
def Attr.needsFlush : Attr N → Bool
  | .inline _ d => d.length > threshold
  | .blob _ _ _ => false

/-- `ExtAttr::flush`, fs_tree.rs:569-585 and 720-731. -/
def Attr.flush (d : Dml) : Attr N → Attr N × Dml
  | .inline n b => let r := d.put b; (.blob n (u32 b.length) r.1, r.2)
  | .blob n l r => (.blob n l r, d)

/-- `ExtAttr::dpop`, fs_tree.rs:699-718. -/
def Attr.dpop (d : Dml) : Attr N → Option (Attr N × Dml)
  | .inline n b => some (.inline n b, d)
  | .blob n _ r =>
    match d.pop r with
    | none => none
    | some (b, d') => some (.inline n b, d')

/-- The bucket part of `FSValue::flush`, fs_tree.rs:1302-1322. -/
def flushAttrs (d : Dml) : List (Attr N) → List (Attr N) × Dml
  | [] => ([], d)
  | a :: l =>
    let x := if a.needsFlush then a.flush d else (a, d)
    let xs := flushAttrs x.2 l
    (x.1 :: xs.1, xs.2)

/-- The bucket part of `FSValue::dpop`, fs_tree.rs:1427-1436. -/
def dpopAttrs (d : Dml) : List (Attr N) → Option (List (Attr N) × Dml)
  | [] => some ([], d)
  | a :: l =>
    match a.dpop d with
    | none => none
    | some (a', d') =>
      match dpopAttrs d' l with
      | none => none
      | some (l', d'') => some (a' :: l', d'')

/-- The bucket part of `FSValue::ddrop`, fs_tree.rs:1399-1408. -/
def ddropAttrs (d : Dml) : List (Attr N) → Option Dml
  | [] => some d
  | .inline _ _ :: l => ddropAttrs d l
  | .blob _ _ r :: l =>
    match d.delete r with
    | none => none
    | some d' => ddropAttrs d' l

/-- `FSValue::needs_flush`, fs_tree.rs:1465-1472. -/
def Val.needsFlush : Val N → Bool
  | .inline d => d.length > threshold
  | .attr a => a.needsFlush
  | .attrs _ => true
  | _ => false

/-- `FSValue::flush`, fs_tree.rs:1060-1074 and 1292-1327; only called for values
that need it. -/
def Val.flush (d : Dml) : Val N → Val N × Dml
  | .inline b => let r := d.put b; (.blob (u32 b.length) r.1, r.2)
  | .attr a => let r := a.flush d; (.attr r.1, r.2)
  | .attrs l => let r := flushAttrs d l; (.attrs r.1, r.2)
  | v => (v, d)

/-- `FSValue::dpop`, fs_tree.rs:1413-1439; `none` is an error. -/
def Val.dpop (d : Dml) : Val N → Option (Val N × Dml)
  | .blob _ r =>
    match d.pop r with
    | none => none
    | some (b, d') => some (.inline b, d')
  | .attr a =>
    match a.dpop d with
    | none => none
    | some (a', d') => some (.attr a', d')
  | .attrs l =>
    match dpopAttrs d l with
    | none => none
    | some (l', d') => some (.attrs l', d')
  | v => some (v, d)

/-- `FSValue::ddrop`, fs_tree.rs:1388-1411; `none` is a panic. -/
def Val.ddrop (d : Dml) : Val N → Option Dml
  | .blob _ r => d.delete r
  | .attr (.blob _ _ r) => d.delete r
  | .attrs l => ddropAttrs d l
  | _ => some d

/-- `FSValue::stat_space`, fs_tree.rs:1344-1350. -/
def Val.statSpace : Val N → Nat
  | .inline b => b.length
  | .blob l _ => l
  | _ => 0

/-! ## Tree operations -/

/-- `FSValue::flush_bt`, fs_tree.rs:1441-1463, called by `write_leaf`
(tree/mod.rs:2182-2198) for each leaf that is written.  The model flushes the
values of any set of keys; the keys of the dirty leaves are one such set. -/
def flushItems (p : Nat → Bool) (d : Dml) : OMap (Val N) → OMap (Val N) × Dml
  | [] => ([], d)
  | (k, v) :: m =>
    let x := if p k && v.needsFlush then v.flush d else (v, d)
    let xs := flushItems p x.2 m
    ((k, x.1) :: xs.1, xs.2)

def flush (p : Nat → Bool) (s : St N) : St N :=
  let r := flushItems p s.dml s.tree
  ⟨r.1, r.2⟩

/-- `LeafData::insert`, node.rs:420-462, as seen through `Tree::insert`: the old
value is popped after the new one is in place. -/
def insert (s : St N) (k : Nat) (v : Val N) : St N × Res (Option (Val N)) :=
  let t := s.tree.insert k v
  match s.tree.get k with
  | none => (⟨t, s.dml⟩, .ok none)
  | some old =>
    match old.dpop s.dml with
    | none => (⟨t, s.dml⟩, .err)
    | some (old', d) => (⟨t, d⟩, .ok (some old'))

/-- `LeafData::remove`, node.rs:535-561, as seen through `Tree::remove`. -/
def remove (s : St N) (k : Nat) : St N × Res (Option (Val N)) :=
  let t := s.tree.remove k
  match s.tree.get k with
  | none => (⟨t, s.dml⟩, .ok none)
  | some old =>
    match old.dpop s.dml with
    | none => (⟨t, s.dml⟩, .err)
    | some (old', d) => (⟨t, d⟩, .ok (some old'))

/-- Dropping the values of a list of items, node.rs:506-512. -/
def ddropItems (d : Dml) : OMap (Val N) → Option Dml
  | [] => some d
  | (_, v) :: m =>
    match v.ddrop d with
    | none => none
    | some d' => ddropItems d' m

/-- `LeafData::range_delete_unaccredited`, node.rs:491-521, for every leaf that
intersects the range, and `range_delete_purge` (tree/mod.rs:2013-2078) for the
leaves inside it.  `p` says which keys are in the range. -/
def rangeDelete (s : St N) (p : Nat → Bool) : St N × Res Unit :=
  match ddropItems s.dml (s.tree.filter fun e => p e.1) with
  | none => (s, .panic)
  | some d => (⟨s.tree.filter fun e => !p e.1, d⟩, .ok ())

/-- The keys of a range `lo..hi` or `lo..`. -/
def inRange (lo : Nat) : Option Nat → Nat → Bool
  | some hi, k => decide (lo ≤ k ∧ k < hi)
  | none, k => decide (lo ≤ k)

/-! ## The flusher

An operation of the file system makes several tree operations, and the syncer
(database.rs:84-124 and 442-461) may flush leaves before each of them, since it
holds the transaction group lock in the same mode as the operation does.  A
schedule `fl` says which keys are flushed before the operation's `n`th tree
operation. -/

abbrev Sched := Nat → Nat → Bool

/-- A state within an operation, and the number of tree operations so far. -/
structure Run (N : Type) where
  st : St N
  n : Nat
  deriving Repr, DecidableEq

def tick (fl : Sched) (s : Run N) : Run N := ⟨flush (fl s.n) s.st, s.n + 1⟩

def tInsert (fl : Sched) (s : Run N) (k : Nat) (v : Val N) : Run N × Res (Option (Val N)) :=
  let s' := tick fl s
  let r := insert s'.st k v
  (⟨r.1, s'.n⟩, r.2)

def tRemove (fl : Sched) (s : Run N) (k : Nat) : Run N × Res (Option (Val N)) :=
  let s' := tick fl s
  let r := remove s'.st k
  (⟨r.1, s'.n⟩, r.2)

def tRangeDelete (fl : Sched) (s : Run N) (p : Nat → Bool) : Run N × Res Unit :=
  let s' := tick fl s
  let r := rangeDelete s'.st p
  (⟨r.1, s'.n⟩, r.2)

/-- `Tree::get` returns the value as it is in the node. -/
def tGet (fl : Sched) (s : Run N) (k : Nat) : Run N × Option (Val N) :=
  let s' := tick fl s
  (s', s'.st.tree.get k)

/-- `Tree::range`, collected. -/
def tRange (fl : Sched) (s : Run N) (p : Nat → Bool) : Run N × OMap (Val N) :=
  let s' := tick fl s
  (s', s'.st.tree.filter fun e => p e.1)

/-- `get_blob`, dataset.rs:36-42. -/
def tGetBlob (fl : Sched) (s : Run N) (r : Nat) : Run N × Option Bytes :=
  let s' := tick fl s
  (s', s'.st.dml.get r)

/-! ## File data, fs.rs -/

/-- A regular file: as `File.File`, with the extents in the tree. -/
structure BFile (N : Type) where
  rs : Nat
  size : Nat
  bytes : Nat
  st : St N
  deriving Repr, DecidableEq

/-- The buffer that a partial write starts from, fs.rs:2505-2530. -/
def recBase (junk : Nat → UInt8) (writelen offsetIntoRec : Nat) : Option (Val N) →
    Option (Bytes × Int)
  | none => some (File.overlayAt (File.uninit junk (writelen + offsetIntoRec)) 0
      (List.replicate offsetIntoRec 0), 0)
  | some (.inline b) => some (b, b.length)
  | some _ => none

/-- `Fs::write_record`, fs.rs:2491-2551. -/
def writeRecord (fl : Sched) (junk : Nat → UInt8) (s : Run N) (rs offset i : Nat)
    (data : Bytes) : Run N × Res Int :=
  let baseoffset := offset - offset % rs
  let offs := baseoffset + i * rs
  let offsetIntoRec := if i = 0 then offset - baseoffset else 0
  let writelen := data.length
  if writelen < rs then
    match tRemove fl s offs with
    | (s1, .ok old) =>
      match recBase junk writelen offsetIntoRec old with
      | none => (s1, .panic)
      | some (base, oldLen) =>
        let newsize := max (offsetIntoRec + writelen) base.length
        let base := File.overlayAt (File.resize base newsize) offsetIntoRec data
        match tInsert fl s1 offs (.inline base) with
        | (s2, .ok _) => (s2, .ok ((base.length : Int) - oldLen))
        | (s2, .err) => (s2, .err)
        | (s2, .panic) => (s2, .panic)
    | (s1, .err) => (s1, .err)
    | (s1, .panic) => (s1, .panic)
  else
    match tInsert fl s offs (.inline data) with
    | (s1, .ok ov) => (s1, .ok ((data.length : Int) - (ov.map Val.statSpace).getD 0))
    | (s1, .err) => (s1, .err)
    | (s1, .panic) => (s1, .panic)

/-- The records of one write, fs.rs:2451-2459, in some order. -/
def writeRecords (fl : Sched) (junk : Nat → UInt8) (rs offset : Nat) (data : Bytes) :
    List Nat → Run N → Int → Run N × Res Int
  | [], s, delta => (s, .ok delta)
  | i :: is, s, delta =>
    match writeRecord fl junk s rs offset i (File.chunk data (offset % rs) rs i) with
    | (s1, .ok d) => writeRecords fl junk rs offset data is s1 (delta + d)
    | (s1, .err) => (s1, .err)
    | (s1, .panic) => (s1, .panic)

/-- `Fs::write`, fs.rs:2416-2486. -/
def write (fl : Sched) (junk : Nat → UInt8) (order : List Nat) (f : BFile N) (offset : Nat)
    (data : Bytes) : BFile N × Res Unit :=
  match writeRecords fl junk f.rs offset data order ⟨f.st, 0⟩ 0 with
  | (s, .ok delta) =>
    ({ f with st := s.st, size := max f.size (offset + data.length),
              bytes := File.satAddSigned f.bytes delta }, .ok ())
  | (s, .err) => ({ f with st := s.st }, .err)
  | (s, .panic) => ({ f with st := s.st }, .panic)

/-- What the left part of `do_deallocate` makes of the record it removed:
the buffer to put back and the space freed, fs.rs:887-909. -/
def leftCut (recofs len : Nat) (b : Bytes) : Bytes × Nat :=
  if recofs > b.length then (b, 0)
  else if len ≥ b.length - recofs then (b.take recofs, b.length - recofs)
  else (File.overlayAt b recofs (List.replicate len 0), 0)

/-- The left part of `do_deallocate`, fs.rs:873-914. -/
def deallocLeft (fl : Sched) (s : Run N) (offset : Nat) (len : Option Nat) (rs : Nat) :
    Run N × Res Nat :=
  if offset % rs ≠ 0 then
    let recofs := offset % rs
    let k := offset - recofs
    match tRemove fl s k with
    | (s1, .ok none) => (s1, .ok 0)
    | (s1, .ok (some (.inline b))) =>
      let c := leftCut recofs (File.leftLen rs recofs len) b
      match tInsert fl s1 k (.inline c.1) with
      | (s2, .ok _) => (s2, .ok c.2)
      | (s2, .err) => (s2, .err)
      | (s2, .panic) => (s2, .panic)
    | (s1, .ok (some _)) => (s1, .panic)
    | (s1, .err) => (s1, .err)
    | (s1, .panic) => (s1, .panic)
  else (s, .ok 0)

/-- The right part of `do_deallocate`, fs.rs:937-976. -/
def deallocRight (fl : Sched) (s : Run N) (offset : Nat) (len : Option Nat) (rs : Nat) :
    Run N × Res Nat :=
  match len with
  | some l =>
    if (offset % rs = 0 ∨ (offset + l) / rs > offset / rs) ∧ (offset + l) % rs ≠ 0 then
      let len := (offset + l) % rs
      let k := offset + l - len
      match tRemove fl s k with
      | (s1, .ok none) => (s1, .ok 0)
      | (s1, .ok (some (.inline b))) =>
        if len < b.length then
          match tInsert fl s1 k (.inline (File.overlayAt b 0 (List.replicate len 0))) with
          | (s2, .ok _) => (s2, .ok 0)
          | (s2, .err) => (s2, .err)
          | (s2, .panic) => (s2, .panic)
        else (s1, .ok b.length)
      | (s1, .ok (some _)) => (s1, .panic)
      | (s1, .err) => (s1, .err)
      | (s1, .panic) => (s1, .panic)
    else (s, .ok 0)
  | none => (s, .ok 0)

/-- `v.as_extent().unwrap()` and the extent's length, fs.rs:919-927; `none` is
a panic. -/
def extentLen : Val N → Option Nat
  | .inline b => some b.length
  | .blob l _ => some l
  | _ => none

/-- The fold at fs.rs:917-928. -/
def sumExtents : OMap (Val N) → Option Nat
  | [] => some 0
  | (_, v) :: m =>
    match extentLen v, sumExtents m with
    | some a, some b => some (a + b)
    | _, _ => none

/-- The upper bound of the whole records to deallocate, fs.rs:862-867. -/
def fullEnd (offset : Nat) (len : Option Nat) (rs : Nat) : Option Nat :=
  len.map fun l => max ((offset + l) - (offset + l) % rs) offset

/-- The whole-record part of `do_deallocate`, fs.rs:862-867 and 917-931. -/
def deallocFull (fl : Sched) (s : Run N) (offset : Nat) (len : Option Nat) (rs : Nat) :
    Run N × Res Nat :=
  let p := inRange offset (fullEnd offset len rs)
  let r := tRange fl s p
  match sumExtents r.2 with
  | none => (r.1, .panic)
  | some old =>
    match tRangeDelete fl r.1 p with
    | (s1, .ok ()) => (s1, .ok old)
    | (s1, .err) => (s1, .err)
    | (s1, .panic) => (s1, .panic)

/-- `Fs::do_deallocate`, fs.rs:853-980, in the order of `File.doDeallocate`. -/
def doDeallocate (fl : Sched) (s : Run N) (offset : Nat) (len : Option Nat) (rs : Nat) :
    Run N × Res Nat :=
  match deallocLeft fl s offset len rs with
  | (s1, .ok a) =>
    match deallocRight fl s1 offset len rs with
    | (s2, .ok b) =>
      match deallocFull fl s2 offset len rs with
      | (s3, .ok c) => (s3, .ok (a + c + b))
      | (s3, .err) => (s3, .err)
      | (s3, .panic) => (s3, .panic)
    | (s2, .err) => (s2, .err)
    | (s2, .panic) => (s2, .panic)
  | (s1, .err) => (s1, .err)
  | (s1, .panic) => (s1, .panic)

/-- `Fs::deallocate`, fs.rs:569-597. -/
def deallocate (fl : Sched) (f : BFile N) (offset len : Nat) : BFile N × Res Unit :=
  let offset := min f.size offset
  let len := min (f.size - offset) len
  if len > 0 then
    match doDeallocate fl ⟨f.st, 0⟩ offset (some len) f.rs with
    | (s, .ok d) => ({ f with st := s.st, bytes := f.bytes - d }, .ok ())
    | (s, .err) => ({ f with st := s.st }, .err)
    | (s, .panic) => ({ f with st := s.st }, .panic)
  else (f, .ok ())

/-- `Fs::setattr` with a new size: `do_setattr`, fs.rs:809-849. -/
def setSize (fl : Sched) (f : BFile N) (newSize : Nat) : BFile N × Res Unit :=
  if newSize < f.size then
    match doDeallocate fl ⟨f.st, 0⟩ newSize none f.rs with
    | (s, .ok d) => ({ f with st := s.st, size := newSize, bytes := f.bytes - d }, .ok ())
    | (s, .err) => ({ f with st := s.st }, .err)
    | (s, .panic) => ({ f with st := s.st }, .panic)
  else ({ f with size := newSize }, .ok ())

/-- The `and_then` of `do_read`, fs.rs:722-735, over all items of the range:
the extents' buffers. -/
def fetch (fl : Sched) : Run N → OMap (Val N) → Run N × Res (OMap Bytes)
  | s, [] => (s, .ok [])
  | s, (k, v) :: m =>
    match v with
    | .inline b =>
      match fetch fl s m with
      | (s1, .ok l) => (s1, .ok ((k, b) :: l))
      | (s1, .err) => (s1, .err)
      | (s1, .panic) => (s1, .panic)
    | .blob _ r =>
      match tGetBlob fl s r with
      | (s1, none) => (s1, .err)
      | (s1, some b) =>
        match fetch fl s1 m with
        | (s2, .ok l) => (s2, .ok ((k, b) :: l))
        | (s2, .err) => (s2, .err)
        | (s2, .panic) => (s2, .panic)
    | _ => (s, .panic)

/-- The part of `do_read` after the extents are fetched, fs.rs:735-770; `none`
is a panic. -/
def assemble (offset size : Nat) (l : OMap Bytes) : Option Bytes :=
  match l.foldl (File.readStep offset size) (some ([], offset, 0)) with
  | none => none
  | some (sg, p, _) => some (File.fillHole sg (size - (p - offset))).flatten

/-- `Fs::read`, fs.rs:1810-1848, and `do_read`, 701-770. -/
def read (fl : Sched) (f : BFile N) (offset size : Nat) : BFile N × Res Bytes :=
  let size := min size (f.size - offset)
  let baseoffset := offset - offset % f.rs
  let r := tRange fl ⟨f.st, 0⟩ (inRange baseoffset (some (offset + size)))
  match fetch fl r.1 r.2 with
  | (s, .ok l) =>
    match assemble offset size l with
    | none => ({ f with st := s.st }, .panic)
    | some b => ({ f with st := s.st }, .ok b)
  | (s, .err) => ({ f with st := s.st }, .err)
  | (s, .panic) => ({ f with st := s.st }, .panic)

/-! ## Extended attributes, fs.rs and `htable` (fs.rs:45-261) -/

/-- What `HTValue` (fs_tree.rs:377-386) makes of a value; `none` is a value of
another kind, on which the hash table panics. -/
def asAttrs : Val N → Option (Dir.Val (Attr N))
  | .attr a => some (.single a)
  | .attrs l => some (.bucket l)
  | _ => none

variable [DecidableEq N]

/-- `htable::insert::<ExtAttr>`, fs.rs:130-194, from `Fs::setextattr`,
fs.rs:2256-2282.  (`.err` is an error of the tree.) -/
def setAttr (hash : N → Nat) (fl : Sched) (s : St N) (n : N) (data : Bytes) : St N × Res Unit :=
  let key := hash n
  match tInsert fl ⟨s, 0⟩ key (.attr (.inline n data)) with
  | (s1, .err) => (s1.st, .err)
  | (s1, .panic) => (s1.st, .panic)
  | (s1, .ok none) => (s1.st, .ok ())
  | (s1, .ok (some v)) =>
    match asAttrs v with
    | none => (s1.st, .panic)
    | some (.single old) =>
      if old.name = n then (s1.st, .ok ())
      else
        match tGet fl s1 key with
        | (s2, some (.attr new)) =>
          match tInsert fl s2 key (.attrs [old, new]) with
          | (s3, .ok _) => (s3.st, .ok ())
          | (s3, .err) => (s3.st, .err)
          | (s3, .panic) => (s3.st, .panic)
        | (s2, _) => (s2.st, .panic)
    | some (.bucket old) =>
      match tGet fl s1 key with
      | (s2, some (.attr new)) =>
        let l := match old.findIdx? (fun x => x.name = n) with
          | some i => old.set i new
          | none => old ++ [new]
        match tInsert fl s2 key (.attrs l) with
        | (s3, .ok _) => (s3.st, .ok ())
        | (s3, .err) => (s3.st, .err)
        | (s3, .panic) => (s3.st, .panic)
      | (s2, _) => (s2.st, .panic)

/-- The attribute that `htable::get` (fs.rs:85-127) finds in a value. -/
def findAttr (n : N) : Option (Val N) → Res (Option (Attr N))
  | none => .ok none
  | some v =>
    match asAttrs v with
    | none => .panic
    | some (.single a) => .ok (if a.name = n then some a else none)
    | some (.bucket l) => if l.length > 1 then .ok (l.find? fun a => a.name = n) else .panic

/-- `Fs::getextattr`, fs.rs:1271-1298.  `.ok none` is `ENOATTR`. -/
def getAttr (hash : N → Nat) (fl : Sched) (s : St N) (n : N) : St N × Res (Option Bytes) :=
  match tGet fl ⟨s, 0⟩ (hash n) with
  | (s1, v) =>
    match findAttr n v with
    | .panic => (s1.st, .panic)
    | .err => (s1.st, .err)
    | .ok none => (s1.st, .ok none)
    | .ok (some (.inline _ d)) => (s1.st, .ok (some d))
    | .ok (some (.blob _ _ r)) =>
      match tGetBlob fl s1 r with
      | (s2, none) => (s2.st, .err)
      | (s2, some d) => (s2.st, .ok (some d))

/-- The length of an attribute's value, fs.rs:1316-1323. -/
def Attr.len : Attr N → Nat
  | .inline _ d => u32 d.length
  | .blob _ l _ => l

/-- `Fs::getextattrlen`, fs.rs:1301-1356.  Values of other kinds are `ENOATTR`
here. -/
def getAttrLen (hash : N → Nat) (fl : Sched) (s : St N) (n : N) : St N × Res (Option Nat) :=
  match tGet fl ⟨s, 0⟩ (hash n) with
  | (s1, some (.attr a)) => (s1.st, .ok (if a.name = n then some a.len else none))
  | (s1, some (.attrs l)) =>
    if l.length > 1 then (s1.st, .ok ((l.find? fun a => a.name = n).map Attr.len))
    else (s1.st, .panic)
  | (s1, _) => (s1.st, .ok none)

/-- The bucket case of `htable::remove`, fs.rs:225-252: the value to put back,
and whether the attribute was found. -/
def unbucket (n : N) (old : List (Attr N)) : Val N × Bool :=
  match old.findIdx? (fun x => x.name = n) with
  | some i =>
    match Dir.swapRemove old i with
    | [x] => (.attr x, true)
    | l => (.attrs l, true)
  | none => (.attrs old, false)

/-- `htable::remove::<ExtAttr>`, fs.rs:199-260, from `Fs::deleteextattr`,
fs.rs:601-616.  The answer is whether the attribute was there (`false` is
`ENOATTR`). -/
def delAttr (hash : N → Nat) (fl : Sched) (s : St N) (n : N) : St N × Res Bool :=
  let key := hash n
  match tRemove fl ⟨s, 0⟩ key with
  | (s1, .err) => (s1.st, .err)
  | (s1, .panic) => (s1.st, .panic)
  | (s1, .ok none) => (s1.st, .ok false)
  | (s1, .ok (some v)) =>
    match asAttrs v with
    | none => (s1.st, .panic)
    | some (.single old) =>
      if old.name = n then (s1.st, .ok true)
      else
        match tInsert fl s1 key (.attr old) with
        | (s2, .ok _) => (s2.st, .ok false)
        | (s2, .err) => (s2.st, .err)
        | (s2, .panic) => (s2.st, .panic)
    | some (.bucket old) =>
      let w := unbucket n old
      match tInsert fl s1 key w.1 with
      | (s2, .ok _) => (s2.st, .ok w.2)
      | (s2, .err) => (s2.st, .err)
      | (s2, .panic) => (s2.st, .panic)

/-- The names under one key, fs.rs:1524-1532; `none` is a panic. -/
def valNames : Val N → Option (List N)
  | .attr a => some [a.name]
  | .attrs l => some (l.map Attr.name)
  | _ => none

/-- The fold at fs.rs:1523-1535. -/
def allNames : OMap (Val N) → Option (List N)
  | [] => some []
  | (_, v) :: m =>
    match valNames v, allNames m with
    | some a, some b => some (a ++ b)
    | _, _ => none

/-- `Fs::listextattr`, fs.rs:1517-1540, with an `f` that collects the names. -/
def listAttrs (fl : Sched) (s : St N) : St N × Res (List N) :=
  let r := tRange fl ⟨s, 0⟩ (fun _ => true)
  match allNames r.2 with
  | none => (r.1.st, .panic)
  | some l => (r.1.st, .ok l)

end Verif.Blob
