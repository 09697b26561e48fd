import Verif.Common.OMap

/-!
# Model of file data: `bfffs-core/src/fs.rs`

One regular file: the inode fields `size` and `bytes`, the record size, and
the file's extents.  Extents live in the dataset's tree under
`FSKey::new(ino, ObjKey::Extent(offset))`; the model keeps the ones of this
file in a map keyed by `offset` (that the keys of different files and kinds
are disjoint is C53).  Inline and blob extents (fs_tree.rs:1000-1100) are both
represented by their bytes: `get_blob` and `dpop` return the bytes that were
stored (C33, C36).  Errors of the lower layers are not modelled here.
-/

namespace Verif.File

abbrev Byte := UInt8

/-- The parts of `Inode` (fs_tree.rs) that matter here, plus the extents. -/
structure File where
  /-- record size, `Inode::record_size` -/
  rs : Nat
  /-- `Inode::size` -/
  size : Nat
  /-- `Inode::bytes` -/
  bytes : Nat
  ext : OMap (List Byte)
  deriving Repr, DecidableEq

/-- A new, empty file; `Fs::create`, fs.rs:1120-1150. -/
def File.empty (rs : Nat) : File := ⟨rs, 0, 0, []⟩

/-! ## Writing -/

/-- `div_ceil` -/
def divCeil (a b : Nat) : Nat := (a + b - 1) / b

/-- `Uio::nrecs`, fs.rs:312-314. -/
def nrecs (offset0 rs len : Nat) : Nat := divCeil (offset0 + len) rs - offset0 / rs

/-- `data[a..b]` -/
def slice (d : List Byte) (a b : Nat) : List Byte := (d.drop a).take (b - a)

/-- One chunk of `Uio::into_chunks`, fs.rs:292-303. -/
def chunk (data : List Byte) (offset0 rs rec : Nat) : List Byte :=
  let n := nrecs offset0 rs data.length
  let reclen1 := min data.length (rs - offset0)
  if rec = 0 then slice data 0 reclen1
  else if rec = n - 1 then slice data (reclen1 + (rec - 1) * rs) data.length
  else slice data (reclen1 + (rec - 1) * rs) (reclen1 + rec * rs)

/-- `base.try_resize(n, 0)` for `n ≥ base.len()` (fs.rs:2533-2534). -/
def resize (b : List Byte) (n : Nat) : List Byte := b ++ List.replicate (n - b.length) 0

/-- `base[o..o+l].copy_from_slice(overlay)`, fs.rs:2537. -/
def overlayAt (b : List Byte) (o : Nat) (d : List Byte) : List Byte :=
  b.take o ++ d ++ b.drop (o + d.length)

/-- A fresh buffer of `n` bytes of uninitialised memory
(`DivBufShared::uninitialized`, fs.rs:2510); `junk` is whatever was there. -/
def uninit (junk : Nat → Byte) (n : Nat) : List Byte := (List.range n).map junk

/-- `Fs::write_record`, fs.rs:2491-2551.  Returns the new extents and the
change in stored bytes. -/
def writeRecord (junk : Nat → Byte) (ext : OMap (List Byte)) (rs offset i : Nat)
    (data : List Byte) : OMap (List Byte) × Int :=
  let baseoffset := offset - offset % rs
  let offs := baseoffset + i * rs
  let offsetIntoRec := if i = 0 then offset - baseoffset else 0
  let writelen := data.length
  if writelen < rs then
    let ext1 := ext.remove offs
    let (base, oldLen) : List Byte × Int :=
      match ext.get offs with
      | none =>
        let hsize := writelen + offsetIntoRec
        -- zero the part before the data (2511-2516)
        (overlayAt (uninit junk hsize) 0 (List.replicate offsetIntoRec 0), 0)
      | some b => (b, b.length)
    let newsize := max (offsetIntoRec + writelen) base.length
    let base := overlayAt (resize base newsize) offsetIntoRec data
    (ext1.insert offs base, (base.length : Int) - oldLen)
  else
    (ext.insert offs data, (data.length : Int) - ((ext.get offs).map (·.length : List Byte → Nat)).getD 0)

/-- The `FuturesUnordered` of fs.rs:2451-2459: the records are written in some
order. -/
def writeRecords (junk : Nat → Byte) (rs offset : Nat) (data : List Byte) :
    List Nat → OMap (List Byte) × Int → OMap (List Byte) × Int
  | [], acc => acc
  | i :: is, (ext, delta) =>
    let r := writeRecord junk ext rs offset i (chunk data (offset % rs) rs i)
    writeRecords junk rs offset data is (r.1, delta + r.2)

/-- `u64::saturating_add_signed` -/
def satAddSigned (a : Nat) (d : Int) : Nat := ((a : Int) + d).toNat

/-- `Fs::write`, fs.rs:2416-2486, with the records processed in the order
`order` (a permutation of `0..nrecs`).  Timestamps omitted. -/
def write (junk : Nat → Byte) (order : List Nat) (f : File) (offset : Nat) (data : List Byte) :
    File :=
  let r := writeRecords junk f.rs offset data order (f.ext, 0)
  { f with ext := r.1, size := max f.size (offset + data.length),
           bytes := satAddSigned f.bytes r.2 }

/-- The record numbers a write touches, `0..nrecs` (fs.rs:294, 2441). -/
def writeOrder (f : File) (offset : Nat) (data : List Byte) : List Nat :=
  List.range (nrecs (offset % f.rs) f.rs data.length)

/-! ## Deallocation and truncation -/

/-- Sum of the extents' lengths (fs.rs:917-928). -/
def extLen (m : OMap (List Byte)) : Nat := (m.map fun e => e.2.length).sum

/-- `(rs - recofs).min(len.unwrap_or(u64::MAX))`, fs.rs:877. -/
def leftLen (rs recofs : Nat) : Option Nat → Nat
  | some l => min (rs - recofs) l
  | none => rs - recofs

/-- The left part of `do_deallocate`, fs.rs:873-914. -/
def deallocLeft (ext : OMap (List Byte)) (offset : Nat) (len : Option Nat) (rs : Nat) :
    OMap (List Byte) × Nat :=
  if offset % rs ≠ 0 then
    let recofs := offset % rs
    let len := leftLen rs recofs len
    let k := offset - recofs
    match ext.get k with
    | none => (ext.remove k, 0)
    | some b =>
      if recofs > b.length then ((ext.remove k).insert k b, 0)
      else if len ≥ b.length - recofs then
        ((ext.remove k).insert k (b.take recofs), b.length - recofs)
      else
        ((ext.remove k).insert k (overlayAt b recofs (List.replicate len 0)), 0)
  else (ext, 0)

/-- The whole-record part of `do_deallocate`, fs.rs:862-867 and 917-931. -/
def deallocFull (ext : OMap (List Byte)) (offset : Nat) (len : Option Nat) (rs : Nat) :
    OMap (List Byte) × Nat :=
  match len with
  | some l =>
    let e := max ((offset + l) - (offset + l) % rs) offset
    (ext.rangeDelete offset e, extLen (ext.range offset e))
  | none => (ext.rangeDeleteFrom offset, extLen (ext.rangeFrom offset))

/-- The right part of `do_deallocate`, fs.rs:937-976. -/
def deallocRight (ext : OMap (List Byte)) (offset : Nat) (len : Option Nat) (rs : Nat) :
    OMap (List Byte) × Nat :=
  match len with
  | some l =>
    if (offset % rs = 0 ∨ (offset + l) / rs > offset / rs) ∧ (offset + l) % rs ≠ 0 then
      let len := (offset + l) % rs
      let k := offset + l - len
      match ext.get k with
      | none => (ext.remove k, 0)
      | some b =>
        if len < b.length then
          ((ext.remove k).insert k (overlayAt b 0 (List.replicate len 0)), 0)
        else (ext.remove k, b.length)
    else (ext, 0)
  | none => (ext, 0)

/-- `Fs::do_deallocate`, fs.rs:853-980.  The three parts touch different keys;
the model runs them left, right, whole, the order in which the code issues its
tree operations (the `remove`s at 885 and 949 are awaited before the rest). -/
def doDeallocate (ext : OMap (List Byte)) (offset : Nat) (len : Option Nat) (rs : Nat) :
    OMap (List Byte) × Nat :=
  let l := deallocLeft ext offset len rs
  let r := deallocRight l.1 offset len rs
  let w := deallocFull r.1 offset len rs
  (w.1, l.2 + w.2 + r.2)

/-- `Fs::deallocate`, fs.rs:569-597. -/
def deallocate (f : File) (offset len : Nat) : File :=
  let offset := min f.size offset
  let len := min (f.size - offset) len
  if len > 0 then
    let r := doDeallocate f.ext offset (some len) f.rs
    { f with ext := r.1, bytes := f.bytes - r.2 }
  else f

/-- `Fs::setattr` with a new size: `do_setattr`, fs.rs:809-849. -/
def setSize (f : File) (newSize : Nat) : File :=
  if newSize < f.size then
    let r := doDeallocate f.ext newSize none f.rs
    { f with ext := r.1, size := newSize, bytes := f.bytes - r.2 }
  else { f with size := newSize }

/-! ## Reading -/

/-- `ZERO_REGION_LEN`, util.rs:19 -/
def zeroRegionLen : Nat := 8 * 4096

/-- The `while` loops around `fill_hole`, fs.rs:706-712, 744-747 and 763-766:
append zero buffers until `n` bytes of hole are covered. -/
def fillHole (sg : List (List Byte)) (n : Nat) : List (List Byte) :=
  if h : n = 0 then sg
  else
    let l := min n zeroRegionLen
    fillHole (sg ++ [List.replicate l 0]) (n - l)
termination_by n
decreasing_by simp only [zeroRegionLen]; omega

/-- One step of the fold in `do_read`, fs.rs:730-759: the state is the
scatter-gather list, the position `p` and the record count.  `none`: the
assertion at line 735 failed (panic). -/
def readStep (offset size : Nat) (acc : Option (List (List Byte) × Nat × Nat))
    (e : Nat × List Byte) : Option (List (List Byte) × Nat × Nat) :=
  match acc, e with
  | none, _ => none
  | some (sg, p, rec), (ofs, db) =>
    if ofs < p then
      if rec = 0 then
        let s := p - ofs
        let e := min db.length (p + size - ofs)
        if e > s then some (sg ++ [slice db s e], p + (e - s), rec + 1)
        else some (sg, p, rec + 1)
      else none
    else
      let sg := fillHole sg (ofs - p)
      let p := p + (ofs - p)
      let db := if ofs + db.length > offset + size then db.take (offset + size - ofs) else db
      some (sg ++ [db], p + db.length, rec + 1)

/-- `Fs::do_read`, fs.rs:701-770: the scatter-gather list returned, or `none`
for a panic. -/
def readSG (f : File) (offset size : Nat) : Option (List (List Byte)) :=
  let size := min size (f.size - offset)
  let baseoffset := offset - offset % f.rs
  match (f.ext.range baseoffset (offset + size)).foldl (readStep offset size)
      (some ([], offset, 0)) with
  | none => none
  | some (sg, p, _) => some (fillHole sg (size - (p - offset)))

/-- The bytes a caller of `Fs::read` (fs.rs:1810-1848) gets. -/
def read (f : File) (offset size : Nat) : Option (List Byte) :=
  (readSG f offset size).map List.flatten

/-! ## Seeking -/

inductive Whence where
  | data
  | hole
  deriving DecidableEq, Repr

/-- The loop of `Fs::lseek`, fs.rs:1608-1640.  `none` is `Err(ENXIO)`. -/
def lseekLoop (w : Whence) : OMap (List Byte) → Nat → Option Nat → Option Nat
  | [], _, r => r
  | (k, v) :: m, offset, r =>
    let e := k + v.length
    if e ≤ offset then lseekLoop w m offset r
    else if k ≤ offset then
      match w with
      | .data => some offset
      | .hole => lseekLoop w m e (some e)
    else
      match w with
      | .data => some k
      | .hole => some offset

/-- `Fs::lseek`, fs.rs:1583-1644, for SEEK_DATA and SEEK_HOLE. -/
def lseek (f : File) (offset : Nat) (w : Whence) : Option Nat :=
  if offset > f.size then none
  else
    let base := offset - offset % f.rs
    let r0 := match w with
      | .data => none
      | .hole => some f.size
    lseekLoop w (f.ext.rangeFrom base) offset r0

end Verif.File
