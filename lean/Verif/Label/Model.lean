import Verif.Bytes.Model

/-!
# Vdev labels (`bfffs-core/src/label.rs`)

The checksum `MetroHash64` is an unspecified function from byte strings to 64-bit
words (trusted to be a stream hash, see `Verif.Bytes.Hasher.Streaming`; here only the
final function of the whole input matters).  The record encoding (`speedy`,
little-endian) is modelled for the types that occur in labels.
-/

namespace Verif.Label
open Verif.Bytes

/-! ## Integers as bytes -/

/-- `speedy` little-endian integers of `k` bytes. -/
def le : Nat → Nat → Buf
  | 0, _ => []
  | k + 1, n => UInt8.ofNat n :: le k (n / 256)

def readLe : Buf → Nat
  | [] => 0
  | b :: bs => b.toNat + 256 * readLe bs

/-- `BigEndian::write_u64`. -/
def be64 (n : Nat) : Buf := (le 8 n).reverse

/-- `BigEndian::read_u64`. -/
def readBe64 (b : Buf) : Nat := readLe b.reverse

/-! ## The label writer and reader -/

/-- `label.rs:35-36` `MAGIC`: "BFFFS Vdev\0\0\0\0\0\0". -/
def magic : Buf := [0x42, 0x46, 0x46, 0x46, 0x53, 0x20, 0x56, 0x64, 0x65, 0x76, 0, 0, 0, 0, 0, 0]

def magicLen : Nat := 16
def checksumLen : Nat := 8
def lengthLen : Nat := 8

/-- `label.rs:42` -/
def labelLbas : Nat := 4

/-- `label.rs:43` -/
def labelSize : Nat := labelLbas * lbaBytes

/-- `label.rs:152-171` `LabelWriter::into_sglist`.  `bufs` are the serialised records in the
order of the `serialize` calls (141-148). -/
def intoSglist (hash : Buf → UInt64) (bufs : SGList) : SGList :=
  let contents := bufs.reverse
  let len := (contents.map List.length).sum
  let sum := hash (be64 len ++ contents.flatten)
  (magic ++ be64 sum.toNat ++ be64 len) :: contents

/-- `vdev_file.rs:493-499` `write_label`: the bytes that reach the disk at the label's LBA.
`none`: `copy_and_pad_sglist` panics. -/
def writeLabel (hash : Buf → UInt64) (bufs : SGList) : Option Buf :=
  (copyAndPad (intoSglist hash bufs)).map List.flatten

inductive Err where
  | einval
  | eintegrity
deriving DecidableEq

inductive Res (α : Type) where
  | ok (a : α)
  | err (e : Err)
  | panic
deriving DecidableEq

/-- `label.rs:70-108` `LabelReader::new`.  The result is what the cursor will read: everything
after the header, not only the checksummed contents.  `checks` says whether the build has
integer overflow checks: `contents_start + contents_len as usize` (87) then panics, and
otherwise wraps. -/
def readerNew (checks : Bool) (hash : Buf → UInt64) (buf : Buf) : Res Buf :=
  if buf.length < magicLen + checksumLen + lengthLen then .err .einval
  else if magic ≠ buf.take magicLen then .err .einval
  else
    let stored := readBe64 ((buf.drop magicLen).take checksumLen)
    let lengthStart := magicLen + checksumLen
    let contentsStart := lengthStart + lengthLen
    let contentsLen := readBe64 ((buf.drop lengthStart).take lengthLen)
    if checks ∧ 2 ^ 64 ≤ contentsStart + contentsLen then .panic
    else
      let stop := (contentsStart + contentsLen) % 2 ^ 64
      -- `buffer.get(contents_start..stop)`
      if contentsStart ≤ stop ∧ stop ≤ buf.length then
        let contents := (buf.drop contentsStart).take (stop - contentsStart)
        if UInt64.ofNat stored ≠ hash (be64 contentsLen ++ contents) then .err .eintegrity
        else .ok (buf.drop contentsStart)
      else .err .einval

/-- The second iteration of `read_label`'s loop. -/
def readLabel1 (checks : Bool) (hash : Buf → UInt64) : Option Buf → Res Buf
  | none => .err .einval
  | some b => readerNew checks hash b

/-- `vdev_block.rs:1215-1243` `Manager::read_label`.  `b0` and `b1` are what reading the two
labels returns, `none` being an I/O error.  Simplification: the errno of an I/O error is not
modelled. -/
def readLabel (checks : Bool) (hash : Buf → UInt64) (b0 b1 : Option Buf) : Res Buf :=
  match b0 with
  | none => readLabel1 checks hash b1
  | some b =>
    match readerNew checks hash b with
    | .ok r => .ok r
    | .panic => .panic
    | .err _ => readLabel1 checks hash b1

/-! ## Record encodings -/

/-- A `speedy` encoding: `Writable::write_to_vec` and `Readable::read_from_stream`. -/
structure Codec (α : Type) where
  enc : α → Buf
  dec : Buf → Option (α × Buf)

/-- Fixed-width integer. -/
def uint (k : Nat) : Codec Nat where
  enc := le k
  dec b := if k ≤ b.length then some (readLe (b.take k), b.drop k) else none

/-- A UUID: its 16 bytes (`types.rs`). -/
def uuid : Codec Buf where
  enc b := b
  dec b := if 16 ≤ b.length then some (b.take 16, b.drop 16) else none

/-- A structure of two parts, in order. -/
def pair {α β} (a : Codec α) (b : Codec β) : Codec (α × β) where
  enc x := a.enc x.1 ++ b.enc x.2
  dec s :=
    match a.dec s with
    | none => none
    | some (x, s) =>
      match b.dec s with
      | none => none
      | some (y, s) => some ((x, y), s)

def decMany {α} (dec : Buf → Option (α × Buf)) : Nat → Buf → Option (List α × Buf)
  | 0, s => some ([], s)
  | n + 1, s =>
    match dec s with
    | none => none
    | some (x, s) =>
      match decMany dec n s with
      | none => none
      | some (xs, s) => some (x :: xs, s)

/-- `Vec<T>` (and `String`, with bytes as elements): a 32-bit length and the elements. -/
def vec {α} (a : Codec α) : Codec (List α) where
  enc xs := le 4 xs.length ++ (xs.map a.enc).flatten
  dec s :=
    match (uint 4).dec s with
    | none => none
    | some (n, s) => decMany a.dec n s

def byteC : Codec Byte where
  enc b := [b]
  dec s := match s with
    | [] => none
    | b :: s => some (b, s)

/-- `vdev_block.rs:1171-1183` `Label`: uuid, lbas_per_zone, lbas, spacemap_space, txg. -/
abbrev BlockLabel := Buf × Nat × Nat × Nat × Nat
def blockLabel : Codec BlockLabel :=
  pair uuid (pair (uint 8) (pair (uint 8) (pair (uint 8) (uint 4))))

/-- `mirror.rs:58-63` `Label`: uuid, children. -/
abbrev MirrorLabel := Buf × List Buf
def mirrorLabel : Codec MirrorLabel := pair uuid (vec uuid)

/-- `pool.rs:61-71` `Label`: name, uuid, children. -/
abbrev PoolLabel := List Byte × Buf × List Buf
def poolLabel : Codec PoolLabel := pair (vec byteC) (pair uuid (vec uuid))

/-- The layers' records, as they appear in a label. -/
inductive Rec where
  | block (l : BlockLabel)
  | mirror (l : MirrorLabel)
  | pool (l : PoolLabel)
deriving DecidableEq

/-- `LabelWriter::serialize` of one record (`label.rs:141-148`). -/
def Rec.enc : Rec → Buf
  | .block l => blockLabel.enc l
  | .mirror l => mirrorLabel.enc l
  | .pool l => poolLabel.enc l

/-- Which type the caller asks `deserialize` for. -/
inductive Ty where
  | block | mirror | pool
deriving DecidableEq

def Rec.ty : Rec → Ty
  | .block _ => .block
  | .mirror _ => .mirror
  | .pool _ => .pool

/-- `LabelReader::deserialize` (`label.rs:61-67`). -/
def decTy : Ty → Buf → Option (Rec × Buf)
  | .block, s => (blockLabel.dec s).map fun r => (.block r.1, r.2)
  | .mirror, s => (mirrorLabel.dec s).map fun r => (.mirror r.1, r.2)
  | .pool, s => (poolLabel.dec s).map fun r => (.pool r.1, r.2)

/-- Successive calls of `deserialize`. -/
def decAll : List Ty → Buf → Option (List Rec × Buf)
  | [], s => some ([], s)
  | t :: ts, s =>
    match decTy t s with
    | none => none
    | some (r, s) =>
      match decAll ts s with
      | none => none
      | some (rs, s) => some (r :: rs, s)

end Verif.Label
