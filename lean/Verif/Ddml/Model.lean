import Verif.Bytes.Model

/-!
# The direct data management layer (`bfffs-core/src/dml.rs`, `ddml/mod.rs`, `ddml/ddml.rs`)

A record is stored as bytes: serialised, perhaps compressed and tagged, checksummed and written to
consecutive blocks of the pool.

External code enters as parameters: the LZ4 and Zstandard codecs and the byte shuffler (`Codecs`),
the hash (`Env.hash`, MetroHash64 from `new` to `finish`), and the serialiser of the record type
(`Env.ser`, `Env.deser`).  What the pool answers to a read, to a long read or to a write is an
argument of the operation, so that the theorems range over every answer.
-/

namespace Verif.Ddml

open Verif.Bytes (Byte Buf lbaBytes)

/-- `types.rs` `Error`: the two values the layer produces itself, and any other. -/
inductive Err where
  | eintegrity
  | enoent
  | other (n : Nat)
  deriving DecidableEq, Repr

/-- The outcome of a call: `Ok`, `Err` or a panic. -/
inductive Res (α : Type) where
  | ok (a : α)
  | err (e : Err)
  | panic
  deriving DecidableEq, Repr

/-! ## Compression (`dml.rs`) -/

/-- `Option<NonZeroU8>`'s payload -/
abbrev NZ := {b : UInt8 // b ≠ 0}

/-- `dml.rs:21-31` `Compression` -/
inductive Compression where
  | none
  | lz4 (ts : Option NZ)
  | zstd (ts : Option NZ)
  deriving DecidableEq

/-- `dml.rs:38-41` `CompressionTag` -/
inductive Tag where
  | lz4 (b : UInt8)
  | zstd (b : UInt8)
  deriving DecidableEq

/-- The external codecs: `lz4_flex::block`, `zstd::bulk` and `byteshuffle`.  Decompression may
fail; its second argument is the expected size. -/
structure Codecs where
  lz4c : Buf → Buf
  lz4d : Buf → Nat → Option Buf
  zstdc : Buf → Buf
  zstdd : Buf → Nat → Option Buf
  shuffle : UInt8 → Buf → Buf
  unshuffle : UInt8 → Buf → Buf

/-- `usize::div_ceil(BYTES_PER_LBA)` -/
def blocks (n : Nat) : Nat := (n + lbaBytes - 1) / lbaBytes

/-- `dml.rs:44` `TAGSIZE` -/
def tagSize : Nat := 5

/-- `ts.map(NonZeroU8::get).unwrap_or(0)` -/
def tsByte : Option NZ → UInt8
  | .none => 0
  | .some b => b.1

/-- `NonZeroU8::new` -/
def tsOf (b : UInt8) : Option NZ := if h : b = 0 then .none else .some ⟨b, h⟩

/-- `dml.rs:136-144` `tag`; `none` is the `unimplemented!` arm. -/
def Compression.tag : Compression → Option Tag
  | .none => .none
  | .lz4 ts => some (.lz4 (tsByte ts))
  | .zstd ts => some (.zstd (tsByte ts))

/-- `dml.rs:147-154` `From<CompressionTag>` -/
def Compression.ofTag : Tag → Compression
  | .lz4 b => .lz4 (tsOf b)
  | .zstd b => .zstd (tsOf b)

/-- `CompressionTag::write_to_buffer`: the derived encoding, a little-endian 32-bit discriminant
and the payload. -/
def Tag.write : Tag → Buf
  | .lz4 b => [0, 0, 0, 0, b]
  | .zstd b => [1, 0, 0, 0, b]

/-- `CompressionTag::read_from_buffer` -/
def Tag.read : Buf → Option Tag
  | d0 :: d1 :: d2 :: d3 :: b :: _ =>
    let d := d0.toNat + 256 * d1.toNat + 65536 * d2.toNat + 16777216 * d3.toNat
    if d = 0 then some (.lz4 b) else if d = 1 then some (.zstd b) else none
  | _ => none

/-- `dml.rs:56-75`: the shuffle, if a type size is set. -/
def shuf (cd : Codecs) (ts : Option NZ) (b : Buf) : Buf :=
  match ts with
  | .none => b
  | .some t => cd.shuffle t.1 b

/-- `dml.rs:97-117`: undo the shuffle. -/
def unshuf (cd : Codecs) (ts : Option NZ) (b : Buf) : Buf :=
  match ts with
  | .none => b
  | .some t => cd.unshuffle t.1 b

/-- `dml.rs:54-76`: the compressed buffer before tagging.  `none` is the unreachable arm. -/
def Compression.run (cd : Codecs) (c : Compression) (input : Buf) : Option Buf :=
  match c with
  | .none => .none
  | .lz4 ts => some (cd.lz4c (shuf cd ts input))
  | .zstd ts => some (cd.zstdc (shuf cd ts input))

/-- `dml.rs:50-88` `compress` -/
def Compression.compress (cd : Codecs) (c : Compression) (input : Buf) : Buf × Compression :=
  if c = .none ∨ input.length ≤ lbaBytes then (input, .none)
  else
    match c.run cd input, c.tag with
    | some b, some t =>
      let buffer := b ++ t.write
      if blocks buffer.length < blocks input.length then (buffer, c) else (input, .none)
    | _, _ => (input, .none)

/-- `dml.rs:91-121` `decompress`; the slice at 93 panics on fewer than five bytes. -/
def decompress (cd : Codecs) (input : Buf) (lsize : Nat) : Res Buf :=
  if input.length < tagSize then .panic
  else
    let tag := input.drop (input.length - tagSize)
    let compressed := input.take (input.length - tagSize)
    match Tag.read tag with
    | none => .err .eintegrity
    | some t =>
      match Compression.ofTag t with
      | .none => .err .eintegrity
      | .lz4 ts =>
        match cd.lz4d compressed lsize with
        | none => .err .eintegrity
        | some unx => .ok (unshuf cd ts unx)
      | .zstd ts =>
        match cd.zstdd compressed lsize with
        | none => .err .eintegrity
        | some unx => .ok (unshuf cd ts unx)

/-- `dml.rs:124-126` `is_compressed` -/
def Compression.isCompressed (c : Compression) : Bool := c ≠ .none

/-! ## Record pointers (`ddml/mod.rs`) -/

/-- `types.rs` `PBA` -/
structure PBA where
  cluster : Nat
  lba : Nat
  deriving DecidableEq, Repr

/-- `ddml/mod.rs:38-58` `DRP` -/
structure DRP where
  pba : PBA
  compressed : Bool
  lsize : Nat
  csize : Nat
  checksum : UInt64
  deriving DecidableEq, Repr

/-- `ddml/mod.rs:63-72` `as_uncompressed` -/
def DRP.asUncompressed (d : DRP) : DRP :=
  { pba := d.pba, compressed := false, lsize := d.csize, csize := d.csize, checksum := d.checksum }

/-- `ddml/mod.rs:75-77` `asize` -/
def DRP.asize (d : DRP) : Nat := blocks d.csize

/-- `ddml/mod.rs:83-87` `into_compressed` -/
def DRP.intoCompressed (d old : DRP) : DRP :=
  { d with compressed := old.compressed, lsize := old.lsize }

/-! ## Records (`ddml/ddml.rs`) -/

/-- Everything external: the codecs, the hash, and the record type's serialiser. -/
structure Env (V : Type) where
  cd : Codecs
  hash : Buf → UInt64
  ser : V → Buf
  deser : Buf → V

/-- `ddml.rs:337-363`: try the reconstructions in order.  `dbs` has been truncated to `csize`
bytes, so copying a reconstruction of another length panics (line 355). -/
def tryRecon {V : Type} (en : Env V) (d : DRP) : List Buf → Res Buf
  | [] => .err .eintegrity
  | r :: rest =>
    if en.hash r = d.checksum then
      if d.compressed then
        match decompress en.cd r d.lsize with
        | .ok b => .ok b
        | .err _ => tryRecon en d rest
        | .panic => .panic
      else if r.length = d.csize then .ok r
      else .panic
    else tryRecon en d rest

/-- `ddml.rs:301-369` `read`.  `rd` is the pool's answer to reading `asize` blocks, `rl` its
answer to `read_long`. -/
def readRec {V : Type} (en : Env V) (d : DRP) (rd : Except Err Buf)
    (rl : Except Err (List Buf)) : Res Buf :=
  match rd with
  | .error e => .err e
  | .ok full =>
    let db := full.take d.csize
    if en.hash db = d.checksum then
      if d.compressed then decompress en.cd db d.lsize else .ok db
    else
      match rl with
      | .ok recs => tryRecon en d recs
      | .error e => .err e

/-- `u32::MAX` -/
def u32Max : Nat := 2 ^ 32 - 1

/-- `ddml.rs:407-443` `put_common` up to the write: the bytes for the pool and the pointer apart
from its address.  `none` is the assertion on the record's length. -/
def encode {V : Type} (en : Env V) (c : Compression) (v : V) : Option (Buf × (PBA → DRP)) :=
  let serialized := en.ser v
  if serialized.length < u32Max then
    let (cdb, c') := c.compress en.cd serialized
    some (cdb, fun pba =>
      { pba := pba, compressed := c'.isCompressed, lsize := serialized.length % 2 ^ 32,
        csize := cdb.length % 2 ^ 32, checksum := en.hash cdb })
  else none

/-! ## The pool -/

/-- The blocks of the pool, and the extents that have been allocated and not freed. -/
structure Pool where
  block : PBA → Buf
  live : List (PBA × Nat)

/-- The `i`th block of an extent -/
def PBA.plus (p : PBA) (i : Nat) : PBA := { p with lba := p.lba + i }

/-- What a read of `n` blocks delivers when nothing goes wrong. -/
def Pool.read (p : Pool) (pba : PBA) (n : Nat) : Buf :=
  (List.range n).flatMap fun i => p.block (pba.plus i)

/-- A buffer padded with zeros to whole blocks, as the pool stores it (`vdev_raid.rs` `write_at`,
modelled in `Raid`). -/
def pad (b : Buf) : Buf := b ++ List.replicate (blocks b.length * lbaBytes - b.length) 0

/-- The `i`th block of a padded buffer -/
def padBlock (b : Buf) (i : Nat) : Buf := ((pad b).drop (i * lbaBytes)).take lbaBytes

/-- Whether a block lies in an extent -/
def inExtent (q : PBA) (e : PBA × Nat) : Bool :=
  q.cluster = e.1.cluster && e.1.lba ≤ q.lba && q.lba < e.1.lba + e.2

/-- `pool.rs` `write`, given the address the allocator chose. -/
def Pool.write (p : Pool) (b : Buf) (pba : PBA) : Pool :=
  { block := fun q =>
      if inExtent q (pba, blocks b.length) then padBlock b (q.lba - pba.lba) else p.block q
    live := (pba, blocks b.length) :: p.live }

/-- `pool.rs` `free`.  Freeing an extent that is not allocated is an accounting error, which the
real code detects only sometimes; here it is always `none`. -/
def Pool.free (p : Pool) (pba : PBA) (n : Nat) : Option Pool :=
  if (pba, n) ∈ p.live then some { p with live := p.live.erase (pba, n) } else none

/-! ## Operations -/

/-- The layer's state: the cached records by address, and the pool. -/
structure State (V : Type) where
  cache : PBA → Option V
  pool : Pool

/-- `Cache::insert` and `Cache::remove` as seen by key (`cache/lru.rs`; see `Cache` for the real
structure). -/
def setCache {V : Type} (c : PBA → Option V) (k : PBA) (x : Option V) : PBA → Option V :=
  fun q => if q = k then x else c q

/-- `ddml.rs:543-559` `put` (and `put_common`).  `wr` is the pool's answer to the write. -/
def put {V : Type} (en : Env V) (s : State V) (v : V) (c : Compression) (wr : Except Err PBA) :
    State V × Res DRP :=
  match encode en c v with
  | none => (s, .panic)
  | some (b, mk) =>
    match wr with
    | .error e => (s, .err e)
    | .ok pba =>
      ({ cache := setCache s.cache pba (some v), pool := s.pool.write b pba }, .ok (mk pba))

/-- `ddml.rs:446-453` `put_direct`: the same without the cache. -/
def putDirect {V : Type} (en : Env V) (p : Pool) (v : V) (c : Compression) (wr : Except Err PBA) :
    Pool × Res DRP :=
  match encode en c v with
  | none => (p, .panic)
  | some (b, mk) =>
    match wr with
    | .error e => (p, .err e)
    | .ok pba => (p.write b pba, .ok (mk pba))

/-- `ddml.rs:268-276` `get_direct` -/
def getDirect {V : Type} (en : Env V) (d : DRP) (rd : Except Err Buf)
    (rl : Except Err (List Buf)) : Res V :=
  match readRec en d rd rl with
  | .ok b => .ok (en.deser b)
  | .err e => .err e
  | .panic => .panic

/-- `ddml.rs:511-525` `get`: from the cache, or from disk and into the cache. -/
def get {V : Type} (en : Env V) (s : State V) (d : DRP) (rd : Except Err Buf)
    (rl : Except Err (List Buf)) : State V × Res V :=
  match s.cache d.pba with
  | some v => (s, .ok v)
  | none =>
    match getDirect en d rd rl with
    | .ok v => ({ s with cache := setCache s.cache d.pba (some v) }, .ok v)
    | r => (s, r)

/-- `ddml.rs:224-231` `delete_direct` -/
def deleteDirect (p : Pool) (d : DRP) : Option Pool := p.free d.pba d.asize

/-- `ddml.rs:496-505` `delete` -/
def delete {V : Type} (s : State V) (d : DRP) : State V × Res Unit :=
  match s.pool.free d.pba d.asize with
  | some p => ({ cache := setCache s.cache d.pba none, pool := p }, .ok ())
  | none => (s, .panic)

/-- `ddml.rs:386-400` `pop_direct` -/
def popDirect {V : Type} (en : Env V) (p : Pool) (d : DRP) (rd : Except Err Buf)
    (rl : Except Err (List Buf)) : Pool × Res V :=
  match getDirect en d rd rl with
  | .ok v =>
    match p.free d.pba d.asize with
    | some p' => (p', .ok v)
    | none => (p, .panic)
  | r => (p, r)

/-- `ddml.rs:527-540` `pop` -/
def pop {V : Type} (en : Env V) (s : State V) (d : DRP) (rd : Except Err Buf)
    (rl : Except Err (List Buf)) : State V × Res V :=
  match s.cache d.pba with
  | some v =>
    match s.pool.free d.pba d.asize with
    | some p => ({ cache := setCache s.cache d.pba none, pool := p }, .ok v)
    | none => (s, .panic)
  | none =>
    let r := popDirect en s.pool d rd rl
    ({ s with pool := r.1 }, r.2)

/-- `ddml.rs:507-509` `evict`, and any eviction by the cache itself. -/
def evict {V : Type} (s : State V) (p : PBA) : State V :=
  { s with cache := setCache s.cache p none }

end Verif.Ddml
