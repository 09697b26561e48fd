import Verif.Raid.Layout
import Verif.Bytes.Model

/-!
# The stripe buffer, the write path and the healthy read path of a RAID vdev

Models parts of `/repo/bfffs-core/src/raid/vdev_raid.rs`.  `none` is a panic.  What is not
modelled: futures, which are taken to have completed; the lock on the stripe buffers; other
zones than the one at hand (`C11` shows that zones do not overlap).
-/

namespace Verif.Raid

open Verif.Bytes

/-- Geometry of a RAID vdev. -/
structure Geom where
  Y : Layout
  /-- LBAs per chunk: `chunksize`. -/
  cs : Nat
  /-- `BYTES_PER_LBA` (`util.rs:16`), 4096 in the code. -/
  bpl : Nat
  /-- Length of `ZERO_REGION` (`util.rs:21-25`). -/
  zr : Nat
  /-- The codec: parity columns of the data columns of a stripe. -/
  enc : List Buf → List Buf

/-- Bytes per chunk (`col_len`). -/
def Geom.col (g : Geom) : Nat := g.cs * g.bpl
/-- Bytes of data per stripe (`stripe_len`, `stripesize`). -/
def Geom.stripe (g : Geom) : Nat := g.Y.m * g.col
/-- LBAs of data per stripe. -/
def Geom.slbas (g : Geom) : Nat := g.Y.m * g.cs

/-- `n` zero bytes. -/
def zeros (n : Nat) : Buf := List.replicate n 0

/-- `StripeBuffer` (`vdev_raid.rs:74-83`). -/
structure StripeBuffer where
  buf : SGList
  lba : Nat
deriving DecidableEq, Repr

/-- `StripeBuffer::len` (`vdev_raid.rs:123-126`). -/
def StripeBuffer.len (sb : StripeBuffer) : Nat := (sb.buf.map List.length).sum

/-- `StripeBuffer::is_empty` (`vdev_raid.rs:113-115`). -/
def StripeBuffer.isEmpty (sb : StripeBuffer) : Bool := sb.buf.isEmpty

/-- `StripeBuffer::is_full` (`vdev_raid.rs:107-110`). -/
def StripeBuffer.isFull (g : Geom) (sb : StripeBuffer) : Bool := sb.len == g.stripe

/-- `StripeBuffer::next_lba` (`vdev_raid.rs:137-140`). -/
def StripeBuffer.nextLba (g : Geom) (sb : StripeBuffer) : Nat := sb.lba + sb.len / g.bpl

/-- `StripeBuffer::fill` (`vdev_raid.rs:90-104`): the buffer and the unused part. -/
def StripeBuffer.fill (g : Geom) (sb : StripeBuffer) (iovec : Buf) : StripeBuffer × Buf :=
  let get := min (g.stripe - sb.len) iovec.length
  if 0 < get then
    let buf := sb.buf ++ [iovec.take get]
    if get % g.bpl ≠ 0 then
      ({ sb with buf := buf ++ [zeros (g.bpl - get % g.bpl)] }, iovec.drop get)
    else ({ sb with buf }, iovec.drop get)
  else (sb, iovec)

/-- The loop of `pad` (`vdev_raid.rs:149-151`). -/
def StripeBuffer.fillZeros (g : Geom) (sb : StripeBuffer) : Nat → StripeBuffer
  | 0 => sb
  | n + 1 => ((sb.fill g (zeros g.zr)).1).fillZeros g n

/-- `StripeBuffer::pad` (`vdev_raid.rs:145-157`): the buffer and the LBAs of padding. -/
def StripeBuffer.pad (g : Geom) (sb : StripeBuffer) : Option (StripeBuffer × Nat) :=
  let padlen := g.stripe - sb.len
  let zeroBufs := (padlen + g.zr - 1) / g.zr
  if zeroBufs = 0 then none
  else
    let sb1 := sb.fillZeros g (zeroBufs - 1)
    let sb2 := (sb1.fill g (zeros (padlen - (zeroBufs - 1) * g.zr))).1
    some (sb2, padlen / g.bpl)

/-- `StripeBuffer::pop` (`vdev_raid.rs:167-171`). -/
def StripeBuffer.pop (g : Geom) (sb : StripeBuffer) : StripeBuffer × SGList :=
  (⟨[], sb.nextLba g⟩, sb.buf)

/-- A write issued to a child: disk, first byte (LBA times `bpl`), data. -/
structure CW where
  disk : Nat
  addr : Nat
  data : Buf
deriving DecidableEq, Repr

/-- Reading `n` bytes from a cursor piece by piece: the inner loop of `writev_at_one`
(`vdev_raid.rs:1873-1878`), and those of `read_at` (`vdev_raid.rs:2195-2198`, `2203-2208`). -/
def takeN : Nat → Cursor → Nat → Option (SGList × Cursor)
  | 0, c, n => if n = 0 then some ([], c) else none
  | fuel + 1, c, n =>
    if n = 0 then some ([], c)
    else
      match c.next n with
      | (none, _) => none
      | (some b, c') => (takeN fuel c' (n - b.length)).map fun r => (b :: r.1, r.2)

/-- The outer loop of `writev_at_one` (`vdev_raid.rs:1870-1880`): `m` columns. -/
def takeCols (len : Nat) : Nat → Cursor → Option (List SGList)
  | 0, _ => some []
  | n + 1, c =>
    match takeN len c len with
    | none => none
    | some (col, c') => (takeCols len n c').map fun r => col :: r

/-- `issue_1stripe_writes!` (`vdev_raid.rs:533-565`), data columns: column `i` goes to data
chunk `lba / cs + i`.  The first may begin mid-chunk. -/
def dataWrites (g : Geom) (lba : Nat) (cols : List Buf) : List CW :=
  cols.mapIdx fun i col =>
    let c := lba / g.cs + i
    ⟨g.Y.disk (c / g.Y.m) (c % g.Y.m),
      (g.Y.off (c / g.Y.m) (c % g.Y.m) * g.cs + if i = 0 then lba % g.cs else 0) * g.bpl, col⟩

/-- `issue_1stripe_writes!`, parity columns. -/
def parityWrites (g : Geom) (lba : Nat) (cols : List Buf) : List CW :=
  cols.mapIdx fun i col =>
    let s := lba / g.cs / g.Y.m
    ⟨g.Y.disk s (g.Y.m + i),
      (g.Y.off s (g.Y.m + i) * g.cs + if i = 0 then lba % g.cs else 0) * g.bpl, col⟩

/-- `writev_at_one` (`vdev_raid.rs:1862-1920`).  `encodev` is taken to compute the parity of
the flattened columns (`Verif.Codec.C09_encodev`). -/
def writevAtOne (g : Geom) (buf : SGList) (lba : Nat) : Option (List CW) :=
  (takeCols g.col g.Y.m (Cursor.of buf)).map fun cols =>
    dataWrites g lba (cols.map List.flatten) ++ parityWrites g lba (g.enc (cols.map List.flatten))

/-- `IoVec::into_chunks`, for a nonzero chunk size. -/
def intoChunks (len : Nat) (b : Buf) : List Buf :=
  (List.range ((b.length + len - 1) / len)).map fun i => (b.drop (i * len)).take len

/-- `write_at_one` (`vdev_raid.rs:1801-1854`). -/
def writeAtOne (g : Geom) (buf : Buf) (lba : Nat) : List CW :=
  let dcols := intoChunks g.col buf
  dataWrites g lba dcols ++ parityWrites g lba (g.enc dcols)

/-- Data column `i` of stripe `s` of the buffer (`vdev_raid.rs:1720-1726`). -/
def multiCol (g : Geom) (buf : Buf) (s i : Nat) : Buf :=
  (buf.drop ((s * g.Y.m + i) * g.col)).take g.col

/-- Column `b` of stripe `s` of the buffer: data, or parity computed from the data
(`vdev_raid.rs:1717-1751`). -/
def multiAny (g : Geom) (buf : Buf) (s b : Nat) : Buf :=
  if b < g.Y.m then multiCol g buf s b
  else (g.enc ((List.range g.Y.m).map fun i => multiCol g buf s i)).getD (b - g.Y.m) []

/-- The chunks of `write_at_multi` in the order of the iterator (`vdev_raid.rs:1766-1781`):
disk, first byte, data. -/
def multiItems (g : Geom) (buf : Buf) (lba : Nat) : List CW :=
  (List.range (buf.length / g.col / g.Y.m)).flatMap fun s =>
    (List.range g.Y.k).map fun b =>
      let t := lba / g.cs / g.Y.m + s
      ⟨g.Y.disk t b, g.Y.off t b * g.cs * g.bpl, multiAny g buf s b⟩

/-- The vectored write of one disk (`vdev_raid.rs:1753-1788`): it starts where the disk's first
chunk is and holds all its chunks one after the other. -/
def diskWrite (items : List CW) (d : Nat) : Option CW :=
  match items.filter fun w => w.disk == d with
  | [] => none
  | w :: ws => some ⟨d, w.addr, ((w :: ws).map CW.data).flatten⟩

/-- `write_at_multi` (`vdev_raid.rs:1698-1798`). -/
def writeAtMulti (g : Geom) (buf : Buf) (lba : Nat) : List CW :=
  (List.range g.Y.n).filterMap (diskWrite (multiItems g buf lba))

/-- The first half of `write_at` (`vdev_raid.rs:2420-2438`): top up the stripe buffer.  Returns
the stripe buffer, the writes, the LBA and the rest of the data. -/
def topUp (g : Geom) (sb : StripeBuffer) (buf : Buf) (lba : Nat) :
    Option (StripeBuffer × List CW × Nat × Buf) :=
  if ¬ sb.isEmpty ∨ buf.length < g.stripe then
    let (sb1, buf2) := sb.fill g buf
    if sb1.isFull g then
      let (sb2, sgl) := sb1.pop g
      (writevAtOne g sgl sb1.lba).map fun ws =>
        (sb2, ws, lba + (buf.length - buf2.length) / g.bpl, buf2)
    else some (sb1, [], lba, buf2)
  else some (sb, [], lba, buf)

/-- The second half of `write_at` (`vdev_raid.rs:2439-2461`): write whole stripes and keep the
remainder. -/
def writeRest (g : Geom) (sb : StripeBuffer) (lba : Nat) (buf3 : Buf) :
    Option (StripeBuffer × List CW) :=
  if buf3 = [] then some (sb, [])
  else
    let nstripes := buf3.length / g.stripe
    let writable := buf3.take (nstripes * g.stripe)
    let rest := buf3.drop (nstripes * g.stripe)
    -- `reset` asserts that the buffer is empty
    if sb.isEmpty then
      let sb0 : StripeBuffer := { sb with lba := lba + nstripes * g.Y.m * g.cs }
      let main := if nstripes = 1 then writeAtOne g writable lba else writeAtMulti g writable lba
      if rest = [] then some (sb0, main)
      else
        let sb1 := (sb0.fill g rest).1
        if sb1.isFull g then
          let (sb2, sgl) := sb1.pop g
          (writevAtOne g sgl sb1.lba).map fun ws => (sb2, ws ++ main)
        else some (sb1, main)
    else none

/-- `write_at` (`vdev_raid.rs:2405-2463`). -/
def writeAt (g : Geom) (sb : StripeBuffer) (buf : Buf) (lba : Nat) :
    Option (StripeBuffer × List CW) :=
  if sb.nextLba g = lba then
    match topUp g sb buf lba with
    | none => none
    | some (sb1, ws1, lba1, buf3) =>
      (writeRest g sb1 lba1 buf3).map fun r => (r.1, ws1 ++ r.2)
  else none

/-- `flush_zone` (`vdev_raid.rs:2135-2158`), and the part of `finish_zone`
(`vdev_raid.rs:2109-2119`) that writes.  Also returns the LBAs of padding. -/
def flushZone (g : Geom) (sb : StripeBuffer) : Option (StripeBuffer × Nat × List CW) :=
  if sb.isEmpty then some (sb, 0, [])
  else
    match sb.pad g with
    | none => none
    | some (sb1, pad) =>
      let (sb2, sgl) := sb1.pop g
      (writevAtOne g sgl sb1.lba).map fun ws => (sb2, pad, ws)

/-! ### Disks -/

/-- What each disk holds at each byte; `none` if it was never written. -/
abbrev Disks := Nat → Nat → Option UInt8

/-- A child write that succeeds. -/
def Disks.write (D : Disks) (w : CW) : Disks := fun d a =>
  if d = w.disk ∧ w.addr ≤ a ∧ a < w.addr + w.data.length then w.data[a - w.addr]? else D d a

def Disks.writes (D : Disks) (ws : List CW) : Disks := ws.foldl Disks.write D

/-- A child read: disk, first byte, length. -/
structure CR where
  disk : Nat
  addr : Nat
  len : Nat
deriving DecidableEq, Repr

/-- A child read of bytes that were all written. -/
def Disks.read (D : Disks) (r : CR) : Option Buf :=
  (List.range r.len).mapM fun i => D r.disk (r.addr + i)

/-! ### Reading an array all of whose children are present and read without error -/

/-- What is read from data chunk `c` for the LBAs from `u` up to `e` (`vdev_raid.rs:1113-1160`,
`892-925`): the disk address and, given what is left of the caller's buffer, the length.  The
last case, which only happens in a degraded array, is `none`. -/
def chunkRead (g : Geom) (u e : Nat) (left : Nat) (c : Nat) : Option CR :=
  let d := g.Y.disk (c / g.Y.m) (c % g.Y.m)
  let a := g.Y.off (c / g.Y.m) (c % g.Y.m) * g.cs
  if c * g.cs + g.cs ≤ u then none
  else if c * g.cs < u then
    some ⟨d, (a + u % g.cs) * g.bpl, min ((g.cs - u % g.cs) * g.bpl) left⟩
  else if c * g.cs + g.cs ≤ e then some ⟨d, a * g.bpl, min g.col left⟩
  else if c * g.cs < e then some ⟨d, a * g.bpl, left⟩
  else none

/-- The data chunks that `read_at_one` visits (`vdev_raid.rs:1079-1090`). -/
def oneChunks (g : Geom) (u e : Nat) : List Nat :=
  let rem := e % g.slbas
  let stop :=
    if rem = 0 ∨ g.slbas - rem < g.cs then (u - u % g.slbas) / g.cs + g.Y.m
    else (e + g.cs - 1) / g.cs
  List.range' (u / g.cs) (stop - u / g.cs)

/-- The loop of `read_at_one` (`vdev_raid.rs:1093-1172`). -/
def oneReads (g : Geom) (u e : Nat) : Nat → List Nat → Option (List CR)
  | _, [] => some []
  | left, c :: cs =>
    match chunkRead g u e left c with
    | none => none
    | some r => (oneReads g u e (left - r.len) cs).map fun rs => r :: rs

/-- The positions, in the order of the iterator, that `read_at_multi` visits
(`vdev_raid.rs:868-882`).  Position `s * k + b` is chunk `b` of stripe `s`. -/
def multiPositions (g : Geom) (u e : Nat) : List Nat :=
  let pos c := c / g.Y.m * g.Y.k + c % g.Y.m
  let last := (e - 1) / g.slbas
  let stop := if g.slbas - g.cs < e % g.slbas then last * g.Y.k + g.Y.m
    else pos ((e + g.cs - 1) / g.cs)
  List.range' (pos (u / g.cs)) (stop - pos (u / g.cs))

/-- The reads queued for one disk: the first byte, the length of `sglists[disk]` and the length
of `psglists[disk]`. -/
structure Queue where
  start : Nat
  len : Nat
  plen : Nat

/-- The loop of `read_at_multi` (`vdev_raid.rs:884-985`).  A queue is `none` while
`start_lbas[disk]` is the sentinel.  All the buffers queued for a disk are filled by one
vectored read starting at its `start`, so a buffer queued behind `len + plen` bytes is filled
from there: that read is returned, for each piece of the caller's buffer. -/
def multiReads (g : Geom) (u e : Nat) : Nat → (Nat → Option Queue) → List Nat → Option (List CR)
  | _, _, [] => some []
  | left, q, p :: ps =>
    let s := p / g.Y.k
    let b := p % g.Y.k
    let d := g.Y.disk s b
    if b < g.Y.m then
      match chunkRead g u e left (s * g.Y.m + b) with
      | none => none
      | some r =>
        let qd := (q d).getD ⟨r.addr, 0, 0⟩
        let r' : CR := ⟨d, qd.start + qd.len + qd.plen, r.len⟩
        let q' := fun d' => if d' = d then some ⟨qd.start, qd.len + qd.plen + r.len, 0⟩ else q d'
        (multiReads g u e (left - r.len) q' ps).map fun rs => r' :: rs
    else
      -- a parity chunk is read if the disk already has something to read before it
      let q' := fun d' => if d' = d then (q d).map fun x => { x with plen := x.plen + g.col }
        else q d'
      multiReads g u e left q' ps

/-- Reading LBAs `u` up to `e` from the disks (`vdev_raid.rs:2224-2231`). -/
def diskReads (g : Geom) (u e : Nat) : Option (List CR) :=
  if u / g.slbas = (e - 1) / g.slbas then
    oneReads g u e ((e - u) * g.bpl) (oneChunks g u e)
  else
    multiReads g u e ((e - u) * g.bpl) (fun _ => none) (multiPositions g u e)

/-- The caller's buffer is split in order among the reads. -/
def readDisks (g : Geom) (D : Disks) (u e : Nat) : Option Buf :=
  match diskReads g u e with
  | none => none
  | some rs => (rs.mapM D.read).map List.flatten

/-- `read_at` (`vdev_raid.rs:2164-2232`), of the `n` LBAs from `lba` on. -/
def readAt (g : Geom) (sb : StripeBuffer) (D : Disks) (lba n : Nat) : Option Buf :=
  if ¬ sb.isEmpty ∧ lba < sb.nextLba g ∧ sb.lba ≤ lba + n - 1 then
    if lba < sb.lba then
      -- the first part from the disks, the rest from the stripe buffer
      let fromSb := (n - (sb.lba - lba)) * g.bpl
      match takeN fromSb (Cursor.of sb.buf) fromSb with
      | none => none
      | some (b, _) => (readDisks g D lba sb.lba).map fun a => a ++ b.flatten
    else
      let skip := (lba - sb.lba) * g.bpl
      match takeN skip (Cursor.of sb.buf) skip with
      | none => none
      | some (_, c) => (takeN (n * g.bpl) c (n * g.bpl)).map fun r => r.1.flatten
  else readDisks g D lba (lba + n)

end Verif.Raid
