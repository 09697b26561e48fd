import Verif.Raid.FaultModel

/-!
# Reads that meet failing or absent disks

Models `read_at_one`, `read_at_multi` and `read_at_reconstruction` of
`/repo/bfffs-core/src/raid/vdev_raid.rs`.

Position `b` of a stripe is its data chunk `b` if `b < m`, otherwise its parity chunk `b - m`.
`res b` is the result of reading from the disk of position `b`, and `got b` what the chunk reads
as: for a successful read the chunk's bytes, for a failed one whatever the buffers hold.  A
read of part of a chunk gives that part.  The caller's buffer is a list of bytes; a piece of
memory is a list of bytes together with its place in the caller's buffer, if it is part of it.
-/

namespace Verif.Raid

open Verif.Bytes

/-- What a read returns. -/
inductive Out
  | panic
  | err (e : Nat)
  | ok (b : Buf)
deriving DecidableEq, Repr

/-- A piece of memory: its bytes, and where in the caller's buffer it is.  `none` is a buffer
allocated for the recovery. -/
structure Piece where
  bytes : Buf
  off : Option Nat
deriving DecidableEq, Repr

/-- `DivBufMut::split_to`: panics beyond the end. -/
def Piece.splitTo (p : Piece) (n : Nat) : Option (Piece × Piece) :=
  if n ≤ p.bytes.length then
    some (⟨p.bytes.take n, p.off⟩, ⟨p.bytes.drop n, p.off.map (· + n)⟩)
  else none

/-- `codecbytes` (`vdev_raid.rs:1553-1576`): the lengths of the three parts into which each column
is divided. -/
def codecBytes (g : Geom) (lba e : Nat) : Nat × Nat × Nat :=
  let pre := if e % g.cs ≠ 0 then min (lba % g.cs) (e % g.cs) else lba % g.cs
  let post := if e % g.cs = 0 then 0
    else if e % g.cs > lba % g.cs then g.cs - e % g.cs
    else g.cs - lba % g.cs
  (pre * g.bpl, g.col - pre * g.bpl - post * g.bpl, post * g.bpl)

/-- The first statements of `append_cols` (`vdev_raid.rs:1585-1598`): the first piece, without
and after the first part. -/
def segPre (c0 : Nat) : List Piece → Option (Piece × Piece × List Piece)
  | [] => none
  | col :: cols =>
    if 0 < c0 then (col.splitTo c0).map fun (p, col') => (p, col', cols)
    else some (⟨[], none⟩, col, cols)

/-- `if col.is_empty() { col = cols.next().unwrap() }` (`vdev_raid.rs:1599-1601`, `1608-1610`). -/
def skipEmpty (col : Piece) (cols : List Piece) : Option (Piece × List Piece) :=
  if col.bytes = [] then
    match cols with
    | [] => none
    | c :: cs => some (c, cs)
  else some (col, cols)

/-- `append_cols` (`vdev_raid.rs:1580-1617`): the three parts of a column, made of the pieces
`cols`.  The codec gets a pointer to each; the last must have enough bytes behind it. -/
def segments (c : Nat × Nat × Nat) (cols : List Piece) : Option (Piece × Piece × Piece) :=
  match segPre c.1 cols with
  | none => none
  | some (pre, col, cols) =>
    match skipEmpty col cols with
    | none => none
    | some (col, cols) =>
      match col.splitTo c.2.1 with
      | none => none
      | some (mid, col) =>
        if 0 < c.2.2 then
          match skipEmpty col cols with
          | none => none
          | some (col, _) =>
            if c.2.2 ≤ col.bytes.length then some (pre, mid, ⟨col.bytes.take c.2.2, col.off⟩)
            else none
        else some (pre, mid, ⟨[], none⟩)

/-- `excols.next().unwrap()` -/
def nextEx : List Buf → Option (Piece × List Buf)
  | [] => none
  | b :: bs => some (⟨b, none⟩, bs)

/-- The pieces of column `i` (`vdev_raid.rs:1619-1668`): what is left of the caller's buffer and
of the extra buffers is returned too.  `lba` and `e` are the ends of the caller's range. -/
def colPieces (g : Geom) (lba e i : Nat) (data : Piece) (ex : List Buf) :
    Option (List Piece × Piece × List Buf) :=
  let c := codecBytes g lba e
  let chunkLba := lba - lba % g.slbas + i * g.cs
  let chunkElba := chunkLba + g.cs
  if chunkElba ≤ lba then (nextEx ex).map fun (x, ex) => ([x], data, ex)
  else if chunkLba < lba then
    if c.1 = 0 then none
    else
      match nextEx ex with
      | none => none
      | some (x, ex) =>
        let datasize := min (e - lba) (chunkElba - lba) * g.bpl
        match data.splitTo datasize with
        | none => none
        | some (d, data) =>
          -- the subtraction of `exsize1`
          if g.col < datasize + x.bytes.length then none
          else if 0 < g.col - datasize - x.bytes.length then
            (nextEx ex).map fun (x', ex) => ([x, d, x'], data, ex)
          else some ([x, d], data, ex)
  else if chunkElba ≤ e then (data.splitTo g.col).map fun (d, data) => ([d], data, ex)
  else if chunkLba < e then
    if c.2.2 = 0 then none
    else
      match nextEx ex with
      | none => none
      | some (x, ex) =>
        if data.bytes.length = (e - chunkLba) * g.bpl ∧ data.bytes.length < g.col then
          (data.splitTo data.bytes.length).map fun (d, data) => ([d, x], data, ex)
        else none
  else (nextEx ex).map fun (x, ex) => ([x], data, ex)

/-- The loop of `read_at_reconstruction` (`vdev_raid.rs:1619-1672`): the three parts of each of
`n` columns from `i` on. -/
def gather (g : Geom) (lba e : Nat) :
    Nat → Nat → Piece → List Buf → Option (List (Piece × Piece × Piece))
  | 0, _, _, _ => some []
  | n + 1, i, data, ex =>
    match colPieces g lba e i data ex with
    | none => none
    | some (cols, data, ex) =>
      match segments (codecBytes g lba e) cols with
      | none => none
      | some s => (gather g lba e n (i + 1) data ex).map fun l => s :: l

/-- Memory written by the codec. -/
def patch (b : Buf) (w : Option Nat × Buf) : Buf :=
  match w.1 with
  | none => b
  | some o => b.take o ++ w.2 ++ b.drop (o + w.2.length)

/-- `Codec::decode`: for a length and the erased positions, the lost data columns. -/
abbrev Decoder := Nat → (Nat → Bool) → List Buf → Option (List Buf)

/-- One round of the last loop of `read_at_reconstruction` (`vdev_raid.rs:1673-1685`), for one of
the three parts: `len` is its length, `segs` the columns' parts, `v` the columns' results. -/
def decodePart (m : Nat) (dec : Decoder) (v : List Res) (er : Nat → Bool) (len : Nat)
    (segs : List Piece) (data : Buf) : Option Buf :=
  let surviving := ((segs.zip v).filter fun x => !x.2.isErr).map fun x => x.1.bytes
  let missing := (((segs.zip v).take m).filter fun x => x.2.isErr).map fun x => x.1.off
  if missing = [] ∨ len = 0 then some data
  else (dec len er surviving).map fun outs => (missing.zip outs).foldl patch data

/-- The position after the `m`-th success: `disks_needed` (`vdev_raid.rs:1531-1543`). -/
def disksNeeded (m : Nat) (v : List Res) : Option Nat :=
  (((List.range v.length).filter fun i => !(v.getD i .ok).isErr)[m - 1]?).map (· + 1)

/-- The first error. -/
def firstErr (v : List Res) : Out :=
  match v.find? Res.isErr with
  | some (.err e) => .err e
  | _ => .panic

/-- `read_at_reconstruction` (`vdev_raid.rs:1508-1687`). -/
def reconstruct (g : Geom) (dec : Decoder) (lba : Nat) (data : Buf) (ex : List Buf) (v : List Res) :
    Out :=
  match disksNeeded g.Y.m v with
  | none => firstErr v
  | some need =>
    if need ≤ g.Y.m then .ok data
    else
      let e := lba + data.length / g.bpl
      let c := codecBytes g lba e
      match gather g lba e need 0 ⟨data, some 0⟩ ex with
      | none => .panic
      | some segs =>
        let v := v.take need
        let er := fun i => (v.getD i .ok).isErr
        match decodePart g.Y.m dec v er c.1 (segs.map fun s => s.1) data with
        | none => .panic
        | some data =>
          match decodePart g.Y.m dec v er c.2.1 (segs.map fun s => s.2.1) data with
          | none => .panic
          | some data =>
            match decodePart g.Y.m dec v er c.2.2 (segs.map fun s => s.2.2) data with
            | none => .panic
            | some data => .ok data

/-! ### Reading part of one stripe -/

/-- The buffers a chunk is read into: the first byte to read, and for each buffer whether it
is part of the caller's and its length. -/
structure Plan where
  start : Nat
  bufs : List (Bool × Nat)
deriving DecidableEq, Repr

/-- The buffers for the chunk at position `b` (`vdev_raid.rs:1093-1160`); `left` is the number of
bytes left of the caller's buffer, `deg` is `faulted_children > 0`.  `none` is a panic:
`exbufs` is only allocated if the array is degraded. -/
def chunkPlan (g : Geom) (deg : Bool) (u e left b : Nat) : Option Plan :=
  let lba := u - u % g.slbas + b * g.cs
  if g.Y.m ≤ b ∨ lba + g.cs ≤ u then
    if deg then some ⟨0, [(false, g.col)]⟩ else none
  else if lba < u ∧ deg then
    let datasize := min ((g.cs - u % g.cs) * g.bpl) left
    let exsize0 := (u - lba) * g.bpl
    if g.col < datasize + exsize0 then none
    else
      let exsize1 := g.col - datasize - exsize0
      some ⟨0, [(false, exsize0), (true, datasize)] ++
        if 0 < exsize1 then [(false, exsize1)] else []⟩
  else if lba < u then
    some ⟨u % g.cs * g.bpl, [(true, min ((g.cs - u % g.cs) * g.bpl) left)]⟩
  else if lba + g.cs ≤ e then some ⟨0, [(true, min g.col left)]⟩
  else if lba < e ∧ ¬ deg then some ⟨0, [(true, left)]⟩
  else if lba < e then
    if g.col < left then none else some ⟨0, [(true, left), (false, g.col - left)]⟩
  else if deg then some ⟨0, [(false, g.col)]⟩
  else none

/-- The buffers of a vectored read are filled one after the other: those that are part of the
caller's buffer, and the others. -/
def fillBufs : List (Bool × Nat) → Buf → Buf × List Buf
  | [], _ => ([], [])
  | (true, n) :: l, b => let r := fillBufs l (b.drop n); (b.take n ++ r.1, r.2)
  | (false, n) :: l, b => let r := fillBufs l (b.drop n); (r.1, b.take n :: r.2)

/-- The reads of `n` positions from `b` on (`vdev_raid.rs:1092-1161`): what the caller's buffer
holds afterwards, and the extra buffers. -/
def firstReads (g : Geom) (deg : Bool) (u e : Nat) (got : Nat → Buf) :
    Nat → Nat → Nat → Option (Buf × List Buf)
  | 0, _, _ => some ([], [])
  | n + 1, b, left =>
    match chunkPlan g deg u e left b with
    | none => none
    | some p =>
      let r := fillBufs p.bufs ((got b).drop p.start)
      (firstReads g deg u e got n (b + 1) (left - r.1.length)).map fun s =>
        (r.1 ++ s.1, r.2 ++ s.2)

/-- Which positions are read at first (`vdev_raid.rs:1053-1091`): the first, and how many. -/
def firstRange (g : Geom) (f nf u e : Nat) : Nat × Nat :=
  if 0 < nf then (0, g.Y.m + min nf f)
  else
    let b := (u % g.slbas) / g.cs
    let rem := e % g.slbas
    let stop :=
      if rem = 0 ∨ g.slbas - rem < g.cs then g.Y.m
      else (e - (u - u % g.slbas) + g.cs - 1) / g.cs
    (b, stop - b)

/-- One position of the further reads of `read_at_one` (`vdev_raid.rs:1192-1226`), after reads of
positions from `start` on with results `dv`: its result, and whether it is read now, into a new
extra buffer.  `none` is an index out of bounds. -/
def moreOne (m old start : Nat) (dv : List Res) (res : Nat → Res) (b : Nat) :
    Option (Res × Bool) :=
  if m ≤ b then
    if b - m < old then dv[b]?.map fun r => (r, false) else some (res b, true)
  else if b < start then some (res b, true)
  else if b - start < dv.length then dv[b - start]?.map fun r => (r, false)
  else some (res b, true)

/-- The loop of `read_at_one` that reads more when there are unexpected errors
(`vdev_raid.rs:1166-1231`): the number of errors, the results and the extra buffers. -/
def moreReads (m f : Nat) (got : Nat → Buf) (res : Nat → Res) :
    Nat → Nat → Nat → List Res → List Buf → Option (Nat × List Res × List Buf)
  | fuel, old, start, dv, ex =>
    let nerrs := dv.countP Res.isErr
    if nerrs ≤ old then some (nerrs, dv, ex)
    else if m ≤ dv.length - nerrs then none
    else if f < nerrs then some (nerrs, dv, ex)
    else
      match fuel with
      | 0 => none
      | fuel + 1 =>
        match (List.range (m + nerrs)).mapM (moreOne m old start dv res) with
        | none => none
        | some rs =>
          moreReads m f got res fuel nerrs 0 (rs.map fun r => r.1)
            (ex ++ (((List.range (m + nerrs)).zip rs).filter fun x => x.2.2).map fun x => got x.1)

/-- `read_at_one` (`vdev_raid.rs:1032-1252`), of the LBAs from `u` up to `e`, in an array with
`nf` absent children.  The loop runs at most `f + 1` times, since the number of errors grows. -/
def readAtOne (g : Geom) (f : Nat) (dec : Decoder) (nf u e : Nat) (got : Nat → Buf)
    (res : Nat → Res) : Out :=
  let (b, n) := firstRange g f nf u e
  match firstReads g (decide (0 < nf)) u e got n b ((e - u) * g.bpl) with
  | none => .panic
  | some (data, ex) =>
    let dv := (List.range' b n).map res
    match moreReads g.Y.m f got res (f + 1) nf b dv ex with
    | none => .panic
    | some (nerrs, dv, ex) =>
      if f < nerrs then firstErr dv
      else if 0 < nerrs then reconstruct g dec u data ex dv
      else .ok data

/-! ### Reading several stripes -/

/-- The buffers for the chunk at position `b` of stripe `s`, when `read_at_multi` reads it in a
degraded array (`vdev_raid.rs:886-972`).  `left` is what is left of the caller's buffer. -/
def degPlan (g : Geom) (u e left s b : Nat) : Option (List (Bool × Nat)) :=
  let lba := (s * g.Y.m + b) * g.cs
  if g.Y.m ≤ b ∨ lba + g.cs ≤ u then some [(false, g.col)]
  else if lba < u then
    let datasize := min ((g.cs - u % g.cs) * g.bpl) left
    if g.col < datasize then none else some [(false, g.col - datasize), (true, datasize)]
  else if lba + g.cs ≤ e then if left < g.col then none else some [(true, g.col)]
  else if lba < e then
    if g.col < left then none else some [(true, left), (false, g.col - left)]
  else some [(false, g.col)]

/-- The buffers of the caller's own among `bufs`, in bytes. -/
def userLen (bufs : List (Bool × Nat)) : Nat :=
  ((bufs.filter fun x => x.1).map fun x => x.2).sum

/-- A chunk that is read: its position, what is read and into which buffers. -/
structure Slot where
  pos : Nat
  read : CR
  bufs : List (Bool × Nat)
deriving DecidableEq, Repr

/-- The loop of `read_at_multi` (`vdev_raid.rs:884-985`) in a degraded array, that reads `w`
parity chunks of each stripe.  The other parity chunks are read if their disk already has
something to read, once something after them is (`vdev_raid.rs:973-981`).  As in `multiReads` all
the buffers queued for a disk are filled by one vectored read. -/
def degReads (g : Geom) (w u e : Nat) : Nat → (Nat → Option Queue) → List Nat → Option (List Slot)
  | _, _, [] => some []
  | left, q, p :: ps =>
    let s := p / g.Y.k
    let b := p % g.Y.k
    let d := g.Y.disk s b
    if b < g.Y.m + w then
      match degPlan g u e left s b with
      | none => none
      | some bufs =>
        let qd := (q d).getD ⟨g.Y.off s b * g.cs * g.bpl, 0, 0⟩
        let q' := fun d' => if d' = d then some ⟨qd.start, qd.len + qd.plen + g.col, 0⟩ else q d'
        (degReads g w u e (left - userLen bufs) q' ps).map fun l =>
          ⟨p, ⟨d, qd.start + qd.len + qd.plen, g.col⟩, bufs⟩ :: l
    else
      match q d with
      | none => degReads g w u e left q ps
      | some qd =>
        let q' := fun d' => if d' = d then some { qd with plen := qd.plen + g.col } else q d'
        (degReads g w u e left q' ps).map fun l =>
          ⟨p, ⟨d, qd.start + qd.len + qd.plen, g.col⟩, [(false, g.col)]⟩ :: l

/-- The positions that `read_at_multi` visits in a degraded array (`vdev_raid.rs:869-883`). -/
def degPositions (g : Geom) (w u e : Nat) : List Nat :=
  let s := u / g.slbas
  let last := (e - 1) / g.slbas
  List.range' (s * g.Y.k) ((last - s) * g.Y.k + g.Y.m + w)

/-- The result of a disk; one that is not read succeeds (`vdev_raid.rs:987-1000`). -/
def diskRes (slots : List Slot) (res : Nat → Res) (d : Nat) : Res :=
  if slots.any fun x => x.read.disk == d then res d else .ok

/-- One stripe's part of the recovery (`vdev_raid.rs:1003-1027`), for LBAs `u` up to `e` of it:
`data` and `ex` are its part of the caller's buffer and its extra buffers, `res` the result of
each position's disk. -/
def recoverStripe (g : Geom) (w : Nat) (dec : Decoder) (u : Nat) (data : Buf) (ex : List Buf)
    (res : Nat → Res) : Out :=
  reconstruct g dec u data ex ((List.range (g.Y.m + w)).map res)

/-- The recovery, stripe by stripe (`vdev_raid.rs:1010-1029`).  `ex s` are the extra buffers of
stripe `s`.  The results are combined by `and`. -/
def recoverAll (g : Geom) (w : Nat) (dec : Decoder) (u e : Nat) (ex : Nat → List Buf)
    (res : Nat → Res) : List Nat → Buf → Out
  | [], _ => .ok []
  | s :: ss, data =>
    let us := max u (s * g.slbas)
    let n := (min e ((s + 1) * g.slbas) - us) * g.bpl
    if data.length < n then .panic
    else
      match recoverStripe g w dec us (data.take n) (ex s) fun b => res (g.Y.disk s b),
          recoverAll g w dec u e ex res ss (data.drop n) with
      | .panic, _ => .panic
      | _, .panic => .panic
      | .err e, _ => .err e
      | .ok _, .err e => .err e
      | .ok a, .ok b => .ok (a ++ b)

/-- `read_at_multi` (`vdev_raid.rs:799-1029`) in a degraded array: `nf` children are absent,
`res` are the results of the disks and `fill r` is what the read `r` leaves in its buffers. -/
def readAtMultiDeg (g : Geom) (f : Nat) (dec : Decoder) (nf u e : Nat) (fill : CR → Buf)
    (res : Nat → Res) : Out :=
  let w := min nf f
  match degReads g w u e ((e - u) * g.bpl) (fun _ => none) (degPositions g w u e) with
  | none => .panic
  | some slots =>
    let bytes := fun x : Slot => fillBufs x.bufs (fill x.read)
    let data := (slots.map fun x => (bytes x).1).flatten
    if (List.range g.Y.n).all fun d => !(diskRes slots res d).isErr then .ok data
    else
      recoverAll g w dec u e
        (fun s => ((slots.filter fun x => x.pos / g.Y.k == s).map fun x => (bytes x).2).flatten)
        (diskRes slots res)
        (List.range' (u / g.slbas) ((e - 1) / g.slbas - u / g.slbas + 1)) data

/-- `read_at_multi` (`vdev_raid.rs:799-1029`) in an array without absent children.  `rs` are the
reads of data chunks from `multiReads`.  The parity chunks that are read anyway have no bearing on
the result: the recovery looks at the first `m` results only, and takes none of the extra
buffers `ex`. -/
def readAtMultiOk (g : Geom) (dec : Decoder) (u e : Nat) (fill : CR → Buf) (ex : Nat → List Buf)
    (res : Nat → Res) : Out :=
  match diskReads g u e with
  | none => .panic
  | some rs =>
    let data := (rs.map fill).flatten
    let dv := fun d => if rs.any fun r => r.disk == d then res d else .ok
    if (List.range g.Y.n).all fun d => !(dv d).isErr then .ok data
    else
      recoverAll g 0 dec u e ex dv
        (List.range' (u / g.slbas) ((e - 1) / g.slbas - u / g.slbas + 1)) data

/-- A read from the disks of a degraded array (`vdev_raid.rs:2224-2231`): of one stripe or of
several. -/
def readDeg (g : Geom) (f : Nat) (dec : Decoder) (nf u e : Nat) (fill : CR → Buf)
    (res : Nat → Res) : Out :=
  let s := u / g.slbas
  if s = (e - 1) / g.slbas then
    readAtOne g f dec nf u e (fun b => fill ⟨g.Y.disk s b, g.Y.off s b * g.col, g.col⟩)
      fun b => res (g.Y.disk s b)
  else readAtMultiDeg g f dec nf u e fill res

end Verif.Raid
