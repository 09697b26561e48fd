/-!
# Scatter-gather helpers (`bfffs-core/src/util.rs`, `raid/sgcursor.rs`)

A buffer (`DivBuf`, `IoVec`) is modelled by the list of its bytes, a
scatter-gather list by a list of buffers.  A panic is modelled by `none`.
-/

namespace Verif.Bytes

abbrev Byte := UInt8
abbrev Buf := List Byte
abbrev SGList := List Buf

/-- `util.rs:16` -/
def lbaBytes : Nat := 4096

/-- The streaming interface of `std::hash::Hasher` as used here: a state, `write` and
`finish`. -/
structure Hasher where
  State : Type
  init : State
  write : State → Buf → State
  finish : State → UInt64

/-- `util.rs:46-48` `checksum_iovec`. -/
def checksumIovec (h : Hasher) (st : h.State) (b : Buf) : h.State := h.write st b

/-- `util.rs:64-71` `checksum_sglist`. -/
def checksumSglist (h : Hasher) (st : h.State) (l : SGList) : h.State :=
  l.foldl h.write st

/-- `util.rs:131-137` `sglist_len`. -/
def sglistLen (l : SGList) : Nat := l.foldl (fun acc b => acc + b.length) 0

/-- `util.rs:88-117`: the loop of `copy_and_pad_sglist`.  `out` is `outlist`, `acc` is
`accumulator`.  `none` is a panic: the assertion at line 90 or `unimplemented!()` at 96. -/
def padLoop : SGList → SGList → Option Buf → Option (SGList × Option Buf)
  | [], out, acc => some (out, acc)
  | db :: rest, out, acc =>
    if db.length % lbaBytes = 0 then
      match acc with
      | none => padLoop rest (out ++ [db]) none
      | some _ => none
    else
      match acc with
      | some a =>
        if db.length > lbaBytes then none
        else
          let a := a ++ db
          if a.length % lbaBytes = 0 then padLoop rest (out ++ [a]) none
          else padLoop rest out (some a)
      | none =>
        if db.length > lbaBytes then
          let wlen := db.length / lbaBytes * lbaBytes
          padLoop rest (out ++ [db.take wlen]) (some (db.drop wlen))
        else padLoop rest out (some db)

/-- `util.rs:76-128` `copy_and_pad_sglist`. -/
def copyAndPad (bufs : SGList) : Option SGList :=
  if bufs.any (fun db => db.length % lbaBytes != 0) then
    match padLoop bufs [] none with
    | none => none
    | some (out, none) => some out
    | some (out, some a) =>
      -- 118-126: zero-pad the tail to `div_ceil`
      let l := (a.length + (lbaBytes - 1)) / lbaBytes * lbaBytes
      some (out ++ [a ++ List.replicate (l - a.length) 0])
  else some bufs

/-- `util.rs:19` -/
def zeroRegionLen : Nat := 8 * lbaBytes

/-- `util.rs:140-151` `zero_sglist`.  `zero_bufs - 1` underflows (a panic in a checked
build) for `len = 0`. -/
def zeroSglist (len : Nat) : Option SGList :=
  let zeroBufs := (len + (zeroRegionLen - 1)) / zeroRegionLen
  if zeroBufs = 0 then none
  else some (List.replicate (zeroBufs - 1) (List.replicate zeroRegionLen 0) ++
    [List.replicate (len - (zeroBufs - 1) * zeroRegionLen) 0])

/-- `raid/sgcursor.rs:17-21` `SGCursor`. -/
structure Cursor where
  sglist : SGList
  sglistIdx : Nat
  iovecIdx : Nat

/-- `raid/sgcursor.rs:64-68` `From`. -/
def Cursor.of (l : SGList) : Cursor := ⟨l, 0, 0⟩

/-- `raid/sgcursor.rs:55-61` `peek_len`. -/
def Cursor.peekLen (c : Cursor) : Nat :=
  match c.sglist[c.sglistIdx]? with
  | some b => b.length - c.iovecIdx
  | none => 0

/-- `raid/sgcursor.rs:28-49` `next`. -/
def Cursor.next (c : Cursor) (max : Nat) : Option Buf × Cursor :=
  let ncl := c.peekLen
  if ncl = 0 then (none, c)
  else
    let b := c.sglist.getD c.sglistIdx []
    if max < ncl then
      (some ((b.drop c.iovecIdx).take max), { c with iovecIdx := c.iovecIdx + max })
    else if 0 < c.iovecIdx then
      (some (b.drop c.iovecIdx), { c with iovecIdx := 0, sglistIdx := c.sglistIdx + 1 })
    else
      (some b, { c with sglistIdx := c.sglistIdx + 1 })

/-- A caller reading a cursor with a sequence of requests, until the cursor is empty or
the requests run out: the pieces obtained and the cursor left behind. -/
def Cursor.run (c : Cursor) : List Nat → List Buf × Cursor
  | [] => ([], c)
  | m :: ms =>
    match c.next m with
    | (none, c') => ([], c')
    | (some b, c') => let r := c'.run ms; (b :: r.1, r.2)

end Verif.Bytes
