import Verif.Ddml.Model
import Verif.Common.OMap

/-!
# The indirect data management layer (`bfffs-core/src/idml/idml.rs`, `idml/mod.rs`)

Records are named by ids that never change; the record indirection table (RIDT) maps an id to the
pointer of its current copy, the allocation table (AllocT) maps an address back to the id.  Both are
`Tree`s, modelled here as maps (`Tree` proves that they are).  The trees' own nodes are stored in the
same pool; they are not part of this model, `Pool` only lists the extents of records, and whatever
else happens on the disks is `Op.disturb`.  Errors of the trees' own I/O are not modelled.

Each operation runs to its end before the next (`Race` models what happens when they overlap).
-/

namespace Verif.Idml

open Verif.Bytes (Byte Buf lbaBytes)
open Verif.Ddml (Err Res Compression PBA DRP Env Pool readRec encode inExtent getDirect)
open Verif (OMap)

variable {V : Type}

/-- `idml/mod.rs:45-48` `RidtEntry` -/
structure Entry where
  drp : DRP
  refcount : Nat
  deriving DecidableEq, Repr

/-- `idml/mod.rs:51-53` `RidtEntry::new` -/
def Entry.new (d : DRP) : Entry := { drp := d, refcount := 1 }

/-- The AllocT as a map; the order of its keys plays no role. -/
abbrev AMap := List (PBA × Nat)

/-- `Tree::get` -/
def AMap.get : AMap → PBA → Option Nat
  | [], _ => none
  | (k, r) :: m, p => if k = p then some r else AMap.get m p

/-- `Tree::remove` -/
def AMap.remove (m : AMap) (p : PBA) : AMap := m.filter fun x => x.1 ≠ p

/-- `Tree::insert` -/
def AMap.insert (m : AMap) (p : PBA) (r : Nat) : AMap := (p, r) :: m.remove p

/-- `Tree::range` over the addresses of a zone -/
def AMap.range (m : AMap) (z : PBA × Nat) : AMap := m.filter fun x => inExtent x.1 z

/-- `Tree::range_delete` over the addresses of a zone -/
def AMap.rangeDelete (m : AMap) (z : PBA × Nat) : AMap := m.filter fun x => ! inExtent x.1 z

/-- `idml/idml.rs:32-61` `IDML`; the cache is seen by key, the transaction and the write-back tracker are
left out. -/
structure State (V : Type) where
  cache : Nat → Option V
  ridt : OMap Entry
  alloct : AMap
  next : Nat
  pool : Pool

/-- `Cache::insert`, `Cache::remove` -/
def setCache (c : Nat → Option V) (k : Nat) (x : Option V) : Nat → Option V :=
  fun q => if q = k then x else c q

/-- What the devices answer during one operation: to a read, to a long read, and which address the
allocator chooses for a write of so many blocks. -/
structure Disk where
  rd : Pool → DRP → Except Err Buf
  rl : Pool → DRP → Except Err (List Buf)
  wr : Pool → Nat → Except Err PBA

/-- `idml.rs:248-260` `create` -/
def create (blk : PBA → Buf) : State V :=
  { cache := fun _ => none, ridt := [], alloct := [], next := 0, pool := { block := blk, live := [] } }

/-- `idml.rs:632-665` `put`.  The id is taken before the write, so a failed write uses one up.  The
panics are the assertions at 653 and 654 and the record's maximal length. -/
def put (en : Env V) (dk : Disk) (s : State V) (v : V) (c : Compression) : State V × Res Nat :=
  let rid := s.next
  let s := { s with next := s.next + 1 }
  match encode en c v with
  | none => (s, .panic)
  | some (b, mk) =>
    match dk.wr s.pool (Ddml.blocks b.length) with
    | .error e => (s, .err e)
    | .ok pba =>
      let drp := mk pba
      if (s.ridt.get rid).isSome ∨ (s.alloct.get drp.pba).isSome then (s, .panic)
      else
        ({ s with
            alloct := s.alloct.insert drp.pba rid
            ridt := s.ridt.insert rid (Entry.new drp)
            pool := s.pool.write b pba
            cache := setCache s.cache rid (some v) }, .ok rid)

/-- `idml.rs:562-579` `get` -/
def get (en : Env V) (dk : Disk) (s : State V) (rid : Nat) : State V × Res V :=
  match s.cache rid with
  | some v => (s, .ok v)
  | none =>
    match s.ridt.get rid with
    | none => (s, .err .enoent)
    | some entry =>
      match getDirect en entry.drp (dk.rd s.pool entry.drp) (dk.rl s.pool entry.drp) with
      | .ok v => ({ s with cache := setCache s.cache rid (some v) }, .ok v)
      | r => (s, r)

/-- `idml.rs:520-554` `delete` -/
def delete (s : State V) (rid : Nat) : State V × Res Unit :=
  match s.ridt.get rid with
  | none => (s, .panic)
  | some entry =>
    let entry := { entry with refcount := entry.refcount - 1 }
    if entry.refcount = 0 then
      match s.pool.free entry.drp.pba entry.drp.asize with
      | none => (s, .panic)
      | some p =>
        if (s.alloct.get entry.drp.pba).isSome then
          ({ s with
              cache := setCache s.cache rid none
              pool := p
              alloct := s.alloct.remove entry.drp.pba
              ridt := s.ridt.remove rid }, .ok ())
        else (s, .panic)
    else ({ s with ridt := s.ridt.insert rid entry }, .ok ())

/-- `idml.rs:598-606` and `618-624`: the record from the cache, else from disk. -/
def cachedOrDirect (en : Env V) (dk : Disk) (s : State V) (rid : Nat) (entry : Entry) : Res V :=
  match s.cache rid with
  | some v => .ok v
  | none => getDirect en entry.drp (dk.rd s.pool entry.drp) (dk.rl s.pool entry.drp)

/-- `idml.rs:582-629` `pop`.  The disk read runs together with the removals from the two tables
(`try_join3`, line 610); if it fails, `aDone` and `rDone` say which of the removals had happened by
then, the others are cancelled. -/
def pop (en : Env V) (dk : Disk) (aDone rDone : Bool) (s : State V) (rid : Nat) :
    State V × Res V :=
  match s.ridt.get rid with
  | none => (s, .err .enoent)
  | some entry =>
    let entry := { entry with refcount := entry.refcount - 1 }
    if entry.refcount = 0 then
      match cachedOrDirect en dk s rid entry with
      | .ok v =>
        match s.pool.free entry.drp.pba entry.drp.asize with
        | none => (s, .panic)
        | some p =>
          if (s.alloct.get entry.drp.pba).isSome then
            ({ s with
                cache := setCache s.cache rid none
                pool := p
                alloct := s.alloct.remove entry.drp.pba
                ridt := s.ridt.remove rid }, .ok v)
          else (s, .panic)
      | r =>
        ({ s with
            cache := setCache s.cache rid none
            alloct := if aDone then s.alloct.remove entry.drp.pba else s.alloct
            ridt := if rDone then s.ridt.remove rid else s.ridt }, r)
    else
      match cachedOrDirect en dk s rid entry with
      | .ok v => ({ s with ridt := s.ridt.insert rid entry }, .ok v)
      | r => ({ s with ridt := if rDone then s.ridt.insert rid entry else s.ridt }, r)

/-- The environment for raw buffers (`DivBufShared` is its own serialisation). -/
def raw (en : Env V) : Env Buf := { cd := en.cd, hash := en.hash, ser := id, deser := id }

/-- `idml.rs:382-425`: the record's bytes to write at the new place, and whether the pointer is to be
marked with the old one's compression.  Uncompressed records come from the cache if possible. -/
def fetch (en : Env V) (dk : Disk) (s : State V) (rid : Nat) (entry : Entry) : Res (Buf × Bool) :=
  let miss : Res (Buf × Bool) :=
    match getDirect (raw en) entry.drp.asUncompressed (dk.rd s.pool entry.drp.asUncompressed)
        (dk.rl s.pool entry.drp.asUncompressed) with
    | .ok b => .ok (b, true)
    | .err e => .err e
    | .panic => .panic
  if entry.drp.compressed then miss
  else
    match s.cache rid with
    | some t => .ok (en.ser t, false)
    | none => miss

/-- `idml.rs:367-442` `move_record` -/
def moveRecord (en : Env V) (dk : Disk) (s : State V) (rid : Nat) : State V × Res Unit :=
  match s.ridt.get rid with
  | none => (s, .panic)
  | some entry =>
    match fetch en dk s rid entry with
    | .err e => (s, .err e)
    | .panic => (s, .panic)
    | .ok (b, keep) =>
      match encode (raw en) .none b with
      | none => (s, .panic)
      | some (b, mk) =>
        match dk.wr s.pool (Ddml.blocks b.length) with
        | .error e => (s, .err e)
        | .ok pba =>
          let drp := if keep then (mk pba).intoCompressed entry.drp else mk pba
          match (s.pool.write b pba).free entry.drp.pba entry.drp.asize with
          | none => (s, .panic)
          | some p =>
            ({ s with
                pool := p
                ridt := s.ridt.insert rid { entry with drp := drp }
                alloct := s.alloct.insert drp.pba rid }, .ok ())

/-- `try_for_each` of `move_record`: stops at the first error. -/
def moveAll (en : Env V) (dk : Disk) (s : State V) : List Nat → State V × Res Unit
  | [] => (s, .ok ())
  | rid :: rest =>
    match moveRecord en dk s rid with
    | (s, .ok _) => moveAll en dk s rest
    | r => r

/-- `idml.rs:190-246` `clean_zone`: move every record listed for the zone, then forget the zone's
addresses.  (Moving the trees' own nodes out of the zone, lines 223-235, is not modelled here.) -/
def cleanZone (en : Env V) (dk : Disk) (s : State V) (z : PBA × Nat) : State V × Res Unit :=
  match moveAll en dk s ((s.alloct.range z).map Prod.snd) with
  | (s, .ok _) => ({ s with alloct := s.alloct.rangeDelete z }, .ok ())
  | r => r

/-- `idml.rs:556-559` `evict`, and evictions by the cache itself -/
def evict (s : State V) (rid : Nat) : State V := { s with cache := setCache s.cache rid none }

/-- `write_label` (490-508) and then `open` (341-364): the label holds both tables and the next id,
the cache starts empty. -/
def reopen (s : State V) : State V := { s with cache := fun _ => none }

/-- `idml.rs:86-176` `check_ridt`, for a pool that holds nothing but records: every AllocT entry is
matched by the RIDT, every RIDT entry's address is in the AllocT, and the used space is the sum. -/
def checkRidt (s : State V) (used : Nat) : Bool :=
  (s.alloct.all fun x =>
    match s.ridt.get x.2 with
    | some e => e.drp.pba = x.1
    | none => false) &&
  (s.ridt.all fun x => (s.alloct.get x.2.drp.pba).isSome) &&
  (used = (s.ridt.map fun x => x.2.drp.asize).sum)

end Verif.Idml
