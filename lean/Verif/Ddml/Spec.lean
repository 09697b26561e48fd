import Verif.Ddml.Model

/-!
# What the data management layer promises

A client stores records and keeps the pointers it was given.  `Held` is the client's own list of
pointers and the records it stored under them; it never looks inside the layer.
-/

namespace Verif.Ddml

open Verif.Bytes (Byte Buf lbaBytes)

/-- The codecs invert themselves.  This is assumed of the external libraries. -/
structure Codecs.Good (cd : Codecs) : Prop where
  lz4 : ∀ b, cd.lz4d (cd.lz4c b) b.length = some b
  zstd : ∀ b, cd.zstdd (cd.zstdc b) b.length = some b
  shuffle : ∀ t b, t ≠ 0 → cd.unshuffle t (cd.shuffle t b) = b
  shuffle_len : ∀ t b, (cd.shuffle t b).length = b.length

/-- The record type's serialiser inverts itself, and the codecs do. -/
structure Env.Good {V : Type} (en : Env V) : Prop where
  cd : en.cd.Good
  ser : ∀ v, en.deser (en.ser v) = v

/-- The records a client holds pointers to -/
abbrev Held (V : Type) := List (DRP × V)

/-- One call, with the pool's answers; or something that happens underneath. -/
inductive Op (V : Type) where
  /-- store a record; `wr` is the allocator's choice or the device's error -/
  | put (v : V) (c : Compression) (wr : Except Err PBA)
  /-- read it -/
  | get (d : DRP) (rd : Except Err Buf) (rl : Except Err (List Buf))
  /-- read it and free its space -/
  | pop (d : DRP) (rd : Except Err Buf) (rl : Except Err (List Buf))
  /-- free its space -/
  | delete (d : DRP)
  /-- the cache drops an entry -/
  | evict (p : PBA)
  /-- the contents of the disks change -/
  | disturb (f : PBA → Buf)

/-- What the client sees -/
inductive Out (V : Type) where
  | drp (r : Res DRP)
  | val (r : Res V)
  | done (r : Res Unit)
  | quiet

variable {V : Type}

def step (en : Env V) (s : State V) : Op V → State V × Out V
  | .put v c wr => let r := put en s v c wr; (r.1, .drp r.2)
  | .get d rd rl => let r := get en s d rd rl; (r.1, .val r.2)
  | .pop d rd rl => let r := pop en s d rd rl; (r.1, .val r.2)
  | .delete d => let r := delete s d; (r.1, .done r.2)
  | .evict p => (evict s p, .quiet)
  | .disturb f => ({ s with pool := { s.pool with block := f } }, .quiet)

/-- The client's bookkeeping: a stored record is held until it is popped or deleted. -/
def Held.next (h : Held V) : Op V → Out V → Held V
  | .put v _ _, .drp (.ok d) => (d, v) :: h
  | .pop d _ _, .val (.ok _) => h.filter fun x => x.1 ≠ d
  | .delete d, .done (.ok _) => h.filter fun x => x.1 ≠ d
  | _, _ => h

/-- The blocks of an extent are not allocated. -/
def Fresh (p : Pool) (pba : PBA) (n : Nat) : Prop :=
  ∀ e ∈ p.live, ∀ q, inExtent q e = true → inExtent q (pba, n) = false

/-- The client stores non-empty records shorter than 4 GiB and uses pointers it holds; the
allocator hands out free blocks (proved of the allocator in `Cluster`). -/
def Valid (en : Env V) (s : State V) (h : Held V) : Op V → Prop
  | .put v c wr =>
    en.ser v ≠ [] ∧ (en.ser v).length < u32Max ∧
    ∀ pba b mk, wr = .ok pba → encode en c v = some (b, mk) → Fresh s.pool pba (blocks b.length)
  | .get d _ _ => ∃ v, (d, v) ∈ h
  | .pop d _ _ => ∃ v, (d, v) ∈ h
  | .delete d => ∃ v, (d, v) ∈ h
  | .evict _ => True
  | .disturb _ => True

/-- The devices keep what was written to allocated blocks, and deliver it or an error. -/
def Faithful (s : State V) : Op V → Prop
  | .get d rd _ => rd = .ok (s.pool.read d.pba d.asize) ∨ ∃ e, rd = .error e
  | .pop d rd _ => rd = .ok (s.pool.read d.pba d.asize) ∨ ∃ e, rd = .error e
  | .disturb f => ∀ q, (∃ e ∈ s.pool.live, inExtent q e = true) → f q = s.pool.block q
  | _ => True

/-- A new layer over an empty pool with arbitrary contents -/
def init (blk : PBA → Buf) : State V := { cache := fun _ => none, pool := { block := blk, live := [] } }

/-- The states and client views reachable by valid calls of which each satisfies `F`. -/
inductive Reach (en : Env V) (F : State V → Op V → Prop) : State V → Held V → Prop where
  | init (blk : PBA → Buf) : Reach en F (init blk) []
  | step {s h} (op : Op V) : Reach en F s h → Valid en s h op → F s op →
      Reach en F (step en s op).1 (h.next op (step en s op).2)

/-- The answer to reading through a held pointer: the record stored under it, or the device's own
error. -/
def ReadsBack (h : Held V) (d : DRP) (rd : Except Err Buf) (out : Out V) : Prop :=
  ∃ v, (d, v) ∈ h ∧ (out = .val (.ok v) ∨ ∃ e, rd = .error e ∧ out = .val (.err e))

/-- The client's expectations of one call. -/
def Expected (en : Env V) (h : Held V) : Op V → Out V → Prop
  | .put v _ wr, out =>
    (∃ d, wr = .ok d.pba ∧ out = .drp (.ok d) ∧ d.asize ≤ blocks (en.ser v).length ∧
      ∀ x ∈ h, x.1.pba ≠ d.pba) ∨
    ∃ e, wr = .error e ∧ out = .drp (.err e)
  | .get d rd _, out => ReadsBack h d rd out
  | .pop d rd _, out => ReadsBack h d rd out
  | .delete _, out => out = .done (.ok ())
  | _, _ => True

/-- The record was decoded from bytes whose checksum is the pointer's. -/
def Verified (en : Env V) (d : DRP) (v : V) : Prop :=
  ∃ raw bytes, en.hash raw = d.checksum ∧ v = en.deser bytes ∧
    ((d.compressed = false ∧ bytes = raw) ∨
     (d.compressed = true ∧ decompress en.cd raw d.lsize = .ok bytes))

/-- The hash tells `b` apart from every other buffer. -/
def NoCollision (en : Env V) (b : Buf) : Prop := ∀ r, en.hash r = en.hash b → r = b

/-- What was written for the record `v` under pointer `d`: the compressed or plain bytes. -/
def Written (en : Env V) (d : DRP) (v : V) (b : Buf) : Prop :=
  ∃ c mk, encode en c v = some (b, mk) ∧ d = mk d.pba

end Verif.Ddml
