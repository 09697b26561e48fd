import Verif.Idml.Model
import Verif.Ddml.Spec

/-!
# What the indirect layer promises

The client sees a map from ids to records: `held`.  It also remembers every id it was ever given.
-/

namespace Verif.Idml

open Verif.Bytes (Byte Buf lbaBytes)
open Verif.Ddml (Err Res Compression PBA DRP Env Pool readRec encode inExtent getDirect blocks u32Max
  Fresh)
open Verif (OMap)

variable {V : Type}

inductive Op (V : Type) where
  | put (v : V) (c : Compression)
  | get (rid : Nat)
  | delete (rid : Nat)
  | pop (rid : Nat) (aDone rDone : Bool)
  | clean (z : PBA × Nat)
  | evict (rid : Nat)
  /-- export the pool and import it again -/
  | reopen
  /-- anything else that happens on the disks -/
  | disturb (f : PBA → Buf)

inductive Out (V : Type) where
  | rid (r : Res Nat)
  | val (r : Res V)
  | done (r : Res Unit)
  | quiet

def step (en : Env V) (dk : Disk) (s : State V) : Op V → State V × Out V
  | .put v c => let r := put en dk s v c; (r.1, .rid r.2)
  | .get rid => let r := get en dk s rid; (r.1, .val r.2)
  | .delete rid => let r := delete s rid; (r.1, .done r.2)
  | .pop rid a b => let r := pop en dk a b s rid; (r.1, .val r.2)
  | .clean z => let r := cleanZone en dk s z; (r.1, .done r.2)
  | .evict rid => (evict s rid, .quiet)
  | .reopen => (reopen s, .quiet)
  | .disturb f => ({ s with pool := { s.pool with block := f } }, .quiet)

/-- The client's view: its records by id, and all ids ever returned by a store. -/
structure Client (V : Type) where
  held : OMap V
  issued : List Nat

def Client.next (k : Client V) : Op V → Out V → Client V
  | .put v _, .rid (.ok r) => { held := k.held.insert r v, issued := r :: k.issued }
  | .delete r, .done (.ok _) => { k with held := k.held.remove r }
  | .pop r _ _, .val (.ok _) => { k with held := k.held.remove r }
  | _, _ => k

/-- The client stores non-empty records shorter than 4 GiB and deletes only what it holds.  The
allocator hands out free blocks, and none in the zone being cleaned, which is closed. -/
def Valid (en : Env V) (dk : Disk) (k : Client V) : Op V → Prop
  | .put v _ => en.ser v ≠ [] ∧ (en.ser v).length < u32Max ∧
      ∀ p n pba, dk.wr p n = .ok pba → Fresh p pba n
  | .delete r => (k.held.get r).isSome
  | .clean z => ∀ p n pba, dk.wr p n = .ok pba → Fresh p pba n ∧ inExtent pba z = false
  | _ => True

/-- Reads deliver what is on the disk, or fail. -/
def Disk.Faithful (dk : Disk) : Prop :=
  ∀ p d, dk.rd p d = .ok (p.read d.pba d.asize) ∨ ∃ e, dk.rd p d = .error e

/-- Reads and writes do not fail. -/
def Disk.NoError (dk : Disk) : Prop :=
  (∀ p d e, dk.rd p d ≠ .error e) ∧ ∀ p n e, dk.wr p n ≠ .error e

/-- The devices keep the blocks of live records and deliver them or an error. -/
def Faithful (dk : Disk) (s : State V) : Op V → Prop
  | .disturb f => ∀ q, (∃ e ∈ s.pool.live, inExtent q e = true) → f q = s.pool.block q
  | _ => dk.Faithful

/-- No device error during a pop or a zone cleaning.  Without this the tables fall apart, see
`C36_failed_clean` and `C36_failed_pop`. -/
def NoFailure (dk : Disk) : Op V → Prop
  | .pop _ _ _ => dk.NoError
  | .clean _ => dk.NoError
  | _ => True

inductive Reach (en : Env V) : State V → Client V → Prop where
  | create (blk : PBA → Buf) : Reach en (create blk) ⟨[], []⟩
  | step {s k} (dk : Disk) (op : Op V) : Reach en s k → Valid en dk k op → Faithful dk s op →
      NoFailure dk op → Reach en (step en dk s op).1 (k.next op (step en dk s op).2)

/-- Looking up an id gives the record held under it (or a device error), and nothing if none is. -/
def Finds (k : Client V) (dk : Disk) (rid : Nat) (r : Res V) : Prop :=
  match k.held.get rid with
  | some v => r = .ok v ∨ ∃ p d e, dk.rd p d = .error e ∧ r = .err e
  | none => r = .err .enoent

/-- What the client expects of one call. -/
def Expected (k : Client V) (dk : Disk) : Op V → Out V → Prop
  | .put _ _, out =>
    (∃ r, out = .rid (.ok r) ∧ r ∉ k.issued) ∨ ∃ p n e, dk.wr p n = .error e ∧ out = .rid (.err e)
  | .get rid, out => ∃ r, out = .val r ∧ Finds k dk rid r
  | .pop rid _ _, out => ∃ r, out = .val r ∧ Finds k dk rid r
  | .delete _, out => out = .done (.ok ())
  | .clean _, out => out = .done (.ok ())
  | _, _ => True

/-- Whether a map from ids to pointers and one from addresses to ids are exact inverses. -/
def Inverse (ridt : OMap Entry) (alloct : AMap) : Prop :=
  ∀ rid pba, (∃ e, ridt.get rid = some e ∧ e.drp.pba = pba) ↔ alloct.get pba = some rid

end Verif.Idml
