import Verif.Cluster.Pool
import Verif.Idml.Spec

/-!
# Model of the cleaner (`bfffs-core/src/cleaner.rs`)

Which zones it selects and in which order, with the arithmetic of `f32`; one pass over the selected
zones; and the background task that runs passes on request.
-/

namespace Verif.Cleaner

open Verif.Cluster (ClosedZone)

/-! ## Single precision -/

/-- `a / b` rounded to a whole number: to the nearest, and to the even one of two equally near. -/
def rne (a b : Nat) : Nat :=
  if 2 * (a % b) < b then a / b
  else if b < 2 * (a % b) then a / b + 1
  else if a / b % 2 = 0 then a / b else a / b + 1

/-- `n as f32` for a `u64`: `n` rounded to 24 significant bits. -/
def ofCount (n : Nat) : Nat := rne n (2 ^ (n.log2 - 23)) * 2 ^ (n.log2 - 23)

/-- The quotient of two positive `f32`s that are whole numbers, rounded to 24 significant bits: with
`k` fraction bits it has at least 24 significant ones, of which the last `s` are rounded away.  The
exponents of quotients of `u64`s are within the range of `f32`. -/
def quotient (a b : Nat) : Rat :=
  let k := 24 + (b / a).log2
  let s := (a * 2 ^ k / b).log2 - 23
  ((rne (a * 2 ^ k) (b * 2 ^ s) * 2 ^ s : Nat) : Rat) / ((2 ^ k : Nat) : Rat)

/-- The values of type `f32` that occur. -/
inductive F32 where
  | nan
  | inf
  | negInf
  | fin (q : Rat)
  deriving DecidableEq

/-- `/` of two `f32`s that are not negative whole numbers -/
def div (a b : Nat) : F32 :=
  if b = 0 then (if a = 0 then .nan else .inf) else if a = 0 then .fin 0 else .fin (quotient a b)

/-- `-` -/
def F32.neg : F32 → F32
  | .nan => .nan
  | .inf => .negInf
  | .negInf => .inf
  | .fin q => .fin (-q)

/-- `PartialOrd::partial_cmp` -/
def F32.partialCmp : F32 → F32 → Option Ordering
  | .nan, _ => none
  | _, .nan => none
  | .negInf, .negInf => some .eq
  | .negInf, _ => some .lt
  | _, .negInf => some .gt
  | .inf, .inf => some .eq
  | .inf, _ => some .gt
  | _, .inf => some .lt
  | .fin a, .fin b => some (if a < b then .lt else if a = b then .eq else .gt)

/-- `>=` -/
def F32.ge (a b : F32) : Bool :=
  match a.partialCmp b with
  | some .gt => true
  | some .eq => true
  | _ => false

/-! ## Selection -/

/-- `cleaner.rs:92` `DEFAULT_THRESHOLD`; `Database::new`, `database/database.rs:656`, uses it. -/
def DEFAULT_THRESHOLD : F32 := .fin (1 / 2)

/-- `cleaner.rs:69`, `z.freed_blocks as f32 / z.total_blocks as f32` -/
def dirtiness (z : ClosedZone) : F32 := div (ofCount z.freed) (ofCount z.total)

/-- `cleaner.rs:68-71`, the filter -/
def dirty (thr : F32) (z : ClosedZone) : Bool := (dirtiness z).ge thr

/-- `cleaner.rs:75-81`, the comparison function; `none` is the panic of `unwrap`. -/
def compareZones (a b : ClosedZone) : Option Ordering := (dirtiness a).neg.partialCmp (dirtiness b).neg

/-- `cleaner.rs:59-86` `select_zones`, from the listed zones.  `sort_unstable_by` may return any
rearrangement in which no element compares greater than a later one. -/
structure Selects (thr : F32) (listed out : List (Nat × ClosedZone)) : Prop where
  perm : out.Perm (listed.filter fun z => dirty thr z.2)
  sorted : out.Pairwise fun a b => compareZones a.2 b.2 = some .lt ∨ compareZones a.2 b.2 = some .eq

/-! ## One pass -/

section pass
open Verif.Idml (State Client Disk Op cleanZone)
open Verif.Ddml (PBA Res Env)
variable {V : Type}

/-- The blocks of a listed zone, `idml.rs:199` and `324`. -/
def extent (z : Nat × ClosedZone) : PBA × Nat := (⟨z.1, z.2.start⟩, z.2.total)

/-- `cleaner.rs:41-53` of `clean_now`: the zones are cleaned one after the other, until the first
error.  Between two zones anything else may happen (`other`): no lock is held.  `A` restricts what
may happen while a zone is cleaned, and `B` what else may. -/
inductive Pass (en : Env V) (A : State V → Disk → PBA × Nat → Prop)
    (B : State V → Client V → Disk → Op V → Prop) :
    State V → Client V → List (PBA × Nat) → State V → Client V → Res Unit → Prop where
  | done {s k} : Pass en A B s k [] s k (.ok ())
  | other {s k zs s' k' r} (dk : Disk) (op : Op V) : B s k dk op →
      Pass en A B (Idml.step en dk s op).1 (k.next op (Idml.step en dk s op).2) zs s' k' r →
      Pass en A B s k zs s' k' r
  | clean {s k z zs s' k' r} (dk : Disk) : A s dk z → (cleanZone en dk s z).2 = .ok () →
      Pass en A B (cleanZone en dk s z).1 k zs s' k' r → Pass en A B s k (z :: zs) s' k' r
  | fail {s k z zs r} (dk : Disk) : A s dk z → (cleanZone en dk s z).2 = r → r ≠ .ok () →
      Pass en A B s k (z :: zs) (cleanZone en dk s z).1 k r

end pass

/-! ## The background task -/

/-- `Cleaner`, `cleaner.rs:89-92`, and the task of `run`, `cleaner.rs:120-137`. -/
structure Task where
  /-- requests in the channel, by the oneshot that each carries -/
  queue : List Nat
  /-- the request for which a pass is running -/
  busy : Option Nat
  /-- the task has not panicked -/
  alive : Bool
  /-- `Cleaner::tx` is still there -/
  opened : Bool
  /-- the task has ended -/
  exited : Bool
  /-- calls of `clean` that panicked -/
  panics : Nat
  deriving DecidableEq, Repr

/-- `cleaner.rs:111-118` `new` -/
def Task.new : Task := ⟨[], none, true, true, false, 0⟩

inductive Event where
  /-- a call of `clean` -/
  | request (i : Nat)
  /-- the task takes the next request and lists the zones -/
  | start
  /-- the pass is done and the client is notified -/
  | finish
  /-- the pass ends with an error -/
  | fail
  /-- `shutdown` begins -/
  | close
  /-- the task ends, and `shutdown` with it -/
  | exit
  deriving DecidableEq, Repr

/-- One event; `none` if it cannot happen.

`clean`, `cleaner.rs:99-109`, sends through a new clone of the sender.  Each sender of a
`futures::channel::mpsc` has a slot of its own, so the channel is never full and every request is
queued; the branch of line 102 is not taken.  `Error::unhandled` (line 130) panics, which ends the
task and drops the receiver and with it all that is queued. -/
def Task.step (t : Task) : Event → Option Task
  | .request i =>
    if t.opened then
      if t.alive then some { t with queue := t.queue ++ [i] } else some { t with panics := t.panics + 1 }
    else none
  | .start =>
    match t.alive && !t.exited, t.busy, t.queue with
    | true, none, i :: q => some { t with busy := some i, queue := q }
    | _, _, _ => none
  | .finish =>
    match t.busy with
    | some _ => some { t with busy := none }
    | none => none
  | .fail =>
    match t.busy with
    | some _ => some { t with busy := none, queue := [], alive := false }
    | none => none
  | .close => if t.opened then some { t with opened := false } else none
  | .exit =>
    if t.opened = false ∧ t.busy = none ∧ t.queue = [] ∧ t.alive = true ∧ t.exited = false then
      some { t with exited := true }
    else none

def Task.run : Task → List Event → Option Task
  | t, [] => some t
  | t, e :: es => (t.step e).bind fun t => t.run es

/-- `shutdown`, `cleaner.rs:140-145`, waits for the task and panics if that has panicked
(`jh.await.unwrap()`); `none` while it waits. -/
def Task.shutdownResult (t : Task) : Option (Verif.Ddml.Res Unit) :=
  if t.opened then none else if t.alive = false then some .panic else if t.exited then some (.ok ()) else none


end Verif.Cleaner
