import Verif.Forest.Model

/-!
# Reading and setting dataset properties

fs.rs (`get_prop_configurable`, `set_prop`, `set_prop_unmounted`) and controller.rs (`get_prop`,
`set_prop`).
-/

namespace Verif.Forest

open Verif (OMap)
open Verif.Property (Str Prp PName Source defaultValue)

variable {D : Type}

/-- The value stored for a property, as `dataset.get` of its key finds it. -/
def Fs.prop (t : Fs D) (n : PName) : Option Prp := (t.props.find? fun x => x.1 = n).map (·.2)

/-- The tree after `dataset.insert` of a property's key. -/
def Fs.setProp (t : Fs D) (v : Prp) : Fs D :=
  { t with props := (v.pname, v) :: t.props.filter fun x => x.1 ≠ v.pname }

/-- fs.rs:1167-1199 `get_prop_configurable`: from one dataset to its parent and so on, counting the
levels in a `u8`; `room` is how often the counter can still be incremented, and `panic` is its
overflow.  Reading a tree leaves it in memory. -/
def getConf (db : Db D) (n : PName) : (room id : Nat) → Db D × Res (Option Prp × Nat)
  | room, id =>
    match openFs db id with
    | (db, .ok t) =>
      match t.prop n with
      | some v => (db, .ok (some v, 255 - room))
      | none =>
        match lookupParent db.forest id with
        | .ok (some parent) =>
          match room with
          | 0 => (db, .panic)
          | room + 1 => getConf db n room parent
        | .ok none => (db, .ok (none, 0))
        | .err x => (db, .err x)
        | .panic => (db, .panic)
    | (db, .err x) => (db, .err x)
    | (db, .panic) => (db, .panic)
  termination_by room _ => room

/-- fs.rs:1171, 1193-1197: the value and its source; `none` is the `unimplemented!` of
`default_value`, and `1193` the source. -/
def confResult (n : PName) : Option Prp × Nat → Res (Prp × Source)
  | (some v, i) => .ok (v, .set (UInt8.ofNat i))
  | (none, _) =>
    match defaultValue n with
    | some v => .ok (v, .default)
    | none => .panic

/-- `dataset.splitn(m, '/').last()` for `m ≥ 1`: what is left after skipping `m - 1` components;
`none` for `m = 0`. -/
def splitnLast : Nat → Str → Option Str
  | 0, _ => none
  | 1, s => some s
  | m + 2, s =>
    match Property.splitFirst '/' s with
    | (_, some rest) => splitnLast (m + 1) rest
    | (a, none) => some a

/-- controller.rs:216-246: the mount point from the base mount point and the dataset's name. -/
def mountpoint (dataset bmp : Str) : Source → Option Str
  | .default => some ('/' :: dataset)
  | .set i =>
    if i = 0 then some bmp
    else
      let nparts := dataset.count '/'
      if nparts + 2 < i.toNat then none
      else (splitnLast (nparts + 2 - i.toNat) dataset).map fun r => bmp ++ '/' :: r
  | .none => none

/-- controller.rs:216-246: what is made of the stored property. -/
def present (dataset : Str) (propname : PName) : Prp × Source → Res (Prp × Source)
  | (.baseMountpoint bmp, source) =>
    if propname = .mountpoint then
      match mountpoint dataset bmp source with
      | some mp => .ok (.mountpoint mp, source)
      | none => .panic
    else if propname = .baseMountpoint then .ok (.mountpoint bmp, source)
    else .panic
  | (v, source) => .ok (v, source)

/-- controller.rs:194-247 `get_prop_locked` with fs.rs:1156-1163, 1203-1217 -/
def getPropLocked (db : Db D) (dataset : Str) (id : Nat) (propname : PName) :
    Db D × Res (Prp × Source) :=
  if propname = .name then (db, .ok (.name dataset, .none))
  else
    match propname.inheritable with
    | none => (db, .panic)
    | some inh =>
      match getConf db inh 255 id with
      | (db, .ok r) =>
        match confResult inh r with
        | .ok vs => (db, present dataset propname vs)
        | .err x => (db, .err x)
        | .panic => (db, .panic)
      | (db, .err x) => (db, .err x)
      | (db, .panic) => (db, .panic)

/-- controller.rs:178-192 `get_prop` -/
def getProp (e : Env D) (db : Db D) (dataset : Str) (propname : PName) : Db D × Res (Prp × Source) :=
  match resolve e db dataset with
  | .ok (_, _, some id) => getPropLocked db dataset id propname
  | .ok (_, _, none) => (db, .err .enoent)
  | .err x => (db, .err x)
  | .panic => (db, .panic)

/-- fs.rs:2301-2325 `set_prop_unmounted` -/
def setPropUnmounted (db : Db D) (id : Nat) (v : Prp) : Db D × Res Unit :=
  match v with
  | .mountpoint _ => (db, .panic)
  | .baseMountpoint s =>
    if s.head? = some '/' then fswrite db id (·.setProp v) else (db, .err .einval)
  | v => fswrite db id (·.setProp v)

/-- fs.rs:2286-2298 `Fs::set_prop`, of a mounted file system.  The copies of the two properties in the
`Fs` are not part of this model. -/
def setPropMounted (db : Db D) (id : Nat) (v : Prp) : Db D × Res Unit :=
  match v with
  | .atime _ => setPropUnmounted db id v
  | .recordSize _ => setPropUnmounted db id v
  | _ => (db, .panic)

/-- controller.rs:403-418 `set_prop` -/
def setProp (e : Env D) (db : Db D) (dataset : Str) (v : Prp) : Db D × Res Unit :=
  let v := v.inheritable
  match resolve e db dataset with
  | .ok (_, _, some id) =>
    if db.mounted.get id = some true then setPropMounted db id v else setPropUnmounted db id v
  | .ok (_, _, none) => (db, .err .enoent)
  | .err x => (db, .err x)
  | .panic => (db, .panic)

end Verif.Forest
