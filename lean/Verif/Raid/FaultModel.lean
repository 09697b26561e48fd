import Verif.Raid.Model

/-!
# Errors and missing children of a RAID vdev

Models parts of `/repo/bfffs-core/src/raid/vdev_raid.rs`.  `none` is a panic.  A result is an
error number, or `none` for `Ok(())`, wrapped in `Res` to tell it from a panic.
-/

namespace Verif.Raid

open Verif.Bytes

/-- `Result<()>`. -/
inductive Res
  | ok
  | err (e : Nat)
deriving DecidableEq, Repr

def Res.isErr : Res → Bool
  | .ok => false
  | .err _ => true

/-- `Error::ENXIO` (`types.rs`). -/
def ENXIO : Nat := 6

/-- The loop over the results of the child writes of `write_at_multi`, `write_at_one` and
`writev_at_one` (`vdev_raid.rs:1780-1792`, `1840-1852`, `1906-1918`): the first error after the
first `f` ones. -/
def errLoop (f : Nat) : Nat → List Res → Res
  | _, [] => .ok
  | nerrs, .ok :: rs => errLoop f nerrs rs
  | nerrs, .err e :: rs => if f < nerrs + 1 then .err e else errLoop f (nerrs + 1) rs

/-- The result of a stripe write, from those of its child writes in order. -/
def writeResult (f : Nat) (rs : List Res) : Res := errLoop f 0 rs

/-- `Child` (`vdev_raid.rs:183-188`), without the mirror itself. -/
inductive Child
  | present
  | missing
  | faulted
deriving DecidableEq, Repr

/-- `Child::is_present` (`vdev_raid.rs:296-298`). -/
def Child.isPresent : Child → Bool
  | .present => true
  | _ => false

/-- `VdevRaid` (`vdev_raid.rs:497-530`): the code's parameters, the children and the number of
faulted children it keeps. -/
structure Vdev where
  k : Nat
  f : Nat
  children : List Child
  faultedChildren : Nat
deriving DecidableEq, Repr

/-- `VdevRaid::new` (`vdev_raid.rs:628-689`), as far as the children go.  With no present
children there is no size and it panics. -/
def Vdev.new (k f : Nat) (children : List Child) : Option Vdev :=
  if children.all (fun c => !c.isPresent) then none
  else some ⟨k, f, children, children.countP fun c => !c.isPresent⟩

/-- `faulted_children` (`vdev_raid.rs:618-624`).  The debug assertion is kept: `none` if it
fails. -/
def Vdev.faulted (a : Vdev) : Option Nat :=
  if a.faultedChildren = a.children.countP (fun c => !c.isPresent) then some a.faultedChildren
  else none

/-- `Child::write_at`, `Child::writev_at`, `Child::read_at`, `Child::readv_at`
(`vdev_raid.rs:304-396`): `r` is what the mirror returns. -/
def Child.io (c : Child) (r : Res) : Res :=
  match c with
  | .present => r
  | _ => .err ENXIO

/-- A stripe write to the children in `disks`, whose mirrors return `r`
(`vdev_raid.rs:1752-1792`, `1833-1852`, `1901-1918`). -/
def Vdev.stripeWrite (a : Vdev) (disks : List Nat) (r : Nat → Res) : Res :=
  writeResult a.f (disks.map fun d => (a.children.getD d .missing).io (r d))

/-- `try_collect` of the futures of some children: the first error. -/
def tryAll : List Res → Res
  | [] => .ok
  | .ok :: rs => tryAll rs
  | .err e :: _ => .err e

/-- Apply `op`, which panics on an absent child, to every child with its index
(`vdev_raid.rs:2465-2487`). -/
def mapUnwrap (r : Nat → Res) : Nat → List Child → Option (List Res)
  | _, [] => some []
  | i, .present :: cs => (mapUnwrap r (i + 1) cs).map fun rs => r i :: rs
  | _, _ :: _ => none

/-- The results of the present children (`filter_map`, as in `vdev_raid.rs:2395-2397`). -/
def mapPresent (r : Nat → Res) : Nat → List Child → List Res
  | _, [] => []
  | i, .present :: cs => r i :: mapPresent r (i + 1) cs
  | i, _ :: cs => mapPresent r (i + 1) cs

/-- `write_label` (`vdev_raid.rs:2465-2474`).  `Child::write_label` (`vdev_raid.rs:375-377`)
unwraps. -/
def Vdev.writeLabel (a : Vdev) (r : Nat → Res) : Option Res :=
  (mapUnwrap r 0 a.children).map tryAll

/-- `write_spacemap` (`vdev_raid.rs:2476-2486`).  `Child::write_spacemap`
(`vdev_raid.rs:379-383`) unwraps. -/
def Vdev.writeSpacemap (a : Vdev) (r : Nat → Res) : Option Res :=
  (mapUnwrap r 0 a.children).map tryAll

/-- The loop of the `ReadSpacemap` future (`vdev_raid.rs:456-483`): try the children in turn,
unwrapping each.  `last` is the result of the child before. -/
def readSpacemapLoop (r : Nat → Res) : Res → Nat → List Child → Option Res
  | .ok, _, _ => some .ok
  | .err e, _, [] => some (.err e)
  | .err _, i, .present :: cs => readSpacemapLoop r (r i) (i + 1) cs
  | .err _, _, _ :: _ => none

/-- `read_spacemap` (`vdev_raid.rs:2259-2272`). -/
def Vdev.readSpacemap (a : Vdev) (r : Nat → Res) : Option Res :=
  match a.children with
  | [] => some (.err ENXIO)
  | .present :: cs => readSpacemapLoop r (r 0) 1 cs
  | _ :: _ => none

/-- `sync_all(None)` (`vdev_raid.rs:2378-2402`), and the children's part of `erase_zone`,
`open_zone` and `finish_zone` (`vdev_raid.rs:2062-2072`, `754-787`, `2109-2132`). -/
def Vdev.syncAll (a : Vdev) (r : Nat → Res) : Res := tryAll (mapPresent r 0 a.children)

/-- `VdevRaid::fault` (`vdev_raid.rs:2075-2105`) of child `i` itself. -/
def Vdev.fault (a : Vdev) (i : Nat) : Vdev :=
  match a.children.getD i .missing with
  | .present => { a with children := a.children.set i .faulted, faultedChildren := a.faultedChildren + 1 }
  | _ => a

/-- `VdevRaid::restore` (`vdev_raid.rs:2321-2328`) with `Child::restore` (`vdev_raid.rs:345-356`)
of child `i`. -/
def Vdev.restore (a : Vdev) (i : Nat) : Vdev :=
  match a.children.getD i .missing with
  | .faulted => { a with children := a.children.set i .present }
  | _ => a

/-- `status().health` (`vdev_raid.rs:2330-2376`), taking present children to be online, as one of
three values.  `none` if the debug assertion in `faulted_children` fails. -/
inductive Health
  | online
  | degraded
  | faulted
deriving DecidableEq, Repr

def Vdev.health (a : Vdev) : Option Health :=
  a.faulted.map fun n =>
    if a.f < n then .faulted
    else if a.children.all Child.isPresent then .online else .degraded


end Verif.Raid
