import Verif.Raid.Layout

/-!
# Zones of a RAID vdev

Models `zone_limits` and `lba2zone` of `/repo/bfffs-core/src/raid/vdev_raid.rs`.  The children
all have the same zones (`vdev_raid.rs:664-685`), given here by a function `zl` from zone
number to first LBA and end.
-/

namespace Verif.Raid

/-- `min_max` (`vdev_raid.rs:1926-1937`). -/
def minMax : List Nat → Option (Nat × Nat)
  | [] => none
  | x :: xs => some (xs.foldl (fun acc i => (min acc.1 i, max acc.2 i)) (x, x))

/-- One round of `'stripe_loop`, low end (`vdev_raid.rs:2014-2026`). -/
def lowStep (Y : Layout) (boundary : Nat) (acc : Option Nat) (s : Nat) : Option Nat :=
  if (List.range Y.k).any fun b => decide (Y.off s b < boundary) then none
  else if acc.isNone then some s else acc

/-- One round of `'stripe_loop`, high end (`vdev_raid.rs:2014-2026`). -/
def highStep (Y : Layout) (boundary : Nat) (acc : Option Nat) (s : Nat) : Option Nat :=
  if (List.range Y.k).any fun b => decide (boundary < Y.off s b) then acc
  else some s

/-- `endpoint_lba` (`vdev_raid.rs:2000-2033`), up to and including the assertion (`none`). -/
def innermost (Y : Layout) (step : Option Nat → Nat → Option Nat) (boundary : Nat) : Option Nat :=
  match minMax ((List.range Y.n).map fun d => Y.stripeAt d boundary) with
  | none => none
  | some (lo, hi) => (List.range' lo (hi + 1 - lo)).foldl step none

/-- `zone_limits` (`vdev_raid.rs:1986-2038`).  `cs` is the chunk size in LBAs.  `none` is a
panic; one is the subtraction when the zone ends within the first chunk of the disk. -/
def zoneLimits (Y : Layout) (cs : Nat) (zl : Nat → Nat × Nat) (z : Nat) : Option (Nat × Nat) :=
  let db := ((zl z).1 + cs - 1) / cs
  if (zl z).2 / cs = 0 then none
  else
    let de := (zl z).2 / cs - 1
    match innermost Y (lowStep Y db) db, innermost Y (highStep Y de) de with
    | some lo, some hi => some (lo * Y.m * cs, (hi + 1) * Y.m * cs)
    | _, _ => none

/-- `lba2zone` (`vdev_raid.rs:1940-1957`).  `l2z` is `lba2zone` of the children; which of them
is asked does not matter.  The outer `none` is a panic. -/
def lba2zone (Y : Layout) (cs : Nat) (zl : Nat → Nat × Nat) (l2z : Nat → Option Nat) (lba : Nat) :
    Option (Option Nat) :=
  let c := lba / cs
  match l2z (Y.off (c / Y.m) (c % Y.m) * cs) with
  | none => some none
  | some z =>
    (zoneLimits Y cs zl z).map fun lim => if lim.1 ≤ lba ∧ lba < lim.2 then some z else none

end Verif.Raid
