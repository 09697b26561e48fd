import Verif.Raid.ZoneModel

/-!
# Repairing a zone of one mirror of a RAID vdev

Models `repair_mirror_zone` of `/repo/bfffs-core/src/raid/vdev_raid.rs`.
-/

namespace Verif.Raid

/-- The loop over the chunks before the write pointer (`vdev_raid.rs:2305-2309`).  Position
`s * k + b` of the iterator is chunk `b` of stripe `s`.  The result is the end, in LBAs, of the
last of them on the mirror. -/
def lastOnMirror (Y : Layout) (cs mirror : Nat) (positions : List Nat) : Option Nat :=
  positions.foldl (fun acc p =>
    if Y.disk (p / Y.k) (p % Y.k) = mirror then some ((Y.off (p / Y.k) (p % Y.k) + 1) * cs)
    else acc) none

/-- `repair_mirror_zone` (`vdev_raid.rs:2287-2315`), up to the call of the mirror's
`repair_zone`: its `lbas` argument, or `none` if it is not called. `lbas` is how much of the zone
was written, for an open zone. -/
def repairMirrorArg (Y : Layout) (cs mirror : Nat) : Option Nat → Option (Option Nat)
  | none => some none
  | some lbas =>
    let flushedLbas := lbas - lbas % (cs * Y.m)
    let flushedChunks := flushedLbas / cs
    let pos c := c / Y.m * Y.k + c % Y.m
    let start := flushedChunks - Y.n
    (lastOnMirror Y cs mirror (List.range' (pos start) (pos flushedChunks - pos start))).map some

end Verif.Raid
