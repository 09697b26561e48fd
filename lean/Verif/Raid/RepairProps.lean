import Verif.Raid.RepairModel
import Verif.Raid.ZoneProps

/-!
# C15 at the RAID level
-/

namespace Verif.Raid

/-- The LBAs of a mirror that `repair_mirror_zone` asks the mirror to repair, given the limits of
the zone on the mirror: from the start of the zone on (`C15_copies`, `C15_nothing_else`). -/
def repairedRange (lim : Nat × Nat) : Option (Option Nat) → Nat × Nat
  | none => (lim.1, lim.1)
  | some none => lim
  | some (some n) => (lim.1, lim.1 + n)

/-- C15, closed zones: all of the zone is repaired on the mirror, hence every chunk in it. -/
theorem C15_raid_closed_partial (Y : Layout) (cs mirror : Nat) (lim : Nat × Nat) :
    repairedRange lim (repairMirrorArg Y cs mirror none) = lim := rfl

/-- **C15 fails for open zones of a RAID vdev**: five disks, single parity, twenty stripes
written to the open zone 0.  A chunk of the last of them is on mirror 0, and the range that is
repaired ends inside it. -/
theorem C15_raid_open_short :
    let Y := ofPrimeS false exL
    let lim := exDev.zoneLimits 0
    let range := repairedRange lim (repairMirrorArg Y 5 0 (some (20 * (Y.m * 5))))
    ∃ first last b, zoneLimits Y 5 exDev.zoneLimits 0 = some (first * (Y.m * 5), last) ∧
      20 * (Y.m * 5) ≤ last - first * (Y.m * 5) ∧ b < Y.k ∧ Y.disk (first + 19) b = 0 ∧
      lim.1 ≤ Y.off (first + 19) b * 5 ∧ (Y.off (first + 19) b + 1) * 5 ≤ lim.2 ∧
      range.2 < (Y.off (first + 19) b + 1) * 5 := by
  refine ⟨5, 465, 3, ?_⟩
  decide +kernel

/-- **C15 fails for open zones of a RAID vdev**, even worse: one stripe written to the open
zone 0, of which mirror 4 holds a chunk, and nothing at all is repaired. -/
theorem C15_raid_open_nothing :
    let Y := ofPrimeS false exL
    repairMirrorArg Y 5 4 (some (1 * (Y.m * 5))) = none ∧
    zoneLimits Y 5 exDev.zoneLimits 0 = some (5 * (Y.m * 5), 465) ∧
    ∃ b < Y.k, Y.disk 5 b = 4 := by
  decide +kernel

end Verif.Raid
