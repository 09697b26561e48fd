/-!
# Zones of a leaf device (`bfffs-core/src/vdev_file.rs`)

LBAs are natural numbers: the code's `u64` arithmetic does not overflow for real devices.
-/

namespace Verif.Zone

/-- `label.rs:41-47` -/
def labelCount : Nat := 2
def labelLbas : Nat := 4
def spacemapZonesPerLba : Nat := 255

/-- `label.rs:50-52` -/
def spacemapSpace (nzones : Nat) : Nat := (nzones + (spacemapZonesPerLba - 1)) / spacemapZonesPerLba

/-- `vdev_file.rs:140-149` -/
structure Dev where
  size : Nat
  lpz : Nat
  sms : Nat
deriving DecidableEq

/-- `vdev_file.rs:443-449` `set` (and the constructor). -/
def Dev.set (size lpz : Nat) : Dev :=
  { size, lpz, sms := spacemapSpace ((size + (lpz - 1)) / lpz) }

/-- `vdev_file.rs:429-431` -/
def Dev.reserved (d : Dev) : Nat := labelCount * (labelLbas + d.sms)

/-- `vdev_file.rs:152-158` -/
def Dev.lba2zone (d : Dev) (lba : Nat) : Option Nat :=
  if d.reserved ≤ lba then some (lba / d.lpz) else none

/-- `vdev_file.rs:169-176` -/
def Dev.zoneLimits (d : Dev) (z : Nat) : Nat × Nat :=
  if z = 0 then (d.reserved, d.lpz) else (z * d.lpz, (z + 1) * d.lpz)

/-- `vdev_file.rs:178-180` -/
def Dev.zones (d : Dev) : Nat := (d.size + (d.lpz - 1)) / d.lpz

/-- `label.rs:124-127`: where label `i` starts. -/
def labelLba (i : Nat) : Nat := i * labelLbas

/-- `vdev_block.rs:1022, 1122`: where block `block` of spacemap `idx` is. -/
def Dev.spacemapLba (d : Dev) (idx block : Nat) : Nat := block + idx * d.sms + 2 * labelLbas

/-- `vdev_file.rs:462-471` `write_at`: `false` = panics ("Attempted to overwrite the labels"). -/
def Dev.writeAllowed (d : Dev) (lba : Nat) : Bool := d.reserved ≤ lba

/-- `vdev_file.rs:507-515` `write_spacemap`: the assertion, for a write of `lbas` blocks. -/
def Dev.spacemapWriteAllowed (d : Dev) (lba lbas : Nat) : Bool := lba + lbas ≤ d.reserved

end Verif.Zone
