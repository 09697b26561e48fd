import Verif.Zone.Model

/-! # Zones of a leaf device: C19 -/

namespace Verif.Zone

/-- A device whose zones are large enough to hold the reserved area. -/
def Dev.Sane (d : Dev) : Prop := 0 < d.lpz ∧ d.reserved ≤ d.lpz

/-- `lba` is inside zone `z`. -/
def Dev.InZone (d : Dev) (z lba : Nat) : Prop :=
  (d.zoneLimits z).1 ≤ lba ∧ lba < (d.zoneLimits z).2

/-- An LBA of label `i`. -/
def InLabel (i lba : Nat) : Prop := labelLba i ≤ lba ∧ lba < labelLba i + 4

/-- An LBA of spacemap `idx`. -/
def Dev.InSpacemap (d : Dev) (idx lba : Nat) : Prop :=
  d.spacemapLba idx 0 ≤ lba ∧ lba < d.spacemapLba idx 0 + d.sms

/-- C19: `lba2zone` is the inverse of `zone_limits`. -/
theorem C19_lba2zone_iff_partial (d : Dev) (h : d.Sane) (lba z : Nat) :
    d.lba2zone lba = some z ↔ d.InZone z lba := by
  obtain ⟨hp, hr⟩ := h
  have hdiv : ∀ z, lba / d.lpz = z ↔ z * d.lpz ≤ lba ∧ lba < (z + 1) * d.lpz := by
    intro z
    constructor
    · rintro rfl
      exact ⟨Nat.div_mul_le_self _ _, by
        have := Nat.lt_mul_div_succ lba hp
        rwa [Nat.mul_comm] at this⟩
    · rintro ⟨h1, h2⟩
      exact Nat.div_eq_of_lt_le h1 h2
  unfold Dev.lba2zone Dev.InZone Dev.zoneLimits
  by_cases hz : z = 0
  · subst hz
    simp only [if_true]
    split
    · rename_i hl
      simp only [Option.some.injEq, hdiv]
      omega
    · rename_i hl
      simp only [reduceCtorEq, false_iff]
      omega
  · simp only [if_neg hz]
    have h1 : d.lpz ≤ z * d.lpz := Nat.le_mul_of_pos_left _ (by omega)
    split
    · simp only [Option.some.injEq, hdiv]
    · rename_i hl
      simp only [reduceCtorEq, false_iff]
      omega

/-- C19: every LBA outside the reserved area and on the device is in exactly one of the
device's zones. -/
theorem C19_exactly_one_zone_partial (d : Dev) (h : d.Sane) (lba : Nat) (hlo : d.reserved ≤ lba)
    (hhi : lba < d.size) :
    ∃ z, z < d.zones ∧ d.InZone z lba ∧ ∀ z', d.InZone z' lba → z' = z := by
  have h1 : d.lba2zone lba = some (lba / d.lpz) := by simp [Dev.lba2zone, hlo]
  refine ⟨lba / d.lpz, ?_, (C19_lba2zone_iff_partial d h _ _).mp h1, ?_⟩
  · have hp := h.1
    have hle : lba ≤ d.size - 1 := by omega
    have h2 : lba / d.lpz ≤ (d.size - 1) / d.lpz := Nat.div_le_div_right hle
    have h3 : d.zones = (d.size - 1) / d.lpz + 1 := by
      unfold Dev.zones
      rw [show d.size + (d.lpz - 1) = (d.size - 1) + d.lpz by omega, Nat.add_div_right _ hp]
    omega
  · intro z' hz'
    have := (C19_lba2zone_iff_partial d h _ _).mpr hz'
    rw [h1] at this
    exact (Option.some.inj this).symm

/-- C19: consecutive zones are adjacent. -/
theorem C19_adjacent (d : Dev) (z : Nat) :
    (d.zoneLimits z).2 = (d.zoneLimits (z + 1)).1 := by
  unfold Dev.zoneLimits
  by_cases hz : z = 0
  · subst hz; simp
  · simp [hz]

/-- C19: distinct zones are disjoint. -/
theorem C19_disjoint_partial (d : Dev) (h : d.Sane) (z z' lba : Nat) (hz : d.InZone z lba)
    (hz' : d.InZone z' lba) : z = z' := by
  have a := (C19_lba2zone_iff_partial d h lba z).mpr hz
  have b := (C19_lba2zone_iff_partial d h lba z').mpr hz'
  rw [a] at b
  exact Option.some.inj b

/-- C19: LBAs in the reserved area are in no zone. -/
theorem C19_reserved_outside_partial (d : Dev) (h : d.Sane) (lba z : Nat) (hlo : lba < d.reserved) :
    ¬ d.InZone z lba := by
  intro hz
  have := (C19_lba2zone_iff_partial d h lba z).mpr hz
  simp [Dev.lba2zone, Nat.not_le.mpr hlo] at this

/-- C19: the reserved area consists of exactly the two labels and the two spacemaps, and these
four do not overlap. -/
theorem C19_reserved_parts (d : Dev) (lba : Nat) :
    (lba < d.reserved ↔ InLabel 0 lba ∨ InLabel 1 lba ∨ d.InSpacemap 0 lba ∨ d.InSpacemap 1 lba)
    ∧ ¬ (InLabel 0 lba ∧ InLabel 1 lba)
    ∧ ¬ (d.InSpacemap 0 lba ∧ d.InSpacemap 1 lba)
    ∧ ∀ i idx, i < 2 → ¬ (InLabel i lba ∧ d.InSpacemap idx lba) := by
  unfold InLabel Dev.InSpacemap Dev.reserved labelLba Dev.spacemapLba labelCount labelLbas
  refine ⟨by omega, by omega, by omega, ?_⟩
  intro i idx hi
  have : 0 ≤ idx * d.sms := Nat.zero_le _
  omega

/-- C19: a data write that the device accepts touches no label and no spacemap; a spacemap
write of a spacemap block is accepted. -/
theorem C19_writes_separated (d : Dev) (lba : Nat) :
    (d.writeAllowed lba = true ↔
      ¬ (InLabel 0 lba ∨ InLabel 1 lba ∨ d.InSpacemap 0 lba ∨ d.InSpacemap 1 lba)) ∧
    ∀ idx block, idx < 2 → block < d.sms →
      d.spacemapWriteAllowed (d.spacemapLba idx block) 1 = true := by
  constructor
  · rw [← (C19_reserved_parts d lba).1]
    simp [Dev.writeAllowed]
  · intro idx block hi hb
    have : idx * d.sms ≤ 1 * d.sms := Nat.mul_le_mul_right _ (by omega)
    unfold Dev.spacemapWriteAllowed Dev.spacemapLba Dev.reserved labelCount labelLbas
    simp only [decide_eq_true_eq]
    omega

/-- C19: each spacemap has room for every zone of the device: zone `z`'s record is in block
`z / 255`, which lies within the spacemap. -/
theorem C19_spacemap_big_enough (size lpz z : Nat) (hz : z < (Dev.set size lpz).zones) :
    z / spacemapZonesPerLba < (Dev.set size lpz).sms := by
  unfold Dev.set Dev.zones spacemapSpace spacemapZonesPerLba at *
  simp only at *
  generalize (size + (lpz - 1)) / lpz = n at *
  omega

/-- Real geometries are sane: with the default zone size any device of up to 2³⁸ LBAs (1 PiB)
is.  (The reserved area of larger ones outgrows the first zone.) -/
theorem default_sane (size : Nat) (h : size ≤ 2 ^ 38) : (Dev.set size (2 ^ 16)).Sane := by
  unfold Dev.Sane Dev.set Dev.reserved spacemapSpace labelCount labelLbas spacemapZonesPerLba
  simp only
  omega

example : (Dev.set 1000000 65536).Sane := default_sane _ (by decide)

example : (Dev.set 1000000 65536).zoneLimits 0 = (10, 65536) ∧
    (Dev.set 1000000 65536).zones = 16 := by decide

/-- C19 fails when the zones are smaller than the reserved area: here zone 0 is inverted, and
zone 1 contains LBAs of the labels. -/
theorem C19_small_zones_overlap :
    (Dev.set 1000 5).zoneLimits 0 = (10, 5) ∧ (Dev.set 1000 5).InZone 1 6 ∧ InLabel 1 6 ∧
    (Dev.set 1000 5).lba2zone 6 = none := by
  refine ⟨by decide, ⟨by decide, by decide⟩, ⟨by decide, by decide⟩, by decide⟩

/-- C19 fails for a device whose size is not a multiple of the zone size: its last zone's limits
run past the end of the device. -/
theorem C19_last_zone_past_end : ∃ z lba, z < (Dev.set 1000000 65536).zones ∧
    (Dev.set 1000000 65536).InZone z lba ∧ ¬ lba < (Dev.set 1000000 65536).size :=
  ⟨15, 1000000, by decide, ⟨by decide, by decide⟩, by decide⟩

/-- C19: and otherwise every zone lies within the device. -/
theorem C19_zones_within_partial (d : Dev) (h : d.Sane) (hd : d.lpz ∣ d.size)
    (z lba : Nat) (hz : z < d.zones) (hin : d.InZone z lba) : lba < d.size := by
  obtain ⟨k, hk⟩ := hd
  have hp := h.1
  have hzones : d.zones = k := by
    unfold Dev.zones
    rw [hk, Nat.add_comm, Nat.add_mul_div_left _ _ hp, Nat.div_eq_of_lt (by omega), Nat.zero_add]
  rw [hzones] at hz
  have h1 : lba < (z + 1) * d.lpz := by
    unfold Dev.InZone Dev.zoneLimits at hin
    by_cases h0 : z = 0
    · subst h0
      simp only [if_true] at hin
      omega
    · simp only [if_neg h0] at hin
      exact hin.2
  have h2 : (z + 1) * d.lpz ≤ k * d.lpz := Nat.mul_le_mul_right _ (by omega)
  rw [hk, Nat.mul_comm]
  omega

end Verif.Zone
