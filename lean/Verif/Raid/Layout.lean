/-!
# What the RAID vdev needs of a layout

The RAID vdev (`/repo/bfffs-core/src/raid/vdev_raid.rs`) is generic over its `Locator`
(`/repo/bfffs-core/src/raid/declust.rs:101-165`).  Here a layout places position `b` of stripe
`s`: positions below `m` are the stripe's data chunks, in order, and the others its parity
chunks.  Data chunk `c` is position `c % m` of stripe `c / m`.
-/

namespace Verif.Raid

structure Layout where
  /-- Disks in the array: `Locator::disks`. -/
  n : Nat
  /-- Chunks per stripe: `Locator::stripesize`. -/
  k : Nat
  /-- Data chunks per stripe. -/
  m : Nat
  /-- `Locator::id2loc`: the disk of a chunk. -/
  disk : Nat → Nat → Nat
  /-- `Locator::id2loc`: its offset on that disk, in chunks. -/
  off : Nat → Nat → Nat
  /-- `Locator::loc2id(disk, offset).address() / m`: the stripe that has a chunk there. -/
  stripeAt : Nat → Nat → Nat

/-- What the RAID vdev relies on.  `Verif.Raid.primeS_lawful` proves it for PRIME-S. -/
structure Layout.Lawful (Y : Layout) : Prop where
  n_pos : 0 < Y.n
  m_pos : 0 < Y.m
  m_lt : Y.m < Y.k
  disk_lt : ∀ s b, b < Y.k → Y.disk s b < Y.n
  /-- The chunks of a stripe are on different disks. -/
  disk_inj : ∀ s b b', b < Y.k → b' < Y.k → Y.disk s b = Y.disk s b' → b = b'
  /-- Later stripes are placed further on each disk. -/
  strict : ∀ s s' b b', s < s' → b < Y.k → b' < Y.k → Y.disk s b = Y.disk s' b' →
    Y.off s b < Y.off s' b'
  /-- No position moves backwards from one stripe to the next, though its disk may change. -/
  mono : ∀ s b, b < Y.k → Y.off s b ≤ Y.off (s + 1) b
  /-- Every place on every disk is used, by the stripe that `stripeAt` says. -/
  at_spec : ∀ d o, d < Y.n →
    ∃ b, b < Y.k ∧ Y.disk (Y.stripeAt d o) b = d ∧ Y.off (Y.stripeAt d o) b = o

variable {Y : Layout}

theorem Layout.Lawful.mono_le (h : Y.Lawful) {s s' b : Nat} (hs : s ≤ s') (hb : b < Y.k) :
    Y.off s b ≤ Y.off s' b := by
  induction hs with
  | refl => exact Nat.le_refl _
  | step _ ih => exact Nat.le_trans ih (h.mono _ b hb)

/-- No two chunks share a place. -/
theorem Layout.Lawful.inj (h : Y.Lawful) {s s' b b' : Nat} (hb : b < Y.k) (hb' : b' < Y.k)
    (hd : Y.disk s b = Y.disk s' b') (ho : Y.off s b = Y.off s' b') : s = s' ∧ b = b' := by
  rcases Nat.lt_trichotomy s s' with hs | hs | hs
  · have := h.strict s s' b b' hs hb hb' hd
    omega
  · subst hs
    exact ⟨rfl, h.disk_inj s b b' hb hb' hd⟩
  · have := h.strict s' s b' b hs hb' hb hd.symm
    omega

/-- Two stripes that follow each other on a disk, with none between them there, are placed
right after each other. -/
theorem Layout.Lawful.adjacent (h : Y.Lawful) {s s' b b' : Nat} (hs : s < s') (hb : b < Y.k)
    (hb' : b' < Y.k) (hd : Y.disk s b = Y.disk s' b')
    (hno : ∀ t c, s < t → t < s' → c < Y.k → Y.disk t c ≠ Y.disk s b) :
    Y.off s' b' = Y.off s b + 1 := by
  have h1 := h.strict s s' b b' hs hb hb' hd
  obtain ⟨c, hc, h2, h3⟩ := h.at_spec (Y.disk s b) (Y.off s b + 1) (h.disk_lt s b hb)
  generalize ht : Y.stripeAt (Y.disk s b) (Y.off s b + 1) = t at *
  rcases Nat.lt_trichotomy t s' with hlt | heq | hgt
  · rcases Nat.lt_trichotomy t s with hlt2 | heq2 | hgt2
    · have := h.strict t s c b hlt2 hc hb h2
      omega
    · subst heq2
      have := h.disk_inj t c b hc hb h2
      subst this
      omega
    · exact absurd h2 (hno t c hgt2 hlt hc)
  · subst heq
    have := h.disk_inj t c b' hc hb' (by rw [h2, hd])
    subst this
    exact h3
  · have := h.strict s' t b' c hgt hb' hc (by rw [h2, hd])
    omega

end Verif.Raid
