import Verif.Import.Model

/-!
# What a pool is made of, and what importing it should give

A pool is described by its devices' uuids, in order.  Its disks carry labels that say so.  What each
disk knows of the data, and as of which transaction group, may differ from disk to disk.
-/

namespace Verif.Import

structure MirrorT where
  uuid : Nat
  disks : List Nat
deriving DecidableEq, Repr

structure RaidT where
  uuid : Nat
  /-- stripe width and redundancy; `none` for a single mirror without RAID -/
  shape : Option (Nat × Nat)
  size : Nat
  lpz : Nat
  mirrors : List MirrorT
deriving DecidableEq, Repr

structure PoolT where
  uuid : Nat
  name : String
  raids : List RaidT
deriving DecidableEq, Repr

/-- The transaction group of a disk's label, and what it says of the data. -/
structure State where
  txg : Nat → Nat
  rest : Nat → Nat

def RaidT.label (R : RaidT) : RaidLabel :=
  match R.shape with
  | some (k, f) => .raid R.uuid (R.mirrors.map (·.uuid)) k f
  | none => .null R.uuid ((R.mirrors.head?.map (·.uuid)).getD 0)

/-- The disk `u` of mirror `M` of RAID device `R` of pool `P`. -/
def PoolT.disk (P : PoolT) (S : State) (R : RaidT) (M : MirrorT) (u : Nat) : Disk :=
  { uuid := u, size := R.size, lpz := R.lpz, txg := S.txg u
    mirror := M.uuid, siblings := M.disks
    raid := R.label
    pool := ⟨P.uuid, P.name, P.raids.map (·.uuid)⟩
    rest := S.rest u }

/-- All uuids are different, and nothing is empty. -/
structure PoolT.Ok (P : PoolT) : Prop where
  raids : (P.raids.map (·.uuid)).Nodup
  raids_ne : P.raids ≠ []
  mirrors : ∀ R ∈ P.raids, (R.mirrors.map (·.uuid)).Nodup
  mirrors_ne : ∀ R ∈ P.raids, R.mirrors ≠ []
  mirror_inj : ∀ R ∈ P.raids, ∀ M ∈ R.mirrors, ∀ R' ∈ P.raids, ∀ M' ∈ R'.mirrors,
    M.uuid = M'.uuid → R = R' ∧ M = M'
  disks : ∀ R ∈ P.raids, ∀ M ∈ R.mirrors, M.disks.Nodup
  disks_ne : ∀ R ∈ P.raids, ∀ M ∈ R.mirrors, M.disks ≠ []
  disk_inj : ∀ R ∈ P.raids, ∀ M ∈ R.mirrors, ∀ R' ∈ P.raids, ∀ M' ∈ R'.mirrors, ∀ u,
    u ∈ M.disks → u ∈ M'.disks → R = R' ∧ M = M'
  single : ∀ R ∈ P.raids, R.shape = none → R.mirrors.length = 1
  wide : ∀ R ∈ P.raids, ∀ k f, R.shape = some (k, f) → k ≤ R.mirrors.length + f

/-- A disk of the pool. -/
def PoolT.Has (P : PoolT) (S : State) (d : Disk) : Prop :=
  ∃ R ∈ P.raids, ∃ M ∈ R.mirrors, d.uuid ∈ M.disks ∧ d = P.disk S R M d.uuid

/-- A disk that has nothing to do with the pool. -/
structure PoolT.Foreign (P : PoolT) (d : Disk) : Prop where
  pool : d.pool.uuid ≠ P.uuid
  raid : ∀ R ∈ P.raids, d.raid.uuid ≠ R.uuid
  mirror : ∀ R ∈ P.raids, ∀ M ∈ R.mirrors, d.mirror ≠ M.uuid
  disk : ∀ R ∈ P.raids, ∀ M ∈ R.mirrors, d.uuid ∉ M.disks

/-- A disk that has nothing to do with the pool, and whose labels do not name any of its devices. -/
structure PoolT.Apart (P : PoolT) (d : Disk) : Prop where
  foreign : P.Foreign d
  siblings : ∀ v ∈ d.siblings, ∀ R ∈ P.raids, ∀ M ∈ R.mirrors, v ∉ M.disks
  mirrors : ∀ v ∈ d.raid.children, ∀ R ∈ P.raids, ∀ M ∈ R.mirrors, v ≠ M.uuid
  raids : ∀ v ∈ d.pool.children, ∀ R ∈ P.raids, v ≠ R.uuid

/-- What was found: disks of the pool, and disks that have nothing to do with it. -/
def Found (P : PoolT) (S : State) (found : List Disk) : Prop :=
  ∀ d ∈ found, P.Has S d ∨ P.Foreign d

/-- The disk was found, and its label can still be read. -/
def usable (rd : Nat → Bool) (found : List Disk) (u : Nat) : Bool :=
  rd u && found.any fun d => decide (d.uuid = u)

/-- The newest transaction group among the usable disks of a mirror. -/
def newest (S : State) (use : Nat → Bool) (M : MirrorT) : Nat :=
  ((M.disks.filter use).map S.txg).foldl max 0

/-- What becomes of the disks of a mirror: in the order of the pool's description, those that are
there and up to date are in service, those that are there but old are to be rebuilt, and the others
are missing. -/
def MirrorT.expected (S : State) (use : Nat → Bool) (R : RaidT) (M : MirrorT) : Option MDev :=
  if M.disks.any use then
    some ⟨M.uuid, M.disks.map fun u =>
      if use u then
        ⟨u, if S.txg u = newest S use M then .present else .rebuilding, R.size, R.lpz⟩
      else ⟨u, .missing, 0, 0⟩⟩
  else none

def RaidT.expected (S : State) (use : Nat → Bool) (R : RaidT) : RDev :=
  ⟨R.uuid, R.shape, R.mirrors.map fun M => (M.uuid, M.expected S use R)⟩

/-- Some disk of `R` is usable. -/
def RaidT.usable (use : Nat → Bool) (R : RaidT) : Bool := R.mirrors.any fun M => M.disks.any use

/-- The manager after tasting some disks. -/
def tasted (found : List Disk) : Mgr := found.foldl Mgr.taste Mgr.empty

/-- `ord` gives an order of arrival for every number of imports that `P` needs. -/
def PoolT.Arrivals (P : PoolT) (ord : Nat → List Nat) : Prop :=
  (ord P.uuid).Perm (List.range P.raids.length) ∧
  (∀ R ∈ P.raids, (ord R.uuid).Perm (List.range R.mirrors.length)) ∧
  (∀ R ∈ P.raids, ∀ M ∈ R.mirrors, (ord M.uuid).Perm (List.range M.disks.length))

end Verif.Import
