import Verif.Common.OMap
import Verif.Mirror.Model

/-!
# Finding the disks of a pool and importing it

The managers of the layers (`/repo/bfffs-core/src/vdev_block.rs` 1194-1267, `mirror.rs` 67-117,
`raid/mod.rs` 90-142, `cluster.rs` 1310-1331, `pool.rs` 75-124, `ddml/mod.rs` 141-173,
`idml/mod.rs` 61-84, `database/mod.rs` 418-485), which taste devices one after the other and put
pools together from them.

Simplifications that hold for the whole file:

* Uuids are numbers.  A label is a record of what its layers wrote into it; reading one that is not
  a label is an error, and one that is but cannot be decoded (a panic) is left out.
* Opening a cluster's free space map succeeds (`Cluster::open`; see `Verif.Cluster`).
* Maps with an order that is not used are functions.
-/

namespace Verif.Import

open Verif

/-- `raid::Label`, `raid/mod.rs` 51-56, with `null_raid.rs` 20-31 and `vdev_raid.rs` 66-93. -/
inductive RaidLabel where
  | null (uuid child : Nat)
  | raid (uuid : Nat) (children : List Nat) (k f : Nat)
deriving DecidableEq, Repr

/-- `Label::uuid`, `raid/mod.rs` 73-78. -/
def RaidLabel.uuid : RaidLabel → Nat
  | .null u _ => u
  | .raid u _ _ _ => u

/-- `Label::iter_children`, `raid/mod.rs` 59-64. -/
def RaidLabel.children : RaidLabel → List Nat
  | .null _ c => [c]
  | .raid _ cs _ _ => cs

/-- `pool::Label`, `pool.rs` 60-72. -/
structure PoolLabel where
  uuid : Nat
  name : String
  children : List Nat
deriving DecidableEq, Repr

/-- A disk, by what its label says: the block device's own part (`vdev_block.rs` 36-55), the
mirror's (`mirror.rs` 52-64), the RAID's, the pool's, and `rest`, which stands for the state of the
data (`idml.rs` Label: the transaction group and the roots of the tables). -/
structure Disk where
  uuid : Nat
  size : Nat
  lpz : Nat
  txg : Nat
  mirror : Nat
  siblings : List Nat
  raid : RaidLabel
  pool : PoolLabel
  rest : Nat
deriving DecidableEq, Repr

abbrev Map (α : Type) := Nat → Option α

def Map.insert {α : Type} (m : Map α) (k : Nat) (v : α) : Map α :=
  fun x => if x = k then some v else m x

def Map.remove {α : Type} (m : Map α) (k : Nat) : Map α := fun x => if x = k then none else m x

/-- What all managers together remember. -/
structure Mgr where
  /-- `vdev_block::Manager::devices` -/
  devices : Map Disk
  /-- `mirror::Manager::mirrors`, of which only the children matter -/
  mirrors : Map (List Nat)
  /-- `raid::Manager::raids` -/
  raids : Map RaidLabel
  /-- `pool::Manager::pools` -/
  pools : OMap PoolLabel

/-- `Manager::default()`. -/
def Mgr.empty : Mgr := ⟨fun _ => none, fun _ => none, fun _ => none, []⟩

/-- `taste` of each layer: `vdev_block.rs` 1250-1266, `mirror.rs` 111-116, `raid/mod.rs` 136-141,
`pool.rs` 118-123. -/
def Mgr.taste (m : Mgr) (d : Disk) : Mgr :=
  { devices := m.devices.insert d.uuid d
    mirrors := m.mirrors.insert d.mirror d.siblings
    raids := m.raids.insert d.raid.uuid d.raid
    pools := OMap.insert m.pools d.pool.uuid d.pool }

inductive Err | enoent | eio | einval
deriving DecidableEq, Repr

/-- `vdev_block::Manager::import`, `vdev_block.rs` 1200-1212.  `rd` says which disks' labels can
still be read. -/
def importLeaf (rd : Nat → Bool) (m : Mgr) (u : Nat) : Except Err Disk × Mgr :=
  match m.devices u with
  | none => (.error .enoent, m)
  | some d =>
    (if rd u then .ok d else .error .eio, { m with devices := m.devices.remove u })

/-- Imports of several children: each takes what it needs out of the maps when it is called
(`.map(move |child_uuid| self.vbm.import(child_uuid))`). -/
def importAll {R : Type} (f : Mgr → Nat → R × Mgr) (m : Mgr) : List Nat → List R × Mgr
  | [] => ([], m)
  | u :: us =>
    let (r, m) := f m u
    let (rs, m) := importAll f m us
    (r :: rs, m)

/-- `FuturesUnordered`: the results, in the order `ord` in which they arrive. -/
def arrive {R : Type} (ord : List Nat) (rs : List R) : List R := ord.filterMap (rs[·]?)

/-- The successful ones. -/
def oks {ε α : Type} (rs : List (Except ε α)) : List α :=
  rs.filterMap fun r => match r with
    | .ok a => some a
    | .error _ => none

/-- The last error, `mirror.rs` 88-96, `raid/mod.rs` 113-121. -/
def lastErr {α : Type} (rs : List (Except Err α)) : Err :=
  rs.foldl (fun e r => match r with
    | .ok _ => e
    | .error e' => e') .enoent

/-- A mirror that was opened. -/
structure MDev where
  uuid : Nat
  children : List Mirror.Child
deriving DecidableEq, Repr

def Disk.leaf (d : Disk) : Mirror.Leaf := ⟨d.uuid, d.size, d.lpz, d.txg, d.siblings⟩

/-- `Mirror::open`, `mirror.rs` 498-533, which is `Verif.Mirror.openMirror` and the check of the
uuids (509-512).  `none` is a panic. -/
def openMirror (u : Nat) (ds : List Disk) : Option (Except Err (MDev × Disk)) :=
  if ds.any fun d => decide (d.mirror ≠ u) then none
  else
    match Mirror.openMirror (ds.map Disk.leaf) with
    | none => none
    | some (.error _) => some (.error .einval)
    | some (.ok (cs, l)) =>
      (ds.find? fun d => decide (d.leaf = l)).map fun d => .ok (⟨u, cs⟩, d)

/-- `mirror::Manager::import`, `mirror.rs` 76-105. -/
def importMirror (rd : Nat → Bool) (ord : Nat → List Nat) (m : Mgr) (u : Nat) :
    Option (Except Err (MDev × Disk)) × Mgr :=
  match m.mirrors u with
  | none => (some (.error .enoent), m)
  | some cs =>
    let (rs, m) := importAll (importLeaf rd) { m with mirrors := m.mirrors.remove u } cs
    let rs := arrive (ord u) rs
    (if oks rs = [] then some (.error (lastErr rs)) else openMirror u (oks rs), m)

/-- A RAID device that was opened: its stripe width and redundancy unless it has but one child, and
its children, `none` if missing. -/
structure RDev where
  uuid : Nat
  shape : Option (Nat × Nat)
  children : List (Nat × Option MDev)
deriving DecidableEq, Repr

/-- A mirror's size and zone size are those of its first child that is there (`mirror.rs` 476-479,
`Vdev` of `Mirror`). -/
def MDev.geometry (m : MDev) : Option (Nat × Nat) :=
  (m.children.find? fun c => decide (c.st ≠ .missing)).map fun c => (c.size, c.lpz)

/-- `raid::open`, `raid/mod.rs` 201-222, with `NullRaid::open`, `null_raid.rs` 67-72, and
`VdevRaid::open` and `new`, `vdev_raid.rs` 638-735.  The label is that of the mirror that arrived
first.  `none` is a panic.  A mirror that was just opened has a child in service, so it is not
faulted (718-719). -/
def openRaid (u : Nat) (ps : List (MDev × Disk)) : Option (RDev × Disk) :=
  if ps.any fun p => decide (p.2.raid.uuid ≠ u) then none
  else
    match ps with
    | [] => none
    | (m, d) :: rest =>
      match d.raid with
      | .null u _ => if rest = [] then some (⟨u, none, [(m.uuid, some m)]⟩, d) else none
      | .raid u cs k f =>
        let children := cs.map fun c =>
          (c, (((m, d) :: rest).find? fun p => decide (p.1.uuid = c)).map (·.1))
        let geometries := (children.filterMap (·.2)).map MDev.geometry
        if cs.length + f < k then none
        else
          match geometries with
          | [] => none
          | g :: gs => if gs.all (· == g) then some (⟨u, some (k, f), children⟩, d) else none

/-- All results, unless one of them is a panic. -/
def noPanic {α : Type} : List (Option α) → Option (List α)
  | [] => some []
  | none :: _ => none
  | some a :: rs => (noPanic rs).map (a :: ·)

/-- `raid::Manager::import`, `raid/mod.rs` 99-130; `cluster::Manager::import`, `cluster.rs`
1315-1322. -/
def importRaid (rd : Nat → Bool) (ord : Nat → List Nat) (m : Mgr) (u : Nat) :
    Option (Except Err (RDev × Disk)) × Mgr :=
  match m.raids u with
  | none => (some (.error .enoent), m)
  | some rl =>
    let (rs, m) := importAll (importMirror rd ord) { m with raids := m.raids.remove u } rl.children
    let r := (noPanic (arrive (ord u) rs)).bind fun rs =>
      if oks rs = [] then some (.error (lastErr rs)) else (openRaid u (oks rs)).map .ok
    (r, m)

/-- A pool that was opened, with the state of the data that its label says. -/
structure PDev where
  uuid : Nat
  name : String
  clusters : List RDev
  rest : Nat
deriving DecidableEq, Repr

/-- `Pool::open`, `pool.rs` 383-405. -/
def openPool (u : Nat) (ps : List (RDev × Disk)) : Option PDev :=
  if ps.any fun p => decide (p.2.pool.uuid ≠ u) then none
  else
    match ps with
    | [] => none
    | (_, d) :: _ =>
      if ps.length ≠ d.pool.children.length then none
      else
        (noPanic (d.pool.children.map fun c =>
          (ps.find? fun p => decide (p.1.uuid = c)).map (·.1))).map fun cs =>
            ⟨d.pool.uuid, d.pool.name, cs, d.rest⟩

/-- The first error in the order of arrival, `pool.rs` 97-102. -/
def allOk {α : Type} : List (Except Err α) → Except Err (List α)
  | [] => .ok []
  | .error e :: _ => .error e
  | .ok a :: rs =>
    match allOk rs with
    | .ok l => .ok (a :: l)
    | .error e => .error e

/-- `pool::Manager::import`, `pool.rs` 83-104; `import_by_uuid`, `database/mod.rs` 461-464. -/
def importPool (rd : Nat → Bool) (ord : Nat → List Nat) (m : Mgr) (u : Nat) :
    Option (Except Err PDev) × Mgr :=
  match OMap.get m.pools u with
  | none => (some (.error .enoent), m)
  | some pl =>
    let (rs, m) :=
      importAll (importRaid rd ord) { m with pools := OMap.remove m.pools u } pl.children
    let r := (noPanic (arrive (ord u) rs)).bind fun rs =>
      match allOk rs with
      | .error e => some (.error e)
      | .ok ps => (openPool u ps).map .ok
    (r, m)

/-- `importable_pools`, `pool.rs` 107-112. -/
def Mgr.importable (m : Mgr) : List (String × Nat) := m.pools.map fun e => (e.2.name, e.2.uuid)

/-- `import_by_name`, `database/mod.rs` 443-458. -/
def importByName (rd : Nat → Bool) (ord : Nat → List Nat) (m : Mgr) (name : String) :
    Option (Except Err PDev) × Mgr :=
  match m.importable.find? fun p => decide (p.1 = name) with
  | some p => importPool rd ord m p.2
  | none => (some (.error .enoent), m)

end Verif.Import
