import Verif.Isol.Model

/-!
# How much credit the calls of the file system reserve

Before a call of `Fs` may change its tree it borrows writeback credit:
`Database::fswrite` (database.rs 242-271) takes the number of insertions, range
deletions and removals the call will make and the bytes of data it will write.
Each tree operation then takes its share from what was borrowed
(dataset.rs 156-194), and gets less than it asked for if not enough is left.
What a tree operation does with its credit is `Verif.TreeCredit`; the borrowing
is `Verif.WriteBack`; the calls are `Verif.Isol`.

The code takes the share when the future of the operation is made, here it is
taken when the operation happens.  All the orders are covered, since here the
joined futures of a call run in any order.
-/

namespace Verif.Reserve
open Verif.Isol

/-- Sizes in bytes.  `leaf` is `x` of `credit_requirements` (tree/tree/mod.rs
714-723): the biggest leaf; `kvs` is `size_of::<(K, V)>()`; then `size_of` of an
inode, a directory entry and an attribute; `cap` is the capacity of a `Vec` of so
many entries. -/
structure Sizes where
  leaf : Nat
  kvs : Nat
  inode : Nat
  dirent : Nat
  xattr : Nat
  cap : Nat → Nat

/-- `InlineExtent::FUDGE` (fs_tree.rs 1054), and 680. -/
def fudge : Nat := 64

/-- `ExtAttr::allocated_space`, fs_tree.rs 679-689, for an inline attribute. -/
def xattrAlloc (a : Xattr) : Nat := a.name.length + a.data.length + fudge

/-- `FSValue::allocated_space`, fs_tree.rs 1367-1385, 424-426 and 1056-1058. -/
def alloc (S : Sizes) : Val → Nat
  | .dirent d => d.name.length
  | .dirents l => S.cap l.length * S.dirent + (l.map (·.name.length)).sum
  | .inode _ => S.inode
  | .extent b => b.length + fudge
  | .xattr a => xattrAlloc a
  | .xattrs l => S.cap l.length * S.xattr + (l.map xattrAlloc).sum
  | .dying _ => 0

/-- The operations that need credit. -/
inductive Act where
  | insert (v : Val)
  | remove
  | clear
deriving DecidableEq, Repr

/-- What `ReadWriteDataset` asks for: `insert` (dataset.rs 160), `remove` (191) and
`range_delete` (184), with `credit_requirements`, tree/tree/mod.rs 718-720. -/
def want (S : Sizes) : Act → Nat
  | .insert v => 2 * S.leaf + alloc S v
  | .remove => 2 * S.leaf
  | .clear => 3 * S.leaf

/-- `Step` of `Verif.Isol`, with the operation that took place. -/
inductive StepA : Prog → Store → Option Act → Prog → Store → Prop
  | get {k f m} : StepA (.get k f) m none (f (m k)) m
  | insert {k v f m} : StepA (.insert k v f) m (some (.insert v)) (f (m k)) (m.set k (some v))
  | remove {k f m} : StepA (.remove k f) m (some .remove) (f (m k)) (m.set k none)
  | scan {lo hi f m} : StepA (.scan lo hi f) m none (f (m.items lo hi)) m
  | clear {lo hi p m} : StepA (.clear lo hi p) m (some .clear) p (m.clear lo hi)
  | left {p p' q f m m' a} : StepA p m a p' m' → StepA (.join p q f) m a (.join p' q f) m'
  | right {p q q' f m m' a} : StepA q m a q' m' → StepA (.join p q f) m a (.join p q' f) m'
  | both {a b f m} : StepA (.join (.ok a) (.ok b) f) m none (f a b) m
  | failLeft {e q f m} : StepA (.join (.fail e) q f) m none (.fail e) m
  | failRight {e p f m} : StepA (.join p (.fail e) f) m none (.fail e) m
  | panicLeft {q f m} : StepA (.join .panic q f) m none .panic m
  | panicRight {p f m} : StepA (.join p .panic f) m none .panic m

/-- The arguments of `fswrite`, database.rs 245-248. -/
structure Reservation where
  ninsert : Nat
  nrange : Nat
  nremove : Nat
  bytes : Nat
deriving DecidableEq, Repr

/-- What `fswrite` borrows, database.rs 258-263. -/
def Reservation.credit (S : Sizes) (r : Reservation) : Nat :=
  r.ninsert * (2 * S.leaf) + r.nrange * (3 * S.leaf) + r.nremove * (2 * S.leaf) + r.bytes

/-- `Uio::nrecs`, fs.rs 312-315, as `write` uses it (2440-2445). -/
def nrecs (off len rs : Nat) : Nat := (off % rs + len + (rs - 1)) / rs - off % rs / rs

/-- What each call reserves; `rs` is the record size of the file that a write is to. -/
def reserve (rs : Nat) : Call → Reservation
  -- 660-661, with the callbacks of 1079-1085 and the like
  | .create _ _ name _ _ => ⟨5, 0, 0, name.length⟩
  -- 660-661, 1702-1708
  | .mkdir _ _ name _ => ⟨5 + 3, 0, 0, name.length⟩
  -- 1421
  | .link _ _ _ => ⟨2, 0, 0, 0⟩
  -- 2389
  | .unlink _ _ _ => ⟨3, 0, 1, 0⟩
  -- 2200
  | .rmdir _ _ => ⟨2, 1, 1, 0⟩
  -- 2050
  | .rename _ _ _ _ _ _ => ⟨8, 1, 1, 0⟩
  -- 1139
  | .inactive _ => ⟨0, 1, 1, 0⟩
  -- 2234-2243
  | .setattr _ size _ => if size.isSome then ⟨2, 1, 1, 0⟩ else ⟨1, 0, 0, 0⟩
  -- 574
  | .deallocate _ _ _ => ⟨3, 1, 2, 0⟩
  -- 2440-2448; `FSValue::extent_space`, fs_tree.rs 1288-1290
  | .write _ off data =>
    ⟨1 + nrecs off data.length rs, 0, nrecs off data.length rs,
      nrecs off data.length rs * (rs + fudge)⟩
  -- 1818-1819; without atime the tree is only read
  | .read _ _ _ atime => if atime then ⟨1, 0, 0, 0⟩ else ⟨0, 0, 0, 0⟩
  | .getattr _ => ⟨0, 0, 0, 0⟩
  | .lookup _ _ => ⟨0, 0, 0, 0⟩
  -- 2271-2272
  | .setxattr _ ns name data => ⟨2, 0, 0, xattrAlloc ⟨ns, name, data⟩⟩
  | .getxattr _ _ _ => ⟨0, 0, 0, 0⟩
  -- 608
  | .deletexattr _ _ _ => ⟨1, 0, 1, 0⟩

/-- What a call has done so far: each operation with the credit it got. -/
abbrev Ledger := List (Act × Nat)

/-- A call in progress: its program, what is left of its credit, and what was given out.  Between any
two of its steps other calls may change the tree at will, as long as it stays in `Q`.
`Credit::atomic_split` (writeback.rs 38-47) gives what is asked for or whatever is left. -/
inductive Runs (S : Sizes) (Q : Store → Prop) (p₀ : Prog) (c₀ : Nat) : Prog → Nat → Ledger → Prop
  | start : Runs S Q p₀ c₀ p₀ c₀ []
  | look {p p' c l m m'} : Runs S Q p₀ c₀ p c l → Q m → StepA p m none p' m' →
      Runs S Q p₀ c₀ p' c l
  | act {p p' c l m m' a} : Runs S Q p₀ c₀ p c l → Q m → StepA p m (some a) p' m' →
      Runs S Q p₀ c₀ p' (c - want S a) (l ++ [(a, min (want S a) c)])

/-- `Fs::new` deletes the files that were open but had no name when the file system was last used,
fs.rs 1057-1083: one range deletion for each, and one for the list of them. -/
def deleteDying (inos : List Nat) : Prog :=
  match inos with
  | [] => .clear (key 0 5 0) (key 0 6 0) (.ok .unit)
  | i :: is => doDeleteInode i (deleteDying is)

def mountProg : Prog :=
  .scan (key 0 5 0) (key 0 6 0) fun l =>
    match l.filterMap fun | (_, .dying i) => some i | _ => none with
    | [] => .ok .unit
    | i :: is => deleteDying (i :: is)

/-- fs.rs 1057 -/
def mountReserve : Reservation := ⟨0, 1, 0, 0⟩

/-! ## The numbers of a file system with default settings -/

/-- `Limits` of the tree of a file system, tree/tree/mod.rs: twice the leaves that fit in nine blocks
of 4096 bytes, for keys of 16 and values of 13 bytes (fs_tree.rs `TYPICAL_SIZE`). -/
def fsMaxLeaf : Nat := 2 * ((9 * 4096 - 12) / (16 + 13))

/-- `BLOB_THRESHOLD + FUDGE`, fs_tree.rs 1365. -/
def fsMaxSpace : Nat := 4096 / 4 + 64

/-- The default size of the writeback cache, database/mod.rs 435. -/
def defaultWriteback : Nat := 268435456

end Verif.Reserve
