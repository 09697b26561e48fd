import Verif.Common.OMap
import Verif.WriteBack.Model

/-!
# Model of the writeback credit held by a `Tree`

`bfffs-core/src/tree/node.rs` (`LeafData`, `NodeData`) and
`bfffs-core/src/tree/tree/mod.rs`, as far as credit is concerned, for a key
type with `USES_CREDIT` (node.rs 85-100).  Every in-memory (dirty) leaf carries
the credit for the bytes it will occupy when it is written; calls bring credit
with them, leave some in the leaves they dirty and give the rest back.

The tree is a bag of leaves: credit never depends on the interior nodes.
Which leaf a call comes to is left open, so every shape of the tree is
covered.  Locks are left out too, so the steps of different calls and of the
flusher mix in more ways than in the code; whatever holds here for all
executions holds for those the locks allow.

Amounts of credit are in the doubled representation of writeback.rs 28, as in
`Verif.WriteBack`.  `none` as a result is a panic: a failed (debug) assertion,
an `unwrap` of nothing, an underflow, or the `Drop` of a credit that is not
zero.
-/

namespace Verif.TreeCredit
open Verif.WriteBack (isplit split halve take extend)

/-- What is fixed for a tree: `mem::size_of::<(K, V)>()`, the leaf fan-outs of
`Limits` (tree/tree/mod.rs), `V::MAX_ALLOCATED_SPACE` (fs_tree.rs 1365) and
`V::NEEDS_FLUSH`. -/
structure Params where
  kvs : Nat
  minLeaf : Nat
  maxLeaf : Nat
  maxSpace : Nat
  needsFlush : Bool
  deriving Repr

/-- `LeafData`, node.rs 363-373.  Of each value only `allocated_space()` is
kept. -/
structure Leaf where
  items : OMap Nat
  credit : Int
  deriving Repr, DecidableEq

/-- `LeafData::wb_space`, node.rs 596-605 -/
def wbSpace (kvs : Nat) (items : OMap Nat) : Nat :=
  (items.map (·.2)).sum + items.length * kvs

/-- `LeafData::assert_accredited`, node.rs 392-397, with
`impl PartialEq<usize> for Credit`, writeback.rs 146-152 -/
def accredited (kvs : Nat) (l : Leaf) : Bool := l.credit / 2 == (wbSpace kvs l.items : Int)

/-- `LeafData::acredit`, node.rs 377-390, of a leaf just read from disk
(`#[speedy(skip)]` gives it null credit).  Returns the leaf and what is left
of the credit; that can be negative, which is only logged. -/
def acredit (kvs : Nat) (items : OMap Nat) (c : Int) : Leaf × Int :=
  let r := isplit c (wbSpace kvs items)
  (⟨items, r.2⟩, r.1)

/-- The space of the value under `k`, if any: `old_space` of node.rs 434-436 and
547-549 -/
def oldSpace (kvs : Nat) (items : OMap Nat) (k : Nat) : Nat :=
  match items.get k with
  | some a => a + kvs
  | none => 0

/-- `LeafData::insert`, node.rs 417-458.  The leaf and the excess credit.  The
`dpop` of the old value is C67's. -/
def leafInsert (kvs : Nat) (l : Leaf) (k v : Nat) (c : Int) : Option (Leaf × Int) :=
  if accredited kvs l then
    let excess : Int := (c / 2 + oldSpace kvs l.items k) - ((v + kvs : Nat) : Int)
    let r := isplit (extend l.credit c) excess
    let l' : Leaf := ⟨l.items.insert k v, r.1⟩
    if accredited kvs l' then some (l', r.2) else none
  else none

/-- `LeafData::remove`, node.rs 535-563 -/
def leafRemove (kvs : Nat) (l : Leaf) (k : Nat) : Option (Leaf × Int) :=
  if accredited kvs l then
    let r := split l.credit (oldSpace kvs l.items k)
    let l' : Leaf := ⟨l.items.remove k, r.1⟩
    if accredited kvs l' then some (l', r.2) else none
  else none

/-- `LeafData::range_delete_unaccredited`, node.rs 497-522; `p` is membership
of the range. -/
def leafRangeDeleteU (kvs : Nat) (l : Leaf) (p : Nat → Bool) : Option (Leaf × Int) :=
  let gone := l.items.filter (fun e => p e.1)
  let r := split l.credit ((gone.map (·.2)).sum + gone.length * kvs)
  let l' : Leaf := ⟨l.items.filter (fun e => !p e.1), r.1⟩
  if accredited kvs l' then some (l', r.2) else none

/-- `LeafData::range_delete`, node.rs 524-533 -/
def leafRangeDelete (kvs : Nat) (l : Leaf) (p : Nat → Bool) : Option (Leaf × Int) :=
  if accredited kvs l then leafRangeDeleteU kvs l p else none

/-- `LeafData::split`, node.rs 567-586: the leaf keeps `n` items. -/
def leafSplit (kvs : Nat) (l : Leaf) (n : Nat) : Option (Leaf × Leaf) :=
  if accredited kvs l then
    if n < l.items.length then
      let new := l.items.drop n
      let r := split l.credit (wbSpace kvs new)
      let l1 : Leaf := ⟨l.items.take n, r.1⟩
      let l2 : Leaf := ⟨new, extend 0 r.2⟩
      if accredited kvs l1 && accredited kvs l2 then some (l1, l2) else none
    else none
  else none

/-- `NodeData::merge`, node.rs 1342-1354, for leaves, followed by the drop of
`other`.  `other` is the right sibling: its keys follow (C39). -/
def merge (l other : Leaf) : Option Leaf :=
  let r := take other.credit
  if r.1 = 0 then some ⟨l.items ++ other.items, extend l.credit r.2⟩ else none

/-- `NodeData::take_low_keys`, node.rs 1393-1418, for leaves -/
def takeLow (kvs : Nat) (l other : Leaf) : Option (Leaf × Leaf) :=
  if other.items.length < l.items.length then none
  else
    let n := max 1 ((other.items.length - l.items.length) / 2)
    if n < other.items.length then
      let moved := other.items.take n
      let r := split other.credit ((moved.map (·.2)).sum + moved.length * kvs)
      some (⟨l.items ++ moved, extend l.credit r.2⟩, ⟨other.items.drop n, r.1⟩)
    else none

/-- `NodeData::take_high_keys`, node.rs 1364-1390, for leaves -/
def takeHigh (kvs : Nat) (l other : Leaf) : Option (Leaf × Leaf) :=
  if other.items.length < l.items.length then none
  else
    let n := max 1 ((other.items.length - l.items.length) / 2)
    if n ≤ other.items.length then
      let cut := other.items.length - n
      let moved := other.items.drop cut
      let r := split other.credit ((moved.map (·.2)).sum + moved.length * kvs)
      some (⟨moved ++ l.items, extend l.credit r.2⟩, ⟨other.items.take cut, r.1⟩)
    else none

/-- `Tree::fix_int`, mod.rs 830-893, for a leaf and its right sibling.  The
leaf and what is left of the sibling. -/
def fixRight (p : Params) (l sib : Leaf) : Option (Leaf × Option Leaf) :=
  if l.items.length + sib.items.length ≤ p.maxLeaf then
    (merge l sib).map fun m => (m, none)
  else (takeLow p.kvs l sib).map fun r => (r.1, some r.2)

/-- `Tree::fix_int`, mod.rs 830-893, for a leaf and its left sibling.  What is
left of the leaf, and the sibling. -/
def fixLeft (p : Params) (l sib : Leaf) : Option (Option Leaf × Leaf) :=
  if sib.items.length + l.items.length ≤ p.maxLeaf then
    (merge sib l).map fun m => (none, m)
  else (takeHigh p.kvs l sib).map fun r => (some r.1, r.2)

/-- `Tree::credit_requirements`, mod.rs 714-723: `x` -/
def oneLeaf (p : Params) : Nat := p.maxLeaf * (p.kvs + p.maxSpace)
/-- `CreditRequirements::insert`, mod.rs 718 -/
def reqInsert (p : Params) : Nat := 2 * oneLeaf p
/-- What an insertion of a value with allocated space `v` cannot do without: the biggest leaf, and the
new item.  `reqInsert p + v` is more. -/
def needInsert (p : Params) (v : Nat) : Nat := oneLeaf p + p.kvs + v
/-- `CreditRequirements::range_delete`, mod.rs 719 -/
def reqRangeDelete (p : Params) : Nat := 3 * oneLeaf p
/-- `CreditRequirements::remove`, mod.rs 720 -/
def reqRemove (p : Params) : Nat := 2 * oneLeaf p

/-! ## The tree, its callers and the flusher -/

/-- Where a leaf is: only on disk (`TreePtr::Addr`), in memory and dirty
(`TreePtr::Mem`), or on its way to disk inside a `WriteLeaf` future
(mod.rs 382-435; `TreePtr::None` meanwhile). -/
inductive Cell where
  | disk (items : OMap Nat)
  | mem (l : Leaf)
  | writing (items : OMap Nat) (c : Int)
  deriving Repr, DecidableEq

/-- The calls in progress, with the credit each has in hand. -/
inductive Task where
  /-- `Tree::insert` (mod.rs 1260-1286) of a value with allocated space `v`,
  not yet at a leaf -/
  | insert (k v : Nat) (c : Int)
  /-- `insert_int` / `insert_leaf_no_split` at leaf `i` (mod.rs 1291-1358) -/
  | insertAt (k v : Nat) (c : Int) (i : Nat)
  /-- `Tree::remove` (mod.rs 2097-2104), not yet at a leaf -/
  | remove (k : Nat) (c : Int)
  /-- `remove_int` / `remove_no_fix` at leaf `i` (mod.rs 2108-2157) -/
  | removeAt (k : Nat) (c : Int) (i : Nat)
  /-- `fix_int` has locked leaf `i` and its sibling `j` (mod.rs 849-857) -/
  | removeSib (k : Nat) (c : Int) (i j : Nat)
  /-- `remove_no_fix` at leaf `i` after `fix_int` (mod.rs 2124-2127) -/
  | removeFixed (k : Nat) (c : Int) (i : Nat)
  /-- `Tree::range_delete` (mod.rs 1478-1510).  `rc` is the half that went down
  the right side of the cut (mod.rs 1706).  Ghosts: what the call was given,
  and how many clean leaves it has dirtied. -/
  | rangeDelete (c : Int) (rc : Option Int) (given : Int) (n : Nat)
  deriving Repr, DecidableEq

/-- The credit a call has in hand. -/
def Task.credit : Task → Int
  | .insert _ _ c => c
  | .insertAt _ _ c _ => c
  | .remove _ c => c
  | .removeAt _ c _ => c
  | .removeSib _ c _ _ => c
  | .removeFixed _ c _ => c
  | .rangeDelete c rc _ _ => c + rc.getD 0

/-- The writeback bank (writeback.rs 181-189, doubled, without the sleepers),
the leaves and the calls in progress. -/
structure Sys where
  capacity : Int
  supply : Int
  cells : OMap Cell
  tasks : OMap Task
  deriving Repr, DecidableEq

/-- `WriteBack::repay`, writeback.rs 274-291 (waking sleepers is C01's). -/
def repay (s : Sys) (c : Int) : Option Sys :=
  if c = 0 then some s
  else if s.supply + c ≤ s.capacity then some { s with supply := s.supply + c } else none

/-- `impl Drop for Credit`, writeback.rs 131-144 -/
def dropCredit (s : Sys) (c : Int) : Option Sys := if c = 0 then some s else none

def Sys.setCell (s : Sys) (i : Nat) : Option Cell → Sys
  | some x => { s with cells := s.cells.insert i x }
  | none => { s with cells := s.cells.remove i }

def Sys.setTask (s : Sys) (t : Nat) : Option Task → Sys
  | some x => { s with tasks := s.tasks.insert t x }
  | none => { s with tasks := s.tasks.remove t }

/-- What the environment does: whether disk operations may fail, whether
callers bring what `credit_requirements` says (insertions: at least `needInsert`), and whether every range deletion finds
at most three of the leaves it touches clean. -/
structure Env where
  ioErrors : Bool
  funded : Bool
  narrow : Bool
  deriving Repr

/-- One step of a call, of the flusher or of a new caller. -/
inductive Step (e : Env) (p : Params) : Sys → Option Sys → Prop
  /-- A caller borrows credit for `n` bytes (writeback.rs 220-262) and calls
  `Tree::insert`.  Dataset::insert (dataset.rs 163-171) passes
  `credit_requirements().insert + v.allocated_space()`, or what is left of the credit
  of the file system call; see C79. -/
  | callInsert {s : Sys} (t k v n : Nat) :
      s.tasks.get t = none → 2 * (n : Int) ≤ s.supply →
      (e.funded = true → needInsert p v ≤ n) →
      Step e p s (some ({ s with supply := s.supply - 2 * n }.setTask t
        (some (.insert k v (2 * n)))))
  /-- likewise `Tree::remove` (dataset.rs 189-195) -/
  | callRemove {s : Sys} (t k n : Nat) :
      s.tasks.get t = none → 2 * (n : Int) ≤ s.supply →
      (e.funded = true → reqRemove p ≤ n) →
      Step e p s (some ({ s with supply := s.supply - 2 * n }.setTask t
        (some (.remove k (2 * n)))))
  /-- likewise `Tree::range_delete` (dataset.rs 178-187) -/
  | callRangeDelete {s : Sys} (t n : Nat) :
      s.tasks.get t = none → 2 * (n : Int) ≤ s.supply →
      (e.funded = true → reqRangeDelete p ≤ n) →
      Step e p s (some ({ s with supply := s.supply - 2 * n }.setTask t
        (some (.rangeDelete (2 * n) none (2 * n) 0))))
  /-- `xlock`/`xlock_root` of a leaf in memory, node.rs 829-833 -/
  | insertMem {s : Sys} {k v : Nat} {c : Int} {l : Leaf} (t i : Nat) :
      s.tasks.get t = some (.insert k v c) → s.cells.get i = some (.mem l) →
      Step e p s (some (s.setTask t (some (.insertAt k v c i))))
  /-- `xlock`/`xlock_root` of a leaf on disk, node.rs 834-865 -/
  | insertDisk {s : Sys} {k v : Nat} {c : Int} {m : OMap Nat} (t i : Nat) :
      s.tasks.get t = some (.insert k v c) → s.cells.get i = some (.disk m) →
      Step e p s (some ((s.setCell i (some (.mem (acredit p.kvs m c).1))).setTask t
        (some (.insertAt k v (acredit p.kvs m c).2 i))))
  /-- `insert_int` splits the leaf (mod.rs 1302-1308, 1268-1278); `j` is the
  new leaf.  The call goes on at either of the two, both in memory. -/
  | insertSplit {s : Sys} {k v : Nat} {c : Int} {l : Leaf} (t i j n at' : Nat) :
      s.tasks.get t = some (.insertAt k v c i) → s.cells.get i = some (.mem l) →
      s.cells.get j = none → l.items.get k = none → p.maxLeaf ≤ l.items.length →
      n < l.items.length → 0 < n → at' = i ∨ at' = j →
      Step e p s ((leafSplit p.kvs l n).map fun r =>
        ((s.setCell i (some (.mem r.1))).setCell j (some (.mem r.2))).setTask t
          (some (.insertAt k v c at')))
  /-- `insert_leaf_no_split`, mod.rs 1340-1358 -/
  | insertLeaf {s : Sys} {k v : Nat} {c : Int} {l : Leaf} (t i : Nat) :
      s.tasks.get t = some (.insertAt k v c i) → s.cells.get i = some (.mem l) →
      l.items.get k ≠ none ∨ l.items.length < p.maxLeaf →
      Step e p s ((leafInsert p.kvs l k v c).bind fun r =>
        repay ((s.setCell i (some (.mem r.1))).setTask t none) r.2)
  | removeMem {s : Sys} {k : Nat} {c : Int} {l : Leaf} (t i : Nat) :
      s.tasks.get t = some (.remove k c) → s.cells.get i = some (.mem l) →
      Step e p s (some (s.setTask t (some (.removeAt k c i))))
  | removeDisk {s : Sys} {k : Nat} {c : Int} {m : OMap Nat} (t i : Nat) :
      s.tasks.get t = some (.remove k c) → s.cells.get i = some (.disk m) →
      Step e p s (some ((s.setCell i (some (.mem (acredit p.kvs m c).1))).setTask t
        (some (.removeAt k (acredit p.kvs m c).2 i))))
  /-- `fix_int` locks a sibling in memory, mod.rs 849-857 -/
  | sibMem {s : Sys} {k : Nat} {c : Int} {l : Leaf} (t i j : Nat) :
      s.tasks.get t = some (.removeAt k c i) → s.cells.get j = some (.mem l) →
      Step e p s (some (s.setTask t (some (.removeSib k c i j))))
  /-- `fix_int` locks a sibling on disk -/
  | sibDisk {s : Sys} {k : Nat} {c : Int} {m : OMap Nat} (t i j : Nat) :
      s.tasks.get t = some (.removeAt k c i) → s.cells.get j = some (.disk m) →
      Step e p s (some ((s.setCell j (some (.mem (acredit p.kvs m c).1))).setTask t
        (some (.removeSib k (acredit p.kvs m c).2 i j))))
  /-- `fix_int` with a right sibling, mod.rs 861-876; the leaf is in danger
  (mod.rs 2118). -/
  | removeFixR {s : Sys} {k : Nat} {c : Int} {l sib : Leaf} (t i j at' : Nat) :
      s.tasks.get t = some (.removeSib k c i j) → i ≠ j →
      s.cells.get i = some (.mem l) → s.cells.get j = some (.mem sib) →
      l.items.length ≤ p.minLeaf → (∀ a ∈ l.items, ∀ b ∈ sib.items, a.1 < b.1) →
      at' = i ∨ at' = j →
      Step e p s ((fixRight p l sib).map fun r =>
        ((s.setCell i (some (.mem r.1))).setCell j (r.2.map .mem)).setTask t
          (some (.removeFixed k c at')))
  /-- `fix_int` with a left sibling, mod.rs 877-890 -/
  | removeFixL {s : Sys} {k : Nat} {c : Int} {l sib : Leaf} (t i j at' : Nat) :
      s.tasks.get t = some (.removeSib k c i j) → i ≠ j →
      s.cells.get i = some (.mem l) → s.cells.get j = some (.mem sib) →
      l.items.length ≤ p.minLeaf → (∀ a ∈ sib.items, ∀ b ∈ l.items, a.1 < b.1) →
      at' = i ∨ at' = j →
      Step e p s ((fixLeft p l sib).map fun r =>
        ((s.setCell i (r.1.map .mem)).setCell j (some (.mem r.2))).setTask t
          (some (.removeFixed k c at')))
  /-- `remove_no_fix` at a leaf, mod.rs 2142-2147 -/
  | removeLeaf {s : Sys} {k : Nat} {c : Int} {l : Leaf} (t i : Nat) :
      s.tasks.get t = some (.removeAt k c i) ∨ s.tasks.get t = some (.removeFixed k c i) →
      s.cells.get i = some (.mem l) →
      Step e p s ((leafRemove p.kvs l k).bind fun r =>
        repay ((s.setCell i (some (.mem r.1))).setTask t none) (extend c r.2))
  /-- the two sides of the cut get half of the credit each, mod.rs 1706 -/
  | rdHalve {s : Sys} {c g : Int} {n : Nat} (t : Nat) :
      s.tasks.get t = some (.rangeDelete c none g n) →
      Step e p s (some (s.setTask t (some (.rangeDelete (halve c).1 (some (halve c).2) g n))))
  /-- and join them again, mod.rs 1746 -/
  | rdJoin {s : Sys} {c rc g : Int} {n : Nat} (t : Nat) :
      s.tasks.get t = some (.rangeDelete c (some rc) g n) →
      Step e p s (some (s.setTask t (some (.rangeDelete (extend c rc) none g n))))
  /-- `xlock`, `xlock_nc`, `xlock_root` or `fix_int` of a leaf on disk -/
  | rdDisk {s : Sys} {c g : Int} {rc : Option Int} {n : Nat} {m : OMap Nat} (t i : Nat) :
      s.tasks.get t = some (.rangeDelete c rc g n) → s.cells.get i = some (.disk m) →
      (e.narrow = true → n < 3) →
      Step e p s (some ((s.setCell i (some (.mem (acredit p.kvs m c).1))).setTask t
        (some (.rangeDelete (acredit p.kvs m c).2 rc g (n + 1)))))
  /-- the same on the right side of the cut, mod.rs 1726 -/
  | rdDiskR {s : Sys} {c rc g : Int} {n : Nat} {m : OMap Nat} (t i : Nat) :
      s.tasks.get t = some (.rangeDelete c (some rc) g n) → s.cells.get i = some (.disk m) →
      (e.narrow = true → n < 3) →
      Step e p s (some ((s.setCell i (some (.mem (acredit p.kvs m rc).1))).setTask t
        (some (.rangeDelete c (some (acredit p.kvs m rc).2) g (n + 1)))))
  /-- a leaf in the cut loses the range's items, mod.rs 1620-1635 -/
  | rdDelete {s : Sys} {c g : Int} {rc : Option Int} {n : Nat} {l : Leaf} (t i : Nat)
      (f : Nat → Bool) :
      s.tasks.get t = some (.rangeDelete c rc g n) → s.cells.get i = some (.mem l) →
      Step e p s ((leafRangeDelete p.kvs l f).bind fun r =>
        repay (s.setCell i (some (.mem r.1))) r.2)
  /-- an empty leaf is taken out of its parent and dropped, mod.rs 1681, 1757,
  1781 -/
  | rdEmpty {s : Sys} {c g : Int} {rc : Option Int} {n : Nat} {l : Leaf} (t i : Nat) :
      s.tasks.get t = some (.rangeDelete c rc g n) → s.cells.get i = some (.mem l) →
      l.items = [] →
      Step e p s (dropCredit (s.setCell i none) l.credit)
  /-- `range_delete_purge` of a leaf in memory, mod.rs 2062-2076 -/
  | rdPurgeMem {s : Sys} {c g : Int} {rc : Option Int} {n : Nat} {l : Leaf} (t i : Nat) :
      s.tasks.get t = some (.rangeDelete c rc g n) → s.cells.get i = some (.mem l) →
      Step e p s (
        (if p.needsFlush then leafRangeDelete p.kvs l (fun _ => true) else some (l, 0)).bind
          fun r => (repay (s.setCell i none) (extend r.2 (take r.1.credit).2)).bind
            fun s' => dropCredit s' (take r.1.credit).1)
  /-- `range_delete_purge` of a leaf on disk, mod.rs 2036-2060 -/
  | rdPurgeDisk {s : Sys} {c g : Int} {rc : Option Int} {n : Nat} {m : OMap Nat} (t i : Nat) :
      s.tasks.get t = some (.rangeDelete c rc g n) → s.cells.get i = some (.disk m) →
      Step e p s (
        (if p.needsFlush then leafRangeDeleteU p.kvs ⟨m, 0⟩ (fun _ => true)
          else some (⟨[], 0⟩, 0)).bind
          fun r => (dropCredit (s.setCell i none) r.2).bind fun s' => dropCredit s' r.1.credit)
  /-- `range_delete_pass2` mends a leaf with its right sibling (mod.rs
  1802-2010) -/
  | rdFixR {s : Sys} {c g : Int} {rc : Option Int} {n : Nat} {l sib : Leaf} (t i j : Nat) :
      s.tasks.get t = some (.rangeDelete c rc g n) → i ≠ j →
      s.cells.get i = some (.mem l) → s.cells.get j = some (.mem sib) →
      l.items.length ≤ p.minLeaf → (∀ a ∈ l.items, ∀ b ∈ sib.items, a.1 < b.1) →
      Step e p s ((fixRight p l sib).map fun r =>
        (s.setCell i (some (.mem r.1))).setCell j (r.2.map .mem))
  | rdFixL {s : Sys} {c g : Int} {rc : Option Int} {n : Nat} {l sib : Leaf} (t i j : Nat) :
      s.tasks.get t = some (.rangeDelete c rc g n) → i ≠ j →
      s.cells.get i = some (.mem l) → s.cells.get j = some (.mem sib) →
      l.items.length ≤ p.minLeaf → (∀ a ∈ sib.items, ∀ b ∈ l.items, a.1 < b.1) →
      Step e p s ((fixLeft p l sib).map fun r =>
        (s.setCell i (r.1.map .mem)).setCell j (some (.mem r.2)))
  /-- the new root of a tree that has become empty (`IntElem::default`, mod.rs
  2232-2240), or of a new tree -/
  | newLeaf {s : Sys} (j : Nat) :
      s.cells.get j = none → Step e p s (some (s.setCell j (some (.mem ⟨[], 0⟩))))
  /-- the end of `range_delete_pass2`: what is left is repaid, mod.rs 1857 -/
  | rdEnd {s : Sys} {c g : Int} {n : Nat} (t : Nat) :
      s.tasks.get t = some (.rangeDelete c none g n) →
      Step e p s (repay (s.setTask t none) c)
  /-- `write_leaf`, mod.rs 2180-2198: the credit moves into the `WriteLeaf`
  future, and the leaf, without credit, into the `Cache`. -/
  | flushStart {s : Sys} {l : Leaf} (i : Nat) :
      s.cells.get i = some (.mem l) →
      Step e p s (dropCredit (s.setCell i (some (.writing l.items (take l.credit).2)))
        (take l.credit).1)
  /-- `WriteLeaf::poll`, mod.rs 425-431, when the write has succeeded.
  `V::flush_bt` has moved large values elsewhere (C67), so that what is on disk
  keeps to `MAX_ALLOCATED_SPACE`. -/
  | flushDone {s : Sys} {m m' : OMap Nat} {c : Int} (i : Nat) :
      s.cells.get i = some (.writing m c) → m'.map (·.1) = m.map (·.1) →
      (∀ x ∈ m', x.2 ≤ p.maxSpace) →
      Step e p s ((repay (s.setCell i (some (.disk m'))) (take c).2).bind
        fun s' => dropCredit s' (take c).1)
  /-- `Tree::drop_r`, mod.rs 725-738 -/
  | dropLeaf {s : Sys} {l : Leaf} (i : Nat) :
      s.cells.get i = some (.mem l) →
      Step e p s ((repay (s.setCell i none) (take l.credit).2).bind
        fun s' => dropCredit s' (take l.credit).1)
  /-- A node a call is on its way to cannot be read (`afut.await?`, node.rs
  842; also mod.rs 2278): the call's future is dropped, and its credit with
  it. -/
  | readFails {s : Sys} {x : Task} (t : Nat) :
      e.ioErrors = true → s.tasks.get t = some x →
      Step e p s (dropCredit (s.setTask t none) x.credit)
  /-- A leaf cannot be written (`r.is_ok()` fails, mod.rs 427; or `flush_bt`
  fails, mod.rs 412): the future is dropped, and the leaf's credit with it. -/
  | writeFails {s : Sys} {m : OMap Nat} {c : Int} (i : Nat) :
      e.ioErrors = true → s.cells.get i = some (.writing m c) →
      Step e p s (dropCredit (s.setCell i none) c)

/-- A tree all of whose leaves are on disk, and nobody using it. -/
structure Fresh (p : Params) (s : Sys) : Prop where
  tasks : s.tasks = []
  supply : s.supply = s.capacity
  even : ∃ n : Nat, s.capacity = 2 * n
  sorted : s.cells.Sorted
  disk : ∀ i x, s.cells.get i = some x → ∃ m : OMap Nat, x = .disk m ∧ m.Sorted ∧
    m.length ≤ p.maxLeaf ∧ ∀ a ∈ m, a.2 ≤ p.maxSpace

/-- The states that can be reached (a panic ends the execution). -/
inductive Reach (e : Env) (p : Params) (s₀ : Sys) : Sys → Prop
  | init : Reach e p s₀ s₀
  | step {s s' : Sys} : Reach e p s₀ s → Step e p s (some s') → Reach e p s₀ s'

end Verif.TreeCredit
