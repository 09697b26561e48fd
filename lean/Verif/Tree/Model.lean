import Verif.Common.OMap

/-!
# The copy-on-write B+tree (`bfffs-core/src/tree/tree/mod.rs`, `tree/node.rs`)

A sequential model of `insert`, `remove`, `get`, `range_delete`, `range`, `last_key` and
`flush`.  `none` is a panic: an index out of bounds, an arithmetic underflow or a failed
`unwrap`.

Representation.  Keys are natural numbers (every `K` is a fixed-width unsigned integer or a
structure compared like one) and `K::min_value()` is 0.  A leaf's `BTreeMap` is the list of
its items in key order.  A node is typed by its height, leaves having height 0, so that a
sibling, a split half or a merged node has the height the code needs: where the code panics
in `as_int` or `as_leaf` on a node of the wrong kind the model would not type check.

Not modelled: locks (each operation runs alone), credit (see `Verif.WriteBack`), I/O errors,
and what happens to the blocks of replaced nodes and values.
-/

namespace Verif.Tree

variable {V : Type}

/-- An on-disk address: where the node is, and the transaction in which it was written
(the latter is not stored in the code's addresses; it is what `txgs` is about). -/
structure Addr where
  pba : Nat
  txg : Nat
deriving DecidableEq, Repr

/-- The parts of an `IntElem` (`node.rs:1019-1031`) other than its key and its node:
`txgs.start`, `txgs.end`, and the pointer's kind: in memory (`none`) or on disk.  `mark`
stands for membership of the node's memory address in `range_delete`'s `HashSet`. -/
structure Meta where
  start : Nat
  stop : Nat
  addr : Option Addr
  mark : Bool
deriving DecidableEq, Repr

/-- A pointer to a node, with its metadata. -/
structure Child (α : Type) where
  info : Meta
  kids : List (Nat × α)

/-- What a key of a node of height `h` leads to: a value, or a node one level down. -/
def Sub (V : Type) : Nat → Type
  | 0 => V
  | h + 1 => Child (Sub V h)

/-- A node of height `h` (`node.rs:1141-1145` `NodeData`). -/
abbrev Node (V : Type) (h : Nat) := List (Nat × Sub V h)

/-- The tree: `TreeRoot` with its `height` (which is `h + 1`) and root element. -/
structure Tree (V : Type) where
  h : Nat
  info : Meta
  root : Node V h

/-- `node.rs:736-755` `Limits`. -/
structure Limits where
  minInt : Nat
  maxInt : Nat
  minLeaf : Nat
  maxLeaf : Nat
deriving DecidableEq, Repr

/-- `node.rs:1262-1269` `min_fanout` of a node of height `h`. -/
def Limits.min (L : Limits) : Nat → Nat
  | 0 => L.minLeaf
  | _ + 1 => L.minInt

/-- `node.rs:1271-1278` `max_fanout`. -/
def Limits.max (L : Limits) : Nat → Nat
  | 0 => L.maxLeaf
  | _ + 1 => L.maxInt

/-! ## Node methods -/

/-- `node.rs:1104-1112` `position`: the rightmost child whose key is at most `k`, or 0. -/
def position {α} (cs : List (Nat × α)) (k : Nat) : Nat :=
  (cs.takeWhile (fun e => e.1 ≤ k)).length - 1

/-- `node.rs:1216-1219` `in_danger` -/
def inDanger (L : Limits) (h : Nat) (n : Node V h) : Bool := n.length ≤ L.min h

/-- `node.rs:1221-1224` `in_extra_danger` -/
def inExtraDanger (L : Limits) (h : Nat) (n : Node V h) : Bool := n.length ≤ L.min h + 1

/-- `node.rs:1280-1284` `underflow` -/
def underflow (L : Limits) (h : Nat) (n : Node V h) : Bool := n.length < L.min h

/-- `node.rs:1239-1242` `can_merge` -/
def canMerge (L : Limits) (h : Nat) (l r : Node V h) : Bool := l.length + r.length ≤ L.max h

/-- `node.rs:1286-1300` `should_split` (without its debug assertion). -/
def shouldSplit (L : Limits) : (h : Nat) → Node V h → Nat → Bool
  | 0, n, k => (OMap.get n k).isNone && decide (L.maxLeaf ≤ n.length)
  | _ + 1, n, _ => decide (L.maxInt ≤ n.length)

/-- `node.rs:1244-1251` `key`. -/
def firstKey {α} (n : List (Nat × α)) : Option Nat := n.head?.map (·.1)

/-- `node.rs:1328-1338` `start_txg`.  (For a node without children the code's `unwrap` would
panic; `Tree.Ordered` excludes them.) -/
def startTxg (txg : Nat) : (h : Nat) → Node V h → Nat
  | 0, _ => txg
  | _ + 1, n =>
    match n with
    | [] => txg
    | e :: es => es.foldl (fun a e => Nat.min a e.2.info.start) e.2.info.start

/-- `node.rs:1302-1325` `split`, with `LeafData::split` (565-587) and `IntData::split`
(1114-1130): the left node, the key of the right one, and the right node. -/
def split (L : Limits) (seq : Bool) (h : Nat) (n : Node V h) : Option (Node V h × Nat × Node V h) :=
  if seq ∧ n.length < L.min h then none
  else
    let left := if seq then n.length - L.min h else (n.length + 1) / 2
    (firstKey (n.drop left)).map fun k => (n.take left, k, n.drop left)

/-- `node.rs:1341-1354` `merge`.  The leaves' `BTreeMap::append` is a concatenation because all
keys of the left node are lower (`Tree.Ordered`). -/
def merge {α} (l r : List (Nat × α)) : List (Nat × α) := l ++ r

/-- How many keys `take_high_keys` and `take_low_keys` move (`node.rs:1366, 1394`).  `none`:
the subtraction underflows. -/
def keysToShare (self other : Nat) : Option Nat :=
  if other < self then none else some (Nat.max 1 ((other - self) / 2))

/-- `node.rs:1362-1389` `take_high_keys`: the new `self` and `other`. -/
def takeHighKeys {α} (self other : List (Nat × α)) : Option (List (Nat × α) × List (Nat × α)) :=
  (keysToShare self.length other.length).bind fun n =>
    if other.length < n then none
    else
      let cutoff := other.length - n
      some (other.drop cutoff ++ self, other.take cutoff)

/-- `node.rs:1391-1416` `take_low_keys`. -/
def takeLowKeys {α} (self other : List (Nat × α)) : Option (List (Nat × α) × List (Nat × α)) :=
  (keysToShare self.length other.length).bind fun n =>
    if other.length < n then none
    else some (self ++ other.take n, other.drop n)

/-! ## Locking a child -/

/-- `node.rs:816-864` `xlock`: bring child `i` into memory. -/
def xlock (txg : Nat) (h : Nat) (cs : Node V (h + 1)) (i : Nat) :
    Option (Node V (h + 1) × Node V h) :=
  (cs[i]?).map fun (k, c) =>
    let info := match c.info.addr with
      | none => { c.info with stop := txg + 1 }
      | some _ => { c.info with stop := txg + 1, addr := none, start := startTxg txg h c.kids }
    (cs.set i (k, ({ c with info } : Child (Sub V h))), c.kids)

/-- Write back the contents of child `i`. -/
def putKids (h : Nat) (cs : Node V (h + 1)) (i : Nat) (n : Node V h) : Node V (h + 1) :=
  match cs[i]? with
  | none => cs
  | some (k, c) => cs.set i (k, ({ c with kids := n } : Child (Sub V h)))

/-- Change the metadata of child `i`. -/
def putInfo (h : Nat) (cs : Node V (h + 1)) (i : Nat) (f : Meta → Meta) : Node V (h + 1) :=
  match cs[i]? with
  | none => cs
  | some (k, c) => cs.set i (k, ({ c with info := f c.info } : Child (Sub V h)))

/-- Change the key of child `i`. -/
def putKey (h : Nat) (cs : Node V (h + 1)) (i : Nat) (k : Nat) : Node V (h + 1) :=
  match cs[i]? with
  | none => cs
  | some (_, c) => cs.set i (k, c)

/-! ## Lookup -/

/-- `mod.rs:1110-1131` `get_r`. -/
def getR : (h : Nat) → Node V h → Nat → Option (Option V)
  | 0, n, k => some (OMap.get n k)
  | h + 1, n, k => (n[position n k]?).bind fun e => getR h e.2.kids k

/-- `mod.rs:1096-1107` `get`. -/
def Tree.get (t : Tree V) (k : Nat) : Option (Option V) := getR t.h t.root k

/-- `mod.rs:1383-1404` `last_key_r`. -/
def lastKeyR : (h : Nat) → Node V h → Option (Option Nat)
  | 0, n => some (OMap.lastKey n)
  | h + 1, n => (n[n.length - 1]?).bind fun e => lastKeyR h e.2.kids

/-- `mod.rs:1370-1381` `last_key`. -/
def Tree.lastKey (t : Tree V) : Option (Option Nat) := lastKeyR t.h t.root

/-! ## Insertion -/

/-- `mod.rs:1289-1315, 1318-1337, 1340-1358` `insert_int_no_split`, `insert_int` and
`insert_leaf_no_split`.  After splitting a child the code starts over at the same node; `fuel`
bounds how often, and `none` is returned if it is used up (which does not happen: see
`Verif.Tree.C38_insert`). -/
def insertInt (L : Limits) (seq : Bool) (txg : Nat) :
    (h : Nat) → (fuel : Nat) → Node V h → Nat → V → Option (Node V h × Option V)
  | 0, _, n, k, v => some (OMap.insert n k v, OMap.get n k)
  | _ + 1, 0, _, _, _ => none
  | h + 1, fuel + 1, n, k, v =>
    let i := position n k
    (n[i]?).bind fun e =>
      let n := if k < e.1 then putKey h n i k else n
      (xlock txg h n i).bind fun (n, child) =>
        if shouldSplit L h child k then
          (split L seq h child).bind fun (l, k', r) =>
            let n := putKids h n i l
            let n := putInfo h n i fun m => { m with start := startTxg txg h l, stop := txg + 1 }
            let new : Child (Sub V h) :=
              { info := { start := startTxg txg h r, stop := txg + 1, addr := none, mark := false }
                kids := r }
            insertInt L seq txg (h + 1) fuel (n.insertIdx (i + 1) (k', new)) k v
        else
          let n := if h = 0 then putInfo h n i fun m => { m with start := txg, stop := txg + 1 }
            else n
          (insertInt L seq txg h 2 child k v).map fun (child, old) => (putKids h n i child, old)
termination_by h fuel => (h, fuel)

/-- `mod.rs:2257-2293` `xlock_root`. -/
def Tree.xlockRoot (txg : Nat) (t : Tree V) : Tree V :=
  { t with info := { t.info with stop := txg + 1, addr := none } }

/-- `mod.rs:1259-1287` `insert`: the new tree and the old value. -/
def Tree.insert (L : Limits) (seq : Bool) (txg : Nat) (t : Tree V) (k : Nat) (v : V) :
    Option (Tree V × Option V) :=
  let t := t.xlockRoot txg
  if shouldSplit L t.h t.root k then
    (split L seq t.h t.root).bind fun (l, k', r) =>
      let old : Child (Sub V t.h) :=
        { info := { start := startTxg txg t.h l, stop := txg + 1, addr := none, mark := false }
          kids := l }
      let new : Child (Sub V t.h) :=
        { info := { start := startTxg txg t.h r, stop := txg + 1, addr := none, mark := false }
          kids := r }
      (insertInt L seq txg (t.h + 1) 2 [(0, old), (k', new)] k v).map fun (n, o) =>
        ({ h := t.h + 1, info := t.info, root := n }, o)
  else
    let info := if t.h = 0 then { t.info with start := txg, stop := txg + 1 } else t.info
    (insertInt L seq txg t.h 2 t.root k v).map fun (n, o) => ({ h := t.h, info, root := n }, o)

/-! ## Removal -/

/-- `mod.rs:828-893` `fix_int`: the new children, and how many nodes were merged before and
after the fixed one. -/
def fixInt (L : Limits) (txg : Nat) (h : Nat) (cs : Node V (h + 1)) (i : Nat) (child : Node V h) :
    Option (Node V (h + 1) × Nat × Nat) :=
  if cs.length < 2 then none
  else if i < cs.length - 1 then
    let j := i + 1
    (xlock txg h cs j).bind fun (cs, sib) =>
      if canMerge L h child sib then
        let child := merge child sib
        let cs := putKids h cs i child
        let cs := putInfo h cs i fun m => { m with start := startTxg txg h child }
        some (cs.eraseIdx j, 0, 1)
      else
        (takeLowKeys child sib).bind fun (child, sib) =>
          (firstKey sib).map fun k =>
            let cs := putKids h (putKids h cs i child) j sib
            let cs := putKey h cs j k
            let cs := putInfo h cs j fun m => { m with start := startTxg txg h sib }
            (putInfo h cs i fun m => { m with start := startTxg txg h child }, 0, 0)
  else
    let j := i - 1
    (xlock txg h cs j).bind fun (cs, sib) =>
      if canMerge L h sib child then
        let sib := merge sib child
        let cs := putKids h cs j sib
        let cs := putInfo h cs j fun m => { m with start := startTxg txg h sib }
        some (cs.eraseIdx i, 1, 0)
      else
        (takeHighKeys child sib).bind fun (child, sib) =>
          (firstKey child).map fun k =>
            let cs := putKids h (putKids h cs i child) j sib
            let cs := putKey h cs i k
            let cs := putInfo h cs j fun m => { m with start := startTxg txg h sib }
            (putInfo h cs i fun m => { m with start := startTxg txg h child }, 0, 0)

/-- `mod.rs:2107-2160` `remove_no_fix` and `remove_int`. -/
def removeR (L : Limits) (txg : Nat) : (h : Nat) → Node V h → Nat → Option (Node V h × Option V)
  | 0, n, k => some (OMap.remove n k, OMap.get n k)
  | h + 1, n, k =>
    (xlock txg h n (position n k)).bind fun (n, child) =>
      if inDanger L h child then
        (fixInt L txg h n (position n k) child).bind fun (n, _, _) =>
          let i := position n k
          (xlock txg h n i).bind fun (n, child) =>
            (removeR L txg h child k).map fun (child, old) => (putKids h n i child, old)
      else
        (removeR L txg h child k).map fun (child, old) =>
          (putKids h n (position n k) child, old)

/-- `IntElem::default` (`node.rs:1060-1078`): an empty tree. -/
def Tree.empty : Tree V :=
  { h := 0, info := { start := 0, stop := 0, addr := none, mark := false }, root := [] }

/-- One step of merging the root down (`mod.rs:2217-2248`). -/
def Tree.mergeRoot (txg : Nat) (t : Tree V) : Tree V :=
  match t with
  | ⟨0, _, _⟩ => t.xlockRoot txg
  | ⟨_ + 1, _, []⟩ => Tree.empty.xlockRoot txg
  | ⟨h + 1, _, [(_, c)]⟩ => ({ h, info := c.info, root := c.kids } : Tree V).xlockRoot txg
  | _ => t.xlockRoot txg

/-- `mod.rs:2096-2104` `remove`. -/
def Tree.remove (L : Limits) (txg : Nat) (t : Tree V) (k : Nat) : Option (Tree V × Option V) :=
  let t := t.mergeRoot txg
  (removeR L txg t.h t.root k).map fun (n, old) => ({ h := t.h, info := t.info, root := n }, old)

/-! ## Flushing -/

/-- `mod.rs:990-1087` `flush_leaves` and `flush_r`, repeated by `flush_once` until nothing is
dirty (927-988): every in-memory descendant is written, children before their parent, and its
pointer becomes an address.  `next` numbers the addresses that the DML hands out.  The code
visits the nodes in another order, which does not show in the result but for the numbering. -/
def flushR (txg : Nat) : (h : Nat) → (next : Nat) → Node V h → Nat × Node V h
  | 0, next, n => (next, n)
  | _ + 1, next, [] => (next, [])
  | h + 1, next, (k, c) :: cs =>
    match c.info.addr with
    | some _ =>
      let r := flushR txg (h + 1) next cs
      (r.1, (k, c) :: r.2)
    | none =>
      let p := flushR txg h next c.kids
      let c' : Child (Sub V h) :=
        { info := { c.info with
            start := startTxg txg h p.2, stop := txg + 1, addr := some { pba := p.1, txg } }
          kids := p.2 }
      let r := flushR txg (h + 1) (p.1 + 1) cs
      (r.1, (k, c') :: r.2)

/-- `mod.rs:896-988` `flush`. -/
def Tree.flush (txg next : Nat) (t : Tree V) : Tree V :=
  match t.info.addr with
  | some _ => t
  | none =>
    let p := flushR txg t.h next t.root
    { h := t.h
      info := { t.info with
        start := startTxg txg t.h p.2, stop := txg + 1, addr := some { pba := p.1, txg } }
      root := p.2 }

/-! ## Ranges -/

/-- `std::ops::Bound` -/
inductive Bnd (α : Type) where
  | incl (a : α)
  | excl (a : α)
  | unb
deriving DecidableEq, Repr

/-- `RangeBounds::contains`. -/
def inRange (s e : Bnd Nat) (k : Nat) : Bool :=
  (match s with
    | .incl a => decide (a ≤ k)
    | .excl a => decide (a < k)
    | .unb => true) &&
  (match e with
    | .incl b => decide (k ≤ b)
    | .excl b => decide (k < b)
    | .unb => true)

/-- `util.rs:156-164` `RangeBoundsExt::is_empty`. -/
def rangeIsEmpty (s e : Bnd Nat) : Bool :=
  match s, e with
  | .unb, _ => false
  | _, .unb => false
  | .incl s, .incl e => decide (e < s)
  | .incl s, .excl e => decide (e ≤ s)
  | .excl s, .incl e => decide (e ≤ s)
  | .excl s, .excl e => decide (e < s)

/-- `BTreeMap::range` and `extract_if` panic if the start exceeds the end, or if the two are
equal and both excluded. -/
def btreeRangePanics (s e : Bnd Nat) : Bool :=
  match s, e with
  | .unb, _ => false
  | _, .unb => false
  | .excl s, .excl e => decide (e ≤ s)
  | .incl s, .incl e => decide (e < s)
  | .incl s, .excl e => decide (e < s)
  | .excl s, .incl e => decide (e < s)

/-! ## Range deletion -/

/-- `mod.rs:1534-1556` `range_delete_get_bounds`, the start. -/
def startBound {α} (cs : List (Nat × α)) (key : Nat) (s : Bnd Nat) : Option (Bnd Nat) :=
  match s with
  | .unb => some (.incl 0)
  | .incl t =>
    if t < key then some (.incl 0)
    else (cs[position cs t]?).map fun c =>
      if c.1 = t then .incl (position cs t) else .excl (position cs t)
  | .excl t => if t < key then some (.incl 0) else some (.excl (position cs t))

/-- `t >= ubound` -/
def beyond (ub : Option Nat) (t : Nat) : Bool :=
  match ub with
  | some u => decide (u ≤ t)
  | none => false

/-- `mod.rs:1557-1578` `range_delete_get_bounds`, the end. -/
def stopBound {α} (cs : List (Nat × α)) (ub : Option Nat) (e : Bnd Nat) : Option (Bnd Nat) :=
  match e with
  | .unb => some (.excl cs.length)
  | .incl t =>
    if beyond ub t then some (.excl (position cs t + 1)) else some (.incl (position cs t))
  | .excl t =>
    if beyond ub t then some (.excl (position cs t + 1))
    else (cs[position cs t]?).map fun c =>
      if c.1 = t then .excl (position cs t) else .incl (position cs t)

/-- Which children are affected (`mod.rs:1646-1663`): those on the edges of the cut, and the
range of those wholly deleted. -/
structure Cut where
  left : Option Nat
  right : Option Nat
  first : Nat
  last : Nat
deriving DecidableEq, Repr

def cutOf : Bnd Nat → Bnd Nat → Option Cut
  | .incl i, .excl j => some { left := none, right := none, first := i, last := j }
  | .incl i, .incl j => some { left := none, right := some j, first := i, last := j }
  | .excl i, .excl j => some { left := some i, right := none, first := i + 1, last := j }
  | .excl i, .incl j => some { left := some i, right := some j, first := i + 1, last := j }
  | _, _ => none

/-- `mod.rs:1526-1580` `range_delete_get_bounds`, and 1646-1663. -/
def getCut {α} (cs : List (Nat × α)) (s e : Bnd Nat) (ub : Option Nat) : Option Cut :=
  (firstKey cs).bind fun key =>
    (startBound cs key s).bind fun a => (stopBound cs ub e).bind fun b => cutOf a b

/-- `node.rs:874-925` `xlock_nc`: the element that will replace child `i`, and the child. A child
that was on disk gets its own lowest key as its key. -/
def xlockNc (txg : Nat) (h : Nat) (cs : Node V (h + 1)) (i : Nat) :
    Option (Node V (h + 1) × Node V h) :=
  (cs[i]?).bind fun (k, c) =>
    match c.info.addr with
    | none =>
      let info := { c.info with stop := txg + 1 }
      let info := if h = 0 then { info with start := txg } else info
      some (cs.set i (k, ({ c with info } : Child (Sub V h))), c.kids)
    | some _ =>
      (firstKey c.kids).map fun k =>
        let info : Meta :=
          { start := startTxg txg h c.kids, stop := txg + 1, addr := none, mark := false }
        (cs.set i (k, ({ c with info } : Child (Sub V h))), c.kids)

/-- Remember that child `i` is in danger (`m.insert(id)`). -/
def setMark (h : Nat) (cs : Node V (h + 1)) (i : Nat) (d : Bool) : Node V (h + 1) :=
  if d then putInfo h cs i fun m => { m with mark := true } else cs

/-- The first key right of child `i` (`new_ubound`). -/
def ubAfter {α} (cs : List (Nat × α)) (ub : Option Nat) (i : Nat) : Option Nat :=
  match firstKey (cs.drop (i + 1)) with
  | some k => some k
  | none => ub

/-- `range_delete_purge` (`mod.rs:2014-2088`): drop the wholly deleted children. -/
def purge {α} (cs : List (Nat × α)) (first last : Nat) : Option (List (Nat × α)) :=
  if last < first ∨ cs.length < last then none else some (cs.take first ++ cs.drop last)

/-- What became of a child on the edge of the cut: its index, and whether it is in danger. -/
structure Edge where
  idx : Nat
  danger : Bool

/-- `mod.rs:1601-1797` `range_delete_pass1`: the damaged node (with its endangered children
marked), and whether it is in danger itself.

The two edges of the cut are processed one after the other, and before the purge; the code
runs the three concurrently on disjoint children. -/
def pass1 (L : Limits) (txg : Nat) (s e : Bnd Nat) :
    (h : Nat) → (ub : Option Nat) → Node V h → Option (Node V h × Bool)
  | 0, _, n =>
    if btreeRangePanics s e then none
    else
      let n : Node V 0 := n.filter (fun x : Nat × V => !inRange s e x.1)
      some (n, underflow L 0 n)
  | h + 1, ub, n =>
    -- one edge: lock the child and recurse
    let edge (n0 : Node V (h + 1)) (o : Option Nat) : Option (Node V (h + 1) × Option (Edge × Nat)) :=
      match o with
      | none => some (n0, none)
      | some i =>
        (xlockNc txg h n0 i).bind fun (n', child) =>
          (pass1 L txg s e h (ubAfter n ub i) child).map fun (child, d) =>
            (putKids h n' i child, some ({ idx := i, danger := d }, child.length))
    (getCut n s e ub).bind fun cut =>
      match cut.left with
      | some i =>
        if cut.right = some i then
          -- not yet at the lowest common ancestor (1667-1710)
          (xlock txg h n i).bind fun (n', child) =>
            (pass1 L txg s e h (ubAfter n ub i) child).map fun (child, d) =>
              if child.length = 0 then
                let n' := n'.eraseIdx i
                (n', inDanger L (h + 1) n')
              else
                let n' := setMark h (putKids h n' i child) i d
                (n', inDanger L (h + 1) n' || d)
        else
          (edge n cut.left).bind fun (n1, l) =>
            (edge n1 cut.right).bind fun (n2, r) => pass1Join L h cut n2 l r
      | none =>
        (edge n cut.left).bind fun (n1, l) =>
          (edge n1 cut.right).bind fun (n2, r) => pass1Join L h cut n2 l r
where
  /-- `mod.rs:1745-1796`: purge, and drop the edges that have become empty. -/
  pass1Join (L : Limits) (h : Nat) (cut : Cut) (n : Node V (h + 1))
      (l r : Option (Edge × Nat)) : Option (Node V (h + 1) × Bool) :=
    (purge n cut.first cut.last).map fun n =>
      let p := match l with
        | none => (n, 0)
        | some (ed, 0) => (n.eraseIdx ed.idx, 1)
        | some (ed, _ + 1) => (setMark h n ed.idx ed.danger, 0)
      let n := match r with
        | none => p.1
        | some (ed, 0) => p.1.eraseIdx (ed.idx - (cut.last - cut.first) - p.2)
        | some (ed, _ + 1) =>
          setMark h p.1 (ed.idx - (cut.last - cut.first) - p.2) ed.danger
      let danger : Option (Edge × Nat) → Bool := fun o => match o with
        | none => false
        | some (ed, _) => ed.danger
      (n, underflow L (h + 1) n || danger l || danger r)

/-- The indices of the marked children (`mod.rs:1889-1901`, `to_fix`): the first two. -/
def toFix (h : Nat) (n : Node V (h + 1)) : List Nat :=
  ((List.range n.length).filter fun i =>
    match n[i]? with
    | some (_, c) => c.info.mark && c.info.addr.isNone
    | none => false).take 2

/-- `mod.rs:1911-1928` `underflow`, the closure. -/
def pass2Underflow (L : Limits) (h : Nat) (n : Node V h) (common : Bool) : Bool :=
  match h with
  | 0 => underflow L 0 n
  | h + 1 => if common then inExtraDanger L (h + 1) n else inDanger L (h + 1) n

/-- `mod.rs:1934-1975`: the loop that fixes the left child.  State: the parent, its child at
`left - mb`, `mb`, `mm`, `stole`.  `fuel` bounds the iterations. -/
def fixLeft (L : Limits) (txg : Nat) (h : Nat) (left : Nat) (hasRight : Bool) :
    (fuel : Nat) → Node V (h + 1) → Node V h → (mb mm : Nat) → (stole : Bool) →
    Option (Node V (h + 1) × Node V h × Nat × Nat)
  | 0, _, _, _, _, _ => none
  | fuel + 1, n, child, mb, mm, stole =>
    let common := !hasRight || decide (0 < mm) || stole
    if !pass2Underflow L h child common || decide (n.length ≤ 1) then some (n, child, mb, mm)
    else if left < mb then none
    else
      let i := left - mb
      (fixInt L txg h n i child).bind fun (n, nmb, nma) =>
        if i < nmb then none
        else
          (xlock txg h n (i - nmb)).bind fun (n, child) =>
            fixLeft L txg h left hasRight fuel n child (mb + nmb) (mm + nma)
              (decide (nma = 0 ∧ nmb = 0) || stole)

/-- Clear the marks of the given children (`map.remove(&id)`). -/
def clearMarks (h : Nat) (n : Node V (h + 1)) (is : List Nat) : Node V (h + 1) :=
  is.foldl (fun n i => putInfo h n i fun m => { m with mark := false }) n

/-- `mod.rs:1870-2011` `range_delete_pass2_r`. -/
def pass2R (L : Limits) (txg : Nat) : (h : Nat) → Node V h → Option (Node V h)
  | 0, n => some n
  | h + 1, n =>
    match toFix h n with
    | [] => some n
    | left :: rest =>
      let n := clearMarks h n (toFix h n)
      let right : Option Nat := rest.head?
      (xlock txg h n left).bind fun (n, child) =>
        (fixLeft L txg h left right.isSome (n.length + 2) n child 0 0 false).bind
          fun (n, child, mb, mm) =>
          -- recurse into the left child
          (pass2R L txg h child).bind fun child =>
            let n := putKids h n (left - mb) child
            match right with
            | none => some n
            | some r =>
              if mm = 0 then
                if r < mb then none
                else
                  let j := r - mb
                  (xlock txg h n j).bind fun (n, child) =>
                    (if pass2Underflow L h child false then
                      (fixInt L txg h n j child).bind fun (n, nmb, _) =>
                        if j < nmb then none
                        else (xlock txg h n (j - nmb)).map fun (n, child) => (n, child, j - nmb)
                    else some (n, child, j)).bind fun (n, child, j) =>
                      (pass2R L txg h child).map fun child => putKids h n j child
              else some n

/-- Merging the root down as long as it has one child (`mod.rs:1828-1843, 1848-1863`). -/
def mergeDown (txg : Nat) : (h : Nat) → Meta → Node V h → Tree V
  | 0, info, n => ({ h := 0, info, root := n } : Tree V).xlockRoot txg
  | _ + 1, _, [] => Tree.empty.xlockRoot txg
  | h + 1, _, [(_, c)] => mergeDown txg h c.info c.kids
  | h + 1, info, n => ({ h := h + 1, info, root := n } : Tree V).xlockRoot txg

/-- Forget all marks: each `range_delete` starts with an empty `HashSet`. -/
def unmark : (h : Nat) → Node V h → Node V h
  | 0, n => n
  | h + 1, n => n.map fun e =>
    (e.1, ({ info := { e.2.info with mark := false }, kids := unmark h e.2.kids } :
      Child (Sub V h)))

/-- `mod.rs:1478-1511, 1812-1865` `range_delete` and `range_delete_pass2`. -/
def Tree.rangeDelete (L : Limits) (txg : Nat) (t : Tree V) (s e : Bnd Nat) : Option (Tree V) :=
  if rangeIsEmpty s e then some t
  else
    let t := t.xlockRoot txg
    (pass1 L txg s e t.h none (unmark t.h t.root)).bind fun (n, _) =>
      let t := mergeDown txg t.h t.info n
      (pass2R L txg t.h t.root).map fun n => mergeDown txg t.h t.info n

/-! ## Range queries -/

/-- `node.rs:477-492` `LeafData::range`. -/
def leafRange (n : Node V 0) (s e : Bnd Nat) : Option (OMap V × Bool) :=
  match OMap.lastKey n with
  | none => some ([], false)
  | some l =>
    let more := match e with
      | .incl i => !decide (i ≤ l)
      | .excl i => !decide (i ≤ l)
      | .unb => true
    if btreeRangePanics s e then none
    else some (n.filter (fun x : Nat × V => inRange s e x.1), more)

/-- A node of any height: the `TreeReadGuard`s of `get_range_r`. -/
structure Guard (V : Type) where
  h : Nat
  node : Node V h

/-- May a node with lowest key `k` hold something below the end bound? (`mod.rs:1206-1210`) -/
def belowEnd (e : Bnd Nat) (k : Nat) : Bool :=
  match e with
  | .incl x => decide (k ≤ x)
  | .excl x => decide (k < x)
  | .unb => true

/-- What to do at the leaf (`mod.rs:1169-1196`): the answer, or go on in the next node. -/
inductive LeafStep (V : Type) where
  | done (items : OMap V) (next : Option (Bnd Nat))
  | goto (g : Guard V)

def leafStep (n : Node V 0) (next : Option (Guard V)) (s e : Bnd Nat) : Option (LeafStep V) :=
  (leafRange n s e).bind fun (v, more) =>
    match next with
    | some ng =>
      if v.isEmpty && more then some (.goto ng)
      else if v.isEmpty then some (.done v none)
      else if more then (firstKey ng.node).map fun k => .done v (some (.incl k))
      else some (.done v none)
    | none =>
      if v.isEmpty then some (.done v none)
      else if more then (OMap.lastKey n).map fun k => .done v (some (.excl k))
      else some (.done v none)

/-- The child to start with (`mod.rs:1200-1203`). -/
def startChild {α} (n : List (Nat × α)) (s : Bnd Nat) : Nat :=
  match s with
  | .incl k => position n k
  | .excl k => position n k
  | .unb => 0

/-- The node right of child `i`, if it may hold part of the range (`mod.rs:1204-1234`). -/
def nextGuard (e : Bnd Nat) (h : Nat) (n : Node V (h + 1)) (i : Nat) (next : Option (Guard V)) :
    Option (Option (Guard V)) :=
  if i < n.length - 1 then
    match n[i + 1]? with
    | none => none
    | some c =>
      if belowEnd e c.1 then
        (firstKey c.2.kids).map fun k =>
          if belowEnd e k then some { h := h, node := c.2.kids } else none
      else some none
  else some next

/-- `mod.rs:1158-1247` `get_range_r`, down to the first leaf. -/
def descend (s e : Bnd Nat) : (h : Nat) → Node V h → Option (Guard V) → Option (LeafStep V)
  | 0, n, next => leafStep n next s e
  | h + 1, n, next =>
    let i := startChild n s
    (n[i]?).bind fun c =>
      (nextGuard e h n i next).bind fun next => descend s e h c.2.kids next

/-- `get_range_r` continuing in the next node, which it does at most once per call because the
second descent has no next node; `fuel` bounds it all the same. -/
def getRangeR (s e : Bnd Nat) : (fuel : Nat) → Guard V → Option (OMap V × Option (Bnd Nat))
  | 0, _ => none
  | fuel + 1, g =>
    (descend s e g.h g.node none).bind fun
      | .done v b => some (v, b)
      | .goto g => getRangeR s e fuel g

/-- `mod.rs:1133-1152` `get_range`. -/
def Tree.getRange (t : Tree V) (s e : Bnd Nat) : Option (OMap V × Option (Bnd Nat)) :=
  getRangeR s e (t.h + 2) { h := t.h, node := t.root }

/-- `mod.rs:91-217` `RangeQuery`, the state between polls. -/
structure Query (V : Type) where
  cursor : Option (Bnd Nat)
  data : OMap V
  stop : Bnd Nat

/-- `mod.rs:126-143` `RangeQuery::new` -/
def Query.new (s e : Bnd Nat) : Query V := { cursor := some s, data := [], stop := e }

/-- `mod.rs:180-217` `poll_next`, with `get_range` run to completion.  The outer `none` is a
panic; the inner one is the end of the stream. -/
def Query.poll (q : Query V) (t : Tree V) : Option (Option (Nat × V) × Query V) :=
  match q.data with
  | x :: xs => some (some x, { q with data := xs })
  | [] =>
    match q.cursor with
    | none => some (none, q)
    | some s =>
      (t.getRange s q.stop).map fun (v, b) =>
        match v with
        | [] => (none, { q with data := [], cursor := b })
        | x :: xs => (some x, { q with data := xs, cursor := b })

end Verif.Tree
