import Verif.Tree.Model

/-!
# Concurrent operations on the B+tree

`Verif.Tree` runs each operation alone.  Here many tasks work on one tree at the same time, each
holding the locks that the code holds, and a step is what one task does from one lock acquisition
to the next.

Representation.  The state of every task is written where its lock is: a node carries its lock,
and the lock says which tasks hold it and what they will do next.  A task that waits for a node
always holds the node's parent (or the lock of the tree's root pointer), so it is found there.

Simplifications that hold for the whole file:

* Transactions, addresses, credit and I/O errors are left out; that a node has to be read from
  disk first only delays its lock.  See `Verif.Tree` and `Verif.WriteBack`.
* Locks are granted in any order that their state allows; the code's are granted first come, first
  served.
* Range queries are added in `Verif.Conc.Scan`; here they are only named among the readers, and
  `Read.plain` tells them from the others.
* `range_delete`, `check` and `dump` are left out, but for the part of `range_delete` that does not
  wait for a lock (`purgeLeaves`).
-/

namespace Verif.Conc

open Verif
open Verif.Tree (Limits position firstKey merge takeLowKeys takeHighKeys Bnd startChild)

variable {V : Type}

/-- The calls that a task can make.  `visit` is one descent of `flush_once`
(`/repo/bfffs-core/src/tree/tree/mod.rs` 924-988) or of `rewrite_node` (2472-2507), neither of
which changes the contents. -/
inductive Op (V : Type) where
  | insert (k : Nat) (v : V)
  | remove (k : Nat)
  | get (k : Nat)
  | lastKey
  | visit
deriving DecidableEq, Repr

/-- What a call returns. -/
inductive Res (V : Type) where
  | value (o : Option V)
  | key (o : Option Nat)
  | unit
deriving DecidableEq, Repr

/-- What the task that holds a node exclusively is about to do (`mod.rs` 1291-1337, 2108-2159,
830-893, 1038-1087, 2510-2561). -/
inductive Work (V : Type) where
  /-- `insert_int_no_split`: lock the child that `k` belongs to -/
  | insert (id k : Nat) (v : V)
  /-- `remove_no_fix`: lock the child that `k` belongs to, and see whether it must be fixed -/
  | remove (id k : Nat)
  /-- `fix_int`: child `i` is locked too; lock its sibling -/
  | fix (id k i : Nat)
  /-- `remove_int` after `fix_int`: lock the child that `k` belongs to now -/
  | fixed (id k : Nat)
  /-- `flush_r` and `rewrite_node_r`: lock some child -/
  | visit (id : Nat)
  /-- nothing; the task is at the parent, with `fix` -/
  | held (id : Nat)
deriving DecidableEq, Repr

/-- What a task that holds a node for reading is about to do (`mod.rs` 1113-1132, 1386-1404,
1158-1247). -/
inductive Read where
  | get (id k : Nat)
  | lastKey (id : Nat)
  /-- `get_range_r` at `guard`; `next` is the key of `next_guard`, if there is one -/
  | scan (id : Nat) (s e : Bnd Nat) (next : Option Nat)
  /-- `get_range_r` holds this node as its `next_guard`; `key` is the node's key -/
  | guard (id : Nat) (s e : Bnd Nat) (key : Nat)
deriving DecidableEq, Repr

/-- A reader that `Step` moves.  The others are moved in `Verif.Conc.Scan`. -/
def Read.plain : Read → Bool
  | .get _ _ => true
  | .lastKey _ => true
  | _ => false

/-- The `RwLock` of a node, or of the tree's root pointer.  `shared []` is unlocked. -/
inductive Lock (V : Type) where
  | excl (w : Work V)
  | shared (rs : List Read)
deriving DecidableEq, Repr

abbrev Lock.free : Lock V := .shared []

/-- A node with its lock: `Node`, `/repo/bfffs-core/src/tree/node.rs` 1520-1524. -/
structure Nd (V α : Type) where
  lock : Lock V
  kids : List (Nat × α)

/-- What a key of a node of height `h` leads to (`node.rs` 1141-1145). -/
@[reducible] def Sub (V : Type) : Nat → Type
  | 0 => V
  | h + 1 => Nd V (Sub V h)

/-- A node of height `h`; leaves have height 0. -/
abbrev Node (V : Type) (h : Nat) := Nd V (Sub V h)

/-- The elements of a node of height `h`. -/
abbrev Kids (V : Type) (h : Nat) := List (Nat × Sub V h)

/-- A node that was just created (`Node::new`, `node.rs` 1527-1529). -/
def fresh {h : Nat} (kids : Kids V h) : Node V h := ⟨.free, kids⟩

/-! ## What the node methods do (`node.rs`; see `Verif.Tree` for the single-threaded ones) -/

/-- `should_split`, `node.rs` 1286-1300. -/
def shouldSplit (L : Limits) : (h : Nat) → Kids V h → Nat → Bool
  | 0, n, k => (OMap.get n k).isNone && decide (L.maxLeaf ≤ n.length)
  | _ + 1, n, _ => decide (L.maxInt ≤ n.length)

/-- `split`, `node.rs` 1302-1325, 565-587, 1114-1130. -/
def split (L : Limits) (seq : Bool) (h : Nat) (n : Kids V h) :
    Option (Kids V h × Nat × Kids V h) :=
  if seq ∧ n.length < L.min h then none
  else
    let left := if seq then n.length - L.min h else (n.length + 1) / 2
    (firstKey (n.drop left)).map fun k => (n.take left, k, n.drop left)

/-- `in_danger`, `node.rs` 1216-1219. -/
def inDanger (L : Limits) (h : Nat) (n : Kids V h) : Bool := n.length ≤ L.min h

/-- The last part of `fix_int`, `mod.rs` 861-892, once child and sibling are both locked.  Both
locks are released. -/
def fixPair (L : Limits) (h : Nat) (cs : Kids V (h + 1)) (i : Nat) : Option (Kids V (h + 1)) :=
  if i < cs.length - 1 then
    match cs[i]?, cs[i + 1]? with
    | some (ki, c), some (kj, s) =>
      if c.kids.length + s.kids.length ≤ L.max h then
        some ((cs.set i (ki, fresh (merge c.kids s.kids))).eraseIdx (i + 1))
      else
        (takeLowKeys c.kids s.kids).bind fun (ck, sk) =>
          (firstKey sk).map fun k => (cs.set i (ki, fresh ck)).set (i + 1) (k, fresh sk)
    | _, _ => none
  else
    match i with
    | 0 => none
    | j + 1 =>
      match cs[j]?, cs[j + 1]? with
      | some (kj, s), some (_, c) =>
        if s.kids.length + c.kids.length ≤ L.max h then
          some ((cs.set j (kj, fresh (merge s.kids c.kids))).eraseIdx (j + 1))
        else
          (takeHighKeys c.kids s.kids).bind fun (ck, sk) =>
            (firstKey ck).map fun k => (cs.set (j + 1) (k, fresh ck)).set j (kj, fresh sk)
      | _, _ => none

/-- The sibling that `fix_int` locks, `mod.rs` 850-858. -/
def sibling {α : Type} (cs : List α) (i : Nat) : Nat := if i < cs.length - 1 then i + 1 else i - 1

/-- The child that a reader goes to: `get_r` 1121, `last_key_r` 1394. -/
def Read.child {α : Type} (r : Read) (cs : List (Nat × α)) : Nat :=
  match r with
  | .get _ k => position cs k
  | .lastKey _ => cs.length - 1
  | .scan _ s _ _ => startChild cs s
  | .guard _ _ _ _ => 0

/-- What a step shows to the world: nothing, or that a task returns. -/
abbrev Lbl (V : Type) := Option (Nat × Res V)

/-- What a reader returns when it finds the leaf `n`. -/
def Read.result (r : Read) (n : OMap V) : Lbl V :=
  match r with
  | .get id k => some (id, .value (OMap.get n k))
  | .lastKey id => some (id, .key (OMap.lastKey n))
  | .scan _ _ _ _ => none
  | .guard _ _ _ _ => none

/-- One step of a task at or below a node.  Every step ends by releasing what the code releases.
Only the readers that `ok` allows are moved. -/
inductive StepOf (ok : Read → Bool) (L : Limits) (seq : Bool) :
    (h : Nat) → Node V h → Lbl V → Node V h → Prop
  /-- a step further down -/
  | deeper {h : Nat} {lock : Lock V} {pre post : List (Nat × Node V h)} {key : Nat}
      {c c' : Node V h} {l : Lbl V} : StepOf ok L seq h c l c' →
      StepOf ok L seq (h + 1) ⟨lock, pre ++ (key, c) :: post⟩ l ⟨lock, pre ++ (key, c') :: post⟩
  /-- `remove_no_fix` in a leaf, `mod.rs` 2145-2150; the parent is unlocked already -/
  | removeLeaf {id k : Nat} {n : Kids V 0} :
      StepOf ok L seq 0 ⟨.excl (.remove id k), n⟩ (some (id, .value (OMap.get n k)))
        ⟨.free, OMap.remove n k⟩
  /-- `get_r` and `last_key_r` in a leaf, `mod.rs` 1117-1119, 1390-1392 -/
  | readLeaf {r : Read} {pre post : List Read} {n : Kids V 0} : ok r = true →
      StepOf ok L seq 0 ⟨.shared (pre ++ r :: post), n⟩ (r.result n)
        ⟨.shared (pre ++ post), n⟩
  /-- `insert_int`, `mod.rs` 1302-1309: the child is split, unlocked, and the parent stays locked.
  The child's key is lowered before its lock is requested (1329-1332), which nobody can see. -/
  | insertSplit {h id k : Nat} {v : V} {cs : Kids V (h + 1)} {key : Nat} {n : Kids V h}
      {left right : Kids V h} {k' : Nat} :
      cs[position cs k]? = some (key, fresh n) → shouldSplit L h n k = true →
      split L seq h n = some (left, k', right) →
      StepOf ok L seq (h + 1) ⟨.excl (.insert id k v), cs⟩ none
        ⟨.excl (.insert id k v),
          (cs.set (position cs k) (if k < key then k else key, fresh left)).insertIdx
            (position cs k + 1) (k', fresh right)⟩
  /-- `insert_int`, `mod.rs` 1314-1316: go on at the child, and unlock the parent -/
  | insertDown {h id k : Nat} {v : V} {cs : Kids V (h + 2)} {key : Nat} {n : Kids V (h + 1)} :
      cs[position cs k]? = some (key, fresh n) → shouldSplit L (h + 1) n k = false →
      StepOf ok L seq (h + 2) ⟨.excl (.insert id k v), cs⟩ none
        ⟨.free, cs.set (position cs k)
          (if k < key then k else key, (⟨.excl (.insert id k v), n⟩ : Node V (h + 1)))⟩
  /-- `insert_int` and `insert_leaf_no_split`, `mod.rs` 1310-1313, 1340-1358: both are locked until
  the end -/
  | insertLeaf {id k : Nat} {v : V} {cs : Kids V 1} {key : Nat} {n : Kids V 0} :
      cs[position cs k]? = some (key, fresh n) → shouldSplit L 0 n k = false →
      StepOf ok L seq 1 ⟨.excl (.insert id k v), cs⟩ (some (id, .value (OMap.get n k)))
        ⟨.free, cs.set (position cs k)
          (if k < key then k else key, (fresh (OMap.insert n k v) : Node V 0))⟩
  /-- `remove_int`, `mod.rs` 2120: the child needs fixing and stays locked -/
  | removeFix {h id k : Nat} {cs : Kids V (h + 1)} {key : Nat} {n : Kids V h} :
      cs[position cs k]? = some (key, fresh n) → inDanger L h n = true →
      StepOf ok L seq (h + 1) ⟨.excl (.remove id k), cs⟩ none
        ⟨.excl (.fix id k (position cs k)),
          cs.set (position cs k) (key, (⟨.excl (.held id), n⟩ : Node V h))⟩
  /-- `fix_int`, `mod.rs` 861-892: the sibling is locked, both are fixed and unlocked -/
  | fixPair {h id k i : Nat} {cs cs' : Kids V (h + 1)} {key : Nat} {n : Kids V h} :
      cs[sibling cs i]? = some (key, fresh n) → fixPair L h cs i = some cs' →
      StepOf ok L seq (h + 1) ⟨.excl (.fix id k i), cs⟩ none ⟨.excl (.fixed id k), cs'⟩
  /-- `remove_int`, `mod.rs` 2129-2131: go on at the child, and unlock the parent -/
  | removeDown {h id k : Nat} {cs : Kids V (h + 1)} {key : Nat} {n : Kids V h} :
      cs[position cs k]? = some (key, fresh n) → inDanger L h n = false →
      StepOf ok L seq (h + 1) ⟨.excl (.remove id k), cs⟩ none
        ⟨.free, cs.set (position cs k) (key, (⟨.excl (.remove id k), n⟩ : Node V h))⟩
  /-- `remove_int`, `mod.rs` 2124-2126: the same after fixing, without another look -/
  | fixedDown {h id k : Nat} {cs : Kids V (h + 1)} {key : Nat} {n : Kids V h} :
      cs[position cs k]? = some (key, fresh n) →
      StepOf ok L seq (h + 1) ⟨.excl (.fixed id k), cs⟩ none
        ⟨.free, cs.set (position cs k) (key, (⟨.excl (.remove id k), n⟩ : Node V h))⟩
  /-- `get_r` and `last_key_r`, `mod.rs` 1120-1129, 1393-1402: lock the child for reading, then
  unlock the parent -/
  | readDown {h : Nat} {r : Read} {pre post rs : List Read} {cs : Kids V (h + 1)} {key : Nat}
      {n : Kids V h} : ok r = true →
      cs[r.child cs]? = some (key, (⟨.shared rs, n⟩ : Node V h)) →
      StepOf ok L seq (h + 1) ⟨.shared (pre ++ r :: post), cs⟩ none
        ⟨.shared (pre ++ post), cs.set (r.child cs) (key, (⟨.shared (r :: rs), n⟩ : Node V h))⟩
  /-- `flush_r` and `rewrite_node_r`, `mod.rs` 1066-1085, 2556-2560 -/
  | visitDown {h id i : Nat} {cs : Kids V (h + 2)} {key : Nat} {n : Kids V (h + 1)} :
      cs[i]? = some (key, fresh n) →
      StepOf ok L seq (h + 2) ⟨.excl (.visit id), cs⟩ none
        ⟨.free, cs.set i (key, (⟨.excl (.visit id), n⟩ : Node V (h + 1)))⟩
  /-- `flush_leaves`, `flush_r` and `rewrite_node_r`, `mod.rs` 992-1028, 1067-1078, 2515-2551: a
  child's lock is taken and released, or not needed, and the child is written -/
  | visitDone {h id : Nat} {cs : Kids V h} :
      StepOf ok L seq h ⟨.excl (.visit id), cs⟩ (some (id, .unit)) ⟨.free, cs⟩

/-- Every reader is moved. -/
abbrev Step (L : Limits) (seq : Bool) (h : Nat) (n : Node V h) (l : Lbl V) (n' : Node V h) : Prop :=
  StepOf (fun _ => true) L seq h n l n'

/-- The tree: the root node, and its height. -/
structure Tree (V : Type) where
  h : Nat
  node : Node V h

/-- The tree with the tasks that use it. -/
structure Sys (V : Type) where
  /-- called, but without any lock yet -/
  calls : List (Nat × Op V)
  /-- the lock of the root pointer (`Tree::root`, `mod.rs` 445-455), whose holders wait for the
  root node -/
  top : Lock V
  tree : Tree V

/-- `Tree::create`, with no task. -/
def Sys.empty : Sys V := ⟨[], .free, ⟨0, fresh []⟩⟩

/-- What happens to the world outside. -/
inductive Event (V : Type) where
  | call (id : Nat) (op : Op V)
  | ret (id : Nat) (r : Res V)

def retOf : Lbl V → List (Event V)
  | none => []
  | some (id, r) => [.ret id r]

/-- The work of a task that got the lock of the root pointer. -/
def Op.work (id : Nat) : Op V → Option (Work V)
  | .insert k v => some (.insert id k v)
  | .remove k => some (.remove id k)
  | .visit => some (.visit id)
  | _ => none

/-- The same for those that only read. -/
def Op.read (id : Nat) : Op V → Option Read
  | .get k => some (.get id k)
  | .lastKey => some (.lastKey id)
  | _ => none

/-- One step of the whole system. -/
inductive SysStepOf (ok : Read → Bool) (L : Limits) (seq : Bool) :
    Sys V → List (Event V) → Sys V → Prop
  /-- a task makes a call -/
  | call {s : Sys V} (id : Nat) (op : Op V) :
      SysStepOf ok L seq s [.call id op] { s with calls := (id, op) :: s.calls }
  /-- `self.write().await`, `mod.rs` 1263, 2100, 938, 2475 -/
  | enterExcl {pre post : List (Nat × Op V)} {id : Nat} {op : Op V} {w : Work V} {t : Tree V} :
      op.work id = some w →
      SysStepOf ok L seq ⟨pre ++ (id, op) :: post, .free, t⟩ [] ⟨pre ++ post, .excl w, t⟩
  /-- `self.read()`, `mod.rs` 1100, 1373 -/
  | enterShared {pre post : List (Nat × Op V)} {id : Nat} {op : Op V} {r : Read} {rs : List Read}
      {t : Tree V} : op.read id = some r →
      SysStepOf ok L seq ⟨pre ++ (id, op) :: post, .shared rs, t⟩ []
        ⟨pre ++ post, .shared (r :: rs), t⟩
  /-- a task inside of the tree -/
  | inside {calls : List (Nat × Op V)} {top : Lock V} {h : Nat} {n n' : Node V h} {l : Lbl V} :
      StepOf ok L seq h n l n' →
      SysStepOf ok L seq ⟨calls, top, ⟨h, n⟩⟩ (retOf l) ⟨calls, top, ⟨h, n'⟩⟩
  /-- `insert`, `mod.rs` 1264-1280, 1284: the root node is split in place, and the root pointer
  unlocked -/
  | insertSplit {calls : List (Nat × Op V)} {id k : Nat} {v : V} {h : Nat} {n left right : Kids V h}
      {k' : Nat} : shouldSplit L h n k = true → split L seq h n = some (left, k', right) →
      SysStepOf ok L seq ⟨calls, .excl (.insert id k v), ⟨h, fresh n⟩⟩ []
        ⟨calls, .free, ⟨h + 1, ⟨.excl (.insert id k v), [(0, fresh left), (k', fresh right)]⟩⟩⟩
  /-- `insert`, `mod.rs` 1284-1285 -/
  | insertDown {calls : List (Nat × Op V)} {id k : Nat} {v : V} {h : Nat} {n : Kids V (h + 1)} :
      shouldSplit L (h + 1) n k = false →
      SysStepOf ok L seq ⟨calls, .excl (.insert id k v), ⟨h + 1, fresh n⟩⟩ []
        ⟨calls, .free, ⟨h + 1, ⟨.excl (.insert id k v), n⟩⟩⟩
  /-- `insert`, `mod.rs` 1281-1283 -/
  | insertLeaf {calls : List (Nat × Op V)} {id k : Nat} {v : V} {n : Kids V 0} :
      shouldSplit L 0 n k = false →
      SysStepOf ok L seq ⟨calls, .excl (.insert id k v), ⟨0, fresh n⟩⟩
        [.ret id (.value (OMap.get n k))] ⟨calls, .free, ⟨0, fresh (OMap.insert n k v)⟩⟩
  /-- `xlock_and_merge_root`, `mod.rs` 2225-2236: an only child becomes the root; the pointer stays
  locked -/
  | removeMerge {calls : List (Nat × Op V)} {id k : Nat} {h : Nat} {key : Nat} {c : Node V h} :
      SysStepOf ok L seq ⟨calls, .excl (.remove id k), ⟨h + 1, fresh [(key, c)]⟩⟩ []
        ⟨calls, .excl (.fixed id k), ⟨h, c⟩⟩
  /-- `xlock_and_merge_root`, `mod.rs` 2237-2245: a root without children becomes a leaf -/
  | removeEmpty {calls : List (Nat × Op V)} {id k : Nat} {h : Nat} :
      SysStepOf ok L seq ⟨calls, .excl (.remove id k), ⟨h + 1, fresh []⟩⟩ []
        ⟨calls, .excl (.fixed id k), ⟨0, fresh []⟩⟩
  /-- `remove`, `mod.rs` 2101-2103, without merging -/
  | removeDown {calls : List (Nat × Op V)} {id k : Nat} {h : Nat} {n : Kids V h} :
      h = 0 ∨ 2 ≤ n.length →
      SysStepOf ok L seq ⟨calls, .excl (.remove id k), ⟨h, fresh n⟩⟩ []
        ⟨calls, .free, ⟨h, ⟨.excl (.remove id k), n⟩⟩⟩
  /-- `remove`, `mod.rs` 2236, 2245, 2101-2103, after merging: no second look -/
  | fixedDown {calls : List (Nat × Op V)} {id k : Nat} {h : Nat} {n : Kids V h} :
      SysStepOf ok L seq ⟨calls, .excl (.fixed id k), ⟨h, fresh n⟩⟩ []
        ⟨calls, .free, ⟨h, ⟨.excl (.remove id k), n⟩⟩⟩
  /-- `get` and `last_key`, `mod.rs` 1102-1105, 1375-1378 -/
  | readDown {calls : List (Nat × Op V)} {r : Read} {pre post rs : List Read} {h : Nat}
      {n : Kids V h} : ok r = true →
      SysStepOf ok L seq ⟨calls, .shared (pre ++ r :: post), ⟨h, ⟨.shared rs, n⟩⟩⟩ []
        ⟨calls, .shared (pre ++ post), ⟨h, ⟨.shared (r :: rs), n⟩⟩⟩
  /-- `flush_once` and `rewrite_node`, `mod.rs` 943-953, 2500-2504 -/
  | visitDown {calls : List (Nat × Op V)} {id : Nat} {h : Nat} {n : Kids V (h + 1)} :
      SysStepOf ok L seq ⟨calls, .excl (.visit id), ⟨h + 1, fresh n⟩⟩ []
        ⟨calls, .free, ⟨h + 1, ⟨.excl (.visit id), n⟩⟩⟩
  /-- `flush_once` and `rewrite_node`, `mod.rs` 956-985, 2480-2497: only the root is written, or
  nothing -/
  | visitDone {calls : List (Nat × Op V)} {id : Nat} {t : Tree V} :
      SysStepOf ok L seq ⟨calls, .excl (.visit id), t⟩ [.ret id .unit] ⟨calls, .free, t⟩

abbrev SysStep (L : Limits) (seq : Bool) (s : Sys V) (es : List (Event V)) (s' : Sys V) : Prop :=
  SysStepOf (fun _ => true) L seq s es s'

/-- A run, and what the world sees of it. -/
inductive Run (L : Limits) (seq : Bool) : Sys V → List (Event V) → Sys V → Prop
  | nil (s : Sys V) : Run L seq s [] s
  | cons {s s1 s2 : Sys V} {es es' : List (Event V)} :
      SysStep L seq s es s1 → Run L seq s1 es' s2 → Run L seq s (es ++ es') s2

/-- `range_delete_purge` at a node whose children are leaves, `mod.rs` 2036-2075, for leaves in
memory: `node.0.try_unwrap().unwrap()` panics if someone has the leaf locked.  `none` is the
panic. -/
def purgeLeaves (cs : Kids V 1) (first last : Nat) : Option (Kids V 1) :=
  if ((cs.drop first).take (last - first)).all fun e =>
      match e.2.lock with
      | .shared [] => true
      | _ => false
  then some (cs.take first ++ cs.drop last)
  else none

end Verif.Conc
