import Verif.Tree.Stream

/-!
# Zone cleaning of a tree (`bfffs-core/src/tree/tree/mod.rs`)

`clean_zone` works level by level from the leaves.  At each level it first lists the nodes that
lie in the zone, in several calls of `get_dirty_nodes`, and then rewrites them one by one.  Other
operations may run in between.

The lookups and rewritings are atomic here: each is one call of `get_dirty_nodes` or
`rewrite_node`, which hold a lock on the path they work on.  `none` is a panic.
-/

namespace Verif.Tree

variable {V : Type}

/-- What `clean_zone` is given (`mod.rs:2341-2343`): the range of addresses, and the range of
transactions in which they were written.  A PBA is a cluster and an LBA, compared as a pair;
here it is a number. -/
structure Zone where
  pbaLo : Nat
  pbaHi : Nat
  txgLo : Nat
  txgHi : Nat
deriving DecidableEq, Repr

/-- Is the address in the zone (`mod.rs:2400-2402, 2436-2438`)? -/
def Zone.holds (z : Zone) (a : Addr) : Bool := decide (z.pbaLo ≤ a.pba) && decide (a.pba < z.pbaHi)

/-- The same for a pointer, which may be to a node in memory. -/
def Zone.dirty (z : Zone) (i : Meta) : Bool :=
  match i.addr with
  | none => false
  | some a => z.holds a

/-- `mod.rs:52-86` `ranges_overlap`, for two half-open ranges. -/
def overlap (a b c d : Nat) : Bool :=
  if b ≤ a ∨ d ≤ c then false else if b ≤ c ∨ d ≤ a then false else true

/-- `mod.rs:2426-2469` `get_dirty_nodes_r`: the keys of the dirty nodes of level `e` below the
first interesting node at or after `key`, and where to go on.  At a leaf `as_int` panics. -/
def dirtyR (z : Zone) (e key : Nat) :
    (h : Nat) → Node V h → Option Nat → Option (List Nat × Option Nat)
  | 0, _, _ => none
  | h + 1, n, next =>
    if h = e then
      let nodes := n.filter fun x => z.dirty x.2.info
      if nodes.all fun x => overlap z.txgLo z.txgHi x.2.info.start x.2.info.stop then
        some (nodes.map (·.1), next)
      else none
    else
      let i0 := position n key
      match (n.drop i0).findIdx? fun x =>
          overlap x.2.info.start x.2.info.stop z.txgLo z.txgHi with
      | none => some ([], next)
      | some j =>
        (n[i0 + j]?).bind fun x =>
          dirtyR z e key h x.2.kids (ubAfter n next (i0 + j))

/-- `mod.rs:2391-2420` `get_dirty_nodes`.  The key of the root is of no use; it is always 0. -/
def Tree.dirty (z : Zone) (e key : Nat) (t : Tree V) : Option (List Nat × Option Nat) :=
  if t.h = e then some (if z.dirty t.info then [0] else [], none)
  else dirtyR z e key t.h t.root none

/-- `mod.rs:2510-2562` `rewrite_node_r`.  `pba` is the address which `put` returns. -/
def rewriteR (txg pba e key : Nat) : (h : Nat) → Node V h → Option (Node V h)
  | 0, _ => none
  | h + 1, n =>
    let i := position n key
    if h = e then
      (n[i]?).map fun (k, c) =>
        match c.info.addr with
        | none => n
        | some _ =>
          let info := { c.info with
            addr := some { pba, txg }
            start := if h = 0 then txg else c.info.start
            stop := txg + 1 }
          n.set i (k, ({ c with info } : Child (Sub V h)))
    else
      (xlock txg h n i).bind fun (n, c) =>
        (rewriteR txg pba e key h c).map fun c => putKids h n i c

/-- `mod.rs:2472-2508` `rewrite_node`. -/
def Tree.rewrite (txg pba e key : Nat) (t : Tree V) : Option (Tree V) :=
  if t.h = e then
    match t.info.addr with
    | none => some t
    | some _ => some { t with info := { t.info with addr := some { pba, txg } } }
  else
    let t := t.xlockRoot txg
    (rewriteR txg pba e key t.h t.root).map fun n => { t with root := n }

/-- Where a cleaner is within one level: listing the nodes (`mod.rs:220-362` `CleanZonePass1`),
with the key to go on from and the keys found, or rewriting them (2373-2381), with the keys of
the nodes still to be rewritten. -/
inductive Phase where
  | look (cursor : Nat) (found : List Nat)
  | rewrite (todo : List Nat)
deriving DecidableEq, Repr

/-- A call of `clean_zone` in progress: the number of levels, read once at the start
(`mod.rs:2366`), the current level and the phase.  It is done when `level = levels`. -/
structure Job where
  zone : Zone
  levels : Nat
  level : Nat
  phase : Phase
deriving DecidableEq, Repr

/-- `mod.rs:2341-2368`: the start of `clean_zone`.  The tree's `height` is `h + 1`. -/
def Job.start (z : Zone) (t : Tree V) : Job :=
  { zone := z, levels := t.h + 1, level := 0, phase := .look 0 [] }

def Job.done (j : Job) : Bool := decide (j.levels ≤ j.level)

/-- What can happen while a zone is being cleaned.  `rewrite i` rewrites the `i`th of the listed
nodes: `try_for_each_concurrent` takes them in any order. -/
inductive Ev (V : Type) where
  | op (op : Op V)
  | look
  | rewrite (i txg pba : Nat)
  | advance

/-- One event: the new tree and job, and what a call of another operation returns.  A step of
the cleaner that is not possible now changes nothing. -/
def evStep (L : Limits) (seq : Bool) (s : Tree V × Job) :
    Ev V → Option ((Tree V × Job) × Option (Res V))
  | .op op => (step L seq s.1 op).map fun (t, r) => ((t, s.2), some r)
  | .look =>
    if s.2.done then some (s, none)
    else match s.2.phase with
      | .look cursor found =>
        (s.1.dirty s.2.zone s.2.level cursor).map fun (ks, next) =>
          match next with
          | some k => ((s.1, { s.2 with phase := .look k (found ++ ks) }), none)
          | none => ((s.1, { s.2 with phase := .rewrite (found ++ ks) }), none)
      | .rewrite _ => some (s, none)
  | .rewrite i txg pba =>
    match s.2.phase with
    | .look _ _ => some (s, none)
    | .rewrite todo =>
      match todo[i]? with
      | none => some (s, none)
      | some k =>
        (s.1.rewrite txg pba s.2.level k).map fun t =>
          ((t, { s.2 with phase := .rewrite (todo.eraseIdx i) }), none)
  | .advance =>
    match s.2.phase with
    | .rewrite [] => some ((s.1, { s.2 with level := s.2.level + 1, phase := .look 0 [] }), none)
    | _ => some (s, none)

/-- A history: the final tree and job, and what the other operations returned. -/
def evRun (L : Limits) (seq : Bool) (s : Tree V × Job) :
    List (Ev V) → Option ((Tree V × Job) × List (Res V))
  | [] => some (s, [])
  | e :: es =>
    (evStep L seq s e).bind fun p =>
      (evRun L seq p.1 es).map fun q => (q.1, p.2.toList ++ q.2)

end Verif.Tree
