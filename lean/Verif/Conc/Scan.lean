import Verif.Conc.Spec

/-!
# Range queries among other tasks

`Verif.Conc.Model` moves the tasks that insert, remove, look up and flush.  Here range queries
join them.  One call of `get_range` (`/repo/bfffs-core/src/tree/tree/mod.rs` 1137-1247) goes down to
a leaf with a lock on the node it is at and often another one on the node to the right of it, and
returns a part of the range and where to go on.

Simplifications:

* Where `get_range_r` waits for two locks at a time (`try_join`, 1239), the model takes both when
  both can be had.  The code may hold one of them earlier; what it protects does not change then.
* That a call waits for the root pointer's lock is not shown: a call starts when it gets that lock.
* A range that `BTreeMap::range` would panic on is not asked for; see `btreeRangePanics`.
-/

namespace Verif.Conc

open Verif
open Verif.Tree (Limits firstKey Bnd startChild belowEnd leafRange btreeRangePanics)

variable {V : Type}

/-- What `get_range_r` does at a leaf. -/
inductive Answer (V : Type) where
  | ret (items : OMap V) (next : Option (Bnd Nat))
  /-- go on in the node that is held as `next_guard` -/
  | goto
deriving DecidableEq, Repr

/-- `get_range_r` at a leaf, `mod.rs` 1167-1198.  `next` is `next_guard`'s key, if there is one. -/
def answer (n : OMap V) (next : Option Nat) (s e : Bnd Nat) : Option (Answer V) :=
  (leafRange (V := V) n s e).bind fun (v, more) =>
    match next with
    | some k =>
      if v.isEmpty && more then some .goto
      else if v.isEmpty then some (.ret v none)
      else if more then some (.ret v (some (.incl k)))
      else some (.ret v none)
    | none =>
      if v.isEmpty then some (.ret v none)
      else if more then (OMap.lastKey n).map fun k => .ret v (some (.excl k))
      else some (.ret v none)

/-- What a query does in a step. -/
inductive ScanLbl (V : Type) where
  /-- it went down and kept `next_guard`, if it had one -/
  | down (id : Nat)
  /-- it has a new right neighbour to look at, and does not need its `next_guard` any more -/
  | turn (id : Nat)
  /-- it went down after giving up its old `next_guard` -/
  | swap (id : Nat)
  /-- it left its leaf and goes on in its `next_guard` -/
  | goto (id : Nat) (s e : Bnd Nat) (key : Nat)
  | ret (id : Nat) (items : OMap V) (next : Option (Bnd Nat))

/-- One step of a range query at or below a node, `get_range_r`, `mod.rs` 1158-1247.  What becomes
of the old `next_guard` is in `XStep`. -/
inductive ScanStep : (h : Nat) → Node V h → ScanLbl V → Node V h → Prop
  | deeper {h : Nat} {lock : Lock V} {pre post : List (Nat × Node V h)} {key : Nat}
      {c c' : Node V h} {l : ScanLbl V} : ScanStep h c l c' →
      ScanStep (h + 1) ⟨lock, pre ++ (key, c) :: post⟩ l ⟨lock, pre ++ (key, c') :: post⟩
  /-- `mod.rs` 1177-1195 -/
  | leafRet {id : Nat} {s e : Bnd Nat} {next : Option Nat} {pre post : List Read} {n : Kids V 0}
      {v : OMap V} {b : Option (Bnd Nat)} : answer n next s e = some (.ret v b) →
      ScanStep 0 ⟨.shared (pre ++ .scan id s e next :: post), n⟩ (.ret id v b)
        ⟨.shared (pre ++ post), n⟩
  /-- `mod.rs` 1171-1176 -/
  | leafGoto {id : Nat} {s e : Bnd Nat} {key : Nat} {pre post : List Read} {n : Kids V 0} :
      answer n (some key) s e = some .goto →
      ScanStep 0 ⟨.shared (pre ++ .scan id s e (some key) :: post), n⟩ (.goto id s e key)
        ⟨.shared (pre ++ post), n⟩
  /-- `mod.rs` 1234-1236: the last child; `next_guard` stays what it is -/
  | downLast {h id : Nat} {s e : Bnd Nat} {next : Option Nat} {pre post rs : List Read}
      {cs : Kids V (h + 1)} {key : Nat} {n : Kids V h} :
      ¬ startChild cs s < cs.length - 1 →
      cs[startChild cs s]? = some (key, (⟨.shared rs, n⟩ : Node V h)) →
      ScanStep (h + 1) ⟨.shared (pre ++ .scan id s e next :: post), cs⟩ (.down id)
        ⟨.shared (pre ++ post),
          cs.set (startChild cs s) (key, (⟨.shared (.scan id s e next :: rs), n⟩ : Node V h))⟩
  /-- `mod.rs` 1206: not the last child.  `next_guard` is not used any more, and dropped when
  the function returns its future. -/
  | turn {h id : Nat} {s e : Bnd Nat} {next : Option Nat} {pre post : List Read}
      {cs : Kids V (h + 1)} : startChild cs s < cs.length - 1 →
      ScanStep (h + 1) ⟨.shared (pre ++ .scan id s e next :: post), cs⟩ (.turn id)
        ⟨.shared (pre ++ .scan id s e next :: post), cs⟩
  /-- `mod.rs` 1207-1212, 1231-1233: the key of the child to the right is beyond the range -/
  | downAlone {h id : Nat} {s e : Bnd Nat} {next : Option Nat} {pre post rs : List Read}
      {cs : Kids V (h + 1)} {key key' : Nat} {n : Kids V h} {c' : Node V h} :
      cs[startChild cs s + 1]? = some (key', c') → belowEnd e key' = false →
      cs[startChild cs s]? = some (key, (⟨.shared rs, n⟩ : Node V h)) →
      ScanStep (h + 1) ⟨.shared (pre ++ .scan id s e next :: post), cs⟩ (.swap id)
        ⟨.shared (pre ++ post),
          cs.set (startChild cs s) (key, (⟨.shared (.scan id s e none :: rs), n⟩ : Node V h))⟩
  /-- `mod.rs` 1218-1230: it is locked, but the first key in it turns out to be beyond the range -/
  | downBeyond {h id k : Nat} {s e : Bnd Nat} {next : Option Nat} {pre post rs rs' : List Read}
      {cs : Kids V (h + 1)} {key key' : Nat} {n n' : Kids V h} :
      cs[startChild cs s + 1]? = some (key', (⟨.shared rs', n'⟩ : Node V h)) →
      belowEnd e key' = true → firstKey n' = some k → belowEnd e k = false →
      cs[startChild cs s]? = some (key, (⟨.shared rs, n⟩ : Node V h)) →
      ScanStep (h + 1) ⟨.shared (pre ++ .scan id s e next :: post), cs⟩ (.swap id)
        ⟨.shared (pre ++ post),
          cs.set (startChild cs s) (key, (⟨.shared (.scan id s e none :: rs), n⟩ : Node V h))⟩
  /-- `mod.rs` 1218-1228: both are locked -/
  | downNext {h id k : Nat} {s e : Bnd Nat} {next : Option Nat} {pre post rs rs' : List Read}
      {cs : Kids V (h + 1)} {key key' : Nat} {n n' : Kids V h} :
      cs[startChild cs s + 1]? = some (key', (⟨.shared rs', n'⟩ : Node V h)) →
      belowEnd e key' = true → firstKey n' = some k → belowEnd e k = true →
      cs[startChild cs s]? = some (key, (⟨.shared rs, n⟩ : Node V h)) →
      ScanStep (h + 1) ⟨.shared (pre ++ .scan id s e next :: post), cs⟩ (.swap id)
        ⟨.shared (pre ++ post),
          (cs.set (startChild cs s)
            (key, (⟨.shared (.scan id s e (some k) :: rs), n⟩ : Node V h))).set
              (startChild cs s + 1) (key', (⟨.shared (.guard id s e k :: rs'), n'⟩ : Node V h))⟩

/-! ## The guard to the right -/

/-- Change the readers of a lock. -/
def Lock.mapReads (f : List Read → List Read) : Lock V → Lock V
  | .excl w => .excl w
  | .shared rs => .shared (f rs)

/-- The same for a node and everything below. -/
def mapReads (f : List Read → List Read) : (h : Nat) → Sub V h → Sub V h
  | 0, v => v
  | h + 1, c => (⟨c.lock.mapReads f, c.kids.map fun e => (e.1, mapReads f h e.2)⟩ : Node V h)

/-- `next_guard` of the query `id` is dropped. -/
def dropGuard (id : Nat) (rs : List Read) : List Read :=
  rs.filter fun r =>
    match r with
    | .guard id' _ _ _ => decide (id' ≠ id)
    | _ => true

/-- `next_guard` of the query becomes its `guard`, with nothing to the right (`mod.rs` 1175). -/
def wake (id : Nat) (s e : Bnd Nat) (key : Nat) (rs : List Read) : List Read :=
  rs.map fun r => if r = .guard id s e key then .scan id s e none else r

/-- Does the query hold a `next_guard` at or below a node? -/
def hasGuard (id : Nat) : (h : Nat) → Sub V h → Bool
  | 0, _ => false
  | h + 1, c =>
    (match c.lock with
      | .shared rs => dropGuard id rs != rs
      | .excl _ => false) || c.kids.any fun e => hasGuard id h e.2

/-- The tree, its tasks, and the names of all range queries that were ever started. -/
structure XSys (V : Type) where
  sys : Sys V
  used : List Nat

def XSys.empty : XSys V := ⟨Sys.empty, []⟩

/-- What happens to the world outside. -/
inductive XEvent (V : Type) where
  | base (e : Event V)
  /-- `get_range` is called and gets the root pointer's lock -/
  | scan (id : Nat) (s e : Bnd Nat)
  /-- `get_range` returns -/
  | chunk (id : Nat) (items : OMap V) (next : Option (Bnd Nat))

/-- One step of the system with range queries. -/
inductive XStep (L : Limits) (seq : Bool) : XSys V → List (XEvent V) → XSys V → Prop
  /-- the other tasks -/
  | base {s s' : Sys V} {used : List Nat} {es : List (Event V)} :
      SysStepOf Read.plain L seq s es s' → XStep L seq ⟨s, used⟩ (es.map .base) ⟨s', used⟩
  /-- `mod.rs` 1144; the name is new -/
  | scan {calls : List (Nat × Op V)} {rs : List Read} {t : Tree V} {used : List Nat} {id : Nat}
      {s e : Bnd Nat} : id ∉ used → btreeRangePanics s e = false →
      XStep L seq ⟨⟨calls, .shared rs, t⟩, used⟩ [.scan id s e]
        ⟨⟨calls, .shared (.scan id s e none :: rs), t⟩, id :: used⟩
  /-- `mod.rs` 1145-1150 -/
  | root {calls : List (Nat × Op V)} {pre post rs : List Read} {used : List Nat} {id : Nat}
      {s e : Bnd Nat} {h : Nat} {n : Kids V h} :
      XStep L seq ⟨⟨calls, .shared (pre ++ .scan id s e none :: post), ⟨h, ⟨.shared rs, n⟩⟩⟩, used⟩ []
        ⟨⟨calls, .shared (pre ++ post), ⟨h, ⟨.shared (.scan id s e none :: rs), n⟩⟩⟩, used⟩
  | down {calls : List (Nat × Op V)} {top : Lock V} {h id : Nat} {n n' : Node V h}
      {used : List Nat} : ScanStep h n (.down id) n' →
      XStep L seq ⟨⟨calls, top, ⟨h, n⟩⟩, used⟩ [] ⟨⟨calls, top, ⟨h, n'⟩⟩, used⟩
  /-- the old `next_guard` may be dropped before the new locks are had -/
  | release {calls : List (Nat × Op V)} {top : Lock V} {h id : Nat} {n n' : Node V h}
      {used : List Nat} : ScanStep h n (.turn id) n' → hasGuard id (h + 1) n' = true →
      XStep L seq ⟨⟨calls, top, ⟨h, n⟩⟩, used⟩ []
        ⟨⟨calls, top, ⟨h, mapReads (dropGuard id) (h + 1) n'⟩⟩, used⟩
  | swap {calls : List (Nat × Op V)} {top : Lock V} {h id : Nat} {n n' : Node V h}
      {used : List Nat} : ScanStep h (mapReads (dropGuard id) (h + 1) n) (.swap id) n' →
      XStep L seq ⟨⟨calls, top, ⟨h, n⟩⟩, used⟩ [] ⟨⟨calls, top, ⟨h, n'⟩⟩, used⟩
  | goto {calls : List (Nat × Op V)} {top : Lock V} {h id key : Nat} {s e : Bnd Nat}
      {n n' : Node V h} {used : List Nat} : ScanStep h n (.goto id s e key) n' →
      XStep L seq ⟨⟨calls, top, ⟨h, n⟩⟩, used⟩ []
        ⟨⟨calls, top, ⟨h, mapReads (wake id s e key) (h + 1) n'⟩⟩, used⟩
  | ret {calls : List (Nat × Op V)} {top : Lock V} {h id : Nat} {v : OMap V}
      {b : Option (Bnd Nat)} {n n' : Node V h} {used : List Nat} :
      ScanStep h n (.ret id v b) n' →
      XStep L seq ⟨⟨calls, top, ⟨h, n⟩⟩, used⟩ [.chunk id v b]
        ⟨⟨calls, top, ⟨h, mapReads (dropGuard id) (h + 1) n'⟩⟩, used⟩

/-- A run, and what the world sees of it. -/
inductive XRun (L : Limits) (seq : Bool) : XSys V → List (XEvent V) → XSys V → Prop
  | nil (s : XSys V) : XRun L seq s [] s
  | cons {s s1 s2 : XSys V} {es es' : List (XEvent V)} :
      XStep L seq s es s1 → XRun L seq s1 es' s2 → XRun L seq s (es ++ es') s2

end Verif.Conc
