import Verif.Tree.Model
import Verif.Tree.CleanSpec

/-!
# The consistency check (`Tree::check`, `Database::check`, `bfffs check`)

`tree/tree/mod.rs:552-652`, `tree/node.rs:1180-1206`, `idml/idml.rs:171-186`,
`database/database.rs:327-370`, `bfffs/src/bin/bfffs/main.rs:43-62`.

The trees are those of `Verif.Tree`, but here nothing is assumed about them: their keys may be in any
order and their nodes of any size.  What the representation does assume: all leaves are at the same
depth (the code would panic in `as_int` or `as_leaf`), and nodes on disk decode.

`rd a` says whether the node at address `a` can be read; if not, `rlock` fails with an error.  The
children of a node are visited from left to right; the code reads them all at once, so if there
are several errors and panics, another one of them may come first.
-/

namespace Verif.Check

open Verif (OMap)
open Verif.Tree (Addr Meta Child Sub Node Tree Limits firstKey)

variable {V : Type}

/-- What a check may do. -/
inductive Res (α : Type) where
  | ok (a : α)
  /-- an error from reading -/
  | err
  | panic
deriving DecidableEq, Repr

/-- Can the node that a pointer leads to be read?  Those in memory can. -/
def readable (rd : Addr → Bool) (m : Meta) : Bool :=
  match m.addr with
  | none => true
  | some a => rd a

/-- `node.rs:1186-1195`: the number of elements. -/
def lenOk (L : Limits) (h : Nat) (isRoot : Bool) (n : Node V h) : Bool :=
  if !isRoot && decide (n.length < L.min h) then false
  else if n.length > L.max h then false
  else true

/-- `node.rs:1182-1206` `NodeData::check`; `none` is the panic of `key` on an empty node. -/
def nodeCheck (L : Limits) (h : Nat) (isRoot : Bool) (key : Nat) (n : Node V h) : Option Bool :=
  if isRoot then some (lenOk L h isRoot n)
  else (firstKey n).map fun k => lenOk L h isRoot n && !decide (key > k)

/-- What `check_r` finds out about a child: whether it passed, and its first and last key. -/
structure Kid where
  passed : Bool
  first : Nat
  last : Nat
deriving DecidableEq, Repr

/-- What `check_r` returns: the same, and the children's transactions. -/
structure Report where
  passed : Bool
  first : Nat
  last : Nat
  start : Nat
  stop : Nat
deriving DecidableEq, Repr

/-- `mod.rs:597-611, 618-630` for a child that is a leaf.  The transactions compared at 619 are
the same on both sides. -/
def kidLeaf (L : Limits) (rd : Addr → Bool) (e : Nat × Sub V 1) : Res Kid :=
  if !readable rd e.2.info then .err
  else
    match nodeCheck L 0 false e.1 e.2.kids, firstKey e.2.kids, e.2.kids.getLast? with
    | some ok, some f, some l => .ok ⟨ok, f, l.1⟩
    | _, _, _ => .panic

/-- `mod.rs:597-630` for a child that is not a leaf; `go` is `check_r` of that child. -/
def kidInt (L : Limits) (rd : Addr → Bool) (h : Nat) (go : Node V (h + 1) → Res Report)
    (e : Nat × Sub V (h + 2)) : Res Kid :=
  if !readable rd e.2.info then .err
  else
    match nodeCheck L (h + 1) false e.1 e.2.kids with
    | none => .panic
    | some ok =>
      match go e.2.kids with
      | .ok r =>
        if r.start < e.2.info.start || decide (r.stop > e.2.info.stop) then .ok ⟨false, e.1, r.last⟩
        else .ok ⟨r.passed && ok, e.1, r.last⟩
      | .err => .err
      | .panic => .panic

/-- `try_collect` (`mod.rs:632`). -/
def collect {α β : Type} (f : α → Res β) : List α → Res (List β)
  | [] => .ok []
  | a :: as =>
    match f a with
    | .ok b =>
      match collect f as with
      | .ok bs => .ok (b :: bs)
      | .err => .err
      | .panic => .panic
    | .err => .err
    | .panic => .panic

/-- `mod.rs:636-648`: `all` stops at the first child that starts before the end of the one before
it.  Also the last key seen. -/
def sorted : Nat → List Kid → Bool × Nat
  | last, [] => (true, last)
  | last, k :: ks => if last > k.first then (false, k.last) else sorted k.last ks

/-- `mod.rs:591-592`, 633-650. -/
def summary (h : Nat) (n : Node V (h + 1)) (ks : List Kid) : Res Report :=
  match n, ks with
  | e :: es, k :: ks =>
    let s := sorted 0 (k :: ks)
    .ok { passed := (k :: ks).all (·.passed) && s.1, first := k.first, last := s.2,
          start := es.foldl (fun a e => Nat.min a e.2.info.start) e.2.info.start,
          stop := es.foldl (fun a e => Nat.max a e.2.info.stop) e.2.info.stop }
  | _, _ => .panic

/-- `mod.rs:585-652` `check_r`. -/
def checkR (L : Limits) (rd : Addr → Bool) : (h : Nat) → Node V (h + 1) → Res Report
  | 0, n =>
    match collect (kidLeaf L rd) n with
    | .ok ks => summary 0 n ks
    | .err => .err
    | .panic => .panic
  | h + 1, n =>
    match collect (kidInt L rd h (checkR L rd h)) n with
    | .ok ks => summary (h + 1) n ks
    | .err => .err
    | .panic => .panic

/-- `mod.rs:561-573`: the rest of `check` for a root that is not a leaf. -/
def rootRest (rootOk : Bool) (info : Meta) : Res Report → Res Bool
  | .ok r =>
    if r.start < info.start || decide (r.stop > info.stop) then .ok false
    else .ok (rootOk && r.passed)
  | .err => .err
  | .panic => .panic

/-- `mod.rs:552-574` `Tree::check`. -/
def check (L : Limits) (rd : Addr → Bool) (t : Tree V) : Res Bool :=
  if !readable rd t.info then .err
  else
    match t with
    | ⟨0, _, n⟩ => .ok (lenOk L 0 true n)
    | ⟨h + 1, info, n⟩ => rootRest (lenOk L (h + 1) true n) info (checkR L rd h n)

/-! ## The whole database -/

/-- `database.rs:363-369`: the fold over the file systems, each of which is opened and checked. -/
def foldTrees : Bool → List (Res Bool) → Res Bool
  | passed, [] => .ok passed
  | passed, .ok r :: rs => foldTrees (r && passed) rs
  | _, .err :: _ => .err
  | _, .panic :: _ => .panic

/-- `idml.rs:180-186` `IDML::check`: the AllocT, the RIDT and `check_ridt`
(`Verif.Idml.checkRidt`). -/
def idmlCheck : Res Bool → Res Bool → Res Bool → Res Bool
  | .ok x, .ok y, .ok z => .ok (x && y && z)
  | .panic, _, _ => .panic
  | _, .panic, _ => .panic
  | _, _, .panic => .panic
  | _, _, _ => .err

/-- `database.rs:333-370` `Database::check`: what the parts return goes in, what the check returns
comes out.  The tree of the forest itself is not among them. -/
def dbCheck (alloct ridt ridtCheck : Res Bool) (fss : List (Res Bool)) : Res Bool :=
  match idmlCheck alloct ridt ridtCheck with
  | .ok passed =>
    match foldTrees true fss with
    | .ok r => .ok (passed && r)
    | .err => .err
    | .panic => .panic
  | .err => .err
  | .panic => .panic

/-- `main.rs:43-62` `Check::main`: the exit status of the command.  A device that cannot be tasted, an
error and a panic all end in a panic (101). -/
def command (imported : Bool) (r : Res Bool) : Nat :=
  if imported then
    match r with
    | .ok _ => 0
    | .err => 101
    | .panic => 101
  else 1

end Verif.Check
