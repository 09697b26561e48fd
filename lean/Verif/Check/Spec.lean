import Verif.Check.Model
import Verif.Tree.Stream

/-!
# What a consistent tree is

A consistent tree is in order (`Tree.Ordered`: the keys increase from left to right and each
child's key and that of its right neighbour bound its contents), its nodes have the right sizes
(`Tree.Filled`), all of them can be read, and the transactions recorded for a node include those
recorded for its children.
-/

namespace Verif.Check

open Verif (OMap)
open Verif.Tree (Addr Meta Child Sub Node Tree Limits items)

variable {V : Type}

/-- Every node on disk can be read. -/
def Readable (rd : Addr → Bool) (t : Tree V) : Prop := ∀ a ∈ t.addrs, rd a = true

/-- The transactions recorded for the elements of a node of height `h` are within `lo..hi`. -/
def Covered (lo hi : Nat) : (h : Nat) → Node V h → Prop
  | 0, _ => True
  | _ + 1, n => ∀ e ∈ n, lo ≤ e.2.info.start ∧ e.2.info.stop ≤ hi

/-- The same for every node below this one, and the transactions recorded for it. -/
def CoveredBelow : (h : Nat) → Node V h → Prop
  | 0, _ => True
  | h + 1, n => ∀ e ∈ n, Covered e.2.info.start e.2.info.stop h e.2.kids ∧ CoveredBelow h e.2.kids

/-- The transactions recorded for every node include those recorded for its children. -/
def Covering (t : Tree V) : Prop :=
  Covered t.info.start t.info.stop t.h t.root ∧ CoveredBelow t.h t.root

/-- A consistent tree. -/
structure Consistent (L : Limits) (rd : Addr → Bool) (t : Tree V) : Prop where
  ordered : t.Ordered
  filled : t.Filled L
  covering : Covering t
  readable : Readable rd t

/-- The keys of each leaf increase (leaves are `BTreeMap`s). -/
def Leaves : (h : Nat) → Node V h → Prop
  | 0, n => n.Pairwise fun a b => a.1 < b.1
  | h + 1, n => ∀ e ∈ n, Leaves h e.2.kids

/-- Everything below a child has a key less than the keys recorded for the children to its right. -/
def Separated : (h : Nat) → Node V h → Prop
  | 0, _ => True
  | h + 1, n => (n.Pairwise fun a b => ∀ x ∈ items h a.2.kids, x.1 < b.1) ∧
      ∀ e ∈ n, Separated h e.2.kids

/-- The key recorded for a child is at most the keys of everything below it. -/
def LowerBounds : (h : Nat) → Node V h → Prop
  | 0, _ => True
  | h + 1, n => ∀ e ∈ n, (∀ x ∈ items h e.2.kids, e.1 ≤ x.1) ∧ LowerBounds h e.2.kids

/-- No node but a root that is a leaf is empty. -/
def NoEmpty : (h : Nat) → Node V h → Prop
  | 0, _ => True
  | h + 1, n => n ≠ [] ∧ ∀ e ∈ n, e.2.kids ≠ [] ∧ NoEmpty h e.2.kids

/-- The trees that there can be in transaction `T` without a `range_delete` so far: after
insertions, removals, flushes and zone cleanings.  (Range queries with bounds that make a `BTreeMap`
panic are not allowed.) -/
inductive Grown (L : Limits) (seq : Bool) : Nat → Tree V → Prop
  | empty : Grown L seq 0 Tree.empty
  | op {T : Nat} {t t' : Tree V} {op : Tree.Op V} {r : Tree.Res V} : Grown L seq T t → T ≤ op.time T →
    op.plain = true → Tree.step L seq t op = some (t', r) → Grown L seq (op.time T) t'
  | rewrite {T txg pba e k : Nat} {t t' : Tree V} : Grown L seq T t → T ≤ txg →
    t.rewrite txg pba e k = some t' → Grown L seq txg t'

end Verif.Check
