import Verif.Tree.Model

/-!
# What the B+tree properties say

C38: read as a list of items from left to right, the tree is a sorted association list, and
every operation does to it what an ordered map would do.  C39: the shape of the tree.
-/

namespace Verif.Tree

variable {V : Type}

/-- The items below one element of a node, from left to right. -/
def itemsOf : (h : Nat) → Nat × Sub V h → OMap V
  | 0, e => [e]
  | h + 1, e => e.2.kids.flatMap (itemsOf h)

/-- The items of a node, from left to right. -/
def items (h : Nat) (n : Node V h) : OMap V := n.flatMap (itemsOf h)

/-- The tree as an ordered map. -/
def Tree.toMap (t : Tree V) : OMap V := items t.h t.root

/-- Is `k` below the bound?  `none` is infinity. -/
def Below (k : Nat) : Option Nat → Prop
  | none => True
  | some u => k < u

/-- The key of the first element of a list, or `hi`. -/
def nextKey {α} (l : List (Nat × α)) (hi : Option Nat) : Option Nat :=
  match l with
  | [] => hi
  | e :: _ => some e.1

/-- The keys of `l` increase strictly and lie in `[lo, hi)`, and `P` holds of each element with
its key and that of its right neighbour. -/
def Chain {α} (P : Nat → Option Nat → α → Prop) : Nat → Option Nat → List (Nat × α) → Prop
  | _, _, [] => True
  | lo, hi, e :: es =>
    lo ≤ e.1 ∧ Below e.1 hi ∧ P e.1 (nextKey es hi) e.2 ∧ Chain P (e.1 + 1) hi es

/-- Everything below an element lies between its key and that of its right neighbour; and no
node other than the root is empty. -/
def Bounded : (h : Nat) → Nat → Option Nat → Sub V h → Prop
  | 0, _, _, _ => True
  | h + 1, lo, hi, c => c.kids ≠ [] ∧ Chain (Bounded h) lo hi c.kids

/-- The keys of the whole tree are in order, and each child's key bounds its contents.  A root
that is not a leaf has a child. -/
def Tree.Ordered (t : Tree V) : Prop :=
  Chain (Bounded t.h) 0 none t.root ∧ (t.h ≠ 0 → t.root ≠ [])

/-- Every node from here down has between the minimum and the maximum number of elements. -/
def FilledSub (L : Limits) : (h : Nat) → Sub V h → Prop
  | 0, _ => True
  | h + 1, c =>
    L.min h ≤ c.kids.length ∧ c.kids.length ≤ L.max h ∧ ∀ e ∈ c.kids, FilledSub L h e.2

/-- Every node but the root has between the minimum and the maximum number of elements, and the
root has at most the maximum. -/
def Tree.Filled (L : Limits) (t : Tree V) : Prop :=
  t.root.length ≤ L.max t.h ∧ ∀ e ∈ t.root, FilledSub L t.h e.2

/-- Every node has at most the maximum number of elements. -/
def NotOver (L : Limits) : (h : Nat) → Sub V h → Prop
  | 0, _ => True
  | h + 1, c => c.kids.length ≤ L.max h ∧ ∀ e ∈ c.kids, NotOver L h e.2

/-- The fanout limits the code creates (`node.rs:757-816`): room for a split and for a merge. -/
structure Limits.Ok (L : Limits) : Prop where
  leaf_pos : 1 ≤ L.minLeaf
  int_two : 2 ≤ L.minInt
  leaf : 2 * L.minLeaf ≤ L.maxLeaf
  int : 2 * L.minInt ≤ L.maxInt

/-! ## Histories -/

/-- One call.  `flush` stands for the tree being written out at any time in between. -/
inductive Op (V : Type) where
  | insert (txg k : Nat) (v : V)
  | remove (txg k : Nat)
  | rangeDelete (txg : Nat) (s e : Bnd Nat)
  | get (k : Nat)
  | lastKey
  | range (s e : Bnd Nat)
  | flush (txg next : Nat)

/-- What a call returns. -/
inductive Res (V : Type) where
  | value (o : Option V)
  | key (o : Option Nat)
  | list (l : List (Nat × V))
  | unit

/-- The specification: an ordered map, kept as a sorted list. -/
def specStep (m : OMap V) : Op V → OMap V × Res V
  | .insert _ k v => (OMap.insert m k v, .value (OMap.get m k))
  | .remove _ k => (OMap.remove m k, .value (OMap.get m k))
  | .rangeDelete _ s e => (m.filter (fun x => !inRange s e x.1), .unit)
  | .get k => (m, .value (OMap.get m k))
  | .lastKey => (m, .key (OMap.lastKey m))
  | .range s e => (m, .list (m.filter (fun x => inRange s e x.1)))
  | .flush _ _ => (m, .unit)

def specRun (m : OMap V) : List (Op V) → OMap V × List (Res V)
  | [] => (m, [])
  | op :: ops =>
    let p := specStep m op
    let q := specRun p.1 ops
    (q.1, p.2 :: q.2)

end Verif.Tree
