import Verif.TreeCredit.Model

/-!
# Specification of the writeback credit held by a tree

Nothing here mentions how the code keeps its books.
-/

namespace Verif.TreeCredit

/-- The bytes a leaf with these values needs in the writeback cache: for every
item its key and value, and whatever the value has allocated. -/
def bytes (kvs : Nat) : OMap Nat → Nat
  | [] => 0
  | (_, a) :: m => a + kvs + bytes kvs m

/-- The bytes of data that are in memory only. -/
def Cell.dirty (kvs : Nat) : Cell → Nat
  | .disk _ => 0
  | .mem l => bytes kvs l.items
  | .writing m _ => bytes kvs m

/-- The credit that is with a leaf. -/
def Cell.credit : Cell → Int
  | .disk _ => 0
  | .mem l => l.credit
  | .writing _ c => c

/-- All data that is in memory only. -/
def dirtyBytes (kvs : Nat) (s : Sys) : Nat := (s.cells.map fun x => x.2.dirty kvs).sum

/-- All credit that is with the leaves. -/
def leafCredit (s : Sys) : Int := (s.cells.map fun x => x.2.credit).sum

/-- All credit that calls have in hand. -/
def taskCredit (s : Sys) : Int := (s.tasks.map fun x => x.2.credit).sum

/-- Sane limits: a leaf can hold something, and two minimal leaves fit in one. -/
structure Params.Ok (p : Params) : Prop where
  pos : 1 ≤ p.maxLeaf
  fit : 2 * p.minLeaf ≤ p.maxLeaf

end Verif.TreeCredit
