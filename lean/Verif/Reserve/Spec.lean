import Verif.Reserve.Model
import Verif.Isol.Spec

/-!
# When a reservation is enough
-/

namespace Verif.Reserve
open Verif.Isol

/-- All that the operations asked for. -/
def asked (S : Sizes) (l : Ledger) : Nat := (l.map fun e => want S e.1).sum
/-- All that they got. -/
def got (l : Ledger) : Nat := (l.map fun e => e.2).sum
/-- How much the operations are short of what they asked for, taken together. -/
def short (S : Sizes) (l : Ledger) : Nat := (l.map fun e => want S e.1 - e.2).sum
/-- The space allocated by the values that were inserted. -/
def inserted (S : Sizes) : Ledger → Nat
  | [] => 0
  | (.insert v, _) :: l => alloc S v + inserted S l
  | _ :: l => inserted S l

/-- The numbers of insertions, range deletions and removals. -/
def inserts (l : Ledger) : Nat := l.countP fun e => match e.1 with | .insert _ => true | _ => false
def clears (l : Ledger) : Nat := l.countP fun e => match e.1 with | .clear => true | _ => false
def removes (l : Ledger) : Nat := l.countP fun e => match e.1 with | .remove => true | _ => false

/-- What an operation cannot do without, by `Verif.TreeCredit` (C73): a removal or a range deletion all
that it asks for; an insertion the space of one full leaf and of the new item. -/
def need (S : Sizes) : Act → Nat
  | .insert v => S.leaf + S.kvs + alloc S v
  | .remove => 2 * S.leaf
  | .clear => 3 * S.leaf

/-- Any tree in which files have the record sizes `rs`; nothing else is asked of it. -/
def Sized (rs : Nat → Nat) (m : Store) : Prop :=
  ∀ ino i r, m (inodeKey ino) = some (.inode i) → i.kind = .reg r → r = rs ino ∧ 0 < r

/-- A tree without hash collisions: what is found under the hash of a name has that name.  No record is
longer than the record size of its file. -/
structure Plain (H : Hash) (rs : Nat → Nat) (m : Store) : Prop where
  sized : Sized rs m
  dirent : ∀ ino n v, m (direntKey H ino n) = some v → ∃ d, v = .dirent d ∧ d.name = n
  xattr : ∀ ino ns n v, m (xattrKey H ino ns n) = some v →
    ∃ a, v = .xattr a ∧ a.ns = ns ∧ a.name = n
  extent : ∀ ino off b, m (extentKey ino off) = some (.extent b) → b.length ≤ rs ino

/-- The record size of the file that a call is about. -/
def fileOf : Call → Nat
  | .write ino _ _ => ino
  | .setattr ino _ _ => ino
  | .deallocate ino _ _ => ino
  | _ => 0

/-- What a call is short of at the most: the code does not reserve anything for inodes, nor for the
records that a truncation or a deallocation cuts. -/
def unpaid (S : Sizes) (rs : Nat) : Call → Nat
  | .unlink _ _ _ => 2 * S.inode
  | .setattr _ size _ => S.inode + if size.isSome then rs + fudge else 0
  | .deallocate _ _ _ => S.inode + 2 * (rs + fudge)
  | .write _ _ _ => S.inode
  | .read _ _ _ _ => S.inode
  | _ => 0

/-- An inode and the longest name are smaller than a full leaf. -/
structure Small (S : Sizes) (c : Call) : Prop where
  pos : 0 < S.leaf
  inode : S.inode ≤ S.leaf
  name : ∀ parent ino name newparent target newname,
    c = .rename parent ino name newparent target newname → newname.length ≤ S.leaf

end Verif.Reserve
