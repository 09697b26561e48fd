import Verif.Common.OMap

/-!
# What a file system's tree is to its users

A sorted map from keys to values that hold their data.  There are no records,
no record ids and no flushes here.
-/

namespace Verif.Blob.Spec
open Verif (OMap)

/-- A value: something without a data part, the data of a piece of a file, one
extended attribute, or several extended attributes with one key. -/
inductive Plain (N : Type) where
  | other (x : Nat)
  | ext (data : List UInt8)
  | attr (name : N) (data : List UInt8)
  | attrs (l : List (N × List UInt8))
  deriving Repr, DecidableEq

inductive Op (N : Type) where
  | insert (k : Nat) (v : Plain N)
  | remove (k : Nat)
  | get (k : Nat)
  /-- delete all keys from `lo` up to `hi`, or all from `lo` on -/
  | rangeDelete (lo : Nat) (hi : Option Nat)

/-- Is `k` in `lo..hi`, or in `lo..`? -/
def within (lo : Nat) (hi : Option Nat) (k : Nat) : Bool :=
  decide (lo ≤ k) && (match hi with | some h => decide (k < h) | none => true)

/-- The map after an operation, and the value returned: what was found,
replaced or removed. -/
def apply {N : Type} (m : OMap (Plain N)) : Op N → OMap (Plain N) × Option (Plain N)
  | .insert k v => (m.insert k v, m.get k)
  | .remove k => (m.remove k, m.get k)
  | .get k => (m, m.get k)
  | .rangeDelete lo hi => (m.filter fun e => !within lo hi e.1, none)

def run {N : Type} (m : OMap (Plain N)) : List (Op N) → OMap (Plain N) × List (Option (Plain N))
  | [] => (m, [])
  | op :: ops =>
    let r := apply m op
    let rs := run r.1 ops
    (rs.1, r.2 :: rs.2)

/-- The pieces of data of a value that are longer than `n` bytes. -/
def big {N : Type} (n : Nat) : Plain N → List (List UInt8)
  | .other _ => []
  | .ext d => if d.length > n then [d] else []
  | .attr _ d => if d.length > n then [d] else []
  | .attrs l => (l.map (·.2)).filter fun d => d.length > n

/-! ## Extended attributes -/

/-- The attributes of a file: a value for each name that has one. -/
abbrev AMap (N : Type) := N → Option (List UInt8)

inductive AOp (N : Type) where
  | set (n : N) (data : List UInt8)
  | get (n : N)
  | len (n : N)
  | delete (n : N)
  | list

inductive AAnswer (N : Type) where
  | done
  | value (v : Option (List UInt8))
  | length (l : Option Nat)
  | existed (b : Bool)
  | names (l : List N)

def AMap.after {N : Type} [DecidableEq N] (m : AMap N) : AOp N → AMap N
  | .set n data => fun x => if x = n then some data else m x
  | .delete n => fun x => if x = n then none else m x
  | _ => m

/-- The right answers: the value, its length, whether the deleted attribute
existed, or the names of all attributes in some order without repetition. -/
def AMap.right {N : Type} (m : AMap N) : AOp N → AAnswer N → Prop
  | .set _ _, .done => True
  | .get n, .value v => v = m n
  | .len n, .length l => l = (m n).map List.length
  | .delete n, .existed b => b = (m n).isSome
  | .list, .names l => l.Nodup ∧ ∀ n, n ∈ l ↔ (m n).isSome
  | _, _ => False

/-- All answers of a history are right. -/
def AMap.allRight {N : Type} [DecidableEq N] (m : AMap N) :
    List (AOp N) → List (AAnswer N) → Prop
  | [], [] => True
  | op :: ops, a :: as => m.right op a ∧ (m.after op).allRight ops as
  | _, _ => False

end Verif.Blob.Spec
