/-!
# What a directory is

A map from full names to items; no hashes, no buckets.
-/

namespace Verif.Dir.Spec

variable {α N : Type} [DecidableEq N]

inductive Op (α N : Type) where
  | get (n : N)
  | insert (a : α)
  | remove (n : N)

/-- What the caller sees: an item (found, replaced or removed) or nothing. -/
abbrev Map (α N : Type) := N → Option α

def empty : Map α N := fun _ => none

/-- One operation: the new map and the answer. -/
def apply (name : α → N) (m : Map α N) : Op α N → Map α N × Option α
  | .get n => (m, m n)
  | .insert a => (fun n => if n = name a then some a else m n, m (name a))
  | .remove n0 => (fun n => if n = n0 then none else m n, m n0)

/-- The map and the answers after a sequence of operations. -/
def run (name : α → N) (m : Map α N) : List (Op α N) → Map α N × List (Option α)
  | [] => (m, [])
  | op :: ops =>
    let r := apply name m op
    let rs := run name r.1 ops
    (rs.1, r.2 :: rs.2)

end Verif.Dir.Spec
