import Verif.Conc.Scan

/-!
# What it means that each part of a range query is atomic

The specification adds range queries to the atomic map of `Verif.Conc.Spec`.  A query takes a copy
of the map at one instant, and what it returns later is a part of that copy.
-/

namespace Verif.Conc

open Verif
open Verif.Tree (Bnd inRange)

variable {V : Type}

/-- Is `k` at or after the start bound? -/
def After (s : Bnd Nat) (k : Nat) : Prop :=
  match s with
  | .incl a => a ≤ k
  | .excl a => a < k
  | .unb => True

/-- What one call may return if the map is `m`: the first items of the range, in order, and where
the rest of it begins; or all of the items.  If there is a rest then something was returned, and the
rest begins after it. -/
def Part (m : OMap V) (s e : Bnd Nat) (v : OMap V) : Option (Bnd Nat) → Prop
  | none => v = m.filter fun x => inRange s e x.1
  | some s' => v ≠ [] ∧ (∀ x ∈ v, ¬ After s' x.1) ∧ (∀ k, After s' k → After s k) ∧
      m.filter (fun x => inRange s e x.1) = v ++ m.filter fun x => inRange s' e x.1

/-- The atomic map, and the copies taken for range queries. -/
structure XAtomic (V : Type) where
  atom : Atomic V
  copies : Nat → Option (Bnd Nat × Bnd Nat × OMap V)

inductive XAStep : XAtomic V → List (XEvent V) → XAtomic V → Prop
  | base {a a' : Atomic V} {es : List (Event V)} (c : Nat → Option (Bnd Nat × Bnd Nat × OMap V)) :
      AStep a es a' → XAStep ⟨a, c⟩ (es.map .base) ⟨a', c⟩
  /-- a query is called under a new name, and copies the map -/
  | scan (a : Atomic V) (c : Nat → Option (Bnd Nat × Bnd Nat × OMap V)) (id : Nat)
      (s e : Bnd Nat) : c id = none →
      XAStep ⟨a, c⟩ [.scan id s e]
        ⟨a, fun i => if i = id then some (s, e, a.map) else c i⟩
  /-- a query returns a part of its copy -/
  | chunk (a : Atomic V) (c : Nat → Option (Bnd Nat × Bnd Nat × OMap V)) (id : Nat)
      (s e : Bnd Nat) (m v : OMap V) (b : Option (Bnd Nat)) : c id = some (s, e, m) →
      Part m s e v b → XAStep ⟨a, c⟩ [.chunk id v b] ⟨a, c⟩

inductive XARun : XAtomic V → List (XEvent V) → XAtomic V → Prop
  | nil (s : XAtomic V) : XARun s [] s
  | cons {s s1 s2 : XAtomic V} {es es' : List (XEvent V)} :
      XAStep s es s1 → XARun s1 es' s2 → XARun s (es ++ es') s2

end Verif.Conc
