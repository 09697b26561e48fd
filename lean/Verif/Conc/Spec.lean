import Verif.Conc.Model

/-!
# What it means that concurrent calls are atomic

The specification is an ordered map that every call reads and changes in one instant, somewhere
between the moment the call is made and the moment it returns.
-/

namespace Verif.Conc

open Verif.Tree (Limits)

variable {V : Type}

/-- What a call does to the map, and what it returns. -/
def specStep (m : OMap V) : Op V → OMap V × Res V
  | .insert k v => (OMap.insert m k v, .value (OMap.get m k))
  | .remove k => (OMap.remove m k, .value (OMap.get m k))
  | .get k => (m, .value (OMap.get m k))
  | .lastKey => (m, .key (OMap.lastKey m))
  | .visit => (m, .unit)

/-- An atomic map, with the calls that have not taken effect yet and those that have but did not
return yet. -/
structure Atomic (V : Type) where
  map : OMap V
  calls : List (Nat × Op V)
  done : List (Nat × Res V)

inductive AStep : Atomic V → List (Event V) → Atomic V → Prop
  | call (m : OMap V) (cs : List (Nat × Op V)) (ds : List (Nat × Res V)) (id : Nat) (op : Op V) :
      AStep ⟨m, cs, ds⟩ [.call id op] ⟨m, (id, op) :: cs, ds⟩
  /-- the call takes effect -/
  | effect (m : OMap V) (pre post : List (Nat × Op V)) (ds : List (Nat × Res V)) (id : Nat)
      (op : Op V) :
      AStep ⟨m, pre ++ (id, op) :: post, ds⟩ []
        ⟨(specStep m op).1, pre ++ post, (id, (specStep m op).2) :: ds⟩
  | ret (m : OMap V) (cs : List (Nat × Op V)) (pre post : List (Nat × Res V)) (id : Nat)
      (r : Res V) :
      AStep ⟨m, cs, pre ++ (id, r) :: post⟩ [.ret id r] ⟨m, cs, pre ++ post⟩

inductive ARun : Atomic V → List (Event V) → Atomic V → Prop
  | nil (s : Atomic V) : ARun s [] s
  | cons {s s1 s2 : Atomic V} {es es' : List (Event V)} :
      AStep s es s1 → ARun s1 es' s2 → ARun s (es ++ es') s2

/-- The items in the leaves, from left to right. -/
def storedOf : (h : Nat) → Nat × Sub V h → OMap V
  | 0, e => [e]
  | h + 1, e => e.2.kids.flatMap (storedOf h)

def Sys.stored (s : Sys V) : OMap V := s.tree.node.kids.flatMap (storedOf s.tree.h)

/-- Is a node or something below it locked? -/
def busy : (h : Nat) → Sub V h → Prop
  | 0, _ => False
  | h + 1, c => c.lock ≠ .free ∨ ∃ e ∈ c.kids, busy h e.2

/-- Some task holds a lock. -/
def Sys.Busy (s : Sys V) : Prop := s.top ≠ .free ∨ busy (s.tree.h + 1) s.tree.node

/-- No call is made in these events. -/
def NoCall (es : List (Event V)) : Prop := ∀ id op, Event.call id op ∉ es

/-- `n` steps during which no new call is made. -/
inductive Finish (L : Limits) (seq : Bool) : Nat → Sys V → Sys V → Prop
  | nil (s : Sys V) : Finish L seq 0 s s
  | cons {s s1 s2 : Sys V} {es : List (Event V)} {n : Nat} :
      SysStep L seq s es s1 → NoCall es → Finish L seq n s1 s2 → Finish L seq (n + 1) s s2

end Verif.Conc
