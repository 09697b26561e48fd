import Verif.Tree.Clean

/-!
# What zone cleaning is to do

C64: once `clean_zone` is done, no node of the tree lies in the zone; and nobody can tell from
the results of other operations that a zone was cleaned.
-/

namespace Verif.Tree

variable {V : Type}

/-- The addresses of the nodes below a node. -/
def addrsBelow : (h : Nat) → Node V h → List Addr
  | 0, _ => []
  | h + 1, n => n.flatMap fun x => x.2.info.addr.toList ++ addrsBelow h x.2.kids

/-- The addresses of all nodes of the tree that are on disk. -/
def Tree.addrs (t : Tree V) : List Addr := t.info.addr.toList ++ addrsBelow t.h t.root

/-- Every node of the tree that lies in the zone was written in one of the transactions recorded
for the zone (the condition on `txgs`, `mod.rs:2335-2337`). -/
def Zone.Recorded (z : Zone) (t : Tree V) : Prop :=
  ∀ a ∈ t.addrs, z.holds a = true → z.txgLo ≤ a.txg ∧ a.txg < z.txgHi

/-- The transaction in which an operation takes place.  Reading operations have none. -/
def Op.time (T : Nat) : Op V → Nat
  | .insert txg _ _ => txg
  | .remove txg _ => txg
  | .rangeDelete txg _ _ => txg
  | .flush txg _ => txg
  | _ => T

def Ev.time (T : Nat) : Ev V → Nat
  | .op o => o.time T
  | .rewrite _ txg _ => txg
  | _ => T

/-- The trees that there can be in transaction `T`: whatever was done before, including other
zone cleanings and whatever parts of them, as long as transactions follow each other. -/
inductive Reached (L : Limits) (seq : Bool) : Nat → Tree V → Prop
  | empty : Reached L seq 0 Tree.empty
  | op {T : Nat} {t t' : Tree V} {op : Op V} {r : Res V} : Reached L seq T t → T ≤ op.time T →
    step L seq t op = some (t', r) → Reached L seq (op.time T) t'
  | rewrite {T txg pba e k : Nat} {t t' : Tree V} : Reached L seq T t → T ≤ txg →
    t.rewrite txg pba e k = some t' → Reached L seq txg t'

/-- The first address which a flush leaves unused, if it starts with `next`. -/
def Tree.flushEnd (txg next : Nat) (t : Tree V) : Nat := (flushR txg t.h next t.root).1 + 1

/-- The event writes nothing into the zone (a zone being cleaned is closed). -/
def Ev.avoids (z : Zone) (t : Tree V) : Ev V → Prop
  | .op (.flush txg next) =>
    ∀ pba, next ≤ pba → pba < t.flushEnd txg next → z.holds { pba, txg } = false
  | .rewrite _ txg pba => z.holds { pba, txg } = false
  | _ => True

/-- A history in which transactions follow each other and nothing is written into the zone. -/
def Orderly (L : Limits) (seq : Bool) (z : Zone) : Nat → Tree V × Job → List (Ev V) → Prop
  | _, _, [] => True
  | T, s, e :: es =>
    T ≤ e.time T ∧ e.avoids z s.1 ∧
      ∀ s' r, evStep L seq s e = some (s', r) → Orderly L seq z (e.time T) s' es

/-- The operations of others in a history. -/
def others (es : List (Ev V)) : List (Op V) :=
  es.filterMap fun e =>
    match e with
    | .op op => some op
    | _ => none

/-! ## A cleaner left alone -/

/-- How a cleaner goes on: the order in which it rewrites nodes and the addresses it gets. -/
structure Strategy (V : Type) where
  pick : Tree V × Job → Nat
  alloc : Tree V × Job → Nat

/-- The next event of the cleaner. -/
def Strategy.next (S : Strategy V) (txg : Nat) (s : Tree V × Job) : Ev V :=
  match s.2.phase with
  | .look _ _ => .look
  | .rewrite [] => .advance
  | .rewrite (k :: ks) => .rewrite (S.pick s % (k :: ks).length) txg (S.alloc s)

/-- `n` steps of the cleaner without anything else happening. -/
def Strategy.run (S : Strategy V) (L : Limits) (seq : Bool) (txg : Nat) :
    Nat → Tree V × Job → Option (Tree V × Job)
  | 0, s => some s
  | n + 1, s => (evStep L seq s (S.next txg s)).bind fun p => S.run L seq txg n p.1

end Verif.Tree
