import Verif.Mirror.Model

/-!
# Mirrors: what the properties speak about
-/

namespace Verif.Mirror

/-- The state of the child at a position. -/
def stAt (m : Mirror) (i : Nat) : Option St := m[i]?.map Child.st

/-- Commands that change the states of a mirror's children. -/
inductive Op
  | fault (u : Nat)
  | rebuild (u : Nat)
  | restore
  | attach (u size lpz : Nat)
deriving DecidableEq, Repr

/-- The effect of one command.  A command that fails leaves the mirror alone; a panic is
`none`. -/
def step (m : Mirror) : Op → Option Mirror
  | .fault u => some ((fault m u).toOption.getD m)
  | .rebuild u => some ((rebuild m u).toOption.getD m)
  | .restore => restore m
  | .attach u s l => (attach m u s l).map fun r => r.toOption.getD m

/-- A history of commands. -/
def run : Mirror → List Op → Option Mirror
  | m, [] => some m
  | m, o :: os => (step m o).bind fun m' => run m' os

/-- The end of the range a repair of a zone with limits `lim` is asked to work on: the whole
zone, or the given number of LBAs from its start. -/
def repairEnd (lim : Nat × Nat) : Option Nat → Nat
  | none => lim.2
  | some n => lim.1 + n

/-- Reads of a device, specified by what it holds: a read either fails or returns the
contents of exactly the range asked for. -/
def Faithful {B : Type} (d : Disks B) (rd : Nat → Nat → Nat → Option (List B)) : Prop :=
  ∀ c a n b, rd c a n = some b → b = (List.range n).map fun k => d c (a + k)

/-- The state of the disks after a repair that was asked to carry out the writes `ws`.  If
it reports success all of them are done; if it fails, either in its reader or in a write,
any of them may be. -/
inductive Repaired {B : Type} (d : Disks B) : List (Wr B) × Bool → Bool → Disks B → Prop
  | ok (ws : List (Wr B)) : Repaired d (ws, true) true (applyAll ws d)
  | failed (ws ws' : List (Wr B)) (b : Bool) (h : ws'.Sublist ws) :
      Repaired d (ws, b) false (applyAll ws' d)

end Verif.Mirror
