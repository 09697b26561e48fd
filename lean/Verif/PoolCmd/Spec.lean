import Verif.PoolCmd.Model
import Mathlib.Data.Nat.Prime.Defs

/-!
# What the arguments of `bfffs pool create` mean

The manual's grammar as relations between words and pools, and which pools can be made.
-/

namespace Verif.PoolCmd

/-! ### What the arguments mean -/

/-- A word that can stand for a disk. -/
structure IsDisk (s : Str) : Prop where
  start : ∃ c cs, s = c :: cs ∧ (c = '/' ∨ ('a' ≤ c ∧ c ≤ 'z') ∨ ('A' ≤ c ∧ c ≤ 'Z'))
  rest : ∀ c ∈ s, c ≠ ' ' ∧ c ≠ '\t' ∧ c ≠ '\n'
  notMirror : s ≠ "mirror".toList
  notRaid : s ≠ "raid".toList

/-- A number in decimal, possibly with zeros before it, that fits an `i16`. -/
inductive Decimal : Nat → Str → Prop where
  | digit (d : Nat) : d < 10 → Decimal d [Char.ofNat (48 + d)]
  | snoc {n s} (d : Nat) : Decimal n s → d < 10 → Decimal (10 * n + d) (s ++ [Char.ofNat (48 + d)])

/-- The words for some disks. -/
def AreDisks (ds : List Str) : Prop := ds ≠ [] ∧ ∀ d ∈ ds, IsDisk d

/-- The words for some mirrors. -/
def mirrorWords (ms : List (List Str)) : List Str := ms.flatMap fun ds => "mirror".toList :: ds

def AreMirrors (ms : List (List Str)) : Prop := ms ≠ [] ∧ ∀ ds ∈ ms, AreDisks ds

/-- The words for the children of a RAID: all disks or all mirrors. -/
inductive Children : List RaidChild → List Str → Prop where
  | disks {ds} : AreDisks ds → Children (ds.map .disk) ds
  | mirrors {ms} : AreMirrors ms → Children (ms.map .mirror) (mirrorWords ms)

/-- The words for any number of RAIDs. -/
inductive Raids : List Tlv → List Str → Prop where
  | nil : Raids [] []
  | cons {k f ks fs cs ws ts rest} : Decimal k ks → k ≤ 32767 → Decimal f fs → f ≤ 32767 →
      Children cs ws → Raids ts rest →
      Raids (.raid k f cs :: ts) ("raid".toList :: ks :: fs :: ws ++ rest)

/-- The words describe the pool: all disks, all mirrors or all RAIDs. -/
inductive Describes : List Tlv → List Str → Prop where
  | disks {ds} : AreDisks ds → Describes (ds.map .disk) ds
  | mirrors {ms} : AreMirrors ms → Describes (ms.map .mirror) (mirrorWords ms)
  | raids {ts ws} : ts ≠ [] → Raids ts ws → Describes ts ws

/-- An argument that reaches the parser as one word: no separators inside, and no number that is
followed by something else. -/
structure Plain (a : Str) : Prop where
  nonempty : a ≠ []
  one : ∀ c ∈ a, c ≠ ' ' ∧ c ≠ '\t' ∧ c ≠ '\n'
  start : ∀ c, a.head? = some c → isWs c = false
  number : (∃ c, a.head? = some c ∧ c.isDigit) → ∀ c ∈ a, c.isDigit

/-- The mirrors a top-level vdev is made of. -/
def Tlv.mirrors : Tlv → List (List Str)
  | .raid _ _ cs => cs.map fun | .disk d => [d] | .mirror ds => ds
  | .mirror ds => [ds]
  | .disk d => [[d]]

/-- All disks mentioned. -/
def allDisks (ts : List Tlv) : List Str := (ts.map Tlv.mirrors).flatten.flatten

/-- A pool that can be made of these devices. -/
structure Feasible (dv : Devs) (ts : List Tlv) : Prop where
  /-- Every disk can be opened. -/
  there : ∀ d ∈ allDisks ts, dv d ≠ none
  /-- No device is used twice. -/
  apart : ((allDisks ts).map fun d => (dv d).map Prod.fst).Nodup
  /-- The disks of one top-level vdev have one size. -/
  same : ∀ t ∈ ts, ∀ d ∈ t.mirrors.flatten, ∀ e ∈ t.mirrors.flatten,
    (dv d).map Prod.snd = (dv e).map Prod.snd
  /-- The geometry of each RAID is legal. -/
  legal : ∀ k f cs, .raid k f cs ∈ ts → (cs.length = 1 ∧ k = 1 ∧ f = 0) ∨
    (cs.length ≠ 1 ∧ cs.length.Prime ∧ cs.length ≤ 215 ∧ 1 < k ∧ k ≤ cs.length ∧ 0 < f ∧ f < k)

/-- The cluster a top-level vdev becomes: the mirrors by their paths. -/
def Tlv.params : Tlv → Nat × Nat
  | .raid k f _ => (k, f)
  | _ => (1, 0)

def Cluster.shape (c : Cluster) : (Nat × Nat) × List (List Str) :=
  ((c.k, c.f), c.mirrors.map Mirror.paths)

end Verif.PoolCmd
