import Verif.Cache.Model

/-!
# What an LRU cache is

The specification's state is the list of cached entries, most recently used
first.  No hash map, no links, no stored size.
-/

namespace Verif.Cache.Spec

variable {K V : Type} [DecidableEq K] [DecidableEq V]

/-- The cached value. -/
def find (l : List (K × V)) (k : K) : Option V :=
  match l with
  | [] => none
  | (k', v) :: l => if k' = k then some v else find l k

/-- Everything but `k`. -/
def without (l : List (K × V)) (k : K) : List (K × V) := l.filter (fun p => p.1 ≠ k)

/-- Bytes held. -/
def bytes (sz : V → Nat) (l : List (K × V)) : Nat := (l.map (fun p => sz p.2)).sum

/-- The most recently used entries that fit in `room` bytes. -/
def fit (sz : V → Nat) (room : Nat) : List (K × V) → List (K × V)
  | [] => []
  | (k, v) :: l => if sz v ≤ room then (k, v) :: fit sz (room - sz v) l else []

/-- What callers may ask of the cache. -/
inductive Op (K V : Type) where
  | get (k : K)
  | getRef (k : K)
  | insert (k : K) (v : V)
  | remove (k : K)
  | drop

/-- The specification of one operation.  `none`: the code panics, because the
value is larger than the whole cache or conflicts with the cached one. -/
def step (sz : V → Nat) (cap : Nat) (l : List (K × V)) : Op K V → Option (List (K × V) × Option V)
  | .get k =>
    match find l k with
    | some v => some ((k, v) :: without l k, some v)
    | none => some (l, none)
  | .getRef k => some (l, find l k)
  | .remove k => some (without l k, find l k)
  | .drop => some ([], none)
  | .insert k v =>
    if sz v ≤ cap then
      let l' := fit sz (cap - sz v) l
      match find l' k with
      | some old => if old = v then some (l', none) else none
      | none => some ((k, v) :: l', none)
    else none

end Verif.Cache.Spec

namespace Verif.Cache

variable {K V : Type} [DecidableEq K] [DecidableEq V]

/-- The same operation on the modelled code. -/
def step (sz : V → Nat) (c : Lru K V) : Spec.Op K V → Option (Lru K V × Option V)
  | .get k => get c k
  | .getRef k => some (c, getRef c k)
  | .remove k => remove sz c k
  | .drop => some (dropCache c, none)
  | .insert k v => (insert sz c k v).map (fun c => (c, none))

/-- A history of operations with their results. -/
def run (sz : V → Nat) : Lru K V → List (Spec.Op K V) → Option (Lru K V × List (Option V))
  | c, [] => some (c, [])
  | c, o :: os =>
    match step sz c o with
    | none => none
    | some (c, r) => (run sz c os).map (fun p => (p.1, r :: p.2))

def Spec.run (sz : V → Nat) (cap : Nat) :
    List (K × V) → List (Spec.Op K V) → Option (List (K × V) × List (Option V))
  | l, [] => some (l, [])
  | l, o :: os =>
    match Spec.step sz cap l o with
    | none => none
    | some (l, r) => (Spec.run sz cap l os).map (fun p => (p.1, r :: p.2))

end Verif.Cache

/-! ## Vocabulary for the property -/

namespace Verif.Cache.Spec

variable {K V : Type} [DecidableEq K] [DecidableEq V]

/-- The value most recently inserted under `k` and not removed since.
The history is oldest first. -/
def latest (k : K) : List (Op K V) → Option V → Option V
  | [], cur => cur
  | .insert k' v :: os, cur => latest k os (if k' = k then some v else cur)
  | .remove k' :: os, cur => latest k os (if k' = k then none else cur)
  | .drop :: os, _ => latest k os none
  | .get _ :: os, cur => latest k os cur
  | .getRef _ :: os, cur => latest k os cur

/-- The key an operation uses: a `get` that hits, or an `insert` that adds. -/
def uses (sz : V → Nat) (cap : Nat) (l : List (K × V)) : Op K V → Option K
  | .get k => (find l k).map (fun _ => k)
  | .insert k v => if find (fit sz (cap - sz v) l) k = none then some k else none
  | _ => none

/-- All uses in a history, latest first, in front of `acc`. -/
def useLog (sz : V → Nat) (cap : Nat) : List (K × V) → List (Op K V) → List K → List K
  | _, [], acc => acc
  | l, o :: os, acc =>
    match step sz cap l o with
    | none => acc
    | some (l', _) => useLog sz cap l' os ((uses sz cap l o).toList ++ acc)

/-- The uses of a history on an initially empty cache, latest first. -/
def log (sz : V → Nat) (cap : Nat) (os : List (Op K V)) : List K := useLog sz cap [] os []

/-- `x` was used more recently than `y`. -/
def moreRecent (log : List K) (x y : K) : Prop := log.idxOf x < log.idxOf y

end Verif.Cache.Spec
