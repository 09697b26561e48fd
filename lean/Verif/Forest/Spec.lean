import Verif.Forest.PropModel

/-!
# What the user of file system names expects

A file system is known by its path below the pool.  The specification is a map from paths to contents
(`Client`); it knows nothing of the forest.
-/

namespace Verif.Forest

open Verif (OMap)
open Verif.Property (Str Prp PName Source defaultValue)

abbrev Path := List Str

/-- The components of a path with slashes between them. -/
def join : Path → Str
  | [] => []
  | [n] => n
  | n :: m :: t => n ++ '/' :: join (m :: t)

variable {D : Type}

/-- The full name of the file system at a path. -/
def full (e : Env D) : Path → Str
  | [] => e.pool
  | n :: t => e.pool ++ '/' :: join (n :: t)

/-- A set of names that cause no trouble: they are not empty, have no slash, do not hash to zero and
do not collide.  The pool's name has no slash. -/
structure Names (e : Env D) (N : Str → Prop) : Prop where
  nonempty : ∀ n, N n → n ≠ []
  slash : ∀ n, N n → '/' ∉ n
  pool : '/' ∉ e.pool
  hash : ∀ n, N n → e.hash n ≠ 0
  inj : ∀ a b, N a → N b → e.hash a = e.hash b → a = b

/-- What a client may do.  Paths stand for full names. -/
inductive Op (D : Type) where
  | create (p : Path)
  | destroy (p : Path)
  | find (p : Path)
  | list (p : Path) (offs : Nat)
  /-- Any change to a file system's files. -/
  | modify (p : Path) (w : D → D)
  | read (p : Path)
  | setProp (p : Path) (v : Prp)
  | getProp (p : Path) (n : PName)
  | mount (p : Path)
  | unmount (p : Path)
  /-- The file system's process dies. -/
  | drop (p : Path)
  | sync
  /-- Export the pool and import it again. -/
  | export

inductive Out (D : Type) where
  | id (r : Res Nat)
  | found (r : Res (Option Nat))
  | done (r : Res Unit)
  | listing (r : Res (List (Str × Nat × Nat)))
  | contents (r : Res (Fs D))
  | prop (r : Res (Prp × Source))
  deriving DecidableEq

/-- The identifier a full name leads to. -/
def find (e : Env D) (db : Db D) (name : Str) : Res (Option Nat) :=
  match resolve e db name with
  | .ok (_, _, i) => .ok i
  | .err x => .err x
  | .panic => .panic

def step (e : Env D) (db : Db D) : Op D → Db D × Out D
  | .create p => let r := createFs e db (full e p); (r.1, .id r.2)
  | .destroy p => let r := destroyFs e db (full e p); (r.1, .done r.2)
  | .find p => (db, .found (find e db (full e p)))
  | .list p offs => (db, .listing (listFs e db (full e p) offs))
  | .modify p w =>
    let r := modifyFs e db (full e p) (fun t => { t with data := w t.data }); (r.1, .done r.2)
  | .read p => let r := readFs e db (full e p); (r.1, .contents r.2)
  | .setProp p v => let r := setProp e db (full e p) v; (r.1, .done r.2)
  | .getProp p n => let r := getProp e db (full e p) n; (r.1, .prop r.2)
  | .mount p => let r := newFs e db (full e p); (r.1, .id r.2)
  | .unmount p => let r := unmount e db (full e p); (r.1, .done r.2)
  | .drop p =>
    match find e db (full e p) with
    | .ok (some i) => (dropFs db i, .done (.ok ()))
    | _ => (db, .done (.ok ()))
  | .sync => let r := sync db; (r.1, .done r.2)
  | .export => let r := sync db; (reopen r.1, .done r.2)

/-- The client's map: identifier and contents of the file system at each path, and whether it is
mounted (`some true`), or was and has died since without being unmounted (`some false`). -/
structure Client (D : Type) where
  fs : Path → Option (Nat × Fs D)
  mounted : Path → Option Bool

def Client.init : Client D := ⟨fun _ => none, fun _ => none⟩

/-- A function changed at one point. -/
def set {α β : Type} [DecidableEq α] (f : α → β) (a : α) (b : β) : α → β :=
  fun x => if x = a then b else f x

/-- How the map changes with an operation and its outcome. -/
def Client.next (e : Env D) (k : Client D) : Op D → Out D → Client D
  | .create p, .id (.ok i) => { k with fs := set k.fs p (some (i, ⟨[], e.rootDir⟩)) }
  | .destroy p, .done (.ok _) => { k with fs := set k.fs p none }
  | .modify p w, .done (.ok _) =>
    { k with fs := set k.fs p ((k.fs p).map fun x => (x.1, { x.2 with data := w x.2.data })) }
  | .setProp p v, .done (.ok _) =>
    { k with fs := set k.fs p ((k.fs p).map fun x => (x.1, x.2.setProp v.inheritable)) }
  | .mount p, .id (.ok _) => { k with mounted := set k.mounted p (some true) }
  | .unmount p, .done (.ok _) => { k with mounted := set k.mounted p none }
  | .drop p, _ =>
    { k with mounted := if k.mounted p = some true then set k.mounted p (some false) else k.mounted }
  | .export, _ => { k with mounted := fun _ => none }
  | _, _ => k

/-- The calls covered: names from the set `N`; the root file system is created first and only once;
identifiers have not run out; the name is not set, nor is the mount point of a mounted file system; at
most 255 levels; the base mount point is asked for as mount point. -/
def Valid (N : Str → Prop) (k : Client D) : Op D → Prop
  | .create p => (∀ n ∈ p, N n) ∧ (p = [] → k.fs [] = none) ∧
      ((∃ n, p = [n]) → k.fs [] ≠ none) ∧ ∀ q i c, k.fs q = some (i, c) → i + 1 < 2 ^ 64
  | .destroy p => ∀ n ∈ p, N n
  | .find p => ∀ n ∈ p, N n
  | .list p _ => ∀ n ∈ p, N n
  | .modify p _ => ∀ n ∈ p, N n
  | .read p => ∀ n ∈ p, N n
  | .setProp p v => (∀ n ∈ p, N n) ∧
      (k.mounted p = some true → v.pname = .atime ∨ v.pname = .recordSize)
  | .getProp p n => (∀ n ∈ p, N n) ∧ p.length ≤ 255 ∧ n ≠ .baseMountpoint
  | .mount p => ∀ n ∈ p, N n
  | .unmount p => ∀ n ∈ p, N n
  | .drop p => ∀ n ∈ p, N n
  | .sync => True
  | .export => True

/-- What creating answers: the parent must be there, the name must be free, and the identifier is
not that of any other file system. -/
def CreateAnswer (k : Client D) (p : Path) (r : Res Nat) : Prop :=
  if p ≠ [] ∧ k.fs p.dropLast = none then r = .err .enoent
  else if (k.fs p).isSome then r = .err .eexist
  else ∃ i, r = .ok i ∧ ∀ q c, k.fs q ≠ some (i, c)

open Classical in
/-- What destroying answers. -/
noncomputable def destroyAnswer (k : Client D) (p : Path) : Res Unit :=
  if k.fs p = none then .err .enoent
  else if (k.mounted p).isSome ∨ ∃ n, (k.fs (p ++ [n])).isSome then .err .ebusy
  else .ok ()

/-- A listing from the beginning: each child once, with its identifier, in the order of the cookies,
and nothing else.  A listing from a cookie on is the part of it with larger cookies. -/
def ListAnswer (k : Client D) (p : Path) (offs : Nat) (r : Res (List (Str × Nat × Nat))) : Prop :=
  if k.fs p = none then r = .err .enoent
  else ∃ all : List (Str × Nat × Nat),
    r = .ok (all.filter fun x => offs < x.2.2) ∧
    (all.map Prod.fst).Nodup ∧ all.Pairwise (fun a b => a.2.2 < b.2.2) ∧
    ∀ n i, (∃ c, (n, i, c) ∈ all) ↔ ∃ c, k.fs (p ++ [n]) = some (i, c)

/-! ### What the user expects -/

/-- What is set on the dataset at a path, according to the client. -/
def Client.local (k : Client D) (n : PName) (p : Path) : Option Prp :=
  (k.fs p).bind fun x => x.2.prop n

/-- Where a property is set: on the dataset `at_` itself or on its nearest ancestor that has it. -/
structure Nearest (k : Client D) (n : PName) (p : Path) (at_ : Path) (below : Path) (v : Prp) :
    Prop where
  split : p = at_ ++ below
  value : k.local n at_ = some v
  nearest : ∀ m, m ≠ [] → ∀ r, below = m ++ r → k.local n (at_ ++ m) = none

/-- The property is set nowhere between the root and the dataset. -/
def Unset (k : Client D) (n : PName) (p : Path) : Prop :=
  ∀ a b, p = a ++ b → k.local n a = none

/-- What setting a property answers. -/
def setAnswer (k : Client D) (p : Path) (v : Prp) : Res Unit :=
  if k.fs p = none then .err .enoent
  else
    match v.inheritable with
    | .baseMountpoint s => if s.head? = some '/' then .ok () else .err .einval
    | _ => .ok ()

/-- What reading a property answers: the value set on the dataset or its nearest ancestor, and how
many levels up that is, or else the default.  The mount point follows the path below the dataset
where it is set. -/
def PropAnswer (e : Env D) (k : Client D) (p : Path) (n : PName) (r : Res (Prp × Source)) : Prop :=
  if k.fs p = none then r = .err .enoent
  else match n with
    | .name => r = .ok (.name (full e p), .none)
    | .mountpoint =>
      (∀ a b s, Nearest k .baseMountpoint p a b (.baseMountpoint s) →
        r = .ok (.mountpoint (if b = [] then s else s ++ '/' :: join b), .set (UInt8.ofNat b.length))) ∧
      (Unset k .baseMountpoint p → r = .ok (.mountpoint ('/' :: full e p), .default))
    | n =>
      (∀ a b v, Nearest k n p a b v → r = .ok (v, .set (UInt8.ofNat b.length))) ∧
      (Unset k n p → ∃ v, defaultValue n = some v ∧ r = .ok (v, .default))

/-- What the client expects of one call. -/
def Expected (e : Env D) (k : Client D) : Op D → Out D → Prop
  | .create p, out => ∃ r, out = .id r ∧ CreateAnswer k p r
  | .destroy p, out => out = .done (destroyAnswer k p)
  | .find p, out => out = .found (.ok ((k.fs p).map Prod.fst))
  | .list p offs, out => ∃ r, out = .listing r ∧ ListAnswer k p offs r
  | .modify p _, out => out = .done (if k.fs p = none then .err .enoent else .ok ())
  | .read p, out => out = .contents (((k.fs p).map fun x => Res.ok x.2).getD (.err .enoent))
  | .setProp p v, out => out = .done (setAnswer k p v)
  | .getProp p n, out => ∃ r, out = .prop r ∧ PropAnswer e k p n r
  | .mount p, out =>
    out = .id (match k.fs p with
      | none => .err .enoent
      | some x => if k.mounted p = some true then .err .ebusy else .ok x.1)
  | .unmount p, out => out = .done (if k.fs p = none then .err .enoent else .ok ())
  | .drop _, _ => True
  | .sync, out => out = .done (.ok ())
  | .export, out => out = .done (.ok ())

inductive Reach (e : Env D) (N : Str → Prop) : Db D → Client D → Prop where
  | create : Reach e N ⟨[], [], []⟩ Client.init
  | step {db k} (op : Op D) : Reach e N db k → Valid N k op →
      Reach e N (step e db op).1 (k.next e op (step e db op).2)

end Verif.Forest
