import Verif.Common.OMap
import Verif.Property.Model

/-!
# The forest of file systems, and the controller's names

bfffs-core/src/database/mod.rs (`Forest`), database/database.rs (`Inner`, `Database`), controller.rs
(`Controller`), fs.rs (properties).  The forest is a B+tree seen as an ordered map (C38).  I/O errors
of the trees are not modelled.  A file system's tree is seen as its contents: its properties, and
everything else as one value of type `D`; the on-disk root stored in the forest stands for the
contents it leads to.  Each operation runs to its end before the next (`Race` models one overlap).
-/

namespace Verif.Forest

open Verif (OMap)
open Verif.Property (Str Prp PName Source)

inductive Errno where
  | enoent | eexist | ebusy | einval
  deriving DecidableEq, Repr

inductive Res (α : Type) where
  | ok (a : α)
  | err (e : Errno)
  | panic
  deriving DecidableEq, Repr

/-- What the model does not compute: the name hash (`MetroHash64` before masking), the contents of a
new tree after its root directory was made (database.rs:514-577), and the pool's name. -/
structure Env (D : Type) where
  metro : Str → Nat
  rootDir : D
  empty : D
  pool : Str

/-- A file system tree: the properties stored under `PROPERTY_OBJECT`, and the rest. -/
structure Fs (D : Type) where
  props : List (PName × Prp)
  data : D
  deriving DecidableEq, Repr

/-- database/mod.rs:107-138 `Tree`, `TreeEnt`, `ForestValue` -/
inductive Value (D : Type) where
  | tree (parent : Option Nat) (tod : Fs D)
  | ent (treeId : Nat) (name : Str)
  deriving DecidableEq, Repr

/-- database/mod.rs:67-73 `ForestKey`: ordered by `tree_id`, then `offset`, a `u64`. -/
def key (treeId offset : Nat) : Nat := treeId * 2 ^ 64 + offset

/-- database/mod.rs:88 the hash of a name, masked to 56 bits -/
def Env.hash {D : Type} (e : Env D) (n : Str) : Nat := e.metro n % 2 ^ 56

/-- database/mod.rs:80-92 `ForestKey::tree_ent`; `none` is a panic. -/
def treeEnt {D : Type} (e : Env D) (parent : Nat) (n : Str) : Option Nat :=
  if '/' ∈ n then none
  else if e.hash n = 0 then none
  else some (key parent (e.hash n))

/-- database.rs:142-158 `Inner`: the forest and the file system trees in memory, and controller.rs:58
the table of mounted file systems, with whether each is still alive (`Weak::strong_count`). -/
structure Db (D : Type) where
  forest : OMap (Value D)
  opened : OMap (Fs D)
  mounted : OMap Bool
  deriving DecidableEq, Repr

variable {D : Type}

/-- database/mod.rs:183-193 `get_tree` -/
def getTree (f : OMap (Value D)) (id : Nat) : Res (Fs D) :=
  match f.get (key id 0) with
  | some (.tree _ tod) => .ok tod
  | some (.ent _ _) => .panic
  | none => .err .enoent

/-- database/mod.rs:198-236 `insert_tree` -/
def insertTree (e : Env D) (f : OMap (Value D)) (parent : Option Nat) (name : Str) (tod : Fs D) :
    OMap (Value D) × Res Nat :=
  let id := match f.lastKey with
    | some k => k / 2 ^ 64 + 1
    | none => 0
  if id ≥ 2 ^ 64 then (f, .panic)
  else
    let f1 := f.insert (key id 0) (.tree parent tod)
    if (f.get (key id 0)).isSome then (f1, .panic)
    else
      match parent with
      | none => (f1, .ok id)
      | some p =>
        match treeEnt e p name with
        | none => (f1, .panic)
        | some k =>
          match f1.get k with
          | none => (f1.insert k (.ent id name), .ok id)
          | some old => (((f1.insert k (.ent id name)).remove (key id 0)).insert k old, .err .eexist)

/-- database/mod.rs:96-100 `tree_ent_range`: the entries of one parent from a cookie on. -/
def children (f : OMap (Value D)) (parent offs : Nat) : OMap (Value D) :=
  f.range (key parent (max offs 1)) (key (parent + 1) 0)

/-- One entry of a listing, database/mod.rs:253-257: its name, id and resume cookie; `none` is a
panic. -/
def dirent : Nat × Value D → Option (Str × Nat × Nat)
  | (k, .ent id n) => some (n, id, k % 2 ^ 64 + 1)
  | (_, .tree _ _) => none

/-- database/mod.rs:239-268 `readdir`, database.rs:641-650 -/
def readdir (f : OMap (Value D)) (parent offs : Nat) : Option (List (Str × Nat × Nat)) :=
  (children f parent offs).mapM dirent

/-- `str::split('/')` -/
def split : Str → List Str
  | [] => [[]]
  | c :: cs =>
    if c = '/' then [] :: split cs
    else
      match split cs with
      | [] => [[c]]
      | h :: t => (c :: h) :: t

/-- `str::rsplit_once('/')` -/
def rsplitOnce : Str → Option (Str × Str)
  | [] => none
  | c :: cs =>
    match rsplitOnce cs with
    | some (a, b) => some (c :: a, b)
    | none => if c = '/' then some ([], cs) else none

/-- database/mod.rs:295-310: the loop of `lookup` -/
def lookupFrom (e : Env D) (f : OMap (Value D)) (parent : Option Nat) (id : Nat) :
    List Str → Res (Option Nat × Option Nat)
  | [] => .ok (parent, some id)
  | c :: cs =>
    match treeEnt e id c with
    | none => .panic
    | some k =>
      match f.get k with
      | some (.ent t n) => if n = c then lookupFrom e f (some id) t cs else .panic
      | some (.tree _ _) => .panic
      | none => .ok (none, none)

/-- database/mod.rs:273-313 `lookup` -/
def lookup (e : Env D) (f : OMap (Value D)) (name : Str) : Res (Option Nat × Option Nat) :=
  if name = [] then
    match f.get (key 0 0) with
    | some (.tree _ _) => .ok (none, some 0)
    | some (.ent _ _) => .panic
    | none => .ok (none, none)
  else lookupFrom e f none 0 (split name)

/-- database/mod.rs:318-333 `lookup_parent` -/
def lookupParent (f : OMap (Value D)) (id : Nat) : Res (Option Nat) :=
  match f.get (key id 0) with
  | some (.tree p _) => .ok p
  | some (.ent _ _) => .panic
  | none => .ok none

/-- database/mod.rs:359-383 `unlink`; the removal futures run after the check for children. -/
def unlink (e : Env D) (f : OMap (Value D)) (parent : Option Nat) (id : Nat) (name : Str) :
    OMap (Value D) × Res Unit :=
  if '/' ∈ name ∨ (parent.isSome ↔ name = []) then (f, .panic)
  else if children f id 0 ≠ [] then (f, .err .ebusy)
  else
    match parent with
    | none => (f.remove (key id 0), .ok ())
    | some p =>
      match treeEnt e p name with
      | none => (f, .panic)
      | some k => ((f.remove (key id 0)).remove k, .ok ())

/-- database/mod.rs:386-406 `update_tree` -/
def updateTree (f : OMap (Value D)) (id : Nat) (tod : Fs D) : OMap (Value D) × Res Unit :=
  match f.get (key id 0) with
  | none => (f, .err .enoent)
  | some (.tree p _) => (f.insert (key id 0) (.tree p tod), .ok ())
  | some (.ent _ _) => (f, .panic)

/-- database.rs:223-239 `open_filesystem`, with `new_filesystem` (204-220): the tree, from memory or
from the forest. -/
def openFs (db : Db D) (id : Nat) : Db D × Res (Fs D) :=
  match db.opened.get id with
  | some t => (db, .ok t)
  | none =>
    match getTree db.forest id with
    | .ok tod => ({ db with opened := db.opened.insert id tod }, .ok tod)
    | .err x => (db, .err x)
    | .panic => (db, .panic)

/-- database.rs:242-271 `fswrite`, for a closure that succeeds: the tree in memory changes. -/
def fswrite (db : Db D) (id : Nat) (w : Fs D → Fs D) : Db D × Res Unit :=
  match openFs db id with
  | (db, .ok t) => ({ db with opened := db.opened.insert id (w t) }, .ok ())
  | (db, .err x) => (db, .err x)
  | (db, .panic) => (db, .panic)

/-- database.rs:491-580 `Database::create_fs` -/
def dbCreate (e : Env D) (db : Db D) (parent : Option Nat) (name : Str) : Db D × Res Nat :=
  match insertTree e db.forest parent name { props := [], data := e.empty } with
  | (f, .ok id) =>
    match fswrite { db with forest := f } id (fun t => { t with data := e.rootDir }) with
    | (db, .ok _) => (db, .ok id)
    | (db, .err x) => (db, .err x)
    | (db, .panic) => (db, .panic)
  | (f, .err x) => ({ db with forest := f }, .err x)
  | (f, .panic) => ({ db with forest := f }, .panic)

/-- database.rs:162-195 `Inner::destroy_fs`.  Deleting the tree's records (line 194) is part of the
indirect layer. -/
def dbDestroy (e : Env D) (db : Db D) (parent : Option Nat) (id : Nat) (name : Str) :
    Db D × Res Unit :=
  let tname := (split name).getLast?.getD []
  match openFs db id with
  | (db, .ok _) =>
    match unlink e db.forest parent id tname with
    | (f, .ok _) =>
      if (db.opened.get id).isSome then
        ({ db with
            forest := f
            opened := db.opened.remove id }, .ok ())
      else ({ db with forest := f }, .panic)
    | (f, .err x) => ({ db with forest := f }, .err x)
    | (f, .panic) => ({ db with forest := f }, .panic)
  | (db, .err x) => (db, .err x)
  | (db, .panic) => (db, .panic)

/-- database.rs:744-751: `sync_transaction_priv` stores the root of every tree in memory in the
forest. -/
def syncTrees (f : OMap (Value D)) : OMap (Fs D) → OMap (Value D) × Res Unit
  | [] => (f, .ok ())
  | (id, t) :: rest =>
    match updateTree f id t with
    | (f, .ok _) => syncTrees f rest
    | r => r

def sync (db : Db D) : Db D × Res Unit :=
  let r := syncTrees db.forest db.opened
  ({ db with forest := r.1 }, r.2)

/-- `Database::open` (669-674) and `Controller::new` (336): nothing is in memory. -/
def reopen (db : Db D) : Db D := { forest := db.forest, opened := [], mounted := [] }

/-! ### The controller -/

/-- `str::strip_prefix` -/
def stripPrefix : Str → Str → Option Str
  | [], s => some s
  | _ :: _, [] => none
  | a :: as, b :: bs => if a = b then stripPrefix as bs else none

/-- controller.rs:421-430 `strip_pool_name` -/
def stripPoolName (e : Env D) (name : Str) : Res Str :=
  match stripPrefix e.pool name with
  | some s => .ok ((stripPrefix ['/'] s).getD s)
  | none => .err .enoent

/-- Strip the pool's name and look the rest up, as nearly all entry points begin. -/
def resolve (e : Env D) (db : Db D) (name : Str) : Res (Str × Option Nat × Option Nat) :=
  match stripPoolName e name with
  | .ok s =>
    match lookup e db.forest s with
    | .ok r => .ok (s, r)
    | .err x => .err x
    | .panic => .panic
  | .err x => .err x
  | .panic => .panic

/-- controller.rs:89-109 `create_fs` -/
def createFs (e : Env D) (db : Db D) (name : Str) : Db D × Res Nat :=
  match stripPoolName e name with
  | .ok fsname =>
    match rsplitOnce fsname with
    | some (parentName, dsname) =>
      match lookup e db.forest parentName with
      | .ok (_, some p) => dbCreate e db (some p) dsname
      | .ok (_, none) => (db, .err .enoent)
      | .err x => (db, .err x)
      | .panic => (db, .panic)
    | none =>
      if fsname = [] then dbCreate e db none fsname
      else dbCreate e db (some 0) fsname
  | .err x => (db, .err x)
  | .panic => (db, .panic)

/-- controller.rs:116-132 `destroy_fs` -/
def destroyFs (e : Env D) (db : Db D) (name : Str) : Db D × Res Unit :=
  match resolve e db name with
  | .ok (dsname, parent, some id) =>
    if (db.mounted.get id).isSome then (db, .err .ebusy)
    else dbDestroy e db parent id dsname
  | .ok (_, _, none) => (db, .err .enoent)
  | .err x => (db, .err x)
  | .panic => (db, .panic)

/-- controller.rs:258-316 `list_fs`, up to the parent's name, which the stream puts before each
child's. -/
def listFs (e : Env D) (db : Db D) (name : Str) (offs : Nat) : Res (List (Str × Nat × Nat)) :=
  match resolve e db name with
  | .ok (_, _, some id) =>
    match readdir db.forest id offs with
    | some l => .ok l
    | none => .panic
  | .ok (_, _, none) => .err .enoent
  | .err x => .err x
  | .panic => .panic

/-- controller.rs:349-394 `new_fs` -/
def newFs (e : Env D) (db : Db D) (name : Str) : Db D × Res Nat :=
  match resolve e db name with
  | .ok (_, _, some id) =>
    if db.mounted.get id = some true then (db, .err .ebusy)
    else
      match openFs db id with
      | (db, .ok _) => ({ db with mounted := db.mounted.insert id true }, .ok id)
      | (db, .err x) => (db, .err x)
      | (db, .panic) => (db, .panic)
  | .ok (_, _, none) => (db, .err .enoent)
  | .err x => (db, .err x)
  | .panic => (db, .panic)

/-- controller.rs:437-464 `unmount`, for an unmount(2) that succeeds -/
def unmount (e : Env D) (db : Db D) (name : Str) : Db D × Res Unit :=
  match resolve e db name with
  | .ok (_, _, some id) => ({ db with mounted := db.mounted.remove id }, .ok ())
  | .ok (_, _, none) => (db, .err .enoent)
  | .err x => (db, .err x)
  | .panic => (db, .panic)

/-- The last reference to a mounted `Fs` is dropped, as when its FUSE session ends: the `Weak` in the
table is dead. -/
def dropFs (db : Db D) (id : Nat) : Db D :=
  if db.mounted.get id = some true then { db with mounted := db.mounted.insert id false } else db

/-- An operation on the contents of a file system, found by name. -/
def modifyFs (e : Env D) (db : Db D) (name : Str) (w : Fs D → Fs D) : Db D × Res Unit :=
  match resolve e db name with
  | .ok (_, _, some id) => fswrite db id w
  | .ok (_, _, none) => (db, .err .enoent)
  | .err x => (db, .err x)
  | .panic => (db, .panic)

/-- The contents of a file system, found by name. -/
def readFs (e : Env D) (db : Db D) (name : Str) : Db D × Res (Fs D) :=
  match resolve e db name with
  | .ok (_, _, some id) => openFs db id
  | .ok (_, _, none) => (db, .err .enoent)
  | .err x => (db, .err x)
  | .panic => (db, .panic)

end Verif.Forest
