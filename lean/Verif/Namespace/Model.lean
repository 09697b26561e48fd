import Verif.Common.OMap

/-!
# The namespace operations of one file system

Models `create`, `mkdir`, `link`, `unlink`, `rmdir`, `rename`, `inactive` and mounting from
/repo/bfffs-core/src/fs.rs.

Simplifications that hold for the whole file:

* The file system tree is split into its five kinds of records.  A directory entry lives in a
  hashed table keyed by `(directory, hash of name)` with chaining; that this table is an exact map
  from names is property C47 (`Verif.Dir`), so here the entries are a list looked up by
  `(directory, name)`.  `link` bypasses the chaining; what that does on a hash collision is
  property C48 and is assumed away here.
* Timestamps, permissions, owners, sizes and credit are left out.
* One operation's futures touch pairwise distinct keys, or the same key in program order, so they
  are run one after another.
* `none` is a panic (failed assertion or `unwrap`).
-/

namespace Verif.Namespace

open Verif

/-- A file name, as bytes. -/
abbrev Name := List UInt8

/-- `"."` -/
def dot : Name := [46]

/-- `".."` -/
def dotdot : Name := [46, 46]

/-- Inode, /repo/bfffs-core/src/fs_tree.rs 954-1000, reduced to its type (directory or not) and
link count. -/
structure Inode where
  isDir : Bool
  nlink : Nat
deriving DecidableEq, Repr

/-- Dirent, /repo/bfffs-core/src/fs_tree.rs 415-421, with the directory it is stored in;
`isDir` is `dtype == DT_DIR`. -/
structure Ent where
  dir : Nat
  name : Name
  ino : Nat
  isDir : Bool
deriving DecidableEq, Repr

/-- The tree of one file system and the mount's `next_object` counter (fs.rs 406-417).
`items` are all other records of an object (extents and extended attributes), as
(inode number, key).  `dying` holds the `DyingInode` records of object 0, keyed by hash. -/
structure FS where
  inodes : OMap Inode
  ents : List Ent
  items : List (Nat × Nat)
  dying : OMap Nat
  next : Nat
deriving DecidableEq, Repr

/-- Errors the operations return. -/
inductive Errno where
  | ENOENT | ENOTEMPTY | EINVAL
deriving DecidableEq, Repr

/-- What an operation returns: a number (inode number, or 0 for unit) or an error. -/
abbrev Ret := Except Errno Nat

instance : DecidableEq Ret := fun a b =>
  match a, b with
  | .ok x, .ok y => if h : x = y then isTrue (h ▸ rfl) else isFalse (by simp [h])
  | .error x, .error y => if h : x = y then isTrue (h ▸ rfl) else isFalse (by simp [h])
  | .ok _, .error _ => isFalse (by simp)
  | .error _, .ok _ => isFalse (by simp)

/-- Does the entry have this directory and name? -/
def Ent.at (d : Nat) (n : Name) (e : Ent) : Bool := e.dir = d ∧ e.name = n

/-- htable::get, /repo/bfffs-core/src/fs/htable.rs; abstracted by C47. -/
def lookup (l : List Ent) (d : Nat) (n : Name) : Option Ent := l.find? (Ent.at d n)

/-- htable::remove's effect on the table; abstracted by C47. -/
def erase (l : List Ent) (d : Nat) (n : Name) : List Ent := l.filter fun e => !e.at d n

/-- htable::insert: replaces an entry of the same name and returns the old one; by C47. -/
def put (l : List Ent) (e : Ent) : Option Ent × List Ent :=
  (lookup l e.dir e.name, e :: erase l e.dir e.name)

/-- do_delete_inode, fs.rs 678-682: range_delete of every record of the object. -/
def deleteObj (s : FS) (ino : Nat) : FS :=
  { s with
    inodes := s.inodes.remove ino
    ents := s.ents.filter fun e => e.dir ≠ ino
    items := s.items.filter fun x => x.1 ≠ ino }

/-- Change the link count of an inode that must exist (`r.unwrap()`); `f` fails on underflow. -/
def modLink (s : FS) (ino : Nat) (f : Nat → Option Nat) : Option FS :=
  match s.inodes.get ino with
  | none => none
  | some x =>
    match f x.nlink with
    | none => none
    | some n => some { s with inodes := s.inodes.insert ino { x with nlink := n } }

/-- `nlink -= 1` on a u64: underflow panics. -/
def dec (n : Nat) : Option Nat := if n = 0 then none else some (n - 1)

/-- do_setattr for timestamps, fs.rs 809-849: only checks here that the inode exists. -/
def touch (s : FS) (ino : Nat) : Option FS := modLink s ino some

/-- do_create, fs.rs 616-676.  The callback runs on the parent.  `next_object` is taken first. -/
def doCreate (s : FS) (parent : Nat) (name : Name) (isDir : Bool) (nlink : Nat)
    (cb : FS → Nat → Nat → Option FS) : Option (Ret × FS) :=
  let ino := s.next
  let s := { s with next := s.next + 1 }
  match cb s parent ino with
  | none => none
  | some s =>
    let oldInode := s.inodes.get ino
    let s := { s with inodes := s.inodes.insert ino ⟨isDir, nlink⟩ }
    let r := put s.ents ⟨parent, name, ino, isDir⟩
    let s := { s with ents := r.2 }
    if r.1.isSome then none
    else if oldInode.isSome then none
    else some (.ok ino, s)

/-- create, fs.rs 1101-1126 (mkfifo, mksock, mkchar, mkblock and symlink differ only in the
file type). -/
def create (s : FS) (parent : Nat) (name : Name) : Option (Ret × FS) :=
  doCreate s parent name false 1 fun s p _ => touch s p

/-- mkdir's callback, fs.rs 1652-1698. -/
def mkdirCb (s : FS) (parent ino : Nat) : Option FS :=
  let s := { s with ents := (put s.ents ⟨ino, dot, ino, true⟩).2 }
  let s := { s with ents := (put s.ents ⟨ino, dotdot, parent, true⟩).2 }
  modLink s parent fun n => some (n + 1)

/-- mkdir, fs.rs 1647-1705. -/
def mkdir (s : FS) (parent : Nat) (name : Name) : Option (Ret × FS) :=
  doCreate s parent name true 2 mkdirCb

/-- link, fs.rs 1411-1460.  The entry is inserted without looking for an old one. -/
def link (s : FS) (parent ino : Nat) (name : Name) : Option (Ret × FS) :=
  match s.inodes.get ino with
  | none => none
  | some x =>
    let s := { s with inodes := s.inodes.insert ino { x with nlink := x.nlink + 1 } }
    let s := { s with ents := (put s.ents ⟨parent, name, ino, x.isDir⟩).2 }
    match touch s parent with
    | none => none
    | some s => some (.ok 0, s)

/-- do_unlink, fs.rs 984-1033.  `h` is the 56-bit hash of the inode number that keys
DyingInode records (fs_tree.rs 141-147). -/
def doUnlink (h : Nat → Nat) (s : FS) (active : Bool) (ino : Nat) : Option FS :=
  match s.inodes.get ino with
  | none => none
  | some x =>
    let nlink := x.nlink - 1
    if nlink > 0 ∨ active then
      let s' := { s with inodes := s.inodes.insert ino { x with nlink := nlink } }
      if nlink = 0 then
        if (s.dying.get (h ino)).isSome then none
        else some { s' with dying := s.dying.insert (h ino) ino }
      else some s'
    else some (deleteObj s ino)

/-- unlink, fs.rs 2377-2413.  `fd` is the open file, if the caller has looked it up. -/
def unlink (h : Nat → Nat) (s : FS) (parent : Nat) (fd : Option Nat) (name : Name) :
    Option (Ret × FS) :=
  match lookup s.ents parent name with
  | none => some (.error .ENOENT, s)
  | some e =>
    let s := { s with ents := erase s.ents parent name }
    if fd.any (· ≠ e.ino) then none
    else
      match doUnlink h s fd.isSome e.ino with
      | none => none
      | some s =>
        match touch s parent with
        | none => none
        | some s => some (.ok 0, s)

/-- do_inactive, fs.rs 685-698; inactive, 1136-1152. -/
def inactive (h : Nat → Nat) (s : FS) (ino : Nat) : Option (Ret × FS) :=
  match s.dying.get (h ino) with
  | none => some (.ok 0, s)
  | some j =>
    let s := { s with dying := s.dying.remove (h ino) }
    if j ≠ ino then none else some (.ok 0, deleteObj s ino)

/-- ok_to_rmdir, fs.rs 1749-1805.  `none` is a panic.  Extents and extended attributes of a
directory are not told apart: any item of a directory panics here, as an extent would. -/
def okToRmdir (s : FS) (ino : Nat) : Option (Except Errno Unit) :=
  if s.ents.any fun e => e.dir = ino ∧ e.name ≠ dot ∧ e.name ≠ dotdot then some (.error .ENOTEMPTY)
  else
    match s.inodes.get ino with
    | none => none
    | some x =>
      if x.isDir = false then none
      else if x.nlink ≠ 2 then none
      else if s.items.any fun i => i.1 = ino then none
      else some (.ok ())

/-- do_rmdir, fs.rs 773-807. -/
def doRmdir (s : FS) (parent ino : Nat) (decNlink : Bool) : Option FS :=
  let s := deleteObj s ino
  if decNlink then modLink s parent dec else some s

/-- rmdir, fs.rs 2189-2222. -/
def rmdir (s : FS) (parent : Nat) (name : Name) : Option (Ret × FS) :=
  match lookup s.ents parent name with
  | none => some (.error .ENOENT, s)
  | some e =>
    match okToRmdir s e.ino with
    | none => none
    | some (.error er) => some (.error er, s)
    | some (.ok ()) =>
      let s := { s with ents := erase s.ents parent name }
      match doRmdir s parent e.ino true with
      | none => none
      | some s => some (.ok 0, s)

/-- The checks rename makes on the destination, fs.rs 2060-2089. -/
def renameCheck (s : FS) (newparent : Nat) (newino : Option Nat) (newname : Name) :
    Option (Except Errno Unit) :=
  match lookup s.ents newparent newname with
  | some e =>
    if newino ≠ some e.ino then none
    else if e.isDir = false then some (.ok ())
    else okToRmdir s e.ino
  | none => if newino.isSome then none else some (.ok ())

/-- Steps 3a-3d of rename, fs.rs 2104-2175. -/
def renameLinks (h : Nat → Nat) (s : FS) (parent newparent ino : Nat) (old : Option Nat)
    (isDir : Bool) : Option FS := do
  let samedir := parent = newparent
  let s := if isDir ∧ parent ≠ newparent then
      { s with ents := (put s.ents ⟨ino, dotdot, newparent, true⟩).2 }
    else s
  let s ← match old with
    | none => some s
    | some v => if isDir then doRmdir s newparent v false else doUnlink h s false v
  let s ← modLink s parent fun n => if isDir ∧ (¬ samedir ∨ old.isSome) then dec n else some n
  if samedir then some s
  else modLink s newparent fun n => if isDir ∧ old.isNone then some (n + 1) else some n

/-- rename, fs.rs 2020-2179. -/
def rename (h : Nat → Nat) (s : FS) (parent ino : Nat) (name : Name) (newparent : Nat)
    (newino : Option Nat) (newname : Name) : Option (Ret × FS) :=
  if name = dot ∨ name = dotdot then some (.error .EINVAL, s)
  else
    match renameCheck s newparent newino newname with
    | none => none
    | some (.error er) => some (.error er, s)
    | some (.ok ()) =>
      match lookup s.ents parent name with
      | none => some (.error .ENOENT, s)
      | some e =>
        let s := { s with ents := erase s.ents parent name }
        if e.ino ≠ ino then none
        else
          let r := put s.ents ⟨newparent, newname, ino, e.isDir⟩
          let s := { s with ents := r.2 }
          match renameLinks h s parent newparent ino (r.1.map (·.ino)) e.isDir with
          | none => none
          | some s => some (.ok ino, s)

/-- Storing a record of a file (write, setextattr): only that the file has a record there. -/
def store (s : FS) (ino key : Nat) : Option (Ret × FS) :=
  match s.inodes.get ino with
  | none => none
  | some _ => some (.ok 0, { s with items := (ino, key) :: s.items.filter (· ≠ (ino, key)) })

/-- A create that fails (for example ENOSPC from fswrite) has already taken its inode number,
fs.rs 620. -/
def burn (s : FS) : FS := { s with next := s.next + 1 }

/-- The largest object number of any key in the tree: `last_key().object()`. -/
def lastObject (s : FS) : Nat :=
  (s.inodes.map (·.1) ++ s.ents.map (·.dir) ++ s.items.map (·.1)).foldl max 0

/-- The purge of dying inodes at mount, fs.rs 1063-1085: delete each dying inode's object, then
the dying records. -/
def purge (s : FS) : FS :=
  { s.dying.foldl (fun s e => deleteObj s e.2) s with dying := [] }

/-- Fs::new, fs.rs 1044-1094.  `last_key` and the purge are joined futures, so the last key may
be read before or after the purge: `early` says which. -/
def mount (s : FS) (early : Bool) : FS :=
  let p := purge s
  { p with next := lastObject (if early then s else p) + 1 }

/-- Database::create_fs, /repo/bfffs-core/src/database/database.rs 491-580: root inode 1 with
link count 1, "." and ".." naming itself. -/
def createFs : FS :=
  { inodes := [(1, ⟨true, 1⟩)]
    ents := [⟨1, dot, 1, true⟩, ⟨1, dotdot, 1, true⟩]
    items := []
    dying := []
    next := 2 }

end Verif.Namespace
