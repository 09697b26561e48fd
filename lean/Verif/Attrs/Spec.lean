import Verif.Attrs.Model

/-!
# What C70 says

`given e i` is what one request says about the attributes of file `i`: POSIX's rules for marking
timestamps, and the values the client asked for.  C70 is that each attribute of a file is the last
one that was given.
-/

namespace Verif.Attrs

open Verif
open Verif.Namespace (Name Ent Errno Ret)

/-- The requests of a client. -/
inductive Op where
  | create (parent : Nat) (name : Name) (args : Args)
  | mkdir (parent : Nat) (name : Name) (perm uid gid : Nat)
  | link (parent ino : Nat) (name : Name)
  | unlink (parent : Nat) (fd : Option Nat) (name : Name)
  | rmdir (parent : Nat) (name : Name)
  | rename (parent ino : Nat) (name : Name) (newparent : Nat) (newino : Option Nat)
      (newname : Name)
  | read (ino : Nat)
  | write (ino offset len : Nat) (delta : Int)
  | deallocate (ino offset len freed : Nat)
  | setattr (ino : Nat) (a : SetAttr) (freed : Nat)
  /-- list a directory, or read a symbolic link -/
  | readdir (ino : Nat)
  | readlink (ino : Nat)
  /-- switch the `atime` property -/
  | setAtime (on : Bool)
  /-- a create that fails for lack of space -/
  | failedCreate
  /-- the client starts using a file -/
  | use (ino : Nat)
  /-- the client is done with a file -/
  | inactive (ino : Nat)
  /-- the file system is mounted again, after an unmount or a crash -/
  | remount (early : Bool)
deriving DecidableEq, Repr

/-- The mount and the files in use. -/
structure Client where
  fs : FS
  inUse : List Nat
deriving DecidableEq, Repr

/-- The client right after the file system was created, at time `t0`. -/
def Client.new (t0 : Time) : Client := ⟨createFs t0, []⟩

/-- Keep the in-use set. -/
def Client.withFs (c : Client) (r : Option (Ret × FS)) : Option (Ret × Client) :=
  r.map fun r => (r.1, ⟨r.2, c.inUse⟩)

/-- One request, with the clock readings made while it ran.  `none` is a panic.  Listing a
directory (fs.rs 1862-1950) and reading a link (fs.rs 1968-1996) store nothing. -/
def Client.step (h : Nat → Nat) (now : Nat → Time) (c : Client) : Op → Option (Ret × Client)
  | .create p n args => c.withFs (create now c.fs p n args)
  | .mkdir p n perm uid gid => c.withFs (mkdir now c.fs p n perm uid gid)
  | .link p i n => c.withFs (link now c.fs p i n)
  | .unlink p fd n => c.withFs (unlink now h c.fs p fd n)
  | .rmdir p n => c.withFs (rmdir now c.fs p n)
  | .rename p i n np ni nn => c.withFs (rename now h c.fs p i n np ni nn)
  | .read i => c.withFs (read now c.fs i)
  | .write i o l d => c.withFs (write now c.fs i o l d)
  | .deallocate i o l f => c.withFs (deallocate now c.fs i o l f)
  | .setattr i a f => c.withFs (setattr now c.fs i a f)
  | .readdir _ => some (.ok 0, c)
  | .readlink _ => some (.ok 0, c)
  | .setAtime on => some (.ok 0, ⟨{ c.fs with atime := on }, c.inUse⟩)
  | .failedCreate => some (.ok 0, ⟨burn c.fs, c.inUse⟩)
  | .use i => some (.ok 0, ⟨c.fs, i :: c.inUse⟩)
  | .inactive i => (inactive h c.fs i).map fun r => (r.1, ⟨r.2, c.inUse.filter (· ≠ i)⟩)
  | .remount early => some (.ok 0, ⟨mount c.fs early, []⟩)

/-- One request of a history: what was asked, when, what was returned, and what the file system
looked like before. -/
structure Event where
  op : Op
  now : Nat → Time
  ret : Ret
  before : FS

/-- `Steps h c es c'`: starting from `c` the client makes the requests `es`, and ends at `c'`. -/
inductive Steps (h : Nat → Nat) : Client → List Event → Client → Prop
  | nil (c : Client) : Steps h c [] c
  | cons {c c1 c2 : Client} {op : Op} {now : Nat → Time} {r : Ret} {es : List Event} :
      c.step h now op = some (r, c1) → Steps h c1 es c2 →
      Steps h c (⟨op, now, r, c.fs⟩ :: es) c2

/-- `d/n` is a name of `i`. -/
def FS.Names (s : FS) (d : Nat) (n : Name) (i : Nat) : Prop :=
  ∃ e, Namespace.lookup s.ents d n = some e ∧ e.ino = i

instance (s : FS) (d : Nat) (n : Name) (i : Nat) : Decidable (s.Names d n i) :=
  match hl : Namespace.lookup s.ents d n with
  | none => isFalse (by rintro ⟨e, he, _⟩; rw [hl] at he; cases he)
  | some e =>
    if he : e.ino = i then isTrue ⟨e, hl, he⟩
    else isFalse (by rintro ⟨e', h1, h2⟩; rw [hl] at h1; cases h1; exact he h2)

/-- The size of file `i`. -/
def FS.size (s : FS) (i : Nat) : Nat := ((s.inodes.get i).map (·.size)).getD 0

/-- The request created file `i`. -/
def Event.creates (e : Event) (i : Nat) : Prop :=
  match e.op with
  | .create .. | .mkdir .. => e.ret = .ok i
  | _ => False

instance (e : Event) (i : Nat) : Decidable (e.creates i) := by
  unfold Event.creates; split <;> infer_instance

/-- The request changed the contents of file `i`, or the entries of directory `i`. -/
def Event.modifies (e : Event) (i : Nat) : Prop :=
  match e.ret with
  | .error _ => False
  | .ok _ =>
    match e.op with
    | .create p .. | .mkdir p .. | .link p .. | .unlink p .. | .rmdir p .. => i = p
    | .rename p _ _ np _ _ => i = p ∨ i = np
    | .write j .. => i = j
    | .deallocate j off len _ => i = j ∧ off < e.before.size j ∧ 0 < len
    | .setattr j a _ => i = j ∧ a.size.isSome
    | _ => False

instance (e : Event) (i : Nat) : Decidable (e.modifies i) := by
  unfold Event.modifies; split
  · infer_instance
  · split <;> infer_instance

/-- The request changed the status of file `i`: it modified it, changed how many names it has, or
set an attribute. -/
def Event.changes (e : Event) (i : Nat) : Prop :=
  e.modifies i ∨
  match e.ret with
  | .error _ => False
  | .ok _ =>
    match e.op with
    | .link _ j _ => i = j
    | .unlink p _ n => e.before.Names p n i
    | .rename p _ n np _ nn => (p, n) ≠ (np, nn) ∧ e.before.Names np nn i
    | .setattr j .. => i = j
    | _ => False

instance (e : Event) (i : Nat) : Decidable (e.changes i) := by
  unfold Event.changes
  refine @instDecidableOr _ _ inferInstance ?_
  split
  · infer_instance
  · split <;> infer_instance

/-- The request read file `i` while access times were being recorded. -/
def Event.accesses (e : Event) (i : Nat) : Prop := e.op = .read i ∧ e.before.atime = true

instance (e : Event) (i : Nat) : Decidable (e.accesses i) := by
  unfold Event.accesses; infer_instance

/-- The attributes a request asked for on file `i`. -/
def Event.asked (e : Event) (i : Nat) : SetAttr :=
  match e.op with
  | .setattr j a _ => if i = j then a else {}
  | _ => {}

/-- The owner and permissions of a new file. -/
def Event.args (e : Event) : Option Args :=
  match e.op with
  | .create _ _ args => some args
  | .mkdir _ _ perm uid gid => some ⟨perm, uid, gid, .dir⟩
  | _ => none

/-- What a request gives to a file. -/
structure Given where
  size : Option Nat
  flags : Option Nat
  atime : Option Time
  mtime : Option Time
  ctime : Option Time
  birthtime : Option Time
  uid : Option Nat
  gid : Option Nat
  perm : Option Nat
  ftype : Option FType

/-- The first thing that applies: a new file has the time of its creation, the owner and the
permissions that were asked for, no flags and no contents.  Otherwise a value the client asked
for; otherwise the time of the request, if the request marks that timestamp. -/
def given (e : Event) (i : Nat) : Given :=
  if e.creates i then
    { size := some 0, flags := some 0
      atime := some (e.now i), mtime := some (e.now i), ctime := some (e.now i)
      birthtime := some (e.now i)
      uid := e.args.map (·.uid), gid := e.args.map (·.gid), perm := e.args.map (·.perm)
      ftype := e.args.map (·.ftype) }
  else
    let a := e.asked i
    -- the time of a request that sets attributes is the one it asks for, if any
    let time := a.ctime.getD (e.now i)
    { size := match e.op with
        | .write j off len _ => if i = j then some (max (e.before.size i) (off + len)) else none
        | _ => a.size
      flags := a.flags
      atime := a.atime <|> if e.accesses i then some time else none
      mtime := a.mtime <|> if e.modifies i then some time else none
      ctime := if e.changes i then some time else none
      birthtime := a.birthtime
      uid := a.uid, gid := a.gid, perm := a.perm
      ftype := none }

/-- The last value given in a history; `d` if there is none. -/
def lastGiven {α : Type} (f : Given → Option α) (i : Nat) (d : α) : List Event → α
  | [] => d
  | e :: es => lastGiven f i ((f (given e i)).getD d) es

/-- The device number that a device node was created with; 0 for others. -/
def FType.rdev : FType → Nat
  | .char r | .block r => r
  | _ => 0

/-- The preferred size of transfers: the record size of a regular file, 4096 for others. -/
def FType.blksize : FType → Nat
  | .reg e => 2 ^ e
  | _ => 4096

/-- What getattr reports of file `i` is what the history `es` gave it last.  The root directory
`root` is there before the first request. -/
structure Agrees (root : Inode) (es : List Event) (a : GetAttr) : Prop where
  size : a.size = lastGiven (·.size) a.ino root.size es
  flags : a.flags = lastGiven (·.flags) a.ino root.flags es
  atime : a.atime = lastGiven (·.atime) a.ino root.atime es
  mtime : a.mtime = lastGiven (·.mtime) a.ino root.mtime es
  ctime : a.ctime = lastGiven (·.ctime) a.ino root.ctime es
  birthtime : a.birthtime = lastGiven (·.birthtime) a.ino root.birthtime es
  uid : a.uid = lastGiven (·.uid) a.ino root.uid es
  gid : a.gid = lastGiven (·.gid) a.ino root.gid es
  mode : a.mode = (lastGiven (·.ftype) a.ino root.ftype es).mode |||
    lastGiven (·.perm) a.ino root.perm es
  rdev : a.rdev = (lastGiven (·.ftype) a.ino root.ftype es).rdev
  blksize : a.blksize = (lastGiven (·.ftype) a.ino root.ftype es).blksize % 2 ^ 32

/-- The attributes of the root directory of a new file system. -/
def rootInode (t0 : Time) : Inode :=
  { size := 0, bytes := 0, nlink := 1, flags := 0, atime := t0, mtime := t0, ctime := t0
    birthtime := t0, uid := 0, gid := 0, perm := 0o755, ftype := .dir }

/-- The kind of file that a type of file is, as FUSE clients know it. -/
def FType.kind : FType → Kind
  | .fifo => .namedPipe
  | .char _ => .charDevice
  | .dir => .directory
  | .block _ => .blockDevice
  | .reg _ => .regularFile
  | .link _ => .symlink
  | .socket => .socket

/-- The request asks for no permission bits beyond the low twelve, as those of the daemon never
do (bfffsd/fs.rs 278, 676, 698, 983, 1072). -/
def Event.Masked (e : Event) : Prop :=
  match e.op with
  | .create _ _ args => args.perm < 2 ^ 12
  | .mkdir _ _ perm _ _ => perm < 2 ^ 12
  | .setattr _ a _ => ∀ p, a.perm = some p → p < 2 ^ 12
  | _ => True

instance (e : Event) : Decidable e.Masked := by
  unfold Event.Masked
  split
  · infer_instance
  · infer_instance
  · rename_i a _ _
    cases hp : a.perm with
    | none => exact isTrue (by intro p k; cases k)
    | some q =>
      exact if hq : q < 2 ^ 12 then isTrue (by intro p k; cases k; exact hq)
        else isFalse (fun k => hq (k q rfl))
  · infer_instance

/-! ## Valid requests -/

/-- The part of an inode that `Verif.Namespace` knows. -/
def Inode.core (x : Inode) : Namespace.Inode := ⟨x.ftype.isDir, x.nlink⟩

/-- The file system without attributes. -/
def FS.forget (s : FS) : Namespace.FS :=
  { inodes := s.inodes.map fun e => (e.1, e.2.core)
    ents := s.ents, items := [], dying := s.dying, next := s.next }

/-- The client without attributes. -/
def Client.forget (c : Client) : Namespace.Client := ⟨c.fs.forget, c.inUse⟩

/-- What a request is to the names, if it concerns them at all. -/
def Op.names : Op → Option Namespace.Op
  | .create p n _ => some (.create p n)
  | .mkdir p n .. => some (.mkdir p n)
  | .link p i n => some (.link p i n)
  | .unlink p fd n => some (.unlink p fd n)
  | .rmdir p n => some (.rmdir p n)
  | .rename p i n np ni nn => some (.rename p i n np ni nn)
  | .failedCreate => some .failedCreate
  | .use i => some (.use i)
  | .inactive i => some (.inactive i)
  | .remount early => some (.remount early)
  | _ => none

/-- File `i` is a regular file. -/
def FS.Regular (s : FS) (i : Nat) : Prop := ∃ x e, s.inodes.get i = some x ∧ x.ftype = .reg e

/-- What the caller guarantees of each request: what `Verif.Namespace` asks of those that concern
names; only regular files are read, written and truncated; only existing files have attributes
set; and create is not asked for a directory. -/
def Valid (h : Nat → Nat) (c : Client) (op : Op) : Prop :=
  (∀ o, op.names = some o → Namespace.Valid h c.forget o) ∧
  match op with
  | .create _ _ args => args.ftype.isDir = false
  | .read i | .write i .. | .deallocate i .. => c.fs.Regular i
  | .setattr i a _ => (∃ x, c.fs.inodes.get i = some x) ∧ (a.size.isSome → c.fs.Regular i)
  | _ => True

/-- Every request of a history is valid when it is made. -/
def ValidRun (h : Nat → Nat) (c : Client) : List (Op × (Nat → Time)) → Prop
  | [] => True
  | (op, now) :: ops =>
      Valid h c op ∧ ∀ r c', c.step h now op = some (r, c') → ValidRun h c' ops

end Verif.Attrs
