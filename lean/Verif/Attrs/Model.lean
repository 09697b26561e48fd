import Verif.Namespace.Spec

/-!
# File attributes

Models what the operations of /repo/bfffs-core/src/fs.rs do to the attributes of files:
timestamps, owner, permissions, flags and size, together with the directory entries and link
counts that decide which file an operation touches.  Then the translation of attributes in
/repo/bfffs/src/bin/bfffsd/fs.rs.

Simplifications that hold for the whole file:

* Directory entries are those of `Verif.Namespace` (hash chains abstracted by C47).
* Extents and extended attributes are left out.  How much space a write or a deallocation adds or
  frees is a parameter; that it is the right amount is property C45.
* The futures of one operation touch distinct keys, or the same key in program order, so they run
  one after another.
* `none` is a panic (failed assertion or `unwrap`).
* `Timespec` is a number of nanoseconds.  Each operation calls `Timespec::now()` at most once for
  each file it stamps, so the clock of an operation is a function from the file to the time read.
-/

namespace Verif.Attrs

open Verif
open Verif.Namespace (Name Ent Errno Ret dot dotdot lookup erase put dec)

/-- Timespec, /repo/bfffs-core/src/fs_tree.rs 896-912, as nanoseconds. -/
abbrev Time := Int

/-- FileType, /repo/bfffs-core/src/fs_tree.rs 800-822. -/
inductive FType where
  | fifo
  | char (rdev : Nat)
  | dir
  | block (rdev : Nat)
  | reg (exp : Nat)
  | link (dest : Name)
  | socket
deriving DecidableEq, Repr

/-- Inode, /repo/bfffs-core/src/fs_tree.rs 945-996. -/
structure Inode where
  size : Nat
  bytes : Nat
  nlink : Nat
  flags : Nat
  atime : Time
  mtime : Time
  ctime : Time
  birthtime : Time
  uid : Nat
  gid : Nat
  perm : Nat
  ftype : FType
deriving DecidableEq, Repr

/-- `dtype == DT_DIR`, fs_tree.rs 824-836. -/
def FType.isDir : FType → Bool
  | .dir => true
  | _ => false

/-- Inode::record_size, fs_tree.rs 998-1008. -/
def Inode.recordSize (x : Inode) : Option Nat :=
  match x.ftype with
  | .reg e => some (2 ^ e)
  | _ => none

/-- The tree of one file system, with the mount's `next_object` counter and `atime` property
(fs.rs 406-417). -/
structure FS where
  inodes : OMap Inode
  ents : List Ent
  dying : OMap Nat
  next : Nat
  atime : Bool
deriving DecidableEq, Repr

/-- SetAttr, fs.rs 466-487. -/
structure SetAttr where
  size : Option Nat := none
  atime : Option Time := none
  mtime : Option Time := none
  ctime : Option Time := none
  birthtime : Option Time := none
  perm : Option Nat := none
  uid : Option Nat := none
  gid : Option Nat := none
  flags : Option Nat := none
deriving DecidableEq, Repr

/-- Read an inode that must exist, change it, and insert it again. -/
def modInode (s : FS) (ino : Nat) (f : Inode → Option Inode) : Option FS :=
  match s.inodes.get ino with
  | none => none
  | some x =>
    match f x with
    | none => none
    | some y => some { s with inodes := s.inodes.insert ino y }

/-- The inode that do_setattr stores, fs.rs 817-849.  `freed` is what do_deallocate returns when
the file shrinks. -/
def applyAttr (a : SetAttr) (freed : Nat) (x : Inode) : Option Inode :=
  let oldSize := x.size
  let newSize := a.size.getD x.size
  let ctime := a.ctime.getD x.ctime
  let y : Inode :=
    { x with
      perm := a.perm.getD x.perm
      uid := a.uid.getD x.uid
      gid := a.gid.getD x.gid
      size := newSize
      atime := a.atime.getD x.atime
      ctime := ctime
      mtime := a.mtime.getD (if a.size.isSome then ctime else x.mtime)
      birthtime := a.birthtime.getD x.birthtime
      flags := a.flags.getD x.flags }
  if newSize < oldSize then
    match x.recordSize with
    | none => none
    | some _ => some { y with bytes := x.bytes - freed }
  else some y

/-- do_setattr, fs.rs 809-850. -/
def doSetattr (s : FS) (ino : Nat) (a : SetAttr) (freed : Nat) : Option FS :=
  modInode s ino (applyAttr a freed)

/-- The SetAttr that marks a directory as modified: create_ts_callback, fs.rs 1110-1121, and the
same in link (1437-1444) and unlink (2402-2408). -/
def tsAttr (now : Time) : SetAttr := { ctime := some now, mtime := some now }

/-- setattr, fs.rs 2232-2253. -/
def setattr (now : Nat → Time) (s : FS) (ino : Nat) (a : SetAttr) (freed : Nat) :
    Option (Ret × FS) :=
  let a := if a.ctime.isNone then { a with ctime := some (now ino) } else a
  (doSetattr s ino a freed).map fun s => (.ok 0, s)

/-- do_delete_inode, fs.rs 677-682. -/
def deleteObj (s : FS) (ino : Nat) : FS :=
  { s with
    inodes := s.inodes.remove ino
    ents := s.ents.filter fun e => e.dir ≠ ino }

/-- What the caller asks of a new file: CreateArgs, fs.rs 495-509. -/
structure Args where
  perm : Nat
  uid : Nat
  gid : Nat
  ftype : FType
deriving DecidableEq, Repr

/-- do_create, fs.rs 616-675. -/
def doCreate (now : Nat → Time) (s : FS) (parent : Nat) (name : Name) (args : Args) (nlink : Nat)
    (cb : FS → Nat → Nat → Option FS) : Option (Ret × FS) :=
  let ino := s.next
  let s := { s with next := s.next + 1 }
  let inode : Inode :=
    { size := 0, bytes := 0, nlink := nlink, flags := 0
      atime := now ino, mtime := now ino, ctime := now ino, birthtime := now ino
      uid := args.uid, gid := args.gid, perm := args.perm, ftype := args.ftype }
  match cb s parent ino with
  | none => none
  | some s =>
    let oldInode := s.inodes.get ino
    let s := { s with inodes := s.inodes.insert ino inode }
    let r := put s.ents ⟨parent, name, ino, args.ftype.isDir⟩
    let s := { s with ents := r.2 }
    if r.1.isSome then none
    else if oldInode.isSome then none
    else some (.ok ino, s)

/-- create, symlink, mkfifo, mksock, mkchar and mkblock, fs.rs 1098-1107, 1711-1747, 2352-2361. -/
def create (now : Nat → Time) (s : FS) (parent : Nat) (name : Name) (args : Args) :
    Option (Ret × FS) :=
  doCreate now s parent name args 1 fun s p _ => doSetattr s p (tsAttr (now p)) 0

/-- mkdir's callback, fs.rs 1652-1699. -/
def mkdirCb (now : Nat → Time) (s : FS) (parent ino : Nat) : Option FS :=
  let s := { s with ents := (put s.ents ⟨ino, dot, ino, true⟩).2 }
  let s := { s with ents := (put s.ents ⟨ino, dotdot, parent, true⟩).2 }
  modInode s parent fun x =>
    some { x with nlink := x.nlink + 1, mtime := now parent, ctime := now parent }

/-- mkdir, fs.rs 1646-1707. -/
def mkdir (now : Nat → Time) (s : FS) (parent : Nat) (name : Name) (perm uid gid : Nat) :
    Option (Ret × FS) :=
  doCreate now s parent name ⟨perm, uid, gid, .dir⟩ 2 (mkdirCb now)

/-- link, fs.rs 1411-1460. -/
def link (now : Nat → Time) (s : FS) (parent ino : Nat) (name : Name) : Option (Ret × FS) :=
  match s.inodes.get ino with
  | none => none
  | some x =>
    let s := { s with inodes := s.inodes.insert ino { x with nlink := x.nlink + 1 } }
    let s := { s with ents := (put s.ents ⟨parent, name, ino, x.ftype.isDir⟩).2 }
    match doSetattr s parent (tsAttr (now parent)) 0 with
    | none => none
    | some s =>
      match doSetattr s ino { ctime := some (now ino) } 0 with
      | none => none
      | some s => some (.ok 0, s)

/-- do_unlink, fs.rs 984-1030.  `h` is the hash that keys DyingInode records. -/
def doUnlink (now : Nat → Time) (h : Nat → Nat) (s : FS) (active : Bool) (ino : Nat) :
    Option FS :=
  match s.inodes.get ino with
  | none => none
  | some x =>
    let nlink := x.nlink - 1
    if nlink > 0 ∨ active then
      let s' := { s with inodes := s.inodes.insert ino { x with nlink := nlink, ctime := now ino } }
      if nlink = 0 then
        if (s.dying.get (h ino)).isSome then none
        else some { s' with dying := s.dying.insert (h ino) ino }
      else some s'
    else some (deleteObj s ino)

/-- unlink, fs.rs 2377-2413. -/
def unlink (now : Nat → Time) (h : Nat → Nat) (s : FS) (parent : Nat) (fd : Option Nat)
    (name : Name) : Option (Ret × FS) :=
  match lookup s.ents parent name with
  | none => some (.error .ENOENT, s)
  | some e =>
    let s := { s with ents := erase s.ents parent name }
    if fd.any (· ≠ e.ino) then none
    else
      match doUnlink now h s fd.isSome e.ino with
      | none => none
      | some s =>
        match doSetattr s parent (tsAttr (now parent)) 0 with
        | none => none
        | some s => some (.ok 0, s)

/-- do_inactive, fs.rs 685-698; inactive, 1136-1152. -/
def inactive (h : Nat → Nat) (s : FS) (ino : Nat) : Option (Ret × FS) :=
  match s.dying.get (h ino) with
  | none => some (.ok 0, s)
  | some j =>
    let s := { s with dying := s.dying.remove (h ino) }
    if j ≠ ino then none else some (.ok 0, deleteObj s ino)

/-- ok_to_rmdir, fs.rs 1749-1805. -/
def okToRmdir (s : FS) (ino : Nat) : Option (Except Errno Unit) :=
  if s.ents.any fun e => e.dir = ino ∧ e.name ≠ dot ∧ e.name ≠ dotdot then some (.error .ENOTEMPTY)
  else
    match s.inodes.get ino with
    | none => none
    | some x =>
      if x.ftype.isDir = false then none
      else if x.nlink ≠ 2 then none
      else some (.ok ())

/-- `nlink -= 1` with both timestamps, as do_rmdir (fs.rs 790-797) and rename (2127-2134) do. -/
def stampDec (now : Time) (x : Inode) : Option Inode :=
  match dec x.nlink with
  | none => none
  | some n => some { x with nlink := n, mtime := now, ctime := now }

/-- do_rmdir, fs.rs 773-806. -/
def doRmdir (now : Nat → Time) (s : FS) (parent ino : Nat) (decNlink : Bool) : Option FS :=
  let s := deleteObj s ino
  if decNlink then modInode s parent (stampDec (now parent)) else some s

/-- rmdir, fs.rs 2189-2222. -/
def rmdir (now : Nat → Time) (s : FS) (parent : Nat) (name : Name) : Option (Ret × FS) :=
  match lookup s.ents parent name with
  | none => some (.error .ENOENT, s)
  | some e =>
    match okToRmdir s e.ino with
    | none => none
    | some (.error er) => some (.error er, s)
    | some (.ok ()) =>
      let s := { s with ents := erase s.ents parent name }
      match doRmdir now s parent e.ino true with
      | none => none
      | some s => some (.ok 0, s)

/-- The checks rename makes on the destination, fs.rs 2060-2092. -/
def renameCheck (s : FS) (newparent : Nat) (newino : Option Nat) (newname : Name) :
    Option (Except Errno Unit) :=
  match lookup s.ents newparent newname with
  | some e =>
    if newino ≠ some e.ino then none
    else if e.isDir = false then some (.ok ())
    else okToRmdir s e.ino
  | none => if newino.isSome then none else some (.ok ())

/-- Step 3a of rename, fs.rs 2117-2137: the old parent. -/
def renameParent (now : Time) (isDir samedir : Bool) (old : Option Nat) (x : Inode) :
    Option Inode :=
  if isDir ∧ (samedir = false ∨ old.isSome) then stampDec now x
  else some { x with mtime := now, ctime := now }

/-- Step 3b of rename, fs.rs 2138-2158: the new parent. -/
def renameNewParent (now : Time) (isDir : Bool) (old : Option Nat) (x : Inode) : Option Inode :=
  some { x with
    mtime := now
    ctime := now
    nlink := if isDir ∧ old.isNone then x.nlink + 1 else x.nlink }

/-- Steps 3a-3d of rename, fs.rs 2113-2177. -/
def renameLinks (now : Nat → Time) (h : Nat → Nat) (s : FS) (parent newparent ino : Nat)
    (old : Option Nat) (isDir : Bool) : Option FS :=
  let samedir := decide (parent = newparent)
  let s := if isDir ∧ parent ≠ newparent then
      { s with ents := (put s.ents ⟨ino, dotdot, newparent, true⟩).2 }
    else s
  match (match old with
    | none => some s
    | some v => if isDir then doRmdir now s newparent v false else doUnlink now h s false v) with
  | none => none
  | some s =>
    match modInode s parent (renameParent (now parent) isDir samedir old) with
    | none => none
    | some s =>
      if samedir then some s
      else modInode s newparent (renameNewParent (now newparent) isDir old)

/-- rename, fs.rs 2020-2180. -/
def rename (now : Nat → Time) (h : Nat → Nat) (s : FS) (parent ino : Nat) (name : Name)
    (newparent : Nat) (newino : Option Nat) (newname : Name) : Option (Ret × FS) :=
  if name = dot ∨ name = dotdot then some (.error .EINVAL, s)
  else
    match renameCheck s newparent newino newname with
    | none => none
    | some (.error er) => some (.error er, s)
    | some (.ok ()) =>
      match lookup s.ents parent name with
      | none => some (.error .ENOENT, s)
      | some e =>
        let s := { s with ents := erase s.ents parent name }
        if e.ino ≠ ino then none
        else
          let r := put s.ents ⟨newparent, newname, ino, e.isDir⟩
          let s := { s with ents := r.2 }
          match renameLinks now h s parent newparent ino (r.1.map (·.ino)) e.isDir with
          | none => none
          | some s => some (.ok ino, s)

/-- read, fs.rs 1808-1848: with the `atime` property the inode is stamped first; either way the
file must have a record size. -/
def read (now : Nat → Time) (s : FS) (ino : Nat) : Option (Ret × FS) :=
  match s.inodes.get ino with
  | none => none
  | some x =>
    match x.recordSize with
    | none => none
    | some _ =>
      if s.atime then
        some (.ok 0, { s with inodes := s.inodes.insert ino { x with atime := now ino } })
      else some (.ok 0, s)

/-- write, fs.rs 2416-2488.  `delta` is the sum of what write_record returns. -/
def write (now : Nat → Time) (s : FS) (ino offset len : Nat) (delta : Int) : Option (Ret × FS) :=
  match s.inodes.get ino with
  | none => none
  | some x =>
    match x.recordSize with
    | none => none
    | some _ =>
      let y : Inode :=
        { x with
          size := max x.size (offset + len)
          bytes := (x.bytes + delta).toNat
          mtime := now ino
          ctime := now ino }
      some (.ok len, { s with inodes := s.inodes.insert ino y })

/-- deallocate, fs.rs 569-598.  `freed` is what do_deallocate returns. -/
def deallocate (now : Nat → Time) (s : FS) (ino offset len freed : Nat) : Option (Ret × FS) :=
  match s.inodes.get ino with
  | none => none
  | some x =>
    match x.recordSize with
    | none => none
    | some _ =>
      let offset := min x.size offset
      let len := min (x.size - offset) len
      if len > 0 then
        let y : Inode := { x with bytes := x.bytes - freed, mtime := now ino, ctime := now ino }
        some (.ok 0, { s with inodes := s.inodes.insert ino y })
      else some (.ok 0, s)

/-- A create that fails has already taken its inode number, fs.rs 619. -/
def burn (s : FS) : FS := { s with next := s.next + 1 }

/-- `last_key().object()` -/
def lastObject (s : FS) : Nat :=
  (s.inodes.map (·.1) ++ s.ents.map (·.dir)).foldl max 0

/-- The purge of dying inodes at mount, fs.rs 1063-1085. -/
def purge (s : FS) : FS :=
  { s.dying.foldl (fun s e => deleteObj s e.2) s with dying := [] }

/-- Fs::new, fs.rs 1042-1095.  `early`: whether the last key is read before the purge. -/
def mount (s : FS) (early : Bool) : FS :=
  let p := purge s
  { p with next := lastObject (if early then s else p) + 1 }

/-- Database::create_fs, /repo/bfffs-core/src/database/database.rs 491-580. -/
def createFs (t0 : Time) : FS :=
  { inodes := [(1, { size := 0, bytes := 0, nlink := 1, flags := 0, atime := t0, mtime := t0,
                     ctime := t0, birthtime := t0, uid := 0, gid := 0, perm := 0o755,
                     ftype := .dir })]
    ents := [⟨1, dot, 1, true⟩, ⟨1, dotdot, 1, true⟩]
    dying := []
    next := 2
    atime := true }

/-! ## What a client is told -/

/-- FileType::mode, fs_tree.rs 839-849: the file type bits of the mode. -/
def FType.mode : FType → Nat
  | .fifo => 0o010000
  | .char _ => 0o020000
  | .dir => 0o040000
  | .block _ => 0o060000
  | .reg _ => 0o100000
  | .link _ => 0o120000
  | .socket => 0o140000

/-- GetAttr, fs.rs 434-464. -/
structure GetAttr where
  ino : Nat
  size : Nat
  bytes : Nat
  atime : Time
  mtime : Time
  ctime : Time
  birthtime : Time
  mode : Nat
  nlink : Nat
  uid : Nat
  gid : Nat
  rdev : Nat
  blksize : Nat
  flags : Nat
deriving DecidableEq, Repr

/-- do_getattr, fs.rs 1223-1266; `none` is ENOENT. -/
def getattr (s : FS) (ino : Nat) : Option GetAttr :=
  match s.inodes.get ino with
  | none => none
  | some x =>
    some {
      ino := ino, size := x.size, bytes := x.bytes, atime := x.atime, mtime := x.mtime
      ctime := x.ctime, birthtime := x.birthtime, mode := x.ftype.mode ||| x.perm
      nlink := x.nlink, uid := x.uid, gid := x.gid
      rdev := match x.ftype with
        | .char r => r
        | .block r => r
        | _ => 0
      blksize := x.recordSize.getD 4096 % 2 ^ 32
      flags := x.flags }

/-- fuse3's FileType. -/
inductive Kind where
  | namedPipe | charDevice | directory | blockDevice | regularFile | symlink | socket
deriving DecidableEq, Repr

/-- fuse3's FileAttr, as far as the daemon fills it. -/
structure FileAttr where
  ino : Nat
  size : Nat
  blocks : Nat
  atime : Time
  mtime : Time
  ctime : Time
  kind : Kind
  perm : Nat
  nlink : Nat
  uid : Nat
  gid : Nat
  rdev : Nat
  blksize : Nat
deriving DecidableEq, Repr

/-- The `kind` that the daemon finds in the mode, bfffsd/fs.rs 138-153; `none` is the panic. -/
def kindOf (mode : Nat) : Option Kind :=
  let t := mode &&& 0o170000
  if t = 0o010000 then some .namedPipe
  else if t = 0o020000 then some .charDevice
  else if t = 0o040000 then some .directory
  else if t = 0o060000 then some .blockDevice
  else if t = 0o100000 then some .regularFile
  else if t = 0o120000 then some .symlink
  else if t = 0o140000 then some .socket
  else none

/-- FuseFs::do_getattr, bfffsd/fs.rs 135-173: `bytes << 9` drops the high bits of a u64, and the
casts to u32 those of the link count and the device number. -/
def fileAttr (a : GetAttr) : Option FileAttr :=
  match kindOf a.mode with
  | none => none
  | some kind =>
    some {
      ino := a.ino, size := a.size, blocks := (a.bytes * 2 ^ 9) % 2 ^ 64
      atime := a.atime, mtime := a.mtime, ctime := a.ctime
      kind := kind, perm := a.mode % 2 ^ 12, nlink := a.nlink % 2 ^ 32
      uid := a.uid, gid := a.gid, rdev := a.rdev % 2 ^ 32, blksize := a.blksize }

/-- fuse3's SetAttr, as far as the daemon reads it. -/
structure FuseSetAttr where
  mode : Option Nat := none
  uid : Option Nat := none
  gid : Option Nat := none
  size : Option Nat := none
  atime : Option Time := none
  mtime : Option Time := none
  ctime : Option Time := none
deriving DecidableEq, Repr

/-- The SetAttr that FuseFs::setattr passes on, bfffsd/fs.rs 982-992. -/
def fuseAttr (a : FuseSetAttr) : SetAttr :=
  { perm := a.mode.map (· % 2 ^ 12), uid := a.uid, gid := a.gid, size := a.size
    atime := a.atime, mtime := a.mtime, ctime := a.ctime, birthtime := none, flags := none }

end Verif.Attrs
