import Verif.Namespace.Model

/-!
# The FUSE daemon's tables

Models the requests of /repo/bfffs/src/bin/bfffsd/fs.rs that read or change the daemon's table of
inodes and its name cache, on top of the file system of `Verif.Namespace`.

Simplifications that hold for the whole file:

* The hash maps are association lists.
* Attributes are left out, except for the file type.
* A request runs without interruption, except that `lookup` is split at its first `await`.
* `none` is a panic (failed assertion, `expect` or `unwrap`).
-/

namespace Verif.Fuse

open Verif Verif.Namespace

/-- FileDataMut, /repo/bfffs-core/src/fs.rs 330-336; the inode number is the key of the table. -/
structure Fd where
  /-- the parent directory; only for directories other than the root -/
  parent : Option Nat
  count : Nat
deriving DecidableEq, Repr

/-- A `HashMap<(u64, OsString), V>`. -/
abbrev NameMap (V : Type) := List ((Nat × Name) × V)

/-- HashMap::get -/
def NameMap.get {V : Type} (m : NameMap V) (p : Nat) (n : Name) : Option V :=
  (m.find? fun e => e.1 = (p, n)).map (·.2)

/-- HashMap::remove -/
def NameMap.erase {V : Type} (m : NameMap V) (p : Nat) (n : Name) : NameMap V :=
  m.filter fun e => e.1 ≠ (p, n)

/-- HashMap::insert -/
def NameMap.set {V : Type} (m : NameMap V) (p : Nat) (n : Name) (v : V) : NameMap V :=
  ((p, n), v) :: m.erase p n

/-- FuseFs, bfffsd/fs.rs 72-90. -/
structure Daemon where
  files : OMap Fd
  names : NameMap Nat
  fs : FS
deriving DecidableEq, Repr

/-- From<Arc<Fs>>, bfffsd/fs.rs 1147-1160: the root is in the table from the start. -/
def Daemon.start (s : FS) : Daemon := ⟨[(1, ⟨none, 1⟩)], [], s⟩

/-- Errors the daemon returns. -/
inductive Err where
  | ofFs (e : Errno)
  /-- an error of the layers below, such as EIO or ENOSPC -/
  | io
deriving DecidableEq, Repr

/-- Which call into the layers below fails, if any. -/
inductive Fault where
  | none
  /-- the operation itself, before it has changed anything -/
  | op
  /-- the getattr that follows it -/
  | attr
deriving DecidableEq, Repr

/-- What the daemon answers. -/
inductive Reply where
  | entry (ino : Nat) (isDir : Bool)
  | ok
  | err (e : Err)
deriving DecidableEq, Repr

/-- FileDataMut::handle, /repo/bfffs-core/src/fs.rs 344-351: asserts a positive count. -/
def Fd.handle (fd : Fd) : Option Fd := if fd.count = 0 then none else some fd

/-- `files.get(&ino).expect(..).handle()` -/
def Daemon.handle (d : Daemon) (ino : Nat) : Option Fd :=
  match d.files.get ino with
  | none => none
  | some fd => fd.handle

/-- do_getattr, bfffsd/fs.rs 135-174, on Fs::do_getattr, /repo/bfffs-core/src/fs.rs 1222-1267. -/
def getattr (s : FS) (fault : Fault) (ino : Nat) : Except Err Inode :=
  if fault = .attr then .error .io
  else
    match s.inodes.get ino with
    | none => .error (.ofFs .ENOENT)
    | some x => .ok x

/-- cache_file, bfffsd/fs.rs 99-124. -/
def cacheFile (d : Daemon) (parent : Nat) (name : Name) (ino : Nat) (fd : Fd) : Option Daemon :=
  if (d.names.get parent name).isSome then none
  else
    some { d with
      names := d.names.set parent name ino
      files := match d.files.get ino with
        | some o => d.files.insert ino { o with count := o.count + fd.count }
        | none => d.files.insert ino fd }

/-- cache_name, bfffsd/fs.rs 126-132. -/
def cacheName (d : Daemon) (parent : Nat) (name : Name) (ino : Nat) : Option Daemon :=
  if (d.names.get parent name).isSome then none
  else some { d with names := d.names.set parent name ino }

/-- The `fs.inactive(fd)` of a failed request, which then returns the error. -/
def dropFd (h : Nat → Nat) (d : Daemon) (ino : Nat) (e : Err) : Option (Reply × Daemon) :=
  match inactive h d.fs ino with
  | none => none
  | some (_, s) => some (.err e, { d with fs := s })

/-- handle_new_entry, bfffsd/fs.rs 188-209. -/
def newEntry (h : Nat → Nat) (d : Daemon) (fault : Fault) (parent : Nat) (name : Name) (ino : Nat)
    (fd : Fd) : Option (Reply × Daemon) :=
  match fd.handle with
  | none => none
  | some _ =>
    match getattr d.fs fault ino with
    | .error e => dropFd h d ino e
    | .ok x =>
      match cacheFile d parent name ino fd with
      | none => none
      | some d => some (.entry ino x.isDir, d)

/-- create, bfffsd/fs.rs 260-305; mknod, 683-737, and symlink, 1053-1075, are alike. -/
def create (h : Nat → Nat) (d : Daemon) (parent : Nat) (name : Name) (fault : Fault) :
    Option (Reply × Daemon) :=
  match d.handle parent with
  | none => none
  | some _ =>
    if fault = .op then some (.err .io, { d with fs := burn d.fs })
    else
      match Namespace.create d.fs parent name with
      | none => none
      | some (.error e, s) => some (.err (.ofFs e), { d with fs := s })
      | some (.ok ino, s) => newEntry h { d with fs := s } fault parent name ino ⟨none, 1⟩

/-- mkdir, bfffsd/fs.rs 660-681. -/
def mkdir (h : Nat → Nat) (d : Daemon) (parent : Nat) (name : Name) (fault : Fault) :
    Option (Reply × Daemon) :=
  match d.handle parent with
  | none => none
  | some _ =>
    if fault = .op then some (.err .io, { d with fs := burn d.fs })
    else
      match Namespace.mkdir d.fs parent name with
      | none => none
      | some (.error e, s) => some (.err (.ofFs e), { d with fs := s })
      | some (.ok ino, s) => newEntry h { d with fs := s } fault parent name ino ⟨some parent, 1⟩

/-- forget, bfffsd/fs.rs 337-355.  The subtraction panics on underflow; in a release build it
wraps, and the assertion after it fails. -/
def forget (h : Nat → Nat) (d : Daemon) (ino nlookup : Nat) : Option (Reply × Daemon) :=
  if ino = 1 then some (.ok, d)
  else
    match d.files.get ino with
    | none => none
    | some fd =>
      if fd.count < nlookup then none
      else if fd.count - nlookup ≠ 0 then none
      else
        match inactive h d.fs ino with
        | none => none
        | some (_, s) => some (.ok, { d with files := d.files.remove ino, fs := s })

/-- link, bfffsd/fs.rs 437-469.  The lookup count stays. -/
def link (d : Daemon) (ino parent : Nat) (name : Name) (fault : Fault) : Option (Reply × Daemon) :=
  match d.handle parent, d.handle ino with
  | some _, some _ =>
    if fault = .op then some (.err .io, d)
    else
      match Namespace.link d.fs parent ino name with
      | none => none
      | some (.error e, s) => some (.err (.ofFs e), { d with fs := s })
      | some (.ok _, s) =>
        match getattr s fault ino with
        | .error e => some (.err e, { d with fs := s })
        | .ok x =>
          match cacheName { d with fs := s } parent name ino with
          | none => none
          | some d => some (.entry ino x.isDir, d)
  | _, _ => none

/-- Fs::lookup, /repo/bfffs-core/src/fs.rs 1469-1504.  The inner `none` of the inode number whose
directory the new handle points to is the root's; the outer one is `grandparent.unwrap()`. -/
def fsLookup (s : FS) (grandparent : Option Fd) (parent : Nat) (pfd : Fd) (name : Name) :
    Option (Except Err (Nat × Fd)) :=
  let parentIno : Option (Option Nat) :=
    if name = dot then some pfd.parent
    else if name = dotdot then grandparent.map (·.parent)
    else some (some parent)
  match parentIno with
  | none => none
  | some q =>
    match Namespace.lookup s.ents parent name with
    | none => some (.error (.ofFs .ENOENT))
    | some e => some (.ok (e.ino, ⟨if e.isDir then q else none, 1⟩))

/-- Fs::ilookup, /repo/bfffs-core/src/fs.rs 1379-1407. -/
def ilookup (s : FS) (ino : Nat) : Except Err (Nat × Fd) :=
  match s.inodes.get ino with
  | none => .error (.ofFs .ENOENT)
  | some _ =>
    match Namespace.lookup s.ents ino dotdot with
    | some e => .ok (ino, ⟨some e.ino, 1⟩)
    | none => .ok (ino, ⟨none, 1⟩)

/-- What `lookup` has found in the tables when it first awaits. -/
inductive Plan where
  /-- name and inode are cached -/
  | cached (ino : Nat)
  /-- only the name is cached -/
  | known (grandparent : Option Fd) (pfd : Fd)
  /-- the name is not cached -/
  | fresh (grandparent : Option Fd) (pfd : Fd)
  /-- an NFS-style lookup for "." -/
  | byIno
deriving DecidableEq, Repr

/-- Do all the handles that `lookup` takes pass their assertion? -/
def Fd.ok (o : Option Fd) : Bool := o.all fun fd => fd.count ≠ 0

/-- lookup up to its first await, bfffsd/fs.rs 471-508. -/
def lookupStart (d : Daemon) (parent : Nat) (name : Name) : Option Plan :=
  match d.files.get parent with
  | none => if name = dot then some .byIno else none
  | some pfd =>
    let gp := pfd.parent.bind d.files.get
    if ¬ (Fd.ok gp ∧ pfd.count ≠ 0) then none
    else
      match d.names.get parent name with
      | none => some (.fresh gp pfd)
      | some ino =>
        match d.files.get ino with
        | none => some (.known gp pfd)
        | some fd => if fd.count = 0 then none else some (.cached ino)

/-- The rest of lookup, bfffsd/fs.rs 509-569. -/
def lookupEnd (h : Nat → Nat) (d : Daemon) (parent : Nat) (name : Name) (fault : Fault) :
    Plan → Option (Reply × Daemon)
  | .cached ino =>
    match getattr d.fs fault ino with
    | .error e => some (.err e, d)
    | .ok x =>
      match d.files.get ino with
      | none => none
      | some fd =>
        some (.entry ino x.isDir,
          { d with files := d.files.insert ino { fd with count := fd.count + 1 } })
  | .known gp pfd =>
    if fault = .op then some (.err .io, d)
    else
      match fsLookup d.fs gp parent pfd name with
      | none => none
      | some (.error e) => some (.err e, d)
      | some (.ok (ino, fd)) =>
        match getattr d.fs fault ino with
        | .error e => dropFd h d ino e
        | .ok x =>
          if (d.files.get ino).isSome then none
          else some (.entry ino x.isDir, { d with files := d.files.insert ino fd })
  | .fresh gp pfd =>
    if fault = .op then some (.err .io, d)
    else
      match fsLookup d.fs gp parent pfd name with
      | none => none
      | some (.error e) => some (.err e, d)
      | some (.ok (ino, fd)) => newEntry h d fault parent name ino fd
  | .byIno =>
    if fault = .op then some (.err .io, d)
    else
      match ilookup d.fs parent with
      | .error e => some (.err e, d)
      | .ok (ino, fd) => newEntry h d fault parent name ino fd

/-- lookup, bfffsd/fs.rs 471-569. -/
def lookup (h : Nat → Nat) (d : Daemon) (parent : Nat) (name : Name) (fault : Fault) :
    Option (Reply × Daemon) :=
  match lookupStart d parent name with
  | none => none
  | some plan => lookupEnd h d parent name fault plan

/-- unlink, bfffsd/fs.rs 1077-1121. -/
def unlink (h : Nat → Nat) (d : Daemon) (parent : Nat) (name : Name) (fault : Fault) :
    Option (Reply × Daemon) :=
  match d.handle parent with
  | none => none
  | some _ =>
    let ofd := (d.names.get parent name).bind fun ino => (d.files.get ino).map fun fd => (ino, fd)
    if ofd.any fun x => x.2.count = 0 then none
    else if fault = .op then some (.err .io, d)
    else
      match Namespace.unlink h d.fs parent (ofd.map (·.1)) name with
      | none => none
      | some (.error e, s) => some (.err (.ofFs e), { d with fs := s })
      | some (.ok _, s) => some (.ok, { d with fs := s, names := d.names.erase parent name })

/-- rmdir, bfffsd/fs.rs 942-962. -/
def rmdir (d : Daemon) (parent : Nat) (name : Name) (fault : Fault) : Option (Reply × Daemon) :=
  match d.handle parent with
  | none => none
  | some _ =>
    if fault = .op then some (.err .io, d)
    else
      match Namespace.rmdir d.fs parent name with
      | none => none
      | some (.error e, s) => some (.err (.ofFs e), { d with fs := s })
      | some (.ok _, s) => some (.ok, { d with fs := s, names := d.names.erase parent name })

/-- The directory loop check of rename, bfffsd/fs.rs 885-909: does the walk from `fd` towards the
root meet `src`?  `none` is a panic, or the walk going on for longer than there are inodes in
the table: then it has met one of them twice, and never ends. -/
def dirloop (files : OMap Fd) (src : Nat) : Nat → Fd → Option Bool
  | 0, _ => none
  | fuel + 1, fd =>
    match fd.parent with
    | none => some false
    | some ino =>
      if src = ino then some true
      else
        match files.get ino with
        | none => none
        | some fd => dirloop files src fuel fd

/-- FileDataMut::reparent, /repo/bfffs-core/src/fs.rs 372-378. -/
def Fd.reparent (fd : Fd) (parent : Nat) : Fd :=
  if fd.parent.isSome then { fd with parent := some parent } else fd

/-- rename's update of the tables, bfffsd/fs.rs 919-936. -/
def renameTables (d : Daemon) (ino parent : Nat) (name : Name) (newparent : Nat) (newname : Name) :
    Option Daemon :=
  let names := d.names.erase newparent newname
  match names.get parent name with
  | none => none
  | some cached =>
    if cached ≠ ino then none
    else
      let names := (names.erase parent name).set newparent newname cached
      let files := match d.files.get ino with
        | none => d.files
        | some fd => d.files.insert ino (fd.reparent newparent)
      some { d with names := names, files := files }

/-- rename, bfffsd/fs.rs 856-940. -/
def rename (h : Nat → Nat) (d : Daemon) (parent : Nat) (name : Name) (newparent : Nat)
    (newname : Name) (fault : Fault) : Option (Reply × Daemon) :=
  match d.names.get parent name with
  | none => none
  | some src =>
    match d.handle parent, d.handle newparent, d.handle src with
    | some _, some npfd, some _ =>
      match dirloop d.files src (d.files.length + 1) npfd with
      | none => none
      | some true => some (.err (.ofFs .EINVAL), d)
      | some false =>
        if fault = .op then some (.err .io, d)
        else
          match Namespace.rename h d.fs parent src name newparent (d.names.get newparent newname)
              newname with
          | none => none
          | some (.error e, s) => some (.err (.ofFs e), { d with fs := s })
          | some (.ok ino, s) =>
            if ino ≠ src then none
            else
              match renameTables { d with fs := s } ino parent name newparent newname with
              | none => none
              | some d => some (.ok, d)
    | _, _, _ => none

/-- getattr, bfffsd/fs.rs 374-397. -/
def attr (d : Daemon) (ino : Nat) (fault : Fault) : Option (Reply × Daemon) :=
  match d.handle ino with
  | none => none
  | some _ =>
    match getattr d.fs fault ino with
    | .error e => some (.err e, d)
    | .ok x => some (.entry ino x.isDir, d)

/-- write, bfffsd/fs.rs 1123-1143: stores a record of the file, whose inode must exist
(`unwrap` in Fs::write, /repo/bfffs-core/src/fs.rs 2435-2439; read and deallocate do the same). -/
def write (d : Daemon) (ino key : Nat) (fault : Fault) : Option (Reply × Daemon) :=
  match d.handle ino with
  | none => none
  | some _ =>
    if fault = .op then some (.err .io, d)
    else
      match store d.fs ino key with
      | none => none
      | some (.error e, s) => some (.err (.ofFs e), { d with fs := s })
      | some (.ok _, s) => some (.ok, { d with fs := s })

/-- The requests the kernel sends. -/
inductive Req where
  | lookup (parent : Nat) (name : Name) (fault : Fault)
  | forget (ino nlookup : Nat)
  | create (parent : Nat) (name : Name) (fault : Fault)
  | mkdir (parent : Nat) (name : Name) (fault : Fault)
  | link (ino parent : Nat) (name : Name) (fault : Fault)
  | unlink (parent : Nat) (name : Name) (fault : Fault)
  | rmdir (parent : Nat) (name : Name) (fault : Fault)
  | rename (parent : Nat) (name : Name) (newparent : Nat) (newname : Name) (fault : Fault)
  | getattr (ino : Nat) (fault : Fault)
  | write (ino key : Nat) (fault : Fault)
deriving DecidableEq, Repr

/-- The `Filesystem` trait's dispatch. -/
def Daemon.serve (h : Nat → Nat) (d : Daemon) : Req → Option (Reply × Daemon)
  | .lookup p n f => lookup h d p n f
  | .forget i c => forget h d i c
  | .create p n f => create h d p n f
  | .mkdir p n f => mkdir h d p n f
  | .link i p n f => link d i p n f
  | .unlink p n f => unlink h d p n f
  | .rmdir p n f => rmdir d p n f
  | .rename p n np nn f => rename h d p n np nn f
  | .getattr i f => attr d i f
  | .write i k f => write d i k f

end Verif.Fuse
