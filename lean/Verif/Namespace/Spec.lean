import Verif.Namespace.Model

/-!
# What C50, C51 and C52 say

A client is the mount plus the set of files it holds in use.  `Valid` is what the operating
system's name layer guarantees about the arguments of each call.
-/

namespace Verif.Namespace

open Verif

/-- The requests of a client. -/
inductive Op where
  | create (parent : Nat) (name : Name)
  | mkdir (parent : Nat) (name : Name)
  | link (parent ino : Nat) (name : Name)
  | unlink (parent : Nat) (fd : Option Nat) (name : Name)
  | rmdir (parent : Nat) (name : Name)
  | rename (parent ino : Nat) (name : Name) (newparent : Nat) (newino : Option Nat)
      (newname : Name)
  /-- write a record of a file -/
  | store (ino key : Nat)
  /-- a create that fails for lack of space -/
  | failedCreate
  /-- the client starts using a file -/
  | use (ino : Nat)
  /-- the client is done with a file -/
  | inactive (ino : Nat)
  /-- the file system is mounted again, after an unmount or a crash -/
  | remount (early : Bool)
deriving DecidableEq, Repr

/-- The mount and the files in use. -/
structure Client where
  fs : FS
  inUse : List Nat
deriving DecidableEq, Repr

/-- The client right after the file system was created. -/
def Client.new : Client := ⟨createFs, []⟩

/-- Keep the in-use set. -/
def Client.withFs (c : Client) (r : Option (Ret × FS)) : Option (Ret × Client) :=
  r.map fun r => (r.1, ⟨r.2, c.inUse⟩)

/-- One request.  `none` is a panic. -/
def Client.step (h : Nat → Nat) (c : Client) : Op → Option (Ret × Client)
  | .create p n => c.withFs (create c.fs p n)
  | .mkdir p n => c.withFs (mkdir c.fs p n)
  | .link p i n => c.withFs (link c.fs p i n)
  | .unlink p fd n => c.withFs (unlink h c.fs p fd n)
  | .rmdir p n => c.withFs (rmdir c.fs p n)
  | .rename p i n np ni nn => c.withFs (rename h c.fs p i n np ni nn)
  | .store i k => c.withFs (store c.fs i k)
  | .failedCreate => some (.ok 0, ⟨burn c.fs, c.inUse⟩)
  | .use i => some (.ok 0, ⟨c.fs, i :: c.inUse⟩)
  | .inactive i => (inactive h c.fs i).map fun r => (r.1, ⟨r.2, c.inUse.filter (· ≠ i)⟩)
  | .remount early => some (.ok 0, ⟨mount c.fs early, []⟩)

/-- A history of requests. -/
def Client.run (h : Nat → Nat) (c : Client) : List Op → Option (List Ret × Client)
  | [] => some ([], c)
  | op :: ops =>
    match c.step h op with
    | none => none
    | some (r, c') =>
      match c'.run h ops with
      | none => none
      | some (rs, c'') => some (r :: rs, c'')

/-- `i` is a directory. -/
def FS.Dir (s : FS) (i : Nat) : Prop := ∃ n, s.inodes.get i = some ⟨true, n⟩

/-- `i` is a file (anything but a directory). -/
def FS.File (s : FS) (i : Nat) : Prop := ∃ n, s.inodes.get i = some ⟨false, n⟩

/-- `d/n` is a name of `i`. -/
def FS.Named (s : FS) (d : Nat) (n : Name) (i : Nat) (isDir : Bool) : Prop :=
  (⟨d, n, i, isDir⟩ : Ent) ∈ s.ents

/-- The name is taken in that directory. -/
def FS.Taken (s : FS) (d : Nat) (n : Name) : Prop := ∃ i b, s.Named d n i b

/-- Not `"."` or `".."`. -/
def Proper (n : Name) : Prop := n ≠ dot ∧ n ≠ dotdot

instance (n : Name) : Decidable (Proper n) := by unfold Proper; infer_instance

/-- The number of directory entries naming `i`, not counting "." and "..". -/
def FS.nameCount (s : FS) (i : Nat) : Nat :=
  s.ents.countP fun e => e.ino = i ∧ Proper e.name

/-- The number of subdirectories of `d`. -/
def FS.subdirs (s : FS) (d : Nat) : Nat :=
  s.ents.countP fun e => e.dir = d ∧ e.isDir = true ∧ Proper e.name

/-- What C50 says of a file system. -/
structure Consistent (s : FS) : Prop where
  /-- a directory holds a name at most once -/
  names_unique : s.ents.Pairwise fun a b => ¬ (a.dir = b.dir ∧ a.name = b.name)
  /-- entries are stored in directories -/
  entry_dir : ∀ d n i b, s.Named d n i b → s.Dir d
  /-- an entry names an existing inode of the entry's type -/
  entry_target : ∀ d n i b, s.Named d n i b → ∃ k, s.inodes.get i = some ⟨b, k⟩
  /-- a file's link count is the number of entries naming it -/
  file_links : ∀ i k, s.inodes.get i = some ⟨false, k⟩ → k = s.ents.countP fun e => e.ino = i
  /-- a directory's link count is two plus the number of its subdirectories -/
  dir_links : ∀ i k, s.inodes.get i = some ⟨true, k⟩ → i ≠ 1 → k = 2 + s.subdirs i
  /-- except for the root directory, which has one link less -/
  root_links : ∃ k, s.inodes.get 1 = some ⟨true, k⟩ ∧ k = 1 + s.subdirs 1
  /-- every directory's "." names itself -/
  dot_self : ∀ d, s.Dir d → s.Named d dot d true
  /-- the root's ".." names itself -/
  root_dotdot : s.Named 1 dotdot 1 true ∧ s.nameCount 1 = 0
  /-- every other directory has exactly one name, and its ".." names the directory that
  name is in -/
  dotdot_parent : ∀ d, s.Dir d → d ≠ 1 →
    ∃ p n, Proper n ∧ s.Named p n d true ∧ s.Named d dotdot p true ∧ s.nameCount d = 1

/-- The proper names of `t` are those of `s` without the name `d/n`, plus `new`. -/
def NamesChange (s t : FS) (gone : Nat → Name → Prop) (new : Nat → Name → Nat → Bool → Prop) :
    Prop :=
  ∀ d m j b, Proper m → (t.Named d m j b ↔ new d m j b ∨ (s.Named d m j b ∧ ¬ gone d m))

/-- What a request does to the names, given what it returned: an error changes nothing; create
and mkdir add the name for the returned number, which was unused; link adds the name for the
given file; unlink and rmdir remove it; rename moves it, replacing the destination; nothing else
changes a name. -/
def Effect (s t : FS) : Op → Ret → Prop
  | .create p n, .ok i => s.inodes.get i = none ∧
      NamesChange s t (fun _ _ => False) fun d m j b => d = p ∧ m = n ∧ j = i ∧ b = false
  | .mkdir p n, .ok i => s.inodes.get i = none ∧
      NamesChange s t (fun _ _ => False) fun d m j b => d = p ∧ m = n ∧ j = i ∧ b = true
  | .link p i n, .ok _ =>
      NamesChange s t (fun _ _ => False) fun d m j b => d = p ∧ m = n ∧ j = i ∧ b = false
  | .unlink p _ n, .ok _ =>
      s.Taken p n ∧ NamesChange s t (fun d m => d = p ∧ m = n) fun _ _ _ _ => False
  | .rmdir p n, .ok _ =>
      s.Taken p n ∧ NamesChange s t (fun d m => d = p ∧ m = n) fun _ _ _ _ => False
  | .rename p i n np _ nn, .ok r => r = i ∧
      NamesChange s t (fun d m => (d = p ∧ m = n) ∨ (d = np ∧ m = nn))
        fun d m j b => d = np ∧ m = nn ∧ j = i ∧ s.Named p n i b
  | .create .., .error _ | .mkdir .., .error _ | .link .., .error _ => False
  | .unlink p _ n, .error e => e = .ENOENT ∧ ¬ s.Taken p n ∧ t = s
  | .rmdir p n, .error e => t = s ∧
      ((e = .ENOENT ∧ ¬ s.Taken p n) ∨
       (e = .ENOTEMPTY ∧ ∃ i, s.Named p n i true ∧ ∃ m, Proper m ∧ s.Taken i m))
  | .rename _ _ n np _ nn, .error e => t = s ∧
      ((e = .EINVAL ∧ ¬ Proper n) ∨
       (e = .ENOTEMPTY ∧ ∃ i, s.Named np nn i true ∧ ∃ m, Proper m ∧ s.Taken i m))
  | _, _ => NamesChange s t (fun _ _ => False) fun _ _ _ _ => False

/-- What the caller guarantees: the parent is a directory, the name is new or is the one that was
looked up, its target has the right type. -/
def Valid (h : Nat → Nat) (c : Client) : Op → Prop
  | .create p n => c.fs.Dir p ∧ ¬ c.fs.Taken p n
  | .mkdir p n => c.fs.Dir p ∧ ¬ c.fs.Taken p n
  | .link p i n => c.fs.Dir p ∧ ¬ c.fs.Taken p n ∧ ∃ k, c.fs.inodes.get i = some ⟨false, k + 1⟩
  | .unlink p fd n =>
      -- if the name exists it is a file; the caller passes the file iff it is in use; and no
      -- other dying inode has the same 56-bit hash
      ∀ i b, c.fs.Named p n i b → b = false ∧ (i ∈ c.inUse → fd = some i) ∧
        (i ∉ c.inUse → fd = none) ∧
        (i ∈ c.inUse → c.fs.inodes.get i = some ⟨false, 1⟩ → c.fs.dying.get (h i) = none)
  | .rmdir p n => Proper n ∧ ∀ i b, c.fs.Named p n i b → b = true
  | .rename p i n np ni nn =>
      (∃ b, c.fs.Named p n i b ∧ ∀ j b', c.fs.Named np nn j b' → b' = b) ∧ c.fs.Dir np ∧
      Proper nn ∧ ∀ j, ni = some j ↔ ∃ b, c.fs.Named np nn j b
  | .store i _ => c.fs.File i
  | .failedCreate => True
  | .use i => ∃ k, c.fs.inodes.get i = some ⟨false, k + 1⟩
  | .inactive i => ∀ j, c.fs.dying.get (h i) = some j → j = i
  | .remount _ => True

/-- Every request in the history is valid when it is made. -/
def ValidRun (h : Nat → Nat) (c : Client) : List Op → Prop
  | [] => True
  | op :: ops => Valid h c op ∧ ∀ r c', c.step h op = some (r, c') → ValidRun h c' ops

/-- The request replaces, by renaming another file, a name of a file that is in use. -/
def ReplacesInUse (c : Client) : Op → Prop
  | .rename _ i _ np _ nn => ∃ j b, c.fs.Named np nn j b ∧ j ≠ i ∧ j ∈ c.inUse
  | _ => False

/-- No request of the history replaces a name of a file in use. -/
def NoReplaceInUse (h : Nat → Nat) (c : Client) : List Op → Prop
  | [] => True
  | op :: ops =>
      ¬ ReplacesInUse c op ∧ ∀ r c', c.step h op = some (r, c') → NoReplaceInUse h c' ops

end Verif.Namespace
