import Verif.Fuse.Model
import Verif.Namespace.Spec

/-!
# What C66 says

The kernel sends requests and learns from the replies.  `Kernel` is what it knows at any time,
computed from the requests it has sent and the replies it got, and nothing else; `Follows` is the
protocol it keeps to, in terms of what it knows.  `Answers` is what each reply promises.
-/

namespace Verif.Fuse

open Verif Verif.Namespace

/-- What the kernel knows. -/
structure Kernel where
  /-- the inodes it holds: how often it looked each up since it last forgot it, and whether it is
  a directory -/
  held : OMap (Nat × Bool)
  /-- its name cache: the inode a name stands for, or that the name is free -/
  dcache : NameMap (Option Nat)
  /-- the inodes one of whose names was replaced by a rename -/
  replaced : List Nat
deriving DecidableEq, Repr

/-- The kernel right after mounting. -/
def Kernel.new : Kernel := ⟨[], [], []⟩

/-- One more lookup of an inode. -/
def Kernel.hold (k : Kernel) (i : Nat) (isDir : Bool) : Kernel :=
  { k with held := k.held.insert i (((k.held.get i).map (·.1)).getD 0 + 1, isDir) }

/-- A new fact about a name. -/
def Kernel.know (k : Kernel) (p : Nat) (n : Name) (v : Option Nat) : Kernel :=
  { k with dcache := k.dcache.set p n v }

/-- The renamed inode's names, and the inode it replaced. -/
def Kernel.moved (k : Kernel) (p : Nat) (n : Name) (np : Nat) (nn : Name) : Kernel :=
  match k.dcache.get p n with
  | some (some i) =>
    { (k.know p n none).know np nn (some i) with
      replaced := match k.dcache.get np nn with
        | some (some j) => j :: k.replaced
        | _ => k.replaced }
  | _ => k

/-- What the kernel learns from a reply.  A lookup, create or mkdir that succeeds counts as one
lookup of the inode; a link does not. -/
def Kernel.learn (k : Kernel) : Req → Reply → Kernel
  | .lookup p n _, .entry i b => (k.hold i b).know p n (some i)
  | .lookup p n _, .err (.ofFs .ENOENT) => k.know p n none
  | .create p n _, .entry i b => (k.hold i b).know p n (some i)
  | .mkdir p n _, .entry i b => (k.hold i b).know p n (some i)
  | .link i p n _, .entry _ _ => k.know p n (some i)
  | .create p n _, .err _ => { k with dcache := k.dcache.erase p n }
  | .mkdir p n _, .err _ => { k with dcache := k.dcache.erase p n }
  | .link _ p n _, .err _ => { k with dcache := k.dcache.erase p n }
  | .forget i _, .ok => { k with held := k.held.remove i }
  | .unlink p n _, .ok => k.know p n none
  | .rmdir p n _, .ok => k.know p n none
  | .rename p n np nn _, .ok => k.moved p n np nn
  | _, _ => k

/-- The kernel holds the inode, which is a directory or not.  It always holds the root. -/
def Kernel.Has (k : Kernel) (i : Nat) (isDir : Bool) : Prop :=
  (i = 1 ∧ isDir = true) ∨ ∃ c, k.held.get i = some (c, isDir)

/-- The kernel knows that `p/n` is `i`. -/
def Kernel.Knows (k : Kernel) (p : Nat) (n : Name) (i : Nat) : Prop :=
  k.dcache.get p n = some (some i)

/-- The kernel knows that `p/n` is free. -/
def Kernel.Free (k : Kernel) (p : Nat) (n : Name) : Prop := k.dcache.get p n = some none

/-- The kernel knows a name of the inode. -/
def Kernel.Linked (k : Kernel) (i : Nat) : Prop := i = 1 ∨ ∃ p n, k.Knows p n i

/-- The kernel holds all directories from the root down to the inode. -/
inductive Kernel.Rooted (k : Kernel) : Nat → Prop where
  | root : k.Rooted 1
  | child {p i : Nat} {n : Name} : k.Rooted p → k.Has p true → k.Knows p n i → k.Rooted i

/-- The protocol.  "." and ".." are never looked up.  Requests name inodes the kernel holds.  A
new name is one that the kernel knows to be free, in a directory that has not been removed.  A
removed or renamed name is one that the kernel knows, and it holds the inode.  A rename replaces
an inode of the same kind only, is not into the renamed directory itself, and the kernel holds
all directories above the destination.  FORGET gives the exact count.  Files are not read or
written once a rename has replaced one of their names. -/
def Kernel.Follows (k : Kernel) : Req → Prop
  | .lookup p n _ => Proper n ∧ k.Has p true
  | .forget i c => i = 1 ∨ ∃ b, k.held.get i = some (c, b)
  | .create p n _ => Proper n ∧ k.Has p true ∧ k.Linked p ∧ k.Free p n
  | .mkdir p n _ => Proper n ∧ k.Has p true ∧ k.Linked p ∧ k.Free p n
  | .link i p n _ => Proper n ∧ k.Has p true ∧ k.Linked p ∧ k.Free p n ∧ k.Has i false ∧ k.Linked i
  | .unlink p n _ => k.Has p true ∧ ∃ i, k.Knows p n i ∧ k.Has i false
  | .rmdir p n _ => k.Has p true ∧ ∃ i, k.Knows p n i ∧ k.Has i true
  | .rename p n np nn _ => Proper nn ∧ k.Has p true ∧ k.Has np true ∧ k.Rooted np ∧
      ∃ i b, k.Knows p n i ∧ k.Has i b ∧ np ≠ i ∧
        (k.Free np nn ∨ ∃ j, k.Knows np nn j ∧ k.Has j b ∧ j ≠ i)
  | .getattr i _ => ∃ b, k.Has i b
  | .write i _ _ => k.Has i false ∧ i ∉ k.replaced

/-- A daemon and the kernel it serves. -/
structure Sys where
  d : Daemon
  k : Kernel
deriving DecidableEq, Repr

/-- A new file system, mounted. -/
def Sys.new : Sys := ⟨Daemon.start createFs, Kernel.new⟩

/-- What happens: a request, or the file system is unmounted, or the daemon killed, and it is
mounted again. -/
inductive Event where
  | req (r : Req)
  | remount (early : Bool)
deriving DecidableEq, Repr

/-- One event.  `none` is a panic of the daemon. -/
def Sys.step (h : Nat → Nat) (x : Sys) : Event → Option (Reply × Sys)
  | .req r => (x.d.serve h r).map fun y => (y.1, ⟨y.2, x.k.learn r y.1⟩)
  | .remount early => some (.ok, ⟨Daemon.start (mount x.d.fs early), Kernel.new⟩)

/-- A history. -/
def Sys.run (h : Nat → Nat) (x : Sys) : List Event → Option (List Reply × Sys)
  | [] => some ([], x)
  | e :: es =>
    match x.step h e with
    | none => none
    | some (r, x') =>
      match x'.run h es with
      | none => none
      | some (rs, x'') => some (r :: rs, x'')

/-- The event keeps to the protocol. -/
def Sys.Follows (x : Sys) : Event → Prop
  | .req r => x.k.Follows r
  | .remount _ => True

/-- Every request of the history keeps to the protocol when it is sent. -/
def Sys.FollowsRun (h : Nat → Nat) (x : Sys) : List Event → Prop
  | [] => True
  | e :: es => x.Follows e ∧ ∀ r x', x.step h e = some (r, x') → x'.FollowsRun h es

/-- No two inode numbers below the bound have the same hash.  (The code keeps 56 bits of a hash of
the inode number as the key of a file without names, so a collision mixes two files up.) -/
def Distinct (h : Nat → Nat) (N : Nat) : Prop := ∀ i j, i < N → j < N → h i = h j → i = j

/-- Every directory on the way is in the one before. -/
inductive FS.Rooted (s : FS) : Nat → Prop where
  | root : FS.Rooted s 1
  | child {p i : Nat} {n : Name} : FS.Rooted s p → Proper n → s.Named p n i true → FS.Rooted s i

/-- `i` is `a` or is below it. -/
inductive FS.Below (s : FS) (a : Nat) : Nat → Prop where
  | here : FS.Below s a a
  | child {p i : Nat} {n : Name} : FS.Below s a p → Proper n → s.Named p n i true → FS.Below s a i

/-- Nothing changed. -/
def Same (s t : FS) : Prop := ∀ d m j b, Proper m → (t.Named d m j b ↔ s.Named d m j b)

/-- What a reply promises about the names before (`s`) and after (`t`): a lookup finds the inode
of that name or that there is none; the others do what C50 says of them; a rename is refused
exactly if the destination is inside the renamed directory; an error changes nothing, except that
a create, mkdir or link has happened when only the getattr after it failed. -/
def Answers (s t : FS) : Req → Reply → Prop
  | .lookup p n _, .entry i b => s.Named p n i b ∧ Same s t
  | .lookup p n f, .err e => Same s t ∧ (e = .ofFs .ENOENT ∧ ¬ s.Taken p n ∨ e = .io ∧ f ≠ .none)
  | .forget _ _, r => r = .ok ∧ Same s t
  | .create p n _, .entry i b => b = false ∧ Effect s t (.create p n) (.ok i)
  | .create p n f, .err e => e = .io ∧
      (f = .op ∧ Same s t ∨ f = .attr ∧ ∃ i, Effect s t (.create p n) (.ok i))
  | .mkdir p n _, .entry i b => b = true ∧ Effect s t (.mkdir p n) (.ok i)
  | .mkdir p n f, .err e => e = .io ∧
      (f = .op ∧ Same s t ∨ f = .attr ∧ ∃ i, Effect s t (.mkdir p n) (.ok i))
  | .link i p n _, .entry j b => j = i ∧ b = false ∧ Effect s t (.link p i n) (.ok 0)
  | .link i p n f, .err e => e = .io ∧
      (f = .op ∧ Same s t ∨ f = .attr ∧ Effect s t (.link p i n) (.ok 0))
  | .unlink p n _, .ok => Effect s t (.unlink p none n) (.ok 0)
  | .unlink _ _ f, .err e => Same s t ∧ e = .io ∧ f = .op
  | .rmdir p n _, .ok => Effect s t (.rmdir p n) (.ok 0)
  | .rmdir p n f, .err e => Same s t ∧ (e = .io ∧ f = .op ∨ e = .ofFs .ENOTEMPTY ∧
      ∃ i, s.Named p n i true ∧ ∃ m, Proper m ∧ s.Taken i m)
  | .rename p n np nn _, .ok => ∃ i b, s.Named p n i b ∧ ¬ FS.Below s i np ∧
      Effect s t (.rename p i n np none nn) (.ok i)
  | .rename p n np nn f, .err e => Same s t ∧ (e = .io ∧ f = .op ∨
      (e = .ofFs .EINVAL ∧ ∃ i, s.Named p n i true ∧ FS.Below s i np) ∨
      (e = .ofFs .ENOTEMPTY ∧ ∃ i, s.Named np nn i true ∧ ∃ m, Proper m ∧ s.Taken i m))
  | .getattr i _, .entry j b => j = i ∧ Same s t ∧ ∃ k, s.inodes.get i = some ⟨b, k⟩
  | .getattr i f, .err e =>
      Same s t ∧ (e = .io ∧ f = .attr ∨ e = .ofFs .ENOENT ∧ s.inodes.get i = none)
  | .write _ _ _, .ok => Same s t
  | .write _ _ f, .err e => Same s t ∧ e = .io ∧ f = .op
  | _, _ => False

end Verif.Fuse
