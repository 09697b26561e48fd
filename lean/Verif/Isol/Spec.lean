import Verif.Isol.Model

/-!
# What it means that calls do not disturb each other

`exec` runs a program alone, each joined future after the other.  It also notes
which keys were used.
-/

namespace Verif.Isol

/-- A use of the tree: all keys in `[lo, hi)`. -/
structure Acc where
  lo : Nat
  hi : Nat
  write : Bool
deriving DecidableEq, Repr

abbrev Log := List Acc

def Log.touches (l : Log) (k : Nat) : Prop := ∃ a ∈ l, a.lo ≤ k ∧ k < a.hi
def Log.writes (l : Log) (k : Nat) : Prop := ∃ a ∈ l, a.lo ≤ k ∧ k < a.hi ∧ a.write = true

structure Result where
  out : Outcome
  store : Store
  log : Log

def Result.after (l : Log) (r : Result) : Result := ⟨r.out, r.store, l ++ r.log⟩

/-- A program that has the tree for itself. -/
def exec : Prog → Store → Result
  | .ret o, m => ⟨o, m, []⟩
  | .get k f, m => (exec (f (m k)) m).after [⟨k, k + 1, false⟩]
  | .insert k v f, m => (exec (f (m k)) (m.set k (some v))).after [⟨k, k + 1, true⟩]
  | .remove k f, m => (exec (f (m k)) (m.set k none)).after [⟨k, k + 1, true⟩]
  | .scan lo hi f, m => (exec (f (m.items lo hi)) m).after [⟨lo, hi, false⟩]
  | .clear lo hi p, m => (exec p (m.clear lo hi)).after [⟨lo, hi, true⟩]
  | .join p q f, m =>
    let rp := exec p m
    match rp.out with
    | .ok a =>
      let rq := exec q rp.store
      match rq.out with
      | .ok b => (exec (f a b) rq.store).after (rp.log ++ rq.log)
      | o => ⟨o, rq.store, rp.log ++ rq.log⟩
    | o => ⟨o, rp.store, rp.log⟩

/-- All calls have returned. -/
def Finished {ι : Type} (ps : ι → Prog) : Prop := ∀ i, ∃ o, ps i = .ret o

/-- Calls one after the other: the tree at the end, and what each returned. -/
def serial {ι : Type} (ps : ι → Prog) : List ι → Store → Store × List (ι × Outcome)
  | [], m => (m, [])
  | i :: is, m =>
    let r := exec (ps i) m
    let (m', os) := serial ps is r.store
    (m', (i, r.out) :: os)

/-! ## Which files a call is about -/

/-- The directory entries in a value. -/
def members : Option Val → List Dirent
  | some (.dirent d) => [d]
  | some (.dirents l) => l
  | _ => []

/-- The files that a name refers to (there is at most one, but for a damaged directory). -/
def named (H : Hash) (m : Store) (parent : Nat) (name : Name) : List Nat :=
  ((members (m (direntKey H parent name))).filter fun d => d.name = name).map (·.ino)

/-- The files and directories that a call is about. -/
def Call.objs (H : Hash) (m : Store) : Call → List Nat
  | .create parent ino _ _ _ => [parent, ino]
  | .mkdir parent ino _ _ => [parent, ino]
  | .link parent ino _ => [parent, ino]
  | .unlink parent _ name => parent :: named H m parent name
  | .rmdir parent name => parent :: named H m parent name
  | .rename parent ino _ newparent _ newname => parent :: newparent :: ino :: named H m newparent newname
  | .inactive ino => [ino]
  | .setattr ino _ _ => [ino]
  | .deallocate ino _ _ => [ino]
  | .write ino _ _ => [ino]
  | .read ino _ _ _ => [ino]
  | .getattr ino => [ino]
  | .lookup parent _ => [parent]
  | .setxattr ino _ _ _ => [ino]
  | .getxattr ino _ _ => [ino]
  | .deletexattr ino _ _ => [ino]

/-- The keys of a file: all of its own, and the one under which it is noted if it is deleted while
open. -/
def Own (H : Hash) (o k : Nat) : Prop := k / 2 ^ 64 = o ∨ k = dyingKey H o

def Call.isLink : Call → Bool
  | .link _ _ _ => true
  | _ => false

/-- Calls that only look. -/
def Call.readOnly : Call → Bool
  | .read _ _ _ atime => !atime
  | .getattr _ => true
  | .lookup _ _ => true
  | .getxattr _ _ _ => true
  | _ => false

/-- File sizes and offsets fit in a key (fs_tree.rs 224), and records are not empty. -/
def SizeOk (m : Store) (ino : Nat) : Prop :=
  ∀ i, m (inodeKey ino) = some (.inode i) → i.size < 2 ^ 56 ∧ ∀ rs, i.kind = .reg rs → 0 < rs

/-- What the operating system sees to before it makes a call: a new file is not its own directory, a
directory is not removed or replaced through an entry of itself. -/
def Call.Sane (H : Hash) (m : Store) : Call → Prop
  | .create parent ino _ _ _ => parent ≠ ino
  | .mkdir parent ino _ _ => parent ≠ ino
  | .link _ _ _ => True
  | .unlink parent _ name => parent ∉ named H m parent name
  | .rmdir parent name => parent ∉ named H m parent name
  | .rename parent ino _ newparent _ newname =>
    parent ≠ ino ∧ newparent ≠ ino ∧ parent ∉ named H m newparent newname ∧
      newparent ∉ named H m newparent newname ∧ ino ∉ named H m newparent newname
  | .setattr ino _ _ => SizeOk m ino
  | .deallocate ino _ _ => SizeOk m ino
  | .write ino off data => SizeOk m ino ∧ off + data.length < 2 ^ 56
  | .read ino off _ _ => SizeOk m ino ∧ off < 2 ^ 56
  | _ => True

/-- Hashes have 56 bits (fs_tree.rs 137, 145, 155), and `.` and `..` have different ones
(fs.rs 1762-1764). -/
structure Hash.Ok (H : Hash) : Prop where
  name : ∀ n, H.name n < 2 ^ 56
  xattr : ∀ ns n, H.xattr ns n < 2 ^ 56
  dying : ∀ i, H.dying i < 2 ^ 56
  dots : H.name dot ≠ H.name dotdot

/-- Two calls have nothing to do with each other: no file or directory is in both, unless both only
look.  Object 0 is for the dying inodes, whose hashes must not collide ("TODO", fs.rs 1014). -/
def Apart (H : Hash) (m : Store) (c d : Call) : Prop :=
  (c.readOnly = true ∧ d.readOnly = true) ∨
    ∀ i ∈ c.objs H m, ∀ j ∈ d.objs H m, i ≠ j ∧ H.dying i ≠ H.dying j

end Verif.Isol
