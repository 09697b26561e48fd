/-!
# Model of tree keys: `bfffs-core/src/fs_tree.rs`

Keys are `u128` numbers (here `Nat`); `<<<`, `|||`, `>>>` and `&&&` are the
code's shifts, ors and masks.
-/

namespace Verif.FSKey

/-- `ObjKey`, fs_tree.rs:93-125.  `property` carries the discriminant of the
`PropertyName`. -/
inductive ObjKey where
  | dirEntry (hash : Nat)
  | inode
  | extent (offset : Nat)
  | extAttr (hash : Nat)
  | property (p : Nat)
  | dyingInode (hash : Nat)
  deriving DecidableEq, Repr

/-- `ObjKey::discriminant`, fs_tree.rs:81-91 and 160-165. -/
def ObjKey.discriminant : ObjKey → Nat
  | .dirEntry _ => 0
  | .inode => 1
  | .extent _ => 2
  | .extAttr _ => 3
  | .property _ => 4
  | .dyingInode _ => 5

/-- `ObjKey::offset`, fs_tree.rs:167-176. -/
def ObjKey.offset : ObjKey → Nat
  | .dirEntry x => x
  | .inode => 0
  | .extent x => x
  | .extAttr x => x
  | .property p => p
  | .dyingInode x => x

/-- `FSKey::compose`, fs_tree.rs:231-235. -/
def compose (object objtype offset : Nat) : Nat :=
  (object <<< 64) ||| (objtype <<< 56) ||| offset

/-- `FSKey::new`, fs_tree.rs:309-313. -/
def new (object : Nat) (k : ObjKey) : Nat := compose object k.discriminant k.offset

/-- The bit fields of fs_tree.rs:221-228. -/
def object (k : Nat) : Nat := (k >>> 64) &&& (2 ^ 64 - 1)
def objtype (k : Nat) : Nat := (k >>> 56) &&& (2 ^ 8 - 1)
def offset (k : Nat) : Nat := k &&& (2 ^ 56 - 1)

/-- A half-open range of keys, `Range<FSKey>`. -/
structure Range where
  start : Nat
  stop : Nat

def Range.mem (r : Range) (k : Nat) : Prop := r.start ≤ k ∧ k < r.stop

instance (r : Range) (k : Nat) : Decidable (r.mem k) := inferInstanceAs (Decidable (_ ∧ _))

/-- `FSKey::dirent_range`, fs_tree.rs:239-244. -/
def direntRange (ino offset : Nat) : Range :=
  ⟨compose ino (ObjKey.dirEntry 0).discriminant offset,
   compose ino ((ObjKey.dirEntry 0).discriminant + 1) 0⟩

/-- `FSKey::dying_inode_range`, fs_tree.rs:248-253. -/
def dyingInodeRange : Range :=
  ⟨compose 0 (ObjKey.dyingInode 0).discriminant 0,
   compose 0 ((ObjKey.dyingInode 0).discriminant + 1) 0⟩

/-- `FSKey::extattr_range`, fs_tree.rs:257-262. -/
def extattrRange (ino : Nat) : Range :=
  ⟨compose ino (ObjKey.extAttr 0).discriminant 0,
   compose ino ((ObjKey.extAttr 0).discriminant + 1) 0⟩

/-- `FSKey::extent_range`, fs_tree.rs:266-292, with an included start and an
excluded (`some`) or no (`none`) end; the only forms the code uses. -/
def extentRange (ino start : Nat) (stop : Option Nat) : Range :=
  ⟨compose ino (ObjKey.extent 0).discriminant start,
   match stop with
   | some e => compose ino (ObjKey.extent 0).discriminant e
   | none => compose ino ((ObjKey.extent 0).discriminant + 1) 0⟩

/-- `FSKey::obj_range`, fs_tree.rs:317-321.  (`ino + 1` overflows for the
largest `u64`; the model has no overflow there.) -/
def objRange (ino : Nat) : Range := ⟨compose ino 0 0, compose (ino + 1) 0 0⟩

end Verif.FSKey
