import Verif.Dir.Model
import Verif.Xattr.Spec

/-!
# Model of the extended attribute requests: `bfffs/src/bin/bfffsd/fs.rs`

The handlers of the FUSE daemon, over the hash tables of `Verif/Dir` (fs.rs of
bfffs-core).  One file.  The table of looked-up files is in `Verif/Fuse`, values
that were moved out of the tree are in `Verif/Blob`.
-/

namespace Verif.Xattr
open Verif.Dir (Table htGet htInsert htRemove)

abbrev Bytes := List UInt8

/-- `ExtAttrNamespace`, fs_tree.rs:48-52 of bfffs-core. -/
inductive NS where
  | user
  | system
  deriving DecidableEq, Repr

/-- `ExtAttr`, fs_tree.rs:672-700: namespace, name and value. -/
structure Attr where
  ns : NS
  name : Bytes
  value : Bytes
  deriving DecidableEq, Repr

/-- The name of an attribute in the tree, `ExtAttr::same` and `ObjKey::extattr`,
fs_tree.rs:145-157 and 780-783. -/
def Attr.full (a : Attr) : NS × Bytes := (a.ns, a.name)

/-- `b"user"` and `b"system"`. -/
def NS.str : NS → Bytes
  | .user => [117, 115, 101, 114]
  | .system => [115, 121, 115, 116, 101, 109]

def dot : UInt8 := 46

/-- `splitn(2, |&b| b == b'.')`: up to the first dot, and what is after it. -/
def splitDot : Bytes → Bytes × Option Bytes
  | [] => ([], none)
  | x :: l => if x = dot then ([], some l) else
    let r := splitDot l
    (x :: r.1, r.2)

/-- `split_xattr_name`, bfffsd/fs.rs:213-230.  `none` is a panic. -/
def splitName (p : Bytes) : Option (NS × Bytes) :=
  let g := splitDot p
  let ns : Option NS :=
    if g.1 = NS.user.str then some .user
    else if g.1 = NS.system.str then some .system
    else none
  match ns, g.2 with
  | some ns, some name => some (ns, name)
  | _, _ => none

inductive Errno where
  | ERANGE
  | ENOATTR
  deriving DecidableEq, Repr

inductive Reply where
  | done
  | data (b : Bytes)
  | size (n : Nat)
  | error (e : Errno)
  | panic
  deriving DecidableEq, Repr

/-- `as u32`. -/
def u32 (n : Nat) : Nat := n % 2 ^ 32

abbrev Tab := Table Attr

section
variable (hash : NS × Bytes → Nat)

/-- `setxattr`, bfffsd/fs.rs:1008-1030, and `Fs::setextattr`, fs.rs:2256-2279.
The flags are not looked at. -/
def setxattr (t : Tab) (p v : Bytes) (_create _replace : Bool) : Tab × Reply :=
  match splitName p with
  | none => (t, .panic)
  | some (ns, name) =>
    match htInsert Attr.full hash t ⟨ns, name, v⟩ with
    | (t', .ok _) => (t', .done)
    | (t', .err) => (t', .error .ENOATTR)
    | (t', .panic) => (t', .panic)

/-- `Fs::getextattrlen`, fs.rs:1301-1355, which has the lookup of `htable::get`
in it. -/
def getextattrlen (t : Tab) (n : NS × Bytes) : Dir.Res Nat :=
  match t.get (hash n) with
  | some (.single a) => if a.full = n then .ok (u32 a.value.length) else .err
  | some (.bucket l) =>
    if l.length > 1 then
      match l.find? (fun a => a.full = n) with
      | some a => .ok (u32 a.value.length)
      | none => .err
    else .panic
  | none => .err

/-- `getxattr`, bfffsd/fs.rs:399-436. -/
def getxattr (t : Tab) (p : Bytes) (size : Nat) : Reply :=
  match splitName p with
  | none => .panic
  | some n =>
    if size = 0 then
      match getextattrlen hash t n with
      | .ok len => .size len
      | .err => .error .ENOATTR
      | .panic => .panic
    else
      match htGet Attr.full hash t n with
      | .ok a => if a.value.length ≤ size then .data a.value else .error .ERANGE
      | .err => .error .ENOATTR
      | .panic => .panic

/-- `removexattr`, bfffsd/fs.rs:836-855, and `Fs::deleteextattr`, fs.rs:601-614. -/
def removexattr (t : Tab) (p : Bytes) : Tab × Reply :=
  match splitName p with
  | none => (t, .panic)
  | some n =>
    match htRemove Attr.full hash t n with
    | (t', .ok _) => (t', .done)
    | (t', .err) => (t', .error .ENOATTR)
    | (t', .panic) => (t', .panic)
end

/-- The closure `f` of `listxattr` for data, bfffsd/fs.rs:615-623. -/
def packAttr (buf : Bytes) (a : Attr) : Bytes := ((buf ++ (a.ns.str ++ [dot])) ++ a.name) ++ [0]

/-- The closure `f` of `listxattr` for the size, bfffsd/fs.rs:600-608. -/
def attrLen (a : Attr) : Nat :=
  let prefixLen := match a.ns with
    | .user => 5
    | .system => 7
  u32 (prefixLen + u32 a.name.length + 1)

/-- The `try_fold` of `Fs::listextattr`, fs.rs:1525-1536. -/
def listFold : List (Nat × Dir.Val Attr) → Bytes → Bytes
  | [], buf => buf
  | (_, .single a) :: m, buf => listFold m (packAttr buf a)
  | (_, .bucket l) :: m, buf => listFold m (l.foldl packAttr buf)

/-- The `try_fold` of `Fs::listextattrlen`, fs.rs:1559-1568. -/
def lenFold : List (Nat × Dir.Val Attr) → Nat → Nat
  | [], n => n
  | (_, .single a) :: m, n => lenFold m (u32 (n + attrLen a))
  | (_, .bucket l) :: m, n =>
    lenFold m (u32 (n + l.foldl (fun s a => u32 (s + attrLen a)) 0))

/-- `listxattr`, bfffsd/fs.rs:582-635. -/
def listxattr (t : Tab) (size : Nat) : Reply :=
  if size = 0 then .size (lenFold t 0)
  else
    let buf := listFold t []
    if buf.length ≤ size then .data buf else .error .ERANGE

/-- One request. -/
def exec (hash : NS × Bytes → Nat) (t : Tab) : Spec.Op → Tab × Reply
  | .set n v c r => setxattr hash t n v c r
  | .get n s => (t, getxattr hash t n s)
  | .list s => (t, listxattr t s)
  | .remove n => removexattr hash t n

/-- A sequence of requests; a panic ends the daemon. -/
def run (hash : NS × Bytes → Nat) (t : Tab) : List Spec.Op → Tab × List Reply
  | [] => (t, [])
  | op :: ops =>
    let r := exec hash t op
    match r.2 with
    | .panic => (r.1, [.panic])
    | x =>
      let rs := run hash r.1 ops
      (rs.1, x :: rs.2)

end Verif.Xattr
