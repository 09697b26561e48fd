import Verif.Common.OMap

/-!
# Model of in-BTree hash tables and readdir: `bfffs-core/src/fs.rs`

Directory entries of one directory, and extended attributes of one file, are
stored in the dataset's tree under keys made of the inode number, the kind, and
a 56-bit hash of the full name (`ObjKey::dir_entry`, fs_tree.rs:129-143 and
`ObjKey::extattr`, 145-157).  The model keeps the items of one object and kind
in a map keyed by the hash (C53 shows that the ranges of different objects and
kinds are disjoint).  The hash function is a parameter.

`α` is the item (`Dirent` or `ExtAttr`), `N` its full name: the file name for
`Dirent` (fs_tree.rs:509-512), namespace and name for `ExtAttr`
(fs_tree.rs:780-783).
-/

namespace Verif.Dir

variable {α N : Type}

/-- What is stored under one key: `FSValue::DirEntry`/`DirEntries` (or
`ExtAttr`/`ExtAttrs`), i.e. `HTValue`, fs_tree.rs:377-386. -/
inductive Val (α : Type) where
  | single (a : α)
  | bucket (l : List α)
  deriving Repr, DecidableEq

abbrev Table (α : Type) := OMap (Val α)

/-- Result of an operation: `panic` for failed assertions and unwraps, `err`
for `T::ENOTFOUND`. -/
inductive Res (α : Type) where
  | ok (a : α)
  | err
  | panic
  deriving Repr, DecidableEq

variable [DecidableEq N]

/-- `htable::get`, fs.rs:85-127. -/
def htGet (name : α → N) (hash : N → Nat) (t : Table α) (n : N) : Res α :=
  match t.get (hash n) with
  | some (.single old) => if name old = n then .ok old else .err
  | some (.bucket old) =>
    if old.length > 1 then
      match old.find? (fun x => name x = n) with
      | some v => .ok v
      | none => .err
    else .panic
  | none => .err

/-- `htable::insert`, fs.rs:130-194.  The result is the replaced item, if any. -/
def htInsert (name : α → N) (hash : N → Nat) (t : Table α) (a : α) :
    Table α × Res (Option α) :=
  let key := hash (name a)
  let t1 := t.insert key (.single a)
  match t.get key with
  | some (.single old) =>
    if name old = name a then (t1, .ok (some old))
    else
      match t1.get key with
      | some (.single new) => (t1.insert key (.bucket [old, new]), .ok none)
      | _ => (t1, .panic)
  | some (.bucket old) =>
    match t1.get key with
    | some (.single new) =>
      match old.findIdx? (fun x => name x = name a) with
      | some i => (t1.insert key (.bucket (old.set i new)), .ok (old[i]?))
      | none => (t1.insert key (.bucket (old ++ [new])), .ok none)
    | _ => (t1, .panic)
  | none => (t1, .ok none)

/-- `Vec::swap_remove(i)`: the last element takes the place of the removed one. -/
def swapRemove (l : List α) (i : Nat) : List α :=
  match l.getLast? with
  | none => l
  | some z => (l.set i z).dropLast

/-- `htable::remove`, fs.rs:199-260. -/
def htRemove (name : α → N) (hash : N → Nat) (t : Table α) (n : N) : Table α × Res α :=
  let key := hash n
  let t1 := t.remove key
  match t.get key with
  | some (.single old) =>
    if name old = n then (t1, .ok old) else (t1.insert key (.single old), .err)
  | some (.bucket old) =>
    match old.findIdx? (fun x => name x = n) with
    | some i =>
      match old[i]? with
      | none => (t1, .panic)
      | some r =>
        match swapRemove old i with
        | [x] => (t1.insert key (.single x), .ok r)
        | l => (t1.insert key (.bucket l), .ok r)
    | none => (t1.insert key (.bucket old), .err)
  | none => (t1, .err)

/-- The part of `Fs::link` (fs.rs:1411-1460) that adds the new directory
entry: lines 1437-1441 use the tree's plain `insert`, not `htable::insert`. -/
def linkInsert (name : α → N) (hash : N → Nat) (t : Table α) (a : α) : Table α :=
  t.insert (hash (name a)) (.single a)

/-! ## readdir -/

/-- `Cursor::new`, fs.rs:1865-1869: a `u64`; bits shifted out are lost. -/
def mkCursor (offset bucketIdx : Nat) : Nat := (offset * 256 + bucketIdx) % 2 ^ 64

/-- `cursor.offset()`, fs.rs:1860. -/
def curOffset (c : Nat) : Nat := c / 256

/-- `cursor.bucket_idx()`, fs.rs:1862. -/
def curIdx (c : Nat) : Nat := c % 256

/-- Popping the rest of a bucket (`pop_bucket`, fs.rs:1908-1924), from the end;
`returned` entries have been returned already. -/
def popBucket (kofs : Nat) : (rev : List α) → (returned : Nat) → List (α × Nat)
  | [], _ => []
  | [d], _ => [(d, mkCursor (kofs + 1) 0)]
  | d :: ds, returned => (d, mkCursor kofs (returned + 1)) :: popBucket kofs ds (returned + 1)

/-- The stream produced by `ReaddirStream::poll_next`, fs.rs:1929-1966, from
the remaining tree items; `skip` is `self.bucket_idx`. -/
def stream : OMap (Val α) → (skip : Nat) → List (α × Nat)
  | [], _ => []
  | (k, .single d) :: m, skip => (d, mkCursor (k + 1) 0) :: stream m skip
  | (k, .bucket b) :: m, skip =>
    -- pop `skip` entries off the end, then iterate with `returned: 0`
    popBucket k (b.reverse.drop skip) 0 ++ stream m 0

/-- `Fs::readdir`, fs.rs:1853-1972, from a cursor: the whole stream. -/
def readdir (t : Table α) (c : Nat) : List (α × Nat) :=
  stream (t.rangeFrom (curOffset c)) (curIdx c)

/-- A client that reads a directory in pages of the given sizes, resuming each
time from the cursor of the last entry it got.  A page of size 0, or an empty
result, leaves the cursor where it was. -/
def pages (t : Table α) : (c : Nat) → (sizes : List Nat) → List α
  | _, [] => []
  | c, s :: ss =>
    let p := (readdir t c).take s
    p.map (·.1) ++ pages t ((p.getLast?.map (·.2)).getD c) ss

/-- As `pages`, but the directory may be changed by others between pages. -/
def pagesDyn : (c : Nat) → List (Table α × Nat) → List α
  | _, [] => []
  | c, (t, s) :: ss =>
    let p := (readdir t c).take s
    p.map (·.1) ++ pagesDyn ((p.getLast?.map (·.2)).getD c) ss

end Verif.Dir
