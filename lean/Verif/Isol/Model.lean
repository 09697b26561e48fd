/-!
# File system calls that run at the same time: `bfffs-core/src/fs.rs`

Every call of `Fs` is a small program of tree operations.  `Database::fswrite`
(database.rs 240-268) runs it in a transaction group, which other calls share:
the tree operations of different calls interleave as they like, and so do the
futures that one call joins.  Each tree operation is one instant (C71).

Simplifications that hold for the whole file:

* A tree is a function from keys to values.  Range queries are one instant; C40
  has them page by page.
* Disk errors, credit, transaction groups and time stamps are left out.  The
  other attributes of an inode (owner, permissions, flags) are one number.
* Data that was moved to a record of its own (C67) is not told apart from data
  in the tree.
* A joined future that fails makes the whole call fail while the others are
  dropped where they are.
-/

namespace Verif.Isol

/-! ## Keys and values -/

/-- `FSKey::compose`, fs_tree.rs 220-236: object in bits 64-127, kind in 56-63, offset in
0-55.  Keys are numbers; the composition does not overlap for offsets below
2^56. -/
def key (obj typ off : Nat) : Nat := obj * 2 ^ 64 + typ * 2 ^ 56 + off

/-- File names: bytes. -/
abbrev Name := List Nat

/-- `.` and `..`. -/
def dot : Name := [46]
def dotdot : Name := [46, 46]

/-- The hash functions of fs_tree.rs 129-157 (metrohash, 56 bits). -/
structure Hash where
  name : Name → Nat
  xattr : Nat → Name → Nat
  dying : Nat → Nat

/-- `ObjKey`, fs_tree.rs 83-125. -/
def direntKey (H : Hash) (ino : Nat) (n : Name) : Nat := key ino 0 (H.name n)
def inodeKey (ino : Nat) : Nat := key ino 1 0
def extentKey (ino off : Nat) : Nat := key ino 2 off
def xattrKey (H : Hash) (ino ns : Nat) (n : Name) : Nat := key ino 3 (H.xattr ns n)
def dyingKey (H : Hash) (ino : Nat) : Nat := key 0 5 (H.dying ino)

/-- `FileType`; only regular files have a record size (fs_tree.rs `record_size`). -/
inductive Kind where
  | reg (rs : Nat)
  | dir
  | other
deriving DecidableEq, Repr

/-- `Inode`; `attr` stands for owner, permissions and flags. -/
structure Inode where
  nlink : Nat
  size : Nat
  bytes : Nat
  attr : Nat
  kind : Kind
deriving DecidableEq, Repr

/-- `Dirent`, fs_tree.rs 412-421. -/
structure Dirent where
  ino : Nat
  isDir : Bool
  name : Name
deriving DecidableEq, Repr

/-- `ExtAttr`, fs_tree.rs 655-677. -/
structure Xattr where
  ns : Nat
  name : Name
  data : List Nat
deriving DecidableEq, Repr

/-- `FSValue`. -/
inductive Val where
  | dirent (d : Dirent)
  | dirents (ds : List Dirent)
  | inode (i : Inode)
  | extent (data : List Nat)
  | xattr (a : Xattr)
  | xattrs (as : List Xattr)
  | dying (ino : Nat)
deriving DecidableEq, Repr

abbrev Store := Nat → Option Val

def Store.set (m : Store) (k : Nat) (o : Option Val) : Store := fun k' => if k' = k then o else m k'

/-- The items with keys in `[lo, hi)`, in order. -/
def Store.items (m : Store) (lo hi : Nat) : List (Nat × Val) :=
  (List.range' lo (hi - lo)).filterMap fun k => (m k).map (Prod.mk k)

def Store.clear (m : Store) (lo hi : Nat) : Store := fun k => if lo ≤ k ∧ k < hi then none else m k

/-! ## Programs -/

inductive Err where
  | noent
  | noattr
  | notempty
  | inval
deriving DecidableEq, Repr

/-- What a future returns. -/
inductive Res where
  | unit
  | num (n : Nat)
  | int (n : Int)
  | found (b : Bool)
  | inode (i : Inode)
  | bytes (l : List Nat)
  | items (l : List (Nat × Val))
deriving DecidableEq, Repr

inductive Outcome where
  | ok (r : Res)
  | err (e : Err)
  | panic
deriving DecidableEq, Repr

/-- A future over the tree.  `join` is `future::try_join`. -/
inductive Prog where
  | ret (o : Outcome)
  | get (k : Nat) (f : Option Val → Prog)
  | insert (k : Nat) (v : Val) (f : Option Val → Prog)
  | remove (k : Nat) (f : Option Val → Prog)
  | scan (lo hi : Nat) (f : List (Nat × Val) → Prog)
  | clear (lo hi : Nat) (p : Prog)
  | join (p q : Prog) (f : Res → Res → Prog)

abbrev Prog.ok (r : Res) : Prog := .ret (.ok r)
abbrev Prog.fail (e : Err) : Prog := .ret (.err e)
abbrev Prog.panic : Prog := .ret .panic

/-- One step: a tree operation, or the end of a join. -/
inductive Step : Prog → Store → Prog → Store → Prop
  | get {k f m} : Step (.get k f) m (f (m k)) m
  | insert {k v f m} : Step (.insert k v f) m (f (m k)) (m.set k (some v))
  | remove {k f m} : Step (.remove k f) m (f (m k)) (m.set k none)
  | scan {lo hi f m} : Step (.scan lo hi f) m (f (m.items lo hi)) m
  | clear {lo hi p m} : Step (.clear lo hi p) m p (m.clear lo hi)
  | left {p p' q f m m'} : Step p m p' m' → Step (.join p q f) m (.join p' q f) m'
  | right {p q q' f m m'} : Step q m q' m' → Step (.join p q f) m (.join p q' f) m'
  | both {a b f m} : Step (.join (.ok a) (.ok b) f) m (f a b) m
  | failLeft {e q f m} : Step (.join (.fail e) q f) m (.fail e) m
  | failRight {e p f m} : Step (.join p (.fail e) f) m (.fail e) m
  | panicLeft {q f m} : Step (.join .panic q f) m .panic m
  | panicRight {p f m} : Step (.join p .panic f) m .panic m

/-- Any number of calls at the same time, named by `ι`. -/
inductive Run {ι : Type} [DecidableEq ι] : (ι → Prog) → Store → (ι → Prog) → Store → Prop
  | refl {ps m} : Run ps m ps m
  | step {ps m qs m' i q m''} : Run ps m qs m' → Step (qs i) m' q m'' →
      Run ps m (fun j => if j = i then q else qs j) m''

/-! ## Hash tables in the tree, fs.rs 55-260 -/

/-- `HTItem`, fs_tree.rs 345-373: directory entries and extended attributes. -/
structure Table (T : Type) where
  val : T → Val
  bucket : List T → Val
  /-- `from_table`: `some [x]` for a single item, `some l` for a bucket; `none` for
  another kind of value -/
  single? : Val → Option T
  bucket? : Val → Option (List T)
  same : T → T → Bool

/-- `Dirent`, fs_tree.rs 463-513. -/
def direntTable : Table Dirent where
  val := .dirent
  bucket := .dirents
  single? := fun | .dirent d => some d | _ => none
  bucket? := fun | .dirents l => some l | _ => none
  same := fun a b => a.name = b.name

/-- `ExtAttr`, fs_tree.rs 735-784. -/
def xattrTable : Table Xattr where
  val := .xattr
  bucket := .xattrs
  single? := fun | .xattr d => some d | _ => none
  bucket? := fun | .xattrs l => some l | _ => none
  same := fun a b => a.ns = b.ns && a.name = b.name

variable {T : Type}

/-- What `htable::get` finds in a value, fs.rs 85-127: `none` is the panic. -/
def findIn (t : Table T) (n : T → Bool) (v : Option Val) : Option (Option T) :=
  match v with
  | none => some none
  | some v =>
    match t.single? v with
    | some x => some (if n x then some x else none)
    | none =>
      match t.bucket? v with
      | some l => if 1 < l.length then some (l.find? n) else none
      | none => none

/-- `htable::get`, fs.rs 85-127. -/
def htGet (t : Table T) (n : T → Bool) (k : Nat) (f : Option T → Prog) : Prog :=
  .get k fun v =>
    match findIn t n v with
    | some o => f o
    | none => .panic

/-- `htable::insert`, fs.rs 130-194: `f` gets the replaced item. -/
def htInsert (t : Table T) (k : Nat) (x : T) (f : Option T → Prog) : Prog :=
  .insert k (t.val x) fun old =>
    match old with
    | none => f none
    | some v =>
      match t.single? v with
      | some o =>
        if t.same x o then f (some o)
        else .get k fun r =>
          match r.bind t.single? with
          | some new => .insert k (t.bucket [o, new]) fun _ => f none
          | none => .panic
      | none =>
        match t.bucket? v with
        | some l => .get k fun r =>
          match r.bind t.single? with
          | some new =>
            match l.findIdx? (t.same x) with
            | some i => .insert k (t.bucket (l.set i new)) fun _ => f l[i]?
            | none => .insert k (t.bucket (l ++ [new])) fun _ => f none
          | none => .panic
        | none => .panic

/-- `Vec::swap_remove`. -/
def swapRemove (l : List T) (i : Nat) : List T :=
  match l.getLast? with
  | none => l
  | some z => (l.set i z).dropLast

/-- What stays of a bucket, fs.rs 226-233. -/
def shrink (t : Table T) (l : List T) : Val :=
  match l with
  | [x] => t.val x
  | l => t.bucket l

/-- `htable::remove`, fs.rs 199-260: `f` gets the removed item. -/
def htRemove (t : Table T) (e : Err) (n : T → Bool) (k : Nat) (f : T → Prog) : Prog :=
  .remove k fun old =>
    match old with
    | none => .fail e
    | some v =>
      match t.single? v with
      | some o => if n o then f o else .insert k (t.val o) fun _ => .fail e
      | none =>
        match t.bucket? v with
        | some l =>
          match l.findIdx? n, l.find? n with
          | some i, some x => .insert k (shrink t (swapRemove l i)) fun _ => f x
          | _, _ => .insert k (t.bucket l) fun _ => .fail e
        | none => .panic

/-! ## Parts of calls -/

/-- Reading an inode, changing it and writing it back (as in fs.rs 786-800,
1680-1691, 2118-2155). -/
def updateInode (ino : Nat) (g : Inode → Inode) (p : Prog) : Prog :=
  .get (inodeKey ino) fun r =>
    match r with
    | some (.inode i) => .insert (inodeKey ino) (.inode (g i)) fun _ => p
    | _ => .panic

/-- Zeros in `[a, a + n)` of a record. -/
def zero (b : List Nat) (a n : Nat) : List Nat := b.take a ++ List.replicate n 0 ++ b.drop (a + n)

/-- The left end of `do_deallocate`, fs.rs 875-914.  The old record is removed
first; `f` gets the future that puts the rest of it back. -/
def deallocLeft (ino off : Nat) (len : Option Nat) (rs : Nat) (f : Prog → Prog) : Prog :=
  if off % rs = 0 then f (.ok (.num 0))
  else
    let recofs := off % rs
    let n := match len with | some l => min (rs - recofs) l | none => rs - recofs
    let k := extentKey ino (off - recofs)
    .remove k fun v =>
      match v with
      | none => f (.ok (.num 0))
      | some (.extent b) =>
        if b.length < recofs then f (.insert k (.extent b) fun _ => .ok (.num 0))
        else if b.length - recofs ≤ n then
          f (.insert k (.extent (b.take recofs)) fun _ => .ok (.num (b.length - recofs)))
        else f (.insert k (.extent (zero b recofs n)) fun _ => .ok (.num 0))
      | _ => .panic

/-- The length of an extent, fs.rs 920-926. -/
def extentLen : Nat × Val → Nat
  | (_, .extent b) => b.length
  | _ => 0

/-- The whole records of `do_deallocate`, fs.rs 864-869, 917-932. -/
def deallocFull (ino off : Nat) (len : Option Nat) (rs : Nat) : Prog :=
  let lo := extentKey ino off
  let hi := match len with
    | some l => extentKey ino (max ((off + l) - (off + l) % rs) off)
    | none => key ino 3 0
  .scan lo hi fun l => .clear lo hi (.ok (.num (l.map extentLen).sum))

/-- The right end, fs.rs 938-976. -/
def deallocRight (ino off : Nat) (len : Option Nat) (rs : Nat) (f : Prog → Prog) : Prog :=
  match len with
  | none => f (.ok (.num 0))
  | some l =>
    if (off % rs = 0 ∨ off / rs < (off + l) / rs) ∧ (off + l) % rs ≠ 0 then
      let n := (off + l) % rs
      let k := extentKey ino (off + l - n)
      .remove k fun v =>
        match v with
        | none => f (.ok (.num 0))
        | some (.extent b) =>
          if n < b.length then f (.insert k (.extent (zero b 0 n)) fun _ => .ok (.num 0))
          else f (.ok (.num b.length))
        | _ => .panic
    else f (.ok (.num 0))

def Res.toNat : Res → Nat
  | .num n => n
  | _ => 0

/-- `do_deallocate`, fs.rs 853-980: `f` gets the number of bytes freed. -/
def doDeallocate (ino off : Nat) (len : Option Nat) (rs : Nat) (f : Nat → Prog) : Prog :=
  deallocLeft ino off len rs fun left =>
    deallocRight ino off len rs fun right =>
      .join (deallocFull ino off len rs) (.join left right fun a b => .ok (.num (a.toNat + b.toNat)))
        fun a b => f (a.toNat + b.toNat)

/-- `do_setattr`, fs.rs 809-849. -/
def doSetattr (ino : Nat) (size : Option Nat) (g : Nat → Nat) (p : Prog) : Prog :=
  .get (inodeKey ino) fun r =>
    match r with
    | some (.inode i) =>
      let n := size.getD i.size
      if n < i.size then
        match i.kind with
        | .reg rs => doDeallocate ino n none rs fun freed =>
          .insert (inodeKey ino)
            (.inode { i with size := n, bytes := i.bytes - freed, attr := g i.attr }) fun _ => p
        | _ => .panic
      else .insert (inodeKey ino) (.inode { i with size := n, attr := g i.attr }) fun _ => p
    | _ => .panic

/-- Only the time stamps change (`create_ts_callback`, fs.rs 1104-1115, and 1443-1456,
2403-2410). -/
def touch (ino : Nat) (p : Prog) : Prog := doSetattr ino none id p

/-- `do_delete_inode`, fs.rs 696-701: `FSKey::obj_range`. -/
def doDeleteInode (ino : Nat) (p : Prog) : Prog := .clear (key ino 0 0) (key (ino + 1) 0 0) p

/-- `do_unlink`, fs.rs 984-1032. -/
def doUnlink (H : Hash) (active : Bool) (ino : Nat) (p : Prog) : Prog :=
  .get (inodeKey ino) fun r =>
    match r with
    | some (.inode i) =>
      let i' := { i with nlink := i.nlink - 1 }
      if 0 < i'.nlink ∨ active then
        .join
          (if i'.nlink = 0 then
            .insert (dyingKey H ino) (.dying ino) fun old => if old.isSome then .panic else .ok .unit
          else .ok .unit)
          (.insert (inodeKey ino) (.inode i') fun _ => .ok .unit)
          fun _ _ => p
      else doDeleteInode ino p
    | _ => .panic

/-- `do_rmdir`, fs.rs 772-807. -/
def doRmdir (parent ino : Nat) (dec : Bool) : Prog :=
  .join (doDeleteInode ino (.ok .unit))
    (if dec then updateInode parent (fun i => { i with nlink := i.nlink - 1 }) (.ok .unit)
      else .ok .unit)
    fun _ _ => .ok .unit

/-- One item of `ok_to_rmdir`, fs.rs 1747-1798: `some` ends the scan. -/
def rmdirItem : Val → Option Outcome
  | .dirent d => if d.name ≠ dot ∧ d.name ≠ dotdot then some (.err .notempty) else none
  | .dirents _ => some (.err .notempty)
  | .inode i => if i.kind ≠ .dir ∨ i.nlink ≠ 2 then some .panic else none
  | .xattr _ => none
  | .xattrs _ => none
  | .dying _ => some .panic
  | .extent _ => some .panic

/-- `ok_to_rmdir`, fs.rs 1747-1805. -/
def okToRmdir (ino : Nat) (p : Prog) : Prog :=
  .scan (key ino 0 0) (key (ino + 1) 0 0) fun l =>
    match l.findSome? fun e => rmdirItem e.2 with
    | some o => .ret o
    | none => if l.any (fun e => match e.2 with | .inode _ => true | _ => false) then p else .panic

/-- Joining any number of futures whose results are added up (`FuturesUnordered`,
fs.rs 2465-2473). -/
def joinAll : List Prog → (Int → Prog) → Prog
  | [], f => f 0
  | p :: ps, f => .join p (joinAll ps fun n => .ok (.int n)) fun a b =>
      match a, b with
      | .int x, .int y => f (x + y)
      | _, _ => .panic

/-- `Uio::into_chunks`, fs.rs 276-297: the data, cut at record boundaries. -/
def chunks (rs : Nat) : Nat → List Nat → List (List Nat)
  | 0, _ => []
  | n + 1, l => if l = [] then [] else l.take rs :: chunks rs n (l.drop rs)

/-- Overlaying new data on a record, fs.rs 2556-2567. -/
def overlay (base : List Nat) (ofs : Nat) (l : List Nat) : List Nat :=
  base.take ofs ++ List.replicate (ofs - base.length) 0 ++ l ++ base.drop (ofs + l.length)

/-- `write_record`, fs.rs 2505-2580: record number `i`, with `ofs` zero but for the first. -/
def writeRecord (ino rs off ofs : Nat) (data : List Nat) : Prog :=
  let k := extentKey ino off
  if data.length < rs then
    .remove k fun r =>
      match r with
      | none => .insert k (.extent (overlay [] ofs data)) fun _ =>
          .ok (.int (overlay [] ofs data).length)
      | some (.extent b) => .insert k (.extent (overlay b ofs data)) fun _ =>
          .ok (.int ((overlay b ofs data).length - b.length))
      | _ => .panic
  else .insert k (.extent data) fun ov =>
    .ok (.int (data.length - match ov with | some (.extent b) => (b.length : Int) | _ => 0))

/-- The records of a write after the first. -/
def writeRest (ino rs base : Nat) : Nat → List (List Nat) → List Prog
  | _, [] => []
  | i, c :: cs => writeRecord ino rs (base + i * rs) 0 c :: writeRest ino rs base (i + 1) cs

/-- All records, fs.rs 2461-2470; there are none if there is no data and the offset is at a record
boundary (`nrecs`, 304-306). -/
def writeAll (ino rs off : Nat) (data : List Nat) : List Prog :=
  if data = [] ∧ off % rs = 0 then []
  else
    let base := off - off % rs
    writeRecord ino rs base (off % rs) (data.take (rs - off % rs)) ::
      writeRest ino rs base 1 (chunks rs data.length (data.drop (rs - off % rs)))

/-! ## Calls -/

inductive Call where
  /-- `create`, `mkblock`, `mkchar`, `mkfifo`, `mksock`, `symlink`; `ino` is from
  `next_object` -/
  | create (parent ino : Nat) (name : Name) (kind : Kind) (attr : Nat)
  | mkdir (parent ino : Nat) (name : Name) (attr : Nat)
  | link (parent ino : Nat) (name : Name)
  /-- `known` if the caller has looked the file up -/
  | unlink (parent : Nat) (known : Option Nat) (name : Name)
  | rmdir (parent : Nat) (name : Name)
  | rename (parent ino : Nat) (name : Name) (newparent : Nat) (target : Option Nat) (newname : Name)
  | inactive (ino : Nat)
  | setattr (ino : Nat) (size attr : Option Nat)
  | deallocate (ino off len : Nat)
  | write (ino off : Nat) (data : List Nat)
  /-- with the `atime` property -/
  | read (ino off len : Nat) (atime : Bool)
  | getattr (ino : Nat)
  | lookup (parent : Nat) (name : Name)
  | setxattr (ino ns : Nat) (name : Name) (data : List Nat)
  | getxattr (ino ns : Nat) (name : Name)
  | deletexattr (ino ns : Nat) (name : Name)

/-- `do_create`, fs.rs 621-694. -/
def doCreate (H : Hash) (parent ino : Nat) (name : Name) (kind : Kind) (nlink attr : Nat)
    (isDir : Bool) (extra : Prog) : Prog :=
  .join (.insert (inodeKey ino) (.inode ⟨nlink, 0, 0, attr, kind⟩) fun o => .ok (.found o.isSome))
    (.join
      (htInsert direntTable (direntKey H parent name) ⟨ino, isDir, name⟩ fun o =>
        .ok (.found o.isSome))
      extra fun b _ => .ok b)
    fun a b => if a = .found true ∨ b = .found true then .panic else .ok (.num ino)

/-- The callback of `mkdir`, fs.rs 1652-1700. -/
def mkdirExtra (H : Hash) (parent ino : Nat) : Prog :=
  .join (htInsert direntTable (direntKey H ino dot) ⟨ino, true, dot⟩ fun _ => .ok .unit)
    (.join (htInsert direntTable (direntKey H ino dotdot) ⟨parent, true, dotdot⟩ fun _ => .ok .unit)
      (updateInode parent (fun i => { i with nlink := i.nlink + 1 }) (.ok .unit))
      fun _ _ => .ok .unit)
    fun _ _ => .ok .unit

/-- The rest of `rename`, fs.rs 2100-2190, once the entry has moved. -/
def renameRest (H : Hash) (parent newparent : Nat) (d : Dirent) (old : Option Dirent) : Prog :=
  let dotdotP : Prog :=
    if d.isDir ∧ parent ≠ newparent then
      htInsert direntTable (direntKey H d.ino dotdot) ⟨newparent, true, dotdot⟩ fun _ => .ok .unit
    else .ok .unit
  let unlinkP : Prog :=
    match old with
    | some o => if d.isDir then doRmdir newparent o.ino false else doUnlink H false o.ino (.ok .unit)
    | none => .ok .unit
  let parentP : Prog :=
    updateInode parent
      (fun i => if d.isDir ∧ (parent ≠ newparent ∨ old.isSome) then { i with nlink := i.nlink - 1 }
        else i) (.ok .unit)
  let newparentP : Prog :=
    if parent ≠ newparent then
      updateInode newparent
        (fun i => if d.isDir ∧ old.isNone then { i with nlink := i.nlink + 1 } else i) (.ok .unit)
    else .ok .unit
  .join dotdotP (.join unlinkP (.join parentP newparentP fun _ _ => .ok .unit)
    fun _ _ => .ok .unit) fun _ _ => .ok (.num d.ino)

/-- `rename`, fs.rs 2020-2195, after the check of `.` and `..`. -/
def renameProg (H : Hash) (parent ino : Nat) (name : Name) (newparent : Nat) (target : Option Nat)
    (newname : Name) : Prog :=
  let go : Prog :=
    htRemove direntTable .noent (fun d => d.name = name) (direntKey H parent name) fun d =>
      if d.ino = ino then
        htInsert direntTable (direntKey H newparent newname) { d with name := newname } fun old =>
          renameRest H parent newparent d old
      else .panic
  htGet direntTable (fun d => d.name = newname) (direntKey H newparent newname) fun r =>
    match r with
    | some d =>
      if target = some d.ino then if d.isDir then okToRmdir d.ino go else go else .panic
    | none => if target = none then go else .panic

/-- Finding an extent in a read is left as the list of items, fs.rs 722-790; see `Verif.File`. -/
def doRead (ino size rs off len : Nat) : Prog :=
  .scan (extentKey ino (off - off % rs)) (extentKey ino (off + min len (size - off)))
    fun l => .ok (.items l)

def Call.prog (H : Hash) : Call → Prog
  -- 1087-1096
  | .create parent ino name kind attr =>
    doCreate H parent ino name kind 1 attr false (touch parent (.ok .unit))
  -- 1647-1708
  | .mkdir parent ino name attr =>
    doCreate H parent ino name .dir 2 attr true (mkdirExtra H parent ino)
  -- 1411-1462
  | .link parent ino name =>
    .get (inodeKey ino) fun r =>
      match r with
      | some (.inode i) =>
        .join (.insert (inodeKey ino) (.inode { i with nlink := i.nlink + 1 }) fun _ => .ok .unit)
          (.join
            (.insert (direntKey H parent name) (.dirent ⟨ino, i.kind = .dir, name⟩) fun _ =>
              .ok .unit)
            (.join (touch parent (.ok .unit)) (touch ino (.ok .unit)) fun _ _ => .ok .unit)
            fun _ _ => .ok .unit)
          fun _ _ => .ok .unit
      | _ => .panic
  -- 2377-2417
  | .unlink parent known name =>
    htRemove direntTable .noent (fun d => d.name = name) (direntKey H parent name) fun d =>
      if known = none ∨ known = some d.ino then
        .join (doUnlink H known.isSome d.ino (.ok .unit)) (touch parent (.ok .unit))
          fun _ _ => .ok .unit
      else .panic
  -- 2197-2222
  | .rmdir parent name =>
    htGet direntTable (fun d => d.name = name) (direntKey H parent name) fun r =>
      match r with
      | none => .fail .noent
      | some d => okToRmdir d.ino <|
        .join (htRemove direntTable .noent (fun d => d.name = name) (direntKey H parent name)
            fun _ => .ok .unit)
          (doRmdir parent d.ino true) fun _ _ => .ok .unit
  -- 2020-2195
  | .rename parent ino name newparent target newname =>
    if name = dot ∨ name = dotdot then .fail .inval
    else renameProg H parent ino name newparent target newname
  -- 1136-1146, 704-718
  | .inactive ino =>
    .remove (dyingKey H ino) fun r =>
      match r with
      | none => .ok .unit
      | some (.dying i) => if i = ino then doDeleteInode ino (.ok .unit) else .panic
      | _ => .panic
  -- 2229-2254
  | .setattr ino size attr => doSetattr ino size (fun a => attr.getD a) (.ok .unit)
  -- 566-597
  | .deallocate ino off len =>
    .get (inodeKey ino) fun r =>
      match r with
      | some (.inode i) =>
        match i.kind with
        | .reg rs =>
          let off := min i.size off
          let len := min (i.size - off) len
          if 0 < len then
            doDeallocate ino off (some len) rs fun freed =>
              .insert (inodeKey ino) (.inode { i with bytes := i.bytes - freed }) fun _ => .ok .unit
          else .ok .unit
        | _ => .panic
      | _ => .panic
  -- 2419-2500
  | .write ino off data =>
    .get (inodeKey ino) fun r =>
      match r with
      | some (.inode i) =>
        match i.kind with
        | .reg rs =>
          joinAll (writeAll ino rs off data) fun delta =>
            .insert (inodeKey ino) (.inode { i with
              size := max i.size (off + data.length), bytes := ((i.bytes : Int) + delta).toNat })
              fun _ => .ok (.num data.length)
        | _ => .panic
      | _ => .panic
  -- 1808-1846
  | .read ino off len atime =>
    .get (inodeKey ino) fun r =>
      match r with
      | some (.inode i) =>
        match i.kind with
        | .reg rs =>
          if atime then
            .join (doRead ino i.size rs off len)
              (.insert (inodeKey ino) (.inode i) fun _ => .ok .unit) fun a _ => .ok a
          else doRead ino i.size rs off len
        | _ => .panic
      | _ => .panic
  -- 1213-1267
  | .getattr ino =>
    .get (inodeKey ino) fun r =>
      match r with
      | some (.inode i) => .ok (.inode i)
      | some _ => .panic
      | none => .fail .noent
  -- 1464-1502
  | .lookup parent name =>
    htGet direntTable (fun d => d.name = name) (direntKey H parent name) fun r =>
      match r with
      | some d => .ok (.num d.ino)
      | none => .fail .noent
  -- 2256-2280
  | .setxattr ino ns name data =>
    htInsert xattrTable (xattrKey H ino ns name) ⟨ns, name, data⟩ fun _ => .ok .unit
  -- 1271-1298
  | .getxattr ino ns name =>
    htGet xattrTable (fun a => a.ns = ns && a.name = name) (xattrKey H ino ns name) fun r =>
      match r with
      | some a => .ok (.bytes a.data)
      | none => .fail .noattr
  -- 599-619
  | .deletexattr ino ns name =>
    htRemove xattrTable .noattr (fun a => a.ns = ns && a.name = name) (xattrKey H ino ns name)
      fun _ => .ok .unit

end Verif.Isol
