import Verif.Label.Model

/-!
# Model of the byte encodings: what is stored in trees, spacemaps and labels, and what is sent

Everything is encoded by the crate `speedy`, mostly by derived implementations: a structure is its
fields in order, an enum is a tag (32 bits, unless `tag_type` says otherwise) and the fields of the
variant, a `Vec` or `String` is its length in 32 bits and the elements, a `BTreeMap` is its length
and the pairs in order of their keys, an `Option`, `bool` or `Result` starts with one byte, numbers
are little-endian.  That this is what `speedy` does is part of the trusted base.  The encodings
written by hand in bfffs are modelled as they are.

Machine integers are Lean's types of the same width, a `String` is Lean's `String` (which is valid
UTF-8), an `OsString` or a `PathBuf` is any bytes.  A tree address (`TreePtr`) is written as its
address; a dirty child (`TreePtr::Mem`) is never written (`as_addr` would panic), so the model has
only addresses.
-/

namespace Verif.Wire
open Verif.Bytes
open Verif.Label (Codec uint uuid pair vec byteC decMany le)

/-! ## Building blocks -/

/-- The same bytes, seen as another type. -/
def iso {α β} (c : Codec α) (f : α → β) (g : β → α) : Codec β where
  enc x := c.enc (g x)
  dec s := (c.dec s).map fun r => (f r.1, r.2)

/-- A type whose reader refuses some values. -/
def refine {α β} (c : Codec α) (f : α → Option β) (g : β → α) : Codec β where
  enc x := c.enc (g x)
  dec s := match c.dec s with
    | none => none
    | some (a, s) => (f a).map fun b => (b, s)

def u8 : Codec UInt8 := byteC
def u16 : Codec UInt16 := iso (uint 2) UInt16.ofNat UInt16.toNat
def u32 : Codec UInt32 := iso (uint 4) UInt32.ofNat UInt32.toNat
def u64 : Codec UInt64 := iso (uint 8) UInt64.ofNat UInt64.toNat
def u128 : Codec (BitVec 128) := iso (uint 16) (BitVec.ofNat 128) BitVec.toNat
def i16 : Codec Int16 := iso u16 UInt16.toInt16 Int16.toUInt16
def i64 : Codec Int64 := iso u64 UInt64.toInt64 Int64.toUInt64

/-- `bool`: one byte. -/
def bool : Codec Bool := iso u8 (· ≠ 0) (fun b => if b then 1 else 0)

/-- `Vec<u8>`, and `OsString` and `PathBuf` as bfffs writes them (fs_tree.rs:477-480, 614-618,
rpc.rs:165-173): a 32-bit length and the bytes. -/
def bytes : Codec Buf := vec u8

/-- `String`: its bytes; reading bytes that are not UTF-8 fails. -/
def str : Codec String :=
  refine bytes (fun b => String.fromUTF8? ⟨⟨b⟩⟩) (fun s => s.toUTF8.data.toList)

/-- `[u8; n]`. -/
def arr (n : Nat) : Codec Buf where
  enc b := b
  dec b := if n ≤ b.length then some (b.take n, b.drop n) else none

/-- Something that takes no space. -/
def unit : Codec Unit where
  enc _ := []
  dec s := some ((), s)

/-- A tag of `k` bytes, and what belongs to the variant that it stands for. -/
def tagged {β} (k : Nat) (tag : β → Nat) (body : β → Buf)
    (read : Nat → Buf → Option (β × Buf)) : Codec β where
  enc x := le k (tag x) ++ body x
  dec s := match (uint k).dec s with
    | none => none
    | some (n, s) => read n s

/-- The variant `f` with the contents `c`, for `tagged`. -/
def as {α β} (c : Codec α) (f : α → β) (s : Buf) : Option (β × Buf) :=
  (c.dec s).map fun r => (f r.1, r.2)

/-- `Option<T>`. -/
def opt {α} (c : Codec α) : Codec (Option α) :=
  tagged 1 (fun | none => 0 | some _ => 1) (fun | none => [] | some x => c.enc x)
    fun | 0 => as unit fun _ => none
        | 1 => as c some
        | _ => fun _ => none

/-- `BTreeMap::insert`, for keys ordered by `lt`. -/
def mapInsert {K V} (lt : K → K → Bool) (k : K) (v : V) : List (K × V) → List (K × V)
  | [] => [(k, v)]
  | (k', v') :: m =>
    if lt k k' then (k, v) :: (k', v') :: m
    else if lt k' k then (k', v') :: mapInsert lt k v m
    else (k, v) :: m

/-- `BTreeMap<K, V>`: the length and the pairs; the reader collects the pairs into a new map. -/
def btree {K V} (lt : K → K → Bool) (k : Codec K) (v : Codec V) : Codec (List (K × V)) :=
  iso (vec (pair k v)) (fun l => l.foldl (fun m e => mapInsert lt e.1 e.2 m) []) id

/-! ## Properties, `property.rs` -/

/-- property.rs:194-202 `PropertyName`. -/
inductive PropertyName where
  | atime | baseMountpoint | mountpoint | name | recordSize
  deriving DecidableEq, Repr

def propertyName : Codec PropertyName :=
  tagged 4 (fun | .atime => 0 | .baseMountpoint => 1 | .mountpoint => 2 | .name => 3 | .recordSize => 4)
    (fun _ => [])
    fun | 0 => as unit fun _ => .atime
        | 1 => as unit fun _ => .baseMountpoint
        | 2 => as unit fun _ => .mountpoint
        | 3 => as unit fun _ => .name
        | 4 => as unit fun _ => .recordSize
        | _ => fun _ => none

/-- property.rs:22-53 `Property`. -/
inductive Property where
  | atime (b : Bool)
  | baseMountpoint (s : String)
  | mountpoint (s : String)
  | name (s : String)
  | recordSize (n : UInt8)
  deriving DecidableEq, Repr

def property : Codec Property :=
  tagged 4
    (fun | .atime _ => 0 | .baseMountpoint _ => 1 | .mountpoint _ => 2 | .name _ => 3 | .recordSize _ => 4)
    (fun | .atime b => bool.enc b | .baseMountpoint s | .mountpoint s | .name s => str.enc s
         | .recordSize n => u8.enc n)
    fun | 0 => as bool .atime
        | 1 => as str .baseMountpoint
        | 2 => as str .mountpoint
        | 3 => as str .name
        | 4 => as u8 .recordSize
        | _ => fun _ => none

/-- property.rs:259-268 `PropertySource`. -/
inductive PropertySource where
  | none
  | default
  | set (levels : UInt8)
  deriving DecidableEq, Repr

def propertySource : Codec PropertySource :=
  tagged 4 (fun | .none => 0 | .default => 1 | .set _ => 2)
    (fun | .none | .default => [] | .set n => u8.enc n)
    fun | 0 => as unit fun _ => .none
        | 1 => as unit fun _ => .default
        | 2 => as u8 .set
        | _ => fun _ => Option.none

/-! ## Values of a file system's tree, `fs_tree.rs` -/

/-- fs_tree.rs:896-900 `Timespec`. -/
structure Timespec where
  sec : Int64
  nsec : UInt32
  deriving DecidableEq, Repr

def timespec : Codec Timespec :=
  iso (pair i64 u32) (fun p => ⟨p.1, p.2⟩) (fun t => (t.sec, t.nsec))

/-- fs_tree.rs:794-815 `FileType`; `dev_t` has 64 bits. -/
inductive FileType where
  | fifo
  | char (dev : UInt64)
  | dir
  | block (dev : UInt64)
  | reg (exp : UInt8)
  | link (target : Buf)
  | socket
  deriving DecidableEq, Repr

/-- fs_tree.rs:819-829 `dtype`: `DT_FIFO`, `DT_CHR`, `DT_DIR`, `DT_BLK`, `DT_REG`, `DT_LNK`, `DT_SOCK`. -/
def FileType.dtype : FileType → Nat
  | .fifo => 1 | .char _ => 2 | .dir => 4 | .block _ => 6 | .reg _ => 8 | .link _ => 10 | .socket => 12

/-- fs_tree.rs:849-893. -/
def fileType : Codec FileType :=
  tagged 1 FileType.dtype
    (fun | .char d | .block d => u64.enc d | .reg n => u8.enc n | .link b => bytes.enc b
         | .fifo | .dir | .socket => [])
    fun | 1 => as unit fun _ => .fifo
        | 2 => as u64 .char
        | 4 => as unit fun _ => .dir
        | 6 => as u64 .block
        | 8 => as u8 .reg
        | 10 => as bytes .link
        | 12 => as unit fun _ => .socket
        | _ => fun _ => none

/-- fs_tree.rs:952-995 `Inode`. -/
structure Inode where
  size : UInt64
  bytes : UInt64
  nlink : UInt64
  flags : UInt64
  atime : Timespec
  mtime : Timespec
  ctime : Timespec
  birthtime : Timespec
  uid : UInt32
  gid : UInt32
  perm : UInt16
  fileType : FileType
  deriving DecidableEq, Repr

def inode : Codec Inode :=
  iso
    (pair u64 (pair u64 (pair u64 (pair u64 (pair timespec (pair timespec (pair timespec (pair timespec
      (pair u32 (pair u32 (pair u16 fileType)))))))))))
    (fun (a, b, c, d, e, f, g, h, i, j, k, l) => ⟨a, b, c, d, e, f, g, h, i, j, k, l⟩)
    (fun i => (i.size, i.bytes, i.nlink, i.flags, i.atime, i.mtime, i.ctime, i.birthtime, i.uid, i.gid,
      i.perm, i.fileType))

/-- fs_tree.rs:415-421 `Dirent`. -/
structure Dirent where
  ino : UInt64
  dtype : UInt8
  name : Buf
  deriving DecidableEq, Repr

/-- fs_tree.rs:452-481. -/
def dirent : Codec Dirent :=
  iso (pair u64 (pair u8 bytes)) (fun (a, b, c) => ⟨a, b, c⟩) (fun d => (d.ino, d.dtype, d.name))

/-- fs_tree.rs:48-51 `ExtAttrNamespace`. -/
inductive Namespace where
  | user | system
  deriving DecidableEq, Repr

/-- fs_tree.rs:53-77: `EXTATTR_NAMESPACE_USER` is 1 and `EXTATTR_NAMESPACE_SYSTEM` is 2. -/
def namespace_ : Codec Namespace :=
  tagged 1 (fun | .user => 1 | .system => 2) (fun _ => [])
    fun | 1 => as unit fun _ => .user
        | 2 => as unit fun _ => .system
        | _ => fun _ => none

/-- fs_tree.rs:1155-1160 `BlobExtent`; a `RID` is 64 bits (types.rs:387-389). -/
structure BlobExtent where
  lsize : UInt32
  rid : UInt64
  deriving DecidableEq, Repr

def blobExtent : Codec BlobExtent :=
  iso (pair u32 u64) (fun p => ⟨p.1, p.2⟩) (fun b => (b.lsize, b.rid))

/-- fs_tree.rs:555-561, 627-633, 670-675 `InlineExtAttr`, `BlobExtAttr`, `ExtAttr`. -/
inductive ExtAttr where
  | inline (ns : Namespace) (name : Buf) (extent : Buf)
  | blob (ns : Namespace) (name : Buf) (extent : BlobExtent)
  deriving DecidableEq, Repr

/-- fs_tree.rs:596-626, 636-667, and `#[speedy(tag_type = u8)]`. -/
def extAttr : Codec ExtAttr :=
  tagged 1 (fun | .inline .. => 0 | .blob .. => 1)
    (fun | .inline n m x => (pair namespace_ (pair bytes bytes)).enc (n, m, x)
         | .blob n m x => (pair namespace_ (pair bytes blobExtent)).enc (n, m, x))
    fun | 0 => as (pair namespace_ (pair bytes bytes)) fun (n, m, x) => .inline n m x
        | 1 => as (pair namespace_ (pair bytes blobExtent)) fun (n, m, x) => .blob n m x
        | _ => fun _ => none

/-- fs_tree.rs:1180-1207 `FSValue`. -/
inductive FSValue where
  | dirEntry (d : Dirent)
  | inode (i : Inode)
  | inlineExtent (b : Buf)
  | blobExtent (b : BlobExtent)
  | extAttr (x : ExtAttr)
  | extAttrs (l : List ExtAttr)
  | dirEntries (l : List Dirent)
  | property (p : Property)
  | dyingInode (ino : UInt64)
  | invalid
  deriving DecidableEq, Repr

/-- fs_tree.rs:1182 `#[speedy(tag_type = u8)]`; an inline extent is its bytes (1104-1130). -/
def fsValue : Codec FSValue :=
  tagged 1
    (fun | .dirEntry _ => 0 | .inode _ => 1 | .inlineExtent _ => 2 | .blobExtent _ => 3 | .extAttr _ => 4
         | .extAttrs _ => 5 | .dirEntries _ => 6 | .property _ => 7 | .dyingInode _ => 8 | .invalid => 9)
    (fun | .dirEntry d => dirent.enc d | .inode i => inode.enc i | .inlineExtent b => bytes.enc b
         | .blobExtent b => Wire.blobExtent.enc b | .extAttr x => Wire.extAttr.enc x
         | .extAttrs l => (vec Wire.extAttr).enc l | .dirEntries l => (vec dirent).enc l
         | .property p => Wire.property.enc p | .dyingInode i => u64.enc i | .invalid => [])
    fun | 0 => as dirent .dirEntry
        | 1 => as Wire.inode .inode
        | 2 => as bytes .inlineExtent
        | 3 => as Wire.blobExtent .blobExtent
        | 4 => as Wire.extAttr .extAttr
        | 5 => as (vec Wire.extAttr) .extAttrs
        | 6 => as (vec dirent) .dirEntries
        | 7 => as Wire.property .property
        | 8 => as u64 .dyingInode
        | 9 => as unit fun _ => .invalid
        | _ => fun _ => none

/-! ## Tree nodes, `tree/node.rs` and `tree/mod.rs` -/

/-- node.rs:996-1009 `IntElem` of a clean child. -/
structure IntElem (A K : Type) where
  key : K
  txgs : UInt32 × UInt32
  ptr : A
  deriving DecidableEq, Repr

def intElem {A K} (a : Codec A) (k : Codec K) : Codec (IntElem A K) :=
  iso (pair k (pair (pair u32 u32) a)) (fun (x, y, z) => ⟨x, y, z⟩) (fun e => (e.key, e.txgs, e.ptr))

/-- node.rs:1140-1145 `NodeData`; the credit of a leaf is not written (623-637). -/
inductive NodeData (A K V : Type) where
  | leaf (items : List (K × V))
  | int (children : List (IntElem A K))
  deriving Repr

/-- node.rs:1424-1430 `deserialize`, with `speedy`'s default tag. -/
def nodeData {A K V} (lt : K → K → Bool) (a : Codec A) (k : Codec K) (v : Codec V) :
    Codec (NodeData A K V) :=
  tagged 4 (fun | .leaf _ => 0 | .int _ => 1)
    (fun | .leaf l => (btree lt k v).enc l | .int l => (vec (intElem a k)).enc l)
    fun | 0 => as (btree lt k v) .leaf
        | 1 => as (vec (intElem a k)) .int
        | _ => fun _ => none

/-- types.rs:367-372 `PBA`. -/
structure PBA where
  cluster : UInt16
  lba : UInt64
  deriving DecidableEq, Repr

def pba : Codec PBA := iso (pair u16 u64) (fun p => ⟨p.1, p.2⟩) (fun p => (p.cluster, p.lba))

/-- types.rs:367 `derive(Ord)`: the cluster first. -/
def PBA.lt (a b : PBA) : Bool := a.cluster < b.cluster || (a.cluster = b.cluster && a.lba < b.lba)

/-- ddml/mod.rs:39-60 `DRP`. -/
structure DRP where
  pba : PBA
  compressed : Bool
  lsize : UInt32
  csize : UInt32
  checksum : UInt64
  deriving DecidableEq, Repr

def drp : Codec DRP :=
  iso (pair pba (pair bool (pair u32 (pair u32 u64)))) (fun (a, b, c, d, e) => ⟨a, b, c, d, e⟩)
    (fun d => (d.pba, d.compressed, d.lsize, d.csize, d.checksum))

/-- idml/mod.rs:40-45 `RidtEntry`. -/
structure RidtEntry where
  drp : DRP
  refcount : UInt64
  deriving DecidableEq, Repr

def ridtEntry : Codec RidtEntry := iso (pair drp u64) (fun p => ⟨p.1, p.2⟩) (fun r => (r.drp, r.refcount))

/-- node.rs:733-754 `Limits`. -/
structure Limits where
  minInt : UInt16
  maxInt : UInt16
  minLeaf : UInt16
  maxLeaf : UInt16
  maxSize : UInt64
  deriving DecidableEq, Repr

def limits : Codec Limits :=
  iso (pair u16 (pair u16 (pair u16 (pair u16 u64)))) (fun (a, b, c, d, e) => ⟨a, b, c, d, e⟩)
    (fun l => (l.minInt, l.maxInt, l.minLeaf, l.maxLeaf, l.maxSize))

/-- tree/mod.rs:64-79 and 93-98 `InnerOnDisk`, `TreeOnDisk`. -/
structure TreeOnDisk (A : Type) where
  height : UInt8
  reserved : Buf
  limits : Limits
  root : A
  txgs : UInt32 × UInt32
  deriving DecidableEq, Repr

def treeOnDisk {A} (a : Codec A) : Codec (TreeOnDisk A) :=
  iso (pair u8 (pair (arr 7) (pair limits (pair a (pair u32 u32)))))
    (fun (a, b, c, d, e) => ⟨a, b, c, d, e⟩)
    (fun t => (t.height, t.reserved, t.limits, t.root, t.txgs))

/-- database/mod.rs:65-73 `ForestKey`. -/
structure ForestKey where
  treeId : UInt64
  offset : UInt64
  deriving DecidableEq, Repr

def forestKey : Codec ForestKey :=
  iso (pair u64 u64) (fun p => ⟨p.1, p.2⟩) (fun k => (k.treeId, k.offset))

def ForestKey.lt (a b : ForestKey) : Bool :=
  a.treeId < b.treeId || (a.treeId = b.treeId && a.offset < b.offset)

/-- database/mod.rs:121-150 `Tree`, `TreeEnt`, `ForestValue`. -/
inductive ForestValue where
  | tree (parent : Option UInt64) (tod : TreeOnDisk UInt64)
  | treeEnt (treeId : UInt64) (name : String)
  deriving DecidableEq, Repr

def forestValue : Codec ForestValue :=
  tagged 4 (fun | .tree .. => 0 | .treeEnt .. => 1)
    (fun | .tree p t => (pair (opt u64) (treeOnDisk u64)).enc (p, t)
         | .treeEnt i n => (pair u64 str).enc (i, n))
    fun | 0 => as (pair (opt u64) (treeOnDisk u64)) fun (p, t) => .tree p t
        | 1 => as (pair u64 str) fun (i, n) => .treeEnt i n
        | _ => fun _ => none

/-- The order of integers, for the keys that are plain numbers. -/
def ltU64 (a b : UInt64) : Bool := a < b
def ltU128 (a b : BitVec 128) : Bool := a < b

/-- A node of a file system's tree: `FSKey` (fs_tree.rs:220-228) is 128 bits, children are found by
`RID`. -/
def fsNode : Codec (NodeData UInt64 (BitVec 128) FSValue) := nodeData ltU128 u64 u128 fsValue

/-- A node of the forest. -/
def forestNode : Codec (NodeData UInt64 ForestKey ForestValue) :=
  nodeData ForestKey.lt u64 forestKey forestValue

/-- A node of the `RIDT`, idml/idml.rs. -/
def ridtNode : Codec (NodeData DRP UInt64 RidtEntry) := nodeData ltU64 drp u64 ridtEntry

/-- A node of the `AllocT`. -/
def alloctNode : Codec (NodeData DRP PBA UInt64) := nodeData PBA.lt drp pba u64

/-! ## Spacemaps and labels -/

/-- cluster.rs:746-764 `ZoneOnDisk`. -/
structure ZoneOnDisk where
  allocated : UInt32
  freed : UInt32
  txgs : UInt32 × UInt32
  deriving DecidableEq, Repr

def zoneOnDisk : Codec ZoneOnDisk :=
  iso (pair u32 (pair u32 (pair u32 u32))) (fun (a, b, c) => ⟨a, b, c⟩) (fun z => (z.allocated, z.freed, z.txgs))

/-- cluster.rs:768-774 `SpacemapOnDisk`. -/
structure SpacemapOnDisk where
  checksum : UInt64
  zones : List ZoneOnDisk
  deriving DecidableEq, Repr

def spacemapOnDisk : Codec SpacemapOnDisk :=
  iso (pair u64 (vec zoneOnDisk)) (fun p => ⟨p.1, p.2⟩) (fun s => (s.checksum, s.zones))

/-- label.rs:47 `SPACEMAP_ZONES_PER_LBA`. -/
def spacemapZonesPerLba : Nat := 255

/-- raid/mod.rs:52-56 `Label`, raid/null_raid.rs:29-35 and raid/vdev_raid.rs:57-61, 427-436.  There is
one layout algorithm, `PrimeS`. -/
inductive RaidLabel where
  | null (uuid child : Buf)
  | raid (uuid : Buf) (chunksize : UInt64) (disksPerStripe redundancy : Int16) (children : List Buf)
  deriving DecidableEq, Repr

/-- `LayoutAlgorithm`, vdev_raid.rs:57-61. -/
def layout : Codec Unit := tagged 4 (fun _ => 0) (fun _ => []) fun | 0 => as unit id | _ => fun _ => none

def raidLabel : Codec RaidLabel :=
  tagged 4 (fun | .null .. => 0 | .raid .. => 1)
    (fun | .null u c => (pair uuid uuid).enc (u, c)
         | .raid u z k f c =>
           (pair uuid (pair u64 (pair i16 (pair i16 (pair layout (vec uuid)))))).enc (u, z, k, f, (), c))
    fun | 0 => as (pair uuid uuid) fun (u, c) => .null u c
        | 1 => as (pair uuid (pair u64 (pair i16 (pair i16 (pair layout (vec uuid))))))
            fun (u, z, k, f, _, c) => .raid u z k f c
        | _ => fun _ => none

/-- idml/idml.rs:678-685 `Label`. -/
structure IdmlLabel where
  alloct : TreeOnDisk DRP
  nextRid : UInt64
  ridt : TreeOnDisk DRP
  txg : UInt32
  deriving DecidableEq, Repr

def idmlLabel : Codec IdmlLabel :=
  iso (pair (treeOnDisk drp) (pair u64 (pair (treeOnDisk drp) u32))) (fun (a, b, c, d) => ⟨a, b, c, d⟩)
    (fun l => (l.alloct, l.nextRid, l.ridt, l.txg))

/-- database/database.rs:136-139 `Label`. -/
def databaseLabel : Codec (TreeOnDisk UInt64) := treeOnDisk u64

/-- The records of all layers, as they appear in a disk's label. -/
inductive Rec where
  | lower (r : Verif.Label.Rec)
  | raid (l : RaidLabel)
  | idml (l : IdmlLabel)
  | database (l : TreeOnDisk UInt64)

/-- label.rs:141-148 `LabelWriter::serialize`. -/
def Rec.enc : Rec → Buf
  | .lower r => r.enc
  | .raid l => raidLabel.enc l
  | .idml l => idmlLabel.enc l
  | .database l => databaseLabel.enc l

/-- Which type the caller of `deserialize` asks for. -/
inductive Ty where
  | lower (t : Verif.Label.Ty)
  | raid | idml | database

def Rec.ty : Rec → Ty
  | .lower r => .lower r.ty
  | .raid _ => .raid
  | .idml _ => .idml
  | .database _ => .database

/-- label.rs:61-67 `LabelReader::deserialize`. -/
def decTy : Ty → Buf → Option (Rec × Buf)
  | .lower t => fun s => (Verif.Label.decTy t s).map fun r => (.lower r.1, r.2)
  | .raid => as raidLabel .raid
  | .idml => as idmlLabel .idml
  | .database => as databaseLabel .database

/-- Successive calls of `deserialize`. -/
def decAll : List Ty → Buf → Option (List Rec × Buf)
  | [], s => some ([], s)
  | t :: ts, s =>
    match decTy t s with
    | none => none
    | some (r, s) =>
      match decAll ts s with
      | none => none
      | some (rs, s) => some (r :: rs, s)

/-! ## Messages between the commands and the daemon, `rpc.rs` -/

/-- types.rs:41-251 `Error`: the error numbers of FreeBSD, 1 to 97, and `EUNKNOWN`, 256. -/
structure Err where
  code : Int16
  known : (1 ≤ code ∧ code ≤ 97) ∨ code = 256
  deriving DecidableEq, Repr

/-- `FromPrimitive::from_i16`, and `unwrap_or(Error::EUNKNOWN)`, types.rs:269-277. -/
def Err.ofCode (c : Int16) : Err :=
  if h : (1 ≤ c ∧ c ≤ 97) ∨ c = 256 then ⟨c, h⟩ else ⟨256, Or.inr rfl⟩

def err : Codec Err := iso i16 Err.ofCode Err.code

/-- `Result<T, Error>`. -/
def result {α} (c : Codec α) : Codec (Except Err α) :=
  tagged 1 (fun | .ok _ => 1 | .error _ => 0) (fun | .ok x => c.enc x | .error e => err.enc e)
    fun | 0 => as err .error
        | 1 => as c .ok
        | _ => fun _ => none

/-- rpc.rs:18-113, 198-276, 285-299 `Request` with the structures of its variants. -/
inductive Request where
  | debugDropCache
  | fsCreate (name : String) (props : List Property)
  | fsDestroy (name : String)
  | fsList (name : String) (props : List PropertyName) (offset : Option UInt64)
  | fsMount (opts name : String)
  | fsSet (name : String) (props : List Property)
  | fsStat (name : String) (props : List PropertyName)
  | fsUnmount (force : Bool) (name : String)
  | poolClean (pool : String)
  | poolFault (pool : String) (device : Buf)
  | poolAttach (pool : String) (mirror leaf : Buf)
  | poolList (pool : Option String) (offset : Option UInt64)
  | poolStatus (pool : String)
  deriving DecidableEq, Repr

def request : Codec Request :=
  tagged 4
    (fun | .debugDropCache => 0 | .fsCreate .. => 1 | .fsDestroy .. => 2 | .fsList .. => 3 | .fsMount .. => 4
         | .fsSet .. => 5 | .fsStat .. => 6 | .fsUnmount .. => 7 | .poolClean .. => 8 | .poolFault .. => 9
         | .poolAttach .. => 10 | .poolList .. => 11 | .poolStatus .. => 12)
    (fun | .debugDropCache => []
         | .fsCreate n p => (pair str (vec property)).enc (n, p)
         | .fsDestroy n => str.enc n
         | .fsList n p o => (pair str (pair (vec propertyName) (opt u64))).enc (n, p, o)
         | .fsMount o n => (pair str str).enc (o, n)
         | .fsSet n p => (pair str (vec property)).enc (n, p)
         | .fsStat n p => (pair str (vec propertyName)).enc (n, p)
         | .fsUnmount f n => (pair bool str).enc (f, n)
         | .poolClean p => str.enc p
         | .poolFault p d => (pair str uuid).enc (p, d)
         | .poolAttach p m l => (pair str (pair uuid bytes)).enc (p, m, l)
         | .poolList p o => (pair (opt str) (opt u64)).enc (p, o)
         | .poolStatus p => str.enc p)
    fun | 0 => as unit fun _ => .debugDropCache
        | 1 => as (pair str (vec property)) fun (n, p) => .fsCreate n p
        | 2 => as str .fsDestroy
        | 3 => as (pair str (pair (vec propertyName) (opt u64))) fun (n, p, o) => .fsList n p o
        | 4 => as (pair str str) fun (o, n) => .fsMount o n
        | 5 => as (pair str (vec property)) fun (n, p) => .fsSet n p
        | 6 => as (pair str (vec propertyName)) fun (n, p) => .fsStat n p
        | 7 => as (pair bool str) fun (f, n) => .fsUnmount f n
        | 8 => as str .poolClean
        | 9 => as (pair str uuid) fun (p, d) => .poolFault p d
        | 10 => as (pair str (pair uuid bytes)) fun (p, m, l) => .poolAttach p m l
        | 11 => as (pair (opt str) (opt u64)) fun (p, o) => .poolList p o
        | 12 => as str .poolStatus
        | _ => fun _ => none

/-- vdev.rs:16-44 `FaultedReason` and `Health`; the number of missing levels is a `NonZeroU8`. -/
inductive Health where
  | online
  | degraded (n : UInt8) (h : n ≠ 0)
  | user
  | insufficientRedundancy
  | removed
  deriving DecidableEq, Repr

/-- `FaultedReason`. -/
def faulted : Codec (Fin 3) :=
  tagged 4 (fun r => r.val) (fun _ => [])
    fun | 0 => as unit fun _ => 0
        | 1 => as unit fun _ => 1
        | 2 => as unit fun _ => 2
        | _ => fun _ => none

def health : Codec Health :=
  tagged 4 (fun | .online => 0 | .degraded .. => 1 | .user | .insufficientRedundancy | .removed => 2)
    (fun | .online => [] | .degraded n _ => u8.enc n | .user => faulted.enc 0
         | .insufficientRedundancy => faulted.enc 1 | .removed => faulted.enc 2)
    fun | 0 => as unit fun _ => .online
        | 1 => fun s => match u8.dec s with
          | none => none
          | some (n, s) => if h : n ≠ 0 then some (.degraded n h, s) else none
        | 2 => as faulted fun r => match r with
          | 0 => .user
          | 1 => .insufficientRedundancy
          | 2 => .removed
        | _ => fun _ => none

/-- rpc.rs:138-173 `LeafStatus`. -/
structure LeafStatus where
  health : Health
  path : Buf
  uuid : Buf
  deriving DecidableEq, Repr

def leafStatus : Codec LeafStatus :=
  iso (pair health (pair bytes uuid)) (fun (a, b, c) => ⟨a, b, c⟩) (fun l => (l.health, l.path, l.uuid))

/-- rpc.rs:175-180 `MirrorStatus`. -/
structure MirrorStatus where
  leaves : List LeafStatus
  health : Health
  uuid : Buf
  deriving DecidableEq, Repr

def mirrorStatus : Codec MirrorStatus :=
  iso (pair (vec leafStatus) (pair health uuid)) (fun (a, b, c) => ⟨a, b, c⟩)
    (fun l => (l.leaves, l.health, l.uuid))

/-- rpc.rs:182-188 `ClusterStatus`. -/
structure ClusterStatus where
  health : Health
  codec : String
  mirrors : List MirrorStatus
  uuid : Buf
  deriving DecidableEq, Repr

def clusterStatus : Codec ClusterStatus :=
  iso (pair health (pair str (pair (vec mirrorStatus) uuid))) (fun (a, b, c, d) => ⟨a, b, c, d⟩)
    (fun l => (l.health, l.codec, l.mirrors, l.uuid))

/-- rpc.rs:190-196 `PoolStatus`. -/
structure PoolStatus where
  health : Health
  name : String
  clusters : List ClusterStatus
  uuid : Buf
  deriving DecidableEq, Repr

def poolStatus : Codec PoolStatus :=
  iso (pair health (pair str (pair (vec clusterStatus) uuid))) (fun (a, b, c, d) => ⟨a, b, c, d⟩)
    (fun l => (l.health, l.name, l.clusters, l.uuid))

/-- rpc.rs:37-42 `DsInfo`. -/
structure DsInfo where
  name : String
  props : List (Property × PropertySource)
  offset : UInt64
  deriving DecidableEq, Repr

def dsInfo : Codec DsInfo :=
  iso (pair str (pair (vec (pair property propertySource)) u64)) (fun (a, b, c) => ⟨a, b, c⟩)
    (fun d => (d.name, d.props, d.offset))

/-- rpc.rs:302-317 `Response`; a `TreeID` is 64 bits (database/mod.rs:52-55) and `PoolInfo`
(rpc.rs:130-136) is a name and an offset. -/
inductive Response where
  | debugDropCache (r : Except Err Unit)
  | fsCreate (r : Except Err UInt64)
  | fsDestroy (r : Except Err Unit)
  | fsList (r : Except Err (List DsInfo))
  | fsMount (r : Except Err Unit)
  | fsSet (r : Except Err Unit)
  | fsStat (r : Except Err DsInfo)
  | fsUnmount (r : Except Err Unit)
  | poolClean (r : Except Err Unit)
  | poolFault (r : Except Err Unit)
  | poolAttach (r : Except Err Unit)
  | poolList (r : Except Err (List (String × UInt64)))
  | poolStatus (r : Except Err PoolStatus)

def response : Codec Response :=
  tagged 4
    (fun | .debugDropCache _ => 0 | .fsCreate _ => 1 | .fsDestroy _ => 2 | .fsList _ => 3 | .fsMount _ => 4
         | .fsSet _ => 5 | .fsStat _ => 6 | .fsUnmount _ => 7 | .poolClean _ => 8 | .poolFault _ => 9
         | .poolAttach _ => 10 | .poolList _ => 11 | .poolStatus _ => 12)
    (fun | .debugDropCache r | .fsDestroy r | .fsMount r | .fsSet r | .fsUnmount r | .poolClean r
         | .poolFault r | .poolAttach r => (result unit).enc r
         | .fsCreate r => (result u64).enc r
         | .fsList r => (result (vec dsInfo)).enc r
         | .fsStat r => (result dsInfo).enc r
         | .poolList r => (result (vec (pair str u64))).enc r
         | .poolStatus r => (result Wire.poolStatus).enc r)
    fun | 0 => as (result unit) .debugDropCache
        | 1 => as (result u64) .fsCreate
        | 2 => as (result unit) .fsDestroy
        | 3 => as (result (vec dsInfo)) .fsList
        | 4 => as (result unit) .fsMount
        | 5 => as (result unit) .fsSet
        | 6 => as (result dsInfo) .fsStat
        | 7 => as (result unit) .fsUnmount
        | 8 => as (result unit) .poolClean
        | 9 => as (result unit) .poolFault
        | 10 => as (result unit) .poolAttach
        | 11 => as (result (vec (pair str u64))) .poolList
        | 12 => as (result Wire.poolStatus) .poolStatus
        | _ => fun _ => none

end Verif.Wire
