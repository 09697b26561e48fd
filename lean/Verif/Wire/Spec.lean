import Verif.Wire.Model
import Verif.Label.Props

/-!
# Specification: what can be encoded

Reading back what was written is `Codec.RoundTrips`: for every value that fits, decoding its encoding,
followed by any bytes whatsoever, gives the value and leaves exactly those bytes.

A value fits if every string and every vector in it has fewer than 2^32 elements, every UUID has 16
bytes, and the keys of a map are in ascending order (which is what a map is).
-/

namespace Verif.Wire
open Verif.Bytes

/-- What is written is read back as it was, whatever bytes follow, and nothing is read from a part of
it that lacks its end. -/
def Faithful {α} (c : Verif.Label.Codec α) (ok : α → Prop) : Prop :=
  (∀ a, ok a → ∀ rest, c.dec (c.enc a ++ rest) = some (a, rest)) ∧
  (∀ a, ok a → ∀ p q, q ≠ [] → c.enc a = p ++ q → c.dec p = none)

def FitsB (b : Buf) : Prop := b.length < 2 ^ 32
def FitsS (s : String) : Prop := s.utf8ByteSize < 2 ^ 32
def FitsL {α} (p : α → Prop) (l : List α) : Prop := l.length < 2 ^ 32 ∧ ∀ x ∈ l, p x
def IsUuid (b : Buf) : Prop := b.length = 16

def Property.Fits : Property → Prop
  | .baseMountpoint s | .mountpoint s | .name s => FitsS s
  | .atime _ | .recordSize _ => True

def FileType.Fits : FileType → Prop
  | .link b => FitsB b
  | _ => True

def Inode.Fits (i : Inode) : Prop := i.fileType.Fits
def Dirent.Fits (d : Dirent) : Prop := FitsB d.name

def ExtAttr.Fits : ExtAttr → Prop
  | .inline _ n x => FitsB n ∧ FitsB x
  | .blob _ n _ => FitsB n

def FSValue.Fits : FSValue → Prop
  | .dirEntry d => d.Fits
  | .inode i => i.Fits
  | .inlineExtent b => FitsB b
  | .extAttr x => x.Fits
  | .extAttrs l => FitsL ExtAttr.Fits l
  | .dirEntries l => FitsL Dirent.Fits l
  | .property p => p.Fits
  | .blobExtent _ | .dyingInode _ | .invalid => True

def TreeOnDisk.Fits {A} (t : TreeOnDisk A) : Prop := t.reserved.length = 7

def ForestValue.Fits : ForestValue → Prop
  | .tree _ t => t.Fits
  | .treeEnt _ n => FitsS n

/-- A node of a tree: the items of a leaf are in ascending order of their keys. -/
def NodeData.Fits {A K V} (lt : K → K → Bool) (v : V → Prop) : NodeData A K V → Prop
  | .leaf l => l.length < 2 ^ 32 ∧ (∀ e ∈ l, v e.2) ∧ l.Pairwise fun a b => lt a.1 b.1 = true
  | .int l => l.length < 2 ^ 32

def RaidLabel.Fits : RaidLabel → Prop
  | .null u c => IsUuid u ∧ IsUuid c
  | .raid u _ _ _ c => IsUuid u ∧ FitsL IsUuid c

def IdmlLabel.Fits (l : IdmlLabel) : Prop := l.alloct.Fits ∧ l.ridt.Fits

def Rec.Fits : Rec → Prop
  | .lower r => r.Typed
  | .raid l => l.Fits
  | .idml l => l.Fits
  | .database l => l.Fits

def Request.Fits : Request → Prop
  | .debugDropCache => True
  | .fsCreate n p | .fsSet n p => FitsS n ∧ FitsL Property.Fits p
  | .fsDestroy n | .fsUnmount _ n | .poolClean n | .poolStatus n => FitsS n
  | .fsList n p _ | .fsStat n p => FitsS n ∧ p.length < 2 ^ 32
  | .fsMount o n => FitsS o ∧ FitsS n
  | .poolFault p d => FitsS p ∧ IsUuid d
  | .poolAttach p m l => FitsS p ∧ IsUuid m ∧ FitsB l
  | .poolList p _ => ∀ s, p = some s → FitsS s

def LeafStatus.Fits (l : LeafStatus) : Prop := FitsB l.path ∧ IsUuid l.uuid
def MirrorStatus.Fits (l : MirrorStatus) : Prop := FitsL LeafStatus.Fits l.leaves ∧ IsUuid l.uuid
def ClusterStatus.Fits (l : ClusterStatus) : Prop :=
  FitsS l.codec ∧ FitsL MirrorStatus.Fits l.mirrors ∧ IsUuid l.uuid
def PoolStatus.Fits (l : PoolStatus) : Prop :=
  FitsS l.name ∧ FitsL ClusterStatus.Fits l.clusters ∧ IsUuid l.uuid
def DsInfo.Fits (d : DsInfo) : Prop := FitsS d.name ∧ FitsL (fun p => Property.Fits p.1) d.props

/-- Of a result, only a success can be too big. -/
def FitsR {α} (p : α → Prop) : Except Err α → Prop
  | .ok x => p x
  | .error _ => True

def Response.Fits : Response → Prop
  | .fsList r => FitsR (FitsL DsInfo.Fits) r
  | .fsStat r => FitsR DsInfo.Fits r
  | .poolList r => FitsR (FitsL fun p => FitsS p.1) r
  | .poolStatus r => FitsR PoolStatus.Fits r
  | _ => True

end Verif.Wire
