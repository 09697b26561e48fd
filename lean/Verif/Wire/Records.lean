import Verif.Wire.Lemmas

/-! # Lemmas: every record reads back what it writes -/

namespace Verif.Wire
open Verif.Bytes
open Verif.Label

theorem fitsL {α} {p : α → Prop} {l : List α} (h : FitsL p l) : l.length < 2 ^ 32 ∧ ∀ x ∈ l, p x := h

theorem fitsL_vec {α} {c : Codec α} {p : α → Prop} (hc : c.RoundTrips p) : (vec c).RoundTrips (FitsL p) :=
  vec_rt hc

theorem uuid_rt' : uuid.RoundTrips IsUuid := uuid_rt

theorem propertyName_rt : propertyName.RoundTrips (fun _ => True) :=
  tagged_rt (fun x _ => by cases x <;> simp) (fun x _ rest => by cases x <;> rfl)

theorem property_rt : property.RoundTrips Property.Fits := by
  refine tagged_rt (fun x _ => by cases x <;> simp) ?_
  intro x hx rest
  cases x with
  | atime b => exact as_rt bool_rt Property.atime b trivial rest
  | baseMountpoint s => exact as_rt str_rt Property.baseMountpoint s hx rest
  | mountpoint s => exact as_rt str_rt Property.mountpoint s hx rest
  | name s => exact as_rt str_rt Property.name s hx rest
  | recordSize n => exact as_rt u8_rt Property.recordSize n trivial rest

theorem propertySource_rt : propertySource.RoundTrips (fun _ => True) := by
  refine tagged_rt (fun x _ => by cases x <;> simp) ?_
  intro x hx rest
  cases x with
  | none => rfl
  | default => rfl
  | set n => exact as_rt u8_rt PropertySource.set n trivial rest

theorem timespec_rt : timespec.RoundTrips (fun _ => True) :=
  iso_rt (pair_rt i64_rt u32_rt) (fun _ => rfl) (fun _ _ => ⟨trivial, trivial⟩)

theorem fileType_rt : fileType.RoundTrips FileType.Fits := by
  refine tagged_rt (fun x _ => by cases x <;> simp [FileType.dtype]) ?_
  intro x hx rest
  cases x with
  | fifo => rfl
  | char d => exact as_rt u64_rt FileType.char d trivial rest
  | dir => rfl
  | block d => exact as_rt u64_rt FileType.block d trivial rest
  | reg n => exact as_rt u8_rt FileType.reg n trivial rest
  | link b => exact as_rt bytes_rt FileType.link b hx rest
  | socket => rfl

theorem inode_rt : inode.RoundTrips Inode.Fits :=
  iso_rt
    (pair_rt u64_rt (pair_rt u64_rt (pair_rt u64_rt (pair_rt u64_rt (pair_rt timespec_rt
      (pair_rt timespec_rt (pair_rt timespec_rt (pair_rt timespec_rt (pair_rt u32_rt (pair_rt u32_rt
      (pair_rt u16_rt fileType_rt)))))))))))
    (fun _ => rfl)
    (fun _ h => ⟨trivial, trivial, trivial, trivial, trivial, trivial, trivial, trivial, trivial, trivial,
      trivial, h⟩)

theorem dirent_rt : dirent.RoundTrips Dirent.Fits :=
  iso_rt (pair_rt u64_rt (pair_rt u8_rt bytes_rt)) (fun _ => rfl) (fun _ h => ⟨trivial, trivial, h⟩)

theorem namespace_rt : namespace_.RoundTrips (fun _ => True) :=
  tagged_rt (fun x _ => by cases x <;> simp) (fun x _ rest => by cases x <;> rfl)

theorem blobExtent_rt : blobExtent.RoundTrips (fun _ => True) :=
  iso_rt (pair_rt u32_rt u64_rt) (fun _ => rfl) (fun _ _ => ⟨trivial, trivial⟩)

theorem extAttr_rt : extAttr.RoundTrips ExtAttr.Fits := by
  refine tagged_rt (fun x _ => by cases x <;> simp) ?_
  intro x hx rest
  cases x with
  | inline n m e =>
    exact as_rt (pair_rt namespace_rt (pair_rt bytes_rt bytes_rt)) (fun p => ExtAttr.inline p.1 p.2.1 p.2.2)
      (n, m, e) ⟨trivial, hx.1, hx.2⟩ rest
  | blob n m e =>
    exact as_rt (pair_rt namespace_rt (pair_rt bytes_rt blobExtent_rt))
      (fun p => ExtAttr.blob p.1 p.2.1 p.2.2) (n, m, e) ⟨trivial, hx, trivial⟩ rest

theorem fsValue_rt : fsValue.RoundTrips FSValue.Fits := by
  refine tagged_rt (fun x _ => by cases x <;> simp) ?_
  intro x hx rest
  cases x with
  | dirEntry d => exact as_rt dirent_rt FSValue.dirEntry d hx rest
  | inode i => exact as_rt inode_rt FSValue.inode i hx rest
  | inlineExtent b => exact as_rt bytes_rt FSValue.inlineExtent b hx rest
  | blobExtent b => exact as_rt blobExtent_rt FSValue.blobExtent b trivial rest
  | extAttr x => exact as_rt extAttr_rt FSValue.extAttr x hx rest
  | extAttrs l => exact as_rt (fitsL_vec extAttr_rt) FSValue.extAttrs l hx rest
  | dirEntries l => exact as_rt (fitsL_vec dirent_rt) FSValue.dirEntries l hx rest
  | property p => exact as_rt property_rt FSValue.property p hx rest
  | dyingInode i => exact as_rt u64_rt FSValue.dyingInode i trivial rest
  | invalid => rfl

theorem intElem_rt {A K} {a : Codec A} {k : Codec K} (ha : a.RoundTrips (fun _ => True))
    (hk : k.RoundTrips (fun _ => True)) : (intElem a k).RoundTrips (fun _ => True) :=
  iso_rt (pair_rt hk (pair_rt (pair_rt u32_rt u32_rt) ha)) (fun _ => rfl)
    (fun _ _ => ⟨trivial, ⟨trivial, trivial⟩, trivial⟩)

theorem nodeData_rt {A K V} {lt : K → K → Bool} (hasym : ∀ a b, lt a b = true → lt b a = false)
    {a : Codec A} {k : Codec K} {v : Codec V} {q : V → Prop} (ha : a.RoundTrips (fun _ => True))
    (hk : k.RoundTrips (fun _ => True)) (hv : v.RoundTrips q) :
    (nodeData lt a k v).RoundTrips (NodeData.Fits lt q) := by
  refine tagged_rt (fun x _ => by cases x <;> simp) ?_
  intro x hx rest
  cases x with
  | leaf l =>
    exact as_rt (btree_rt hasym hk hv) NodeData.leaf l ⟨hx.1, fun e he => ⟨trivial, hx.2.1 e he⟩, hx.2.2⟩ rest
  | int l => exact as_rt (vec_rt (intElem_rt ha hk)) NodeData.int l ⟨hx, fun _ _ => trivial⟩ rest

theorem pba_rt : pba.RoundTrips (fun _ => True) :=
  iso_rt (pair_rt u16_rt u64_rt) (fun _ => rfl) (fun _ _ => ⟨trivial, trivial⟩)

theorem drp_rt : drp.RoundTrips (fun _ => True) :=
  iso_rt (pair_rt pba_rt (pair_rt bool_rt (pair_rt u32_rt (pair_rt u32_rt u64_rt)))) (fun _ => rfl)
    (fun _ _ => ⟨trivial, trivial, trivial, trivial, trivial⟩)

theorem ridtEntry_rt : ridtEntry.RoundTrips (fun _ => True) :=
  iso_rt (pair_rt drp_rt u64_rt) (fun _ => rfl) (fun _ _ => ⟨trivial, trivial⟩)

theorem limits_rt : limits.RoundTrips (fun _ => True) :=
  iso_rt (pair_rt u16_rt (pair_rt u16_rt (pair_rt u16_rt (pair_rt u16_rt u64_rt)))) (fun _ => rfl)
    (fun _ _ => ⟨trivial, trivial, trivial, trivial, trivial⟩)

theorem treeOnDisk_rt {A} {a : Codec A} (ha : a.RoundTrips (fun _ => True)) :
    (treeOnDisk a).RoundTrips TreeOnDisk.Fits :=
  iso_rt (pair_rt u8_rt (pair_rt (arr_rt 7) (pair_rt limits_rt (pair_rt ha (pair_rt u32_rt u32_rt)))))
    (fun _ => rfl) (fun _ h => ⟨trivial, h, trivial, trivial, trivial, trivial⟩)

theorem forestKey_rt : forestKey.RoundTrips (fun _ => True) :=
  iso_rt (pair_rt u64_rt u64_rt) (fun _ => rfl) (fun _ _ => ⟨trivial, trivial⟩)

theorem forestValue_rt : forestValue.RoundTrips ForestValue.Fits := by
  refine tagged_rt (fun x _ => by cases x <;> simp) ?_
  intro x hx rest
  cases x with
  | tree p t =>
    exact as_rt (pair_rt (opt_rt u64_rt) (treeOnDisk_rt u64_rt)) (fun x => ForestValue.tree x.1 x.2) (p, t)
      ⟨fun _ _ => trivial, hx⟩ rest
  | treeEnt i n =>
    exact as_rt (pair_rt u64_rt str_rt) (fun x => ForestValue.treeEnt x.1 x.2) (i, n) ⟨trivial, hx⟩ rest

theorem ltU64_asymm (a b : UInt64) (h : ltU64 a b = true) : ltU64 b a = false := by
  simp only [ltU64, decide_eq_true_eq, decide_eq_false_iff_not, UInt64.lt_iff_toNat_lt] at *
  omega

theorem ltU128_asymm (a b : BitVec 128) (h : ltU128 a b = true) : ltU128 b a = false := by
  simp only [ltU128, decide_eq_true_eq, decide_eq_false_iff_not, BitVec.lt_def] at *
  omega

theorem ForestKey.lt_asymm (a b : ForestKey) (h : a.lt b = true) : b.lt a = false := by
  simp only [ForestKey.lt, Bool.or_eq_true, Bool.and_eq_true, decide_eq_true_eq, Bool.or_eq_false_iff,
    Bool.and_eq_false_iff, decide_eq_false_iff_not, UInt64.lt_iff_toNat_lt, ← UInt64.toNat_inj] at *
  omega

theorem PBA.lt_asymm (a b : PBA) (h : a.lt b = true) : b.lt a = false := by
  simp only [PBA.lt, Bool.or_eq_true, Bool.and_eq_true, decide_eq_true_eq, Bool.or_eq_false_iff,
    Bool.and_eq_false_iff, decide_eq_false_iff_not, UInt64.lt_iff_toNat_lt, ← UInt64.toNat_inj,
    UInt16.lt_iff_toNat_lt, ← UInt16.toNat_inj] at *
  omega

theorem zoneOnDisk_rt : zoneOnDisk.RoundTrips (fun _ => True) :=
  iso_rt (pair_rt u32_rt (pair_rt u32_rt (pair_rt u32_rt u32_rt))) (fun _ => rfl)
    (fun _ _ => ⟨trivial, trivial, trivial, trivial⟩)

theorem spacemapOnDisk_rt : spacemapOnDisk.RoundTrips (fun s => s.zones.length < 2 ^ 32) :=
  iso_rt (pair_rt u64_rt (vec_rt zoneOnDisk_rt)) (fun _ => rfl) (fun _ h => ⟨trivial, h, fun _ _ => trivial⟩)

theorem layout_rt : layout.RoundTrips (fun _ => True) :=
  tagged_rt (fun _ _ => by simp) (fun _ _ _ => rfl)

theorem raidLabel_rt : raidLabel.RoundTrips RaidLabel.Fits := by
  refine tagged_rt (fun x _ => by cases x <;> simp) ?_
  intro x hx rest
  cases x with
  | null u c => exact as_rt (pair_rt uuid_rt' uuid_rt') (fun x => RaidLabel.null x.1 x.2) (u, c) hx rest
  | raid u z k f c =>
    exact as_rt (pair_rt uuid_rt' (pair_rt u64_rt (pair_rt i16_rt (pair_rt i16_rt (pair_rt layout_rt
      (fitsL_vec uuid_rt'))))))
      (fun x => RaidLabel.raid x.1 x.2.1 x.2.2.1 x.2.2.2.1 x.2.2.2.2.2) (u, z, k, f, (), c)
      ⟨hx.1, trivial, trivial, trivial, trivial, hx.2⟩ rest

theorem idmlLabel_rt : idmlLabel.RoundTrips IdmlLabel.Fits :=
  iso_rt (pair_rt (treeOnDisk_rt drp_rt) (pair_rt u64_rt (pair_rt (treeOnDisk_rt drp_rt) u32_rt)))
    (fun _ => rfl) (fun _ h => ⟨h.1, trivial, h.2, trivial⟩)

theorem Rec.rt (r : Rec) (h : r.Fits) (rest : Buf) : decTy r.ty (r.enc ++ rest) = some (r, rest) := by
  cases r with
  | lower r =>
    show (Verif.Label.decTy r.ty (r.enc ++ rest)).map _ = _
    rw [Verif.Label.Rec.rt r h rest]
    rfl
  | raid l => exact as_rt raidLabel_rt Rec.raid l h rest
  | idml l => exact as_rt idmlLabel_rt Rec.idml l h rest
  | database l => exact as_rt (treeOnDisk_rt u64_rt) Rec.database l h rest

theorem decAll_rt (rs : List Rec) (h : ∀ r ∈ rs, r.Fits) (rest : Buf) :
    decAll (rs.map Rec.ty) ((rs.map Rec.enc).flatten ++ rest) = some (rs, rest) := by
  induction rs with
  | nil => rfl
  | cons r rs ih =>
    simp only [List.map_cons, decAll, List.flatten_cons, List.append_assoc]
    rw [Rec.rt r (h r (by simp))]
    simp only
    rw [ih (fun x hx => h x (by simp [hx]))]

theorem Err.ofCode_code (e : Err) : Err.ofCode e.code = e := by
  simp only [Err.ofCode, dif_pos e.known]

theorem err_rt : err.RoundTrips (fun _ => True) :=
  iso_rt i16_rt Err.ofCode_code (fun _ _ => trivial)

theorem result_rt {α} {c : Codec α} {p : α → Prop} (hc : c.RoundTrips p) :
    (result c).RoundTrips (FitsR p) := by
  refine tagged_rt (fun x _ => by cases x <;> simp) ?_
  intro x hx rest
  cases x with
  | ok x => exact as_rt hc Except.ok x hx rest
  | error e => exact as_rt err_rt Except.error e trivial rest

theorem fitsR_true {α} (r : Except Err α) : FitsR (fun _ => True) r := by cases r <;> trivial

theorem request_rt : request.RoundTrips Request.Fits := by
  refine tagged_rt (fun x _ => by cases x <;> simp) ?_
  intro x hx rest
  cases x with
  | debugDropCache => rfl
  | fsCreate n p =>
    exact as_rt (pair_rt str_rt (fitsL_vec property_rt)) (fun x => Request.fsCreate x.1 x.2) (n, p) hx rest
  | fsDestroy n => exact as_rt str_rt Request.fsDestroy n hx rest
  | fsList n p o =>
    exact as_rt (pair_rt str_rt (pair_rt (vec_rt propertyName_rt) (opt_rt u64_rt)))
      (fun x => Request.fsList x.1 x.2.1 x.2.2) (n, p, o)
      ⟨hx.1, ⟨hx.2, fun _ _ => trivial⟩, fun _ _ => trivial⟩ rest
  | fsMount o n => exact as_rt (pair_rt str_rt str_rt) (fun x => Request.fsMount x.1 x.2) (o, n) hx rest
  | fsSet n p =>
    exact as_rt (pair_rt str_rt (fitsL_vec property_rt)) (fun x => Request.fsSet x.1 x.2) (n, p) hx rest
  | fsStat n p =>
    exact as_rt (pair_rt str_rt (vec_rt propertyName_rt)) (fun x => Request.fsStat x.1 x.2) (n, p)
      ⟨hx.1, hx.2, fun _ _ => trivial⟩ rest
  | fsUnmount f n =>
    exact as_rt (pair_rt bool_rt str_rt) (fun x => Request.fsUnmount x.1 x.2) (f, n) ⟨trivial, hx⟩ rest
  | poolClean p => exact as_rt str_rt Request.poolClean p hx rest
  | poolFault p d =>
    exact as_rt (pair_rt str_rt uuid_rt') (fun x => Request.poolFault x.1 x.2) (p, d) hx rest
  | poolAttach p m l =>
    exact as_rt (pair_rt str_rt (pair_rt uuid_rt' bytes_rt)) (fun x => Request.poolAttach x.1 x.2.1 x.2.2)
      (p, m, l) hx rest
  | poolList p o =>
    exact as_rt (pair_rt (opt_rt str_rt) (opt_rt u64_rt)) (fun x => Request.poolList x.1 x.2) (p, o)
      ⟨hx, fun _ _ => trivial⟩ rest
  | poolStatus p => exact as_rt str_rt Request.poolStatus p hx rest

theorem faulted_rt : faulted.RoundTrips (fun _ => True) :=
  tagged_rt (fun x _ => by have := x.isLt; omega) (fun x _ rest => by
    match x with
    | 0 => rfl
    | 1 => rfl
    | 2 => rfl)

theorem health_rt : health.RoundTrips (fun _ => True) := by
  refine tagged_rt (fun x _ => by cases x <;> simp) ?_
  intro x hx rest
  cases x with
  | online => rfl
  | degraded n h =>
    show (match u8.dec (u8.enc n ++ rest) with
      | none => none
      | some (n, s) => if h : n ≠ 0 then some (Health.degraded n h, s) else none) = _
    rw [u8_rt n trivial rest]
    simp only
    rw [dif_pos h]
  | user => exact as_rt faulted_rt _ 0 trivial rest
  | insufficientRedundancy => exact as_rt faulted_rt _ 1 trivial rest
  | removed => exact as_rt faulted_rt _ 2 trivial rest

theorem leafStatus_rt : leafStatus.RoundTrips LeafStatus.Fits :=
  iso_rt (pair_rt health_rt (pair_rt bytes_rt uuid_rt')) (fun _ => rfl) (fun _ h => ⟨trivial, h⟩)

theorem mirrorStatus_rt : mirrorStatus.RoundTrips MirrorStatus.Fits :=
  iso_rt (pair_rt (fitsL_vec leafStatus_rt) (pair_rt health_rt uuid_rt')) (fun _ => rfl)
    (fun _ h => ⟨h.1, trivial, h.2⟩)

theorem clusterStatus_rt : clusterStatus.RoundTrips ClusterStatus.Fits :=
  iso_rt (pair_rt health_rt (pair_rt str_rt (pair_rt (fitsL_vec mirrorStatus_rt) uuid_rt'))) (fun _ => rfl)
    (fun _ h => ⟨trivial, h⟩)

theorem poolStatus_rt : poolStatus.RoundTrips PoolStatus.Fits :=
  iso_rt (pair_rt health_rt (pair_rt str_rt (pair_rt (fitsL_vec clusterStatus_rt) uuid_rt'))) (fun _ => rfl)
    (fun _ h => ⟨trivial, h⟩)

theorem dsInfo_rt : dsInfo.RoundTrips DsInfo.Fits :=
  iso_rt (pair_rt str_rt (pair_rt (vec_rt (pair_rt property_rt propertySource_rt)) u64_rt)) (fun _ => rfl)
    (fun _ h => ⟨h.1, ⟨h.2.1, fun x hx => ⟨h.2.2 x hx, trivial⟩⟩, trivial⟩)

theorem response_rt : response.RoundTrips Response.Fits := by
  refine tagged_rt (fun x _ => by cases x <;> simp) ?_
  intro x hx rest
  cases x with
  | debugDropCache r => exact as_rt (result_rt unit_rt) Response.debugDropCache r (fitsR_true r) rest
  | fsCreate r => exact as_rt (result_rt u64_rt) Response.fsCreate r (fitsR_true r) rest
  | fsDestroy r => exact as_rt (result_rt unit_rt) Response.fsDestroy r (fitsR_true r) rest
  | fsList r => exact as_rt (result_rt (fitsL_vec dsInfo_rt)) Response.fsList r hx rest
  | fsMount r => exact as_rt (result_rt unit_rt) Response.fsMount r (fitsR_true r) rest
  | fsSet r => exact as_rt (result_rt unit_rt) Response.fsSet r (fitsR_true r) rest
  | fsStat r => exact as_rt (result_rt dsInfo_rt) Response.fsStat r hx rest
  | fsUnmount r => exact as_rt (result_rt unit_rt) Response.fsUnmount r (fitsR_true r) rest
  | poolClean r => exact as_rt (result_rt unit_rt) Response.poolClean r (fitsR_true r) rest
  | poolFault r => exact as_rt (result_rt unit_rt) Response.poolFault r (fitsR_true r) rest
  | poolAttach r => exact as_rt (result_rt unit_rt) Response.poolAttach r (fitsR_true r) rest
  | poolList r =>
    have h : (vec (pair str u64)).RoundTrips (FitsL fun p : String × UInt64 => FitsS p.1) :=
      fitsL_vec (mono_rt (pair_rt str_rt u64_rt) (fun _ h => ⟨h, trivial⟩))
    exact as_rt (result_rt h) Response.poolList r hx rest
  | poolStatus r => exact as_rt (result_rt poolStatus_rt) Response.poolStatus r hx rest

end Verif.Wire
