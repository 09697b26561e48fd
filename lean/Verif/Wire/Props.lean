import Verif.Wire.Prefix
import Verif.Wire.Socket

/-!
# C81: what is stored or sent is read back exactly
-/

namespace Verif.Wire
open Verif.Bytes
open Verif.Label (Codec uint uuid pair vec le le_length writeLabel readerNew writeLabel_readable)

theorem faithful {α} {c : Codec α} {ok : α → Prop} (hm : Mono c) (hc : c.RoundTrips ok) : Faithful c ok :=
  ⟨hc, fun a ha p q hq h => truncated hm hc a ha p q hq h⟩

/-! ## Trees -/

/-- C81: every node of every file system's tree is read back as it was written. -/
theorem C81_fs_node : Faithful fsNode (NodeData.Fits ltU128 FSValue.Fits) :=
  faithful (nodeData_mono _ u64_mono u128_mono fsValue_mono)
    (nodeData_rt ltU128_asymm u64_rt u128_rt fsValue_rt)

/-- C81: every node of the forest, the tree of the file systems. -/
theorem C81_forest_node : Faithful forestNode (NodeData.Fits ForestKey.lt ForestValue.Fits) :=
  faithful (nodeData_mono _ u64_mono forestKey_mono forestValue_mono)
    (nodeData_rt ForestKey.lt_asymm u64_rt forestKey_rt forestValue_rt)

/-- C81: every node of the table of records. -/
theorem C81_ridt_node : Faithful ridtNode (NodeData.Fits ltU64 fun _ => True) :=
  faithful (nodeData_mono _ drp_mono u64_mono ridtEntry_mono)
    (nodeData_rt ltU64_asymm drp_rt u64_rt ridtEntry_rt)

/-- C81: every node of the allocation table. -/
theorem C81_alloct_node : Faithful alloctNode (NodeData.Fits PBA.lt fun _ => True) :=
  faithful (nodeData_mono _ drp_mono pba_mono u64_mono)
    (nodeData_rt PBA.lt_asymm drp_rt pba_rt u64_rt)

/-- A leaf with a directory entry, an inode and a property. -/
def sampleLeaf : NodeData UInt64 (BitVec 128) FSValue :=
  .leaf [
    (1, .dirEntry ⟨2, 8, [104, 105]⟩),
    (2, .inode ⟨5, 4096, 1, 0, ⟨-1, 999⟩, ⟨7, 0⟩, ⟨8, 0⟩, ⟨9, 1⟩, 1001, 1002, 0o644, .link [46, 46]⟩),
    (3, .extAttrs [.inline .user [97] [1, 2, 3], .blob .system [98] ⟨4096, 77⟩]),
    (4, .property (.mountpoint "/größe"))]

/-- C81, non-vacuity. -/
example : NodeData.Fits ltU128 FSValue.Fits sampleLeaf := by
  refine ⟨by decide, ?_, by decide +kernel⟩
  intro e he
  simp only [List.mem_cons, List.not_mem_nil, or_false] at he
  rcases he with rfl | rfl | rfl | rfl
  · show (_ : Nat) < _; decide
  · show (_ : Nat) < _; decide
  · refine ⟨by decide, fun x hx => ?_⟩
    simp only [List.mem_cons, List.not_mem_nil, or_false] at hx
    rcases hx with rfl | rfl
    · refine ⟨?_, ?_⟩ <;> (show (_ : Nat) < _; decide)
    · show (_ : Nat) < _; decide
  · show (_ : Nat) < _; decide +kernel

/-- The golden masters of node.rs:1720-1770: the model writes the same bytes. -/
example : (nodeData (fun a b : UInt32 => decide (a < b)) drp u32 u32).enc
    (.int [⟨0, (1, 9), ⟨⟨0, 0⟩, false, 40000, 40000, 0xdeadbeef⟩⟩,
           ⟨256, (2, 8), ⟨⟨0, 256⟩, true, 16000, 8000, 0x1a7ebabe⟩⟩]) =
    [1, 0, 0, 0, 2, 0, 0, 0, 0, 0, 0, 0, 1, 0, 0, 0, 9, 0, 0, 0, 0, 0, 0, 0, 0, 0, 0, 0, 0, 0, 0,
     0x40, 0x9c, 0, 0, 0x40, 0x9c, 0, 0, 0xef, 0xbe, 0xad, 0xde, 0, 0, 0, 0,
     0, 1, 0, 0, 2, 0, 0, 0, 8, 0, 0, 0, 0, 0, 0, 1, 0, 0, 0, 0, 0, 0, 1,
     0x80, 0x3e, 0, 0, 0x40, 0x1f, 0, 0, 0xbe, 0xba, 0x7e, 0x1a, 0, 0, 0, 0] := by decide +kernel

example : (nodeData (fun a b : UInt32 => decide (a < b)) drp u32 u32).enc
    (.leaf [(0, 100), (1, 200), (99, 50000)]) =
    [0, 0, 0, 0, 3, 0, 0, 0, 0, 0, 0, 0, 100, 0, 0, 0, 1, 0, 0, 0, 200, 0, 0, 0,
     99, 0, 0, 0, 80, 195, 0, 0] := by decide +kernel

/-- C81: two different values are never written alike, nor is one the beginning of another: if two
streams agree, so do what was written first and what follows. -/
theorem C81_unambiguous {α} (c : Codec α) (ok : α → Prop) (h : Faithful c ok) (a b : α) (ha : ok a)
    (hb : ok b) (r r' : Buf) (e : c.enc a ++ r = c.enc b ++ r') : a = b ∧ r = r' := by
  have h1 := h.1 a ha r
  rw [e, h.1 b hb r'] at h1
  simp only [Option.some.injEq, Prod.mk.injEq] at h1
  exact ⟨h1.1.symm, h1.2.symm⟩

/-- C81, non-vacuity: a link and a directory entry of the same name. -/
example : fsValue.enc (.inlineExtent [1, 2]) ++ [9] ≠ fsValue.enc (.property (.name "x")) ++ [7, 7] := by
  decide +kernel

/-! ## Sizes -/

theorem u8_len (x : UInt8) : (u8.enc x).length = 1 := rfl
theorem u16_len (x : UInt16) : (u16.enc x).length = 2 := le_length 2 _
theorem u32_len (x : UInt32) : (u32.enc x).length = 4 := le_length 4 _
theorem u64_len (x : UInt64) : (u64.enc x).length = 8 := le_length 8 _
theorem u128_len (x : BitVec 128) : (u128.enc x).length = 16 := le_length 16 _
theorem bool_len (x : Bool) : (bool.enc x).length = 1 := rfl

theorem pair_len {α β} (a : Codec α) (b : Codec β) (x : α × β) :
    ((pair a b).enc x).length = (a.enc x.1).length + (b.enc x.2).length := by
  simp only [pair, List.length_append]

theorem iso_enc {α β} (c : Codec α) (f : α → β) (g : β → α) (x : β) : (iso c f g).enc x = c.enc (g x) := rfl

theorem pba_len (x : PBA) : (pba.enc x).length = 10 := by
  simp only [pba, iso_enc, pair_len, u16_len, u64_len]

theorem drp_len (x : DRP) : (drp.enc x).length = 27 := by
  simp only [drp, iso_enc, pair_len, pba_len, bool_len, u32_len, u64_len]

theorem forestKey_len (x : ForestKey) : (forestKey.enc x).length = 16 := by
  simp only [forestKey, iso_enc, pair_len, u64_len]

theorem treeOnDisk_len {A} (a : Codec A) (n : Nat) (ha : ∀ x, (a.enc x).length = n) (x : TreeOnDisk A)
    (h : x.Fits) : ((treeOnDisk a).enc x).length = 32 + n := by
  have : ((arr 7).enc x.reserved).length = 7 := h
  simp only [treeOnDisk, limits, iso_enc, pair_len, u8_len, u16_len, u32_len, u64_len, ha, this]
  omega

theorem intElem_len {A K} (a : Codec A) (k : Codec K) (n m : Nat) (ha : ∀ x, (a.enc x).length = n)
    (hk : ∀ x, (k.enc x).length = m) (x : IntElem A K) : ((intElem a k).enc x).length = m + 8 + n := by
  simp only [intElem, iso_enc, pair_len, u32_len, ha, hk]
  omega

/-- C81: the sizes by which the fanout of the trees and the credit are computed (`TYPICAL_SIZE`: types.rs:381,
398, ddml/mod.rs:136, idml/mod.rs:54, database/mod.rs:109, tree/mod.rs:102, node.rs:1012-1015,
fs_tree.rs:339 and 1356) are the sizes of every value written, and the elements of interior nodes take
that much in every tree. -/
theorem C81_sizes :
    (∀ x, (pba.enc x).length = 10) ∧
    (∀ x, (drp.enc x).length = 27) ∧
    (∀ x, (ridtEntry.enc x).length = 35) ∧
    (∀ x, (forestKey.enc x).length = 16) ∧
    (∀ x, (u128.enc x).length = 16) ∧
    (∀ x : TreeOnDisk DRP, x.Fits → ((treeOnDisk drp).enc x).length = 32 + 27) ∧
    (∀ x : TreeOnDisk UInt64, x.Fits → ((treeOnDisk u64).enc x).length = 32 + 8) ∧
    (∀ x, ((intElem u64 u128).enc x).length = 16 + 8 + 8) ∧
    (∀ x, ((intElem u64 forestKey).enc x).length = 16 + 8 + 8) ∧
    (∀ x, ((intElem drp u64).enc x).length = 8 + 8 + 27) ∧
    (∀ x, ((intElem drp pba).enc x).length = 10 + 8 + 27) ∧
    (∀ x, (fsValue.enc (.blobExtent x)).length = 13) := by
  refine ⟨pba_len, drp_len, ?_, forestKey_len, u128_len, treeOnDisk_len drp 27 drp_len,
    treeOnDisk_len u64 8 u64_len, intElem_len _ _ _ _ u64_len u128_len,
    intElem_len _ _ _ _ u64_len forestKey_len, intElem_len _ _ _ _ drp_len u64_len,
    intElem_len _ _ _ _ drp_len pba_len, ?_⟩
  · intro x
    simp only [ridtEntry, iso_enc, pair_len, drp_len, u64_len]
  · intro x
    simp only [fsValue, tagged, blobExtent, iso_enc, List.length_append, pair_len, u32_len, u64_len, le_length]

/-- C81, non-vacuity: the label of a database, tests/functional/database.rs:32-49. -/
example : databaseLabel.enc ⟨1, [0, 0, 0, 0, 0, 0, 0], ⟨0x55, 0x154, 0x5b, 0x16b, 0x400000⟩, 0, (0, 1)⟩ =
    [1, 0, 0, 0, 0, 0, 0, 0, 0x55, 0, 0x54, 1, 0x5b, 0, 0x6b, 1, 0, 0, 0x40, 0, 0, 0, 0, 0,
     0, 0, 0, 0, 0, 0, 0, 0, 0, 0, 0, 0, 1, 0, 0, 0] := by decide +kernel

/-! ## Spacemaps -/

theorem vec_len {α} (c : Codec α) (n : Nat) (h : ∀ x, (c.enc x).length = n) (l : List α) :
    ((vec c).enc l).length = 4 + n * l.length := by
  simp only [vec, List.length_append, le_length]
  congr 1
  induction l with
  | nil => rfl
  | cons x l ih =>
    simp only [List.map_cons, List.flatten_cons, List.length_append, List.length_cons, h, ih]
    rw [Nat.mul_succ]
    omega

theorem zone_len (x : ZoneOnDisk) : (zoneOnDisk.enc x).length = 16 := by
  simp only [zoneOnDisk, iso_enc, pair_len, u32_len]

/-- C81: a block of the spacemap is read back from the disk's block, with whatever it is padded; it
holds `SPACEMAP_ZONES_PER_LBA` zones, and not one more. -/
theorem C81_spacemap (s : SpacemapOnDisk) :
    (s.zones.length < 2 ^ 32 → ∀ pad, spacemapOnDisk.dec (spacemapOnDisk.enc s ++ pad) = some (s, pad)) ∧
    ((spacemapOnDisk.enc s).length ≤ lbaBytes ↔ s.zones.length ≤ spacemapZonesPerLba) := by
  refine ⟨fun h pad => spacemapOnDisk_rt s h pad, ?_⟩
  have : (spacemapOnDisk.enc s).length = 12 + 16 * s.zones.length := by
    simp only [spacemapOnDisk, iso_enc, pair_len, u64_len, vec_len zoneOnDisk 16 zone_len]
    omega
  rw [this]
  simp only [lbaBytes, spacemapZonesPerLba]
  omega

/-- C81, non-vacuity: the spacemap of tests/functional/cluster.rs:47-54. -/
example : spacemapOnDisk.enc ⟨0x81b5385c92f14de1, [⟨0, 0, (0, 0)⟩, ⟨0, 0, (0, 0)⟩]⟩ =
    [225, 77, 241, 146, 92, 56, 181, 129, 2, 0, 0, 0] ++ List.replicate 32 0 := by decide +kernel

/-! ## Labels -/

/-- C81: whatever records the layers of a disk, from the database down to the disk, write in its label,
and whatever follows the label on the disk, the label is accepted and each layer reads its own record.
What is missing: a label whose records are too big is not written (`C17_big_record_panics`) or not read
(`C17_oversize_unreadable`). -/
theorem C81_label_partial (checks : Bool) (hash : Buf → UInt64) (rs : List Rec) (hf : ∀ r ∈ rs, r.Fits)
    (disk stale : Buf) (hw : writeLabel hash (rs.map Rec.enc) = some disk)
    (hsz : ((rs.map Rec.enc).flatten).length < 2 ^ 64 - 32) :
    ∃ s rest, readerNew checks hash (disk ++ stale) = .ok s ∧
      decAll (rs.reverse.map Rec.ty) s = some (rs.reverse, rest) := by
  obtain ⟨tail, h⟩ := writeLabel_readable checks hash _ disk stale hw hsz
  refine ⟨_, tail, h, ?_⟩
  rw [← List.map_reverse]
  exact decAll_rt _ (fun r hr => hf r (List.mem_reverse.mp hr)) _

def sampleUuid (n : UInt8) : Buf := List.replicate 16 n

/-- The records of a disk that is half of a mirror, alone in a pool. -/
def sampleRecs : List Rec :=
  [.database ⟨1, [0, 0, 0, 0, 0, 0, 0], ⟨0x55, 0x154, 0x5b, 0x16b, 0x400000⟩, 0, (0, 1)⟩,
   .idml ⟨⟨1, [0, 0, 0, 0, 0, 0, 0], ⟨0x55, 0x154, 0x4e4, 0x138d, 0x400000⟩,
      ⟨⟨0, 10⟩, false, 8, 8, 0xbde1de58491db337⟩, (42, 43)⟩, 0,
     ⟨1, [0, 0, 0, 0, 0, 0, 0], ⟨0x77, 0x1d9, 0x86, 0x217, 0x400000⟩,
      ⟨⟨0, 11⟩, false, 8, 8, 0xbde1de58491db337⟩, (42, 43)⟩, 42⟩,
   .lower (.pool ([116, 101, 115, 116], sampleUuid 4, [sampleUuid 3])),
   .raid (.null (sampleUuid 3) (sampleUuid 2)),
   .lower (.mirror (sampleUuid 2, [sampleUuid 1, sampleUuid 0])),
   .lower (.block (sampleUuid 1, 65536, 131072, 1, 42))]

/-- C81, non-vacuity: such a label is written. -/
example : (∀ r ∈ sampleRecs, r.Fits) ∧ (writeLabel (fun _ => 7) (sampleRecs.map Rec.enc)).isSome := by
  refine ⟨?_, by decide +kernel⟩
  intro r hr
  simp only [sampleRecs, List.mem_cons, List.not_mem_nil, or_false] at hr
  rcases hr with rfl | rfl | rfl | rfl | rfl | rfl
  · rfl
  · exact ⟨rfl, rfl⟩
  · refine ⟨?_, ?_, ?_, ?_⟩ <;> simp [sampleUuid]
  · exact ⟨rfl, rfl⟩
  · refine ⟨?_, ?_, ?_⟩ <;> simp [sampleUuid]
  · refine ⟨?_, ?_, ?_, ?_, ?_⟩ <;> simp [sampleUuid]

/-- The label of the IDML in tests/functional/idml.rs:23-97. -/
example : idmlLabel.enc ⟨⟨1, [0, 0, 0, 0, 0, 0, 0], ⟨0x55, 0x154, 0x4e4, 0x138d, 0x400000⟩,
      ⟨⟨0, 10⟩, false, 8, 8, 0xbde1de58491db337⟩, (42, 43)⟩, 0,
     ⟨1, [0, 0, 0, 0, 0, 0, 0], ⟨0x77, 0x1d9, 0x86, 0x217, 0x400000⟩,
      ⟨⟨0, 11⟩, false, 8, 8, 0xbde1de58491db337⟩, (42, 43)⟩, 42⟩ =
    [0x01, 0, 0, 0, 0, 0, 0, 0, 0x55, 0, 0x54, 0x01, 0xe4, 0x04, 0x8d, 0x13, 0, 0, 0x40, 0, 0, 0, 0, 0,
     0, 0, 0x0a, 0, 0, 0, 0, 0, 0, 0, 0, 0x08, 0, 0, 0, 0x08, 0, 0, 0,
     0x37, 0xb3, 0x1d, 0x49, 0x58, 0xde, 0xe1, 0xbd, 0x2a, 0, 0, 0, 0x2b, 0, 0, 0,
     0, 0, 0, 0, 0, 0, 0, 0,
     0x01, 0, 0, 0, 0, 0, 0, 0, 0x77, 0, 0xd9, 0x01, 0x86, 0, 0x17, 0x02, 0, 0, 0x40, 0, 0, 0, 0, 0,
     0, 0, 0x0b, 0, 0, 0, 0, 0, 0, 0, 0, 0x08, 0, 0, 0, 0x08, 0, 0, 0,
     0x37, 0xb3, 0x1d, 0x49, 0x58, 0xde, 0xe1, 0xbd, 0x2a, 0, 0, 0, 0x2b, 0, 0, 0,
     0x2a, 0, 0, 0] := by decide +kernel

/-! ## Messages -/

/-- C81: every request arrives as it was sent. -/
theorem C81_request : Faithful request Request.Fits := faithful request_mono request_rt

/-- C81: every answer arrives as it was given, in particular with the same error. -/
theorem C81_response (r : Response) (h : r.Fits) (rest : Buf) :
    response.dec (response.enc r ++ rest) = some (r, rest) := response_rt r h rest

/-- C81: an error number that is not known to the command arrives as `EUNKNOWN`; every other arrives as
itself. -/
theorem C81_error_codes (c : Int16) (rest : Buf) :
    (∀ e : Err, e.code = c → err.dec (i16.enc c ++ rest) = some (e, rest)) ∧
    ((∀ e : Err, e.code ≠ c) → ∃ e, err.dec (i16.enc c ++ rest) = some (e, rest) ∧ e.code = 256) := by
  have h : err.dec (i16.enc c ++ rest) = some (Err.ofCode c, rest) := by
    simp only [err, iso]
    rw [show i16.dec (i16.enc c ++ rest) = some (c, rest) from i16_rt c trivial rest]
    rfl
  refine ⟨?_, ?_⟩
  · rintro e rfl
    rw [h, Err.ofCode_code]
  · intro hn
    refine ⟨_, h, ?_⟩
    unfold Err.ofCode
    split
    · rename_i hk
      exact absurd rfl (hn ⟨c, hk⟩)
    · rfl

/-- C81, non-vacuity: `ENOENT`, and a number from another system. -/
example : (⟨2, by decide⟩ : Err).code = 2 ∧ ∀ e : Err, e.code ≠ 133 := by
  refine ⟨rfl, fun e he => ?_⟩
  have := e.known
  rw [he] at this
  revert this
  decide

theorem recv_short {b : Buf} (h : b.length < bufSiz) : recv b = b := List.take_of_length_le (Nat.le_of_lt h)
theorem recv_long {b : Buf} (h : bufSiz ≤ b.length) : (recv b).length = bufSiz := by
  simp only [recv, List.length_take]
  omega

theorem tagged_pos {β} (k : Nat) (hk : 0 < k) (tag : β → Nat) (body : β → Buf)
    (read : Nat → Buf → Option (β × Buf)) (x : β) : 0 < ((tagged k tag body read).enc x).length := by
  simp only [tagged, List.length_append, le_length]
  omega

theorem call_request_short {σ} (process : σ → Request → σ × Response) (s : σ) (req : Request)
    (hf : req.Fits) (h : (request.enc req).length < bufSiz) :
    call process s req = ((process s req).1, readReply (response.enc (process s req).2)) := by
  have hd := request_rt req hf []
  rw [List.append_nil] at hd
  have hp : (request.enc req).length ≠ 0 := Nat.ne_of_gt (tagged_pos 4 (by decide) _ _ _ req)
  simp only [call, handleClient, recv_short h, if_neg hp, if_neg (Nat.not_le_of_lt h), hd]

/-- C81: a command whose request and answer are shorter than the buffers gets exactly the daemon's
answer to exactly its request.  What is missing are longer ones, `C81_long_request` and
`C81_long_answer`. -/
theorem C81_call_partial {σ} (process : σ → Request → σ × Response) (s : σ) (req : Request) (hf : req.Fits)
    (hr : (process s req).2.Fits) (h1 : (request.enc req).length < bufSiz)
    (h2 : (response.enc (process s req).2).length < bufSiz) :
    call process s req = ((process s req).1, .ok (process s req).2) := by
  rw [call_request_short process s req hf h1]
  have hd := response_rt _ hr []
  rw [List.append_nil] at hd
  have hp : (response.enc (process s req).2).length ≠ 0 := Nat.ne_of_gt (tagged_pos 4 (by decide) _ _ _ _)
  simp only [readReply, recv_short h2, if_neg hp, if_neg (Nat.not_le_of_lt h2), hd]

/-- C81: a request too long for the buffer changes nothing, and the command is told that there was no
answer. -/
theorem C81_long_request {σ} (process : σ → Request → σ × Response) (s : σ) (req : Request)
    (h : bufSiz ≤ (request.enc req).length) : call process s req = (s, .error .noResponse) := by
  have h0 : (recv (request.enc req)).length ≠ 0 := by rw [recv_long h]; decide
  have h1 : (recv (request.enc req)).length ≥ bufSiz := by rw [recv_long h]; exact Nat.le_refl _
  simp only [call, handleClient, if_neg h0, if_pos h1, readReply]
  rfl

/-- C81: an answer too long for the buffer is lost: the request is carried out, and the command fails. -/
theorem C81_long_answer {σ} (process : σ → Request → σ × Response) (s : σ) (req : Request) (hf : req.Fits)
    (h1 : (request.enc req).length < bufSiz) (h2 : bufSiz ≤ (response.enc (process s req).2).length) :
    call process s req = ((process s req).1, .error (.tooLarge bufSiz)) := by
  rw [call_request_short process s req hf h1]
  have h0 : (recv (response.enc (process s req).2)).length ≠ 0 := by rw [recv_long h2]; decide
  have h3 : (recv (response.enc (process s req).2)).length ≥ bufSiz := by
    rw [recv_long h2]; exact Nat.le_refl _
  simp only [readReply, if_neg h0, if_pos h3]
  rw [recv_long h2]

/-- C81: whatever bytes a client sends, the daemon carries out nothing, or the one request that the bytes
say, which they do to their end or with bytes left over; and nothing if the bytes are a request that lacks
its end. -/
theorem C81_any_bytes {σ} (process : σ → Request → σ × Response) (s : σ) (packet : Buf) :
    (handleClient process s packet = .closed s ∨ handleClient process s packet = .panicked s ∨
      ∃ req rest, request.dec packet = some (req, rest) ∧ handleClient process s packet =
        .replied (process s req).1 (response.enc (process s req).2)) ∧
    (∀ req q, req.Fits → q ≠ [] → request.enc req = packet ++ q →
      handleClient process s packet = .closed s ∨ handleClient process s packet = .panicked s) := by
  by_cases h0 : (recv packet).length = 0
  · exact ⟨Or.inl (by simp only [handleClient, if_pos h0]), fun _ _ _ _ _ =>
      Or.inl (by simp only [handleClient, if_pos h0])⟩
  by_cases h1 : (recv packet).length ≥ bufSiz
  · exact ⟨Or.inl (by simp only [handleClient, if_neg h0, if_pos h1]), fun _ _ _ _ _ =>
      Or.inl (by simp only [handleClient, if_neg h0, if_pos h1])⟩
  have hs : recv packet = packet := by
    by_cases h : packet.length < bufSiz
    · exact recv_short h
    · exact absurd (Nat.le_of_eq (recv_long (Nat.le_of_not_lt h)).symm) h1
  rw [hs] at h0 h1
  cases hd : request.dec packet with
  | none =>
    have : handleClient process s packet = .panicked s := by
      simp only [handleClient, hs, if_neg h0, if_neg h1, hd]
    exact ⟨Or.inr (Or.inl this), fun _ _ _ _ _ => Or.inr this⟩
  | some x =>
    have : handleClient process s packet = .replied (process s x.1).1 (response.enc (process s x.1).2) := by
      simp only [handleClient, hs, if_neg h0, if_neg h1, hd]
    refine ⟨Or.inr (Or.inr ⟨x.1, x.2, rfl, this⟩), ?_⟩
    intro req q hf hq he
    rw [C81_request.2 req hf packet q hq he] at hd
    cases hd

/-- C81, non-vacuity: a request to destroy `pool/a` and the same cut off; and bytes that are nothing. -/
example :
    (request.enc (.fsDestroy "pool/a")) = [2, 0, 0, 0, 6, 0, 0, 0, 112, 111, 111, 108, 47] ++ [97] ∧
    request.dec [2, 0, 0, 0, 6, 0, 0, 0, 112, 111, 111, 108, 47] = none ∧
    (request.enc (.fsDestroy "pool/a")).length < bufSiz ∧
    (response.enc (.fsDestroy (.ok ()))).length < bufSiz ∧
    request.dec [13, 0, 0, 0] = none := by
  refine ⟨by decide +kernel, by decide +kernel, by decide +kernel, by decide +kernel, by decide +kernel⟩

/-! ### The status of a big pool -/

/-- The number of disks of a pool. -/
def PoolStatus.disks (p : PoolStatus) : Nat :=
  (p.clusters.map fun c => (c.mirrors.map fun m => m.leaves.length).sum).sum

theorem sum_le {α} (l : List α) (f : α → Nat) (k : Nat) : (l.map fun x => k * f x).sum = k * (l.map f).sum := by
  induction l with
  | nil => rfl
  | cons x l ih => simp only [List.map_cons, List.sum_cons, ih, Nat.mul_add]

theorem health_len (h : Health) : 4 ≤ (health.enc h).length := by
  simp only [health, tagged, List.length_append, le_length]
  omega

theorem bytes_len (b : Buf) : 4 ≤ (bytes.enc b).length := by
  simp only [bytes, vec, List.length_append, le_length]
  omega

theorem vec_leaf_len (l : List LeafStatus) (h : ∀ x ∈ l, x.Fits) :
    24 * l.length ≤ ((vec leafStatus).enc l).length := by
  simp only [vec, List.length_append, le_length]
  refine Nat.le_trans ?_ (Nat.le_add_left _ _)
  induction l with
  | nil => exact Nat.zero_le _
  | cons x l ih =>
    simp only [List.map_cons, List.flatten_cons, List.length_append, List.length_cons]
    have h1 := ih (fun y hy => h y (List.mem_cons_of_mem _ hy))
    have h2 : (uuid.enc x.uuid).length = 16 := (h x (List.mem_cons_self ..)).2
    have h3 := health_len x.health
    have h4 := bytes_len x.path
    have h5 : (leafStatus.enc x).length =
        (health.enc x.health).length + ((bytes.enc x.path).length + (uuid.enc x.uuid).length) := by
      simp only [leafStatus, iso_enc, pair_len]
    omega

theorem vec_ge {α} (c : Codec α) (n : α → Nat) (l : List α) (h : ∀ x ∈ l, n x ≤ (c.enc x).length) :
    (l.map n).sum ≤ ((vec c).enc l).length := by
  simp only [vec, List.length_append, le_length]
  refine Nat.le_trans ?_ (Nat.le_add_left _ _)
  induction l with
  | nil => exact Nat.zero_le _
  | cons x l ih =>
    simp only [List.map_cons, List.flatten_cons, List.length_append, List.sum_cons]
    have h1 := h x (List.mem_cons_self ..)
    have h2 := ih (fun y hy => h y (List.mem_cons_of_mem _ hy))
    omega

theorem status_len (p : PoolStatus) (h : p.Fits) : 24 * p.disks ≤ (poolStatus.enc p).length := by
  have hm : ∀ c ∈ p.clusters, ∀ m ∈ c.mirrors, 24 * m.leaves.length ≤ (mirrorStatus.enc m).length := by
    intro c hc m hm
    have := vec_leaf_len m.leaves (((h.2.1.2 c hc).2.1.2 m hm).1.2)
    simp only [mirrorStatus, iso_enc, pair_len]
    omega
  have hc : ∀ c ∈ p.clusters, 24 * (c.mirrors.map fun m => m.leaves.length).sum ≤
      (clusterStatus.enc c).length := by
    intro c hc
    have := vec_ge mirrorStatus (fun m => 24 * m.leaves.length) c.mirrors (hm c hc)
    rw [sum_le] at this
    simp only [clusterStatus, iso_enc, pair_len]
    omega
  have := vec_ge clusterStatus (fun c => 24 * (c.mirrors.map fun m => m.leaves.length).sum) p.clusters hc
  rw [sum_le] at this
  simp only [poolStatus, iso_enc, pair_len, PoolStatus.disks]
  omega

/-- C81, the code does not satisfy the claim: the status of a pool with 171 disks or more, however short
their paths, never arrives. -/
theorem C81_big_pool_status {σ} (process : σ → Request → σ × Response) (s : σ) (pool : String)
    (hf : FitsS pool) (h1 : (request.enc (.poolStatus pool)).length < bufSiz) (st : PoolStatus) (hst : st.Fits)
    (hd : 171 ≤ st.disks) (hp : (process s (.poolStatus pool)).2 = .poolStatus (.ok st)) :
    (call process s (.poolStatus pool)).2 = .error (.tooLarge bufSiz) := by
  rw [C81_long_answer process s (.poolStatus pool) hf h1]
  have := status_len st hst
  rw [hp]
  have e : (response.enc (.poolStatus (.ok st))).length = 4 + (1 + (poolStatus.enc st).length) := by
    simp only [response, result, tagged, List.length_append, le_length]
  rw [e]
  simp only [bufSiz]
  omega

/-- A pool of 57 mirrors of three disks each. -/
def bigPool : PoolStatus :=
  ⟨.online, "p", [⟨.online, "PrimeS-57,8,2",
    List.replicate 57 ⟨List.replicate 3 ⟨.online, [47, 100], sampleUuid 1⟩, .online, sampleUuid 2⟩,
    sampleUuid 3⟩], sampleUuid 4⟩

/-- C81, non-vacuity. -/
example : bigPool.Fits ∧ 171 ≤ bigPool.disks := by
  refine ⟨⟨by unfold FitsS; decide +kernel, ⟨by decide, ?_⟩, rfl⟩, by decide +kernel⟩
  intro c hc
  simp only [bigPool, List.mem_cons, List.not_mem_nil, or_false] at hc
  subst hc
  refine ⟨by unfold FitsS; decide +kernel, ⟨by decide, ?_⟩, rfl⟩
  intro m hm
  rw [(List.mem_replicate.mp hm).2]
  refine ⟨⟨by decide, ?_⟩, rfl⟩
  intro l hl
  rw [(List.mem_replicate.mp hl).2]
  exact ⟨by unfold FitsB; decide, rfl⟩

end Verif.Wire
