import Verif.Wire.Records

/-!
# Lemmas: a decoder does not look at what follows

If a decoder succeeds, it succeeds in the same way when more bytes follow.  So a proper prefix of an
encoding cannot be decoded.
-/

namespace Verif.Wire
open Verif.Bytes
open Verif.Label

/-- A function on buffers that does not look at the bytes it leaves. -/
def Local {β} (f : Buf → Option (β × Buf)) : Prop :=
  ∀ s a r, f s = some (a, r) → ∀ t, f (s ++ t) = some (a, r ++ t)

def Mono {α} (c : Codec α) : Prop := Local c.dec

/-- A codec that is local refuses what is cut off. -/
theorem truncated {α} {c : Codec α} {ok : α → Prop} (hm : Mono c) (hc : c.RoundTrips ok) (a : α) (ha : ok a)
    (p q : Buf) (hq : q ≠ []) (h : c.enc a = p ++ q) : c.dec p = none := by
  cases hd : c.dec p with
  | none => rfl
  | some x =>
    exfalso
    have h1 := hm p x.1 x.2 hd q
    have h2 := hc a ha []
    rw [List.append_nil, h, h1] at h2
    simp only [Option.some.injEq, Prod.mk.injEq, List.append_eq_nil_iff] at h2
    exact hq h2.2.2

theorem none_local {β} : Local (fun _ => none : Buf → Option (β × Buf)) := by
  intro s a r h; cases h

theorem as_local {α β} {c : Codec α} (hc : Mono c) (f : α → β) : Local (as c f) := by
  intro s a r h t
  unfold as at h ⊢
  cases hd : c.dec s with
  | none => rw [hd] at h; cases h
  | some x =>
    rw [hd] at h
    rw [hc s x.1 x.2 hd t]
    simp only [Option.map_some, Option.some.injEq, Prod.mk.injEq] at h ⊢
    exact ⟨h.1, by rw [h.2]⟩

theorem unit_mono : Mono unit := by
  intro s a r h t
  simp only [unit, Option.some.injEq, Prod.mk.injEq] at h ⊢
  exact ⟨h.1, by rw [h.2]⟩

theorem take_drop_append {n : Nat} {s : Buf} (h : n ≤ s.length) (t : Buf) :
    (s ++ t).take n = s.take n ∧ (s ++ t).drop n = s.drop n ++ t :=
  ⟨List.take_append_of_le_length h, List.drop_append_of_le_length h⟩

theorem uint_mono (k : Nat) : Mono (uint k) := by
  intro s a r h t
  simp only [uint] at h ⊢
  by_cases hk : k ≤ s.length
  · rw [if_pos hk] at h
    rw [if_pos (by rw [List.length_append]; omega), (take_drop_append hk t).1, (take_drop_append hk t).2]
    simp only [Option.some.injEq, Prod.mk.injEq] at h ⊢
    exact ⟨h.1, by rw [h.2]⟩
  · rw [if_neg hk] at h; cases h

theorem uuid_mono : Mono uuid := by
  intro s a r h t
  simp only [uuid] at h ⊢
  by_cases hk : 16 ≤ s.length
  · rw [if_pos hk] at h
    rw [if_pos (by rw [List.length_append]; omega), (take_drop_append hk t).1, (take_drop_append hk t).2]
    simp only [Option.some.injEq, Prod.mk.injEq] at h ⊢
    exact ⟨h.1, by rw [h.2]⟩
  · rw [if_neg hk] at h; cases h

theorem arr_mono (n : Nat) : Mono (arr n) := by
  intro s a r h t
  simp only [arr] at h ⊢
  by_cases hk : n ≤ s.length
  · rw [if_pos hk] at h
    rw [if_pos (by rw [List.length_append]; omega), (take_drop_append hk t).1, (take_drop_append hk t).2]
    simp only [Option.some.injEq, Prod.mk.injEq] at h ⊢
    exact ⟨h.1, by rw [h.2]⟩
  · rw [if_neg hk] at h; cases h

theorem u8_mono : Mono u8 := by
  intro s a r h t
  cases s with
  | nil => cases h
  | cons b s =>
    simp only [u8, byteC, Option.some.injEq, Prod.mk.injEq, List.cons_append] at h ⊢
    exact ⟨h.1, by rw [h.2]⟩

theorem iso_mono {α β} {c : Codec α} (hc : Mono c) (f : α → β) (g : β → α) : Mono (iso c f g) :=
  as_local hc f

theorem refine_mono {α β} {c : Codec α} (hc : Mono c) (f : α → Option β) (g : β → α) :
    Mono (refine c f g) := by
  intro s a r h t
  simp only [refine] at h ⊢
  cases hd : c.dec s with
  | none => rw [hd] at h; cases h
  | some x =>
    rw [hd] at h
    rw [hc s x.1 x.2 hd t]
    simp only at h ⊢
    cases hf : f x.1 with
    | none => rw [hf] at h; cases h
    | some b =>
      rw [hf] at h
      simp only [Option.map_some, Option.some.injEq, Prod.mk.injEq] at h ⊢
      exact ⟨h.1, by rw [h.2]⟩

theorem pair_mono {α β} {a : Codec α} {b : Codec β} (ha : Mono a) (hb : Mono b) : Mono (pair a b) := by
  intro s x r h t
  simp only [pair] at h ⊢
  cases hd : a.dec s with
  | none => rw [hd] at h; cases h
  | some y =>
    rw [hd] at h
    rw [ha s y.1 y.2 hd t]
    simp only at h ⊢
    cases he : b.dec y.2 with
    | none => rw [he] at h; cases h
    | some z =>
      rw [he] at h
      rw [hb y.2 z.1 z.2 he t]
      simp only [Option.some.injEq, Prod.mk.injEq] at h ⊢
      exact ⟨h.1, by rw [h.2]⟩

theorem decMany_local {α} {a : Codec α} (ha : Mono a) (n : Nat) : Local (decMany a.dec n) := by
  induction n with
  | zero =>
    intro s x r h t
    simp only [decMany, Option.some.injEq, Prod.mk.injEq] at h ⊢
    exact ⟨h.1, by rw [h.2]⟩
  | succ n ih =>
    intro s x r h t
    simp only [decMany] at h ⊢
    cases hd : a.dec s with
    | none => rw [hd] at h; cases h
    | some y =>
      rw [hd] at h
      rw [ha s y.1 y.2 hd t]
      simp only at h ⊢
      cases he : decMany a.dec n y.2 with
      | none => rw [he] at h; cases h
      | some z =>
        rw [he] at h
        rw [ih y.2 z.1 z.2 he t]
        simp only [Option.some.injEq, Prod.mk.injEq] at h ⊢
        exact ⟨h.1, by rw [h.2]⟩

theorem vec_mono {α} {a : Codec α} (ha : Mono a) : Mono (vec a) := by
  intro s x r h t
  simp only [vec] at h ⊢
  cases hd : (uint 4).dec s with
  | none => rw [hd] at h; cases h
  | some y =>
    rw [hd] at h
    rw [uint_mono 4 s y.1 y.2 hd t]
    exact decMany_local ha y.1 y.2 x r h t

theorem tagged_mono {β} {k : Nat} {tag : β → Nat} {body : β → Buf} {read : Nat → Buf → Option (β × Buf)}
    (h : ∀ n, Local (read n)) : Mono (tagged k tag body read) := by
  intro s x r hd t
  simp only [tagged] at hd ⊢
  cases he : (uint k).dec s with
  | none => rw [he] at hd; cases hd
  | some y =>
    rw [he] at hd
    rw [uint_mono k s y.1 y.2 he t]
    exact h y.1 y.2 x r hd t

theorem u16_mono : Mono u16 := iso_mono (uint_mono 2) _ _
theorem u32_mono : Mono u32 := iso_mono (uint_mono 4) _ _
theorem u64_mono : Mono u64 := iso_mono (uint_mono 8) _ _
theorem u128_mono : Mono u128 := iso_mono (uint_mono 16) _ _
theorem i16_mono : Mono i16 := iso_mono u16_mono _ _
theorem i64_mono : Mono i64 := iso_mono u64_mono _ _
theorem bool_mono : Mono bool := iso_mono u8_mono _ _
theorem bytes_mono : Mono bytes := vec_mono u8_mono
theorem str_mono : Mono str := refine_mono bytes_mono _ _

theorem opt_mono {α} {c : Codec α} (hc : Mono c) : Mono (opt c) :=
  tagged_mono fun n => by
    match n with
    | 0 => exact as_local unit_mono _
    | 1 => exact as_local hc _
    | _ + 2 => exact none_local

theorem btree_mono {K V} (lt : K → K → Bool) {k : Codec K} {v : Codec V} (hk : Mono k) (hv : Mono v) :
    Mono (btree lt k v) := iso_mono (vec_mono (pair_mono hk hv)) _ _

theorem propertyName_mono : Mono propertyName :=
  tagged_mono fun n => by
    match n with
    | 0 => exact as_local unit_mono _
    | 1 => exact as_local unit_mono _
    | 2 => exact as_local unit_mono _
    | 3 => exact as_local unit_mono _
    | 4 => exact as_local unit_mono _
    | _ + 5 => exact none_local

theorem property_mono : Mono property :=
  tagged_mono fun n => by
    match n with
    | 0 => exact as_local bool_mono _
    | 1 => exact as_local str_mono _
    | 2 => exact as_local str_mono _
    | 3 => exact as_local str_mono _
    | 4 => exact as_local u8_mono _
    | _ + 5 => exact none_local

theorem propertySource_mono : Mono propertySource :=
  tagged_mono fun n => by
    match n with
    | 0 => exact as_local unit_mono _
    | 1 => exact as_local unit_mono _
    | 2 => exact as_local u8_mono _
    | _ + 3 => exact none_local

theorem timespec_mono : Mono timespec := iso_mono (pair_mono i64_mono u32_mono) _ _

theorem fileType_mono : Mono fileType :=
  tagged_mono fun n => by
    match n with
    | 0 => exact none_local
    | 1 => exact as_local unit_mono _
    | 2 => exact as_local u64_mono _
    | 3 => exact none_local
    | 4 => exact as_local unit_mono _
    | 5 => exact none_local
    | 6 => exact as_local u64_mono _
    | 7 => exact none_local
    | 8 => exact as_local u8_mono _
    | 9 => exact none_local
    | 10 => exact as_local bytes_mono _
    | 11 => exact none_local
    | 12 => exact as_local unit_mono _
    | _ + 13 => exact none_local

theorem inode_mono : Mono inode :=
  iso_mono (pair_mono u64_mono (pair_mono u64_mono (pair_mono u64_mono (pair_mono u64_mono (pair_mono
    timespec_mono (pair_mono timespec_mono (pair_mono timespec_mono (pair_mono timespec_mono (pair_mono
    u32_mono (pair_mono u32_mono (pair_mono u16_mono fileType_mono))))))))))) _ _

theorem dirent_mono : Mono dirent := iso_mono (pair_mono u64_mono (pair_mono u8_mono bytes_mono)) _ _

theorem namespace_mono : Mono namespace_ :=
  tagged_mono fun n => by
    match n with
    | 0 => exact none_local
    | 1 => exact as_local unit_mono _
    | 2 => exact as_local unit_mono _
    | _ + 3 => exact none_local

theorem blobExtent_mono : Mono blobExtent := iso_mono (pair_mono u32_mono u64_mono) _ _

theorem extAttr_mono : Mono extAttr :=
  tagged_mono fun n => by
    match n with
    | 0 => exact as_local (pair_mono namespace_mono (pair_mono bytes_mono bytes_mono)) _
    | 1 => exact as_local (pair_mono namespace_mono (pair_mono bytes_mono blobExtent_mono)) _
    | _ + 2 => exact none_local

theorem fsValue_mono : Mono fsValue :=
  tagged_mono fun n => by
    match n with
    | 0 => exact as_local dirent_mono _
    | 1 => exact as_local inode_mono _
    | 2 => exact as_local bytes_mono _
    | 3 => exact as_local blobExtent_mono _
    | 4 => exact as_local extAttr_mono _
    | 5 => exact as_local (vec_mono extAttr_mono) _
    | 6 => exact as_local (vec_mono dirent_mono) _
    | 7 => exact as_local property_mono _
    | 8 => exact as_local u64_mono _
    | 9 => exact as_local unit_mono _
    | _ + 10 => exact none_local

theorem intElem_mono {A K} {a : Codec A} {k : Codec K} (ha : Mono a) (hk : Mono k) : Mono (intElem a k) :=
  iso_mono (pair_mono hk (pair_mono (pair_mono u32_mono u32_mono) ha)) _ _

theorem nodeData_mono {A K V} (lt : K → K → Bool) {a : Codec A} {k : Codec K} {v : Codec V} (ha : Mono a)
    (hk : Mono k) (hv : Mono v) : Mono (nodeData lt a k v) :=
  tagged_mono fun n => by
    match n with
    | 0 => exact as_local (btree_mono lt hk hv) _
    | 1 => exact as_local (vec_mono (intElem_mono ha hk)) _
    | _ + 2 => exact none_local

theorem pba_mono : Mono pba := iso_mono (pair_mono u16_mono u64_mono) _ _
theorem drp_mono : Mono drp :=
  iso_mono (pair_mono pba_mono (pair_mono bool_mono (pair_mono u32_mono (pair_mono u32_mono u64_mono)))) _ _
theorem ridtEntry_mono : Mono ridtEntry := iso_mono (pair_mono drp_mono u64_mono) _ _
theorem limits_mono : Mono limits :=
  iso_mono (pair_mono u16_mono (pair_mono u16_mono (pair_mono u16_mono (pair_mono u16_mono u64_mono)))) _ _
theorem treeOnDisk_mono {A} {a : Codec A} (ha : Mono a) : Mono (treeOnDisk a) :=
  iso_mono (pair_mono u8_mono (pair_mono (arr_mono 7) (pair_mono limits_mono (pair_mono ha
    (pair_mono u32_mono u32_mono))))) _ _
theorem forestKey_mono : Mono forestKey := iso_mono (pair_mono u64_mono u64_mono) _ _

theorem forestValue_mono : Mono forestValue :=
  tagged_mono fun n => by
    match n with
    | 0 => exact as_local (pair_mono (opt_mono u64_mono) (treeOnDisk_mono u64_mono)) _
    | 1 => exact as_local (pair_mono u64_mono str_mono) _
    | _ + 2 => exact none_local

theorem err_mono : Mono err := iso_mono i16_mono _ _

theorem result_mono {α} {c : Codec α} (hc : Mono c) : Mono (result c) :=
  tagged_mono fun n => by
    match n with
    | 0 => exact as_local err_mono _
    | 1 => exact as_local hc _
    | _ + 2 => exact none_local

theorem request_mono : Mono request :=
  tagged_mono fun n => by
    match n with
    | 0 => exact as_local unit_mono _
    | 1 => exact as_local (pair_mono str_mono (vec_mono property_mono)) _
    | 2 => exact as_local str_mono _
    | 3 => exact as_local (pair_mono str_mono (pair_mono (vec_mono propertyName_mono) (opt_mono u64_mono))) _
    | 4 => exact as_local (pair_mono str_mono str_mono) _
    | 5 => exact as_local (pair_mono str_mono (vec_mono property_mono)) _
    | 6 => exact as_local (pair_mono str_mono (vec_mono propertyName_mono)) _
    | 7 => exact as_local (pair_mono bool_mono str_mono) _
    | 8 => exact as_local str_mono _
    | 9 => exact as_local (pair_mono str_mono uuid_mono) _
    | 10 => exact as_local (pair_mono str_mono (pair_mono uuid_mono bytes_mono)) _
    | 11 => exact as_local (pair_mono (opt_mono str_mono) (opt_mono u64_mono)) _
    | 12 => exact as_local str_mono _
    | _ + 13 => exact none_local

end Verif.Wire
