import Verif.FSKey.Model

/-!
# Properties of tree keys: C53

The specification is the lexicographic order on (inode number, kind, offset).
-/

namespace Verif.FSKey

/-! ## Helper lemmas -/

theorem compose_eq {o t x : Nat} (ht : t < 2 ^ 8) (hx : x < 2 ^ 56) :
    compose o t x = o * 2 ^ 64 + t * 2 ^ 56 + x := by
  simp only [compose]
  rw [Nat.or_assoc, ← Nat.shiftLeft_add_eq_or_of_lt hx]
  have : t <<< 56 + x < 2 ^ 64 := by rw [Nat.shiftLeft_eq]; omega
  rw [← Nat.shiftLeft_add_eq_or_of_lt this]
  simp only [Nat.shiftLeft_eq]; omega

theorem object_eq (k : Nat) : object k = k / 2 ^ 64 % 2 ^ 64 := by
  simp only [object, Nat.shiftRight_eq_div_pow, Nat.and_two_pow_sub_one_eq_mod]

theorem objtype_eq (k : Nat) : objtype k = k / 2 ^ 56 % 2 ^ 8 := by
  simp only [objtype, Nat.shiftRight_eq_div_pow, Nat.and_two_pow_sub_one_eq_mod]

theorem offset_eq (k : Nat) : offset k = k % 2 ^ 56 := by
  simp only [offset, Nat.and_two_pow_sub_one_eq_mod]

theorem disc_lt (k : ObjKey) : k.discriminant < 6 := by cases k <;> simp [ObjKey.discriminant]

theorem fields (k : Nat) (hk : k < 2 ^ 128) :
    k = object k * 2 ^ 64 + objtype k * 2 ^ 56 + offset k ∧ objtype k < 2 ^ 8 ∧
    offset k < 2 ^ 56 ∧ object k < 2 ^ 64 := by
  rw [object_eq, objtype_eq, offset_eq]; omega

theorem objkey_ext {a b : ObjKey} (h1 : a.discriminant = b.discriminant)
    (h2 : a.offset = b.offset) : a = b := by
  cases a <;> cases b <;> simp_all [ObjKey.discriminant, ObjKey.offset]

/-! ## C53 -/

/-- The offset of the item fits in the 56 bits the key has for it.  This is so
for hashes and properties always, for extents only below 64 PiB. -/
def Fits (k : ObjKey) : Prop := k.offset < 2 ^ 56

/-- Decoding a key gives back what it was made of. -/
theorem C53_decode_partial (ino : Nat) (hi : ino < 2 ^ 64) (k : ObjKey) (hk : Fits k) :
    object (new ino k) = ino ∧ objtype (new ino k) = k.discriminant ∧
    offset (new ino k) = k.offset := by
  have hd := disc_lt k
  simp only [Fits] at hk
  rw [object_eq, objtype_eq, offset_eq, new, compose_eq (by omega) hk]
  omega

/-- Different items have different keys. -/
theorem C53_injective_partial (ino ino' : Nat) (hi : ino < 2 ^ 64) (hi' : ino' < 2 ^ 64)
    (k k' : ObjKey) (hk : Fits k) (hk' : Fits k') (h : new ino k = new ino' k') :
    ino = ino' ∧ k = k' := by
  have h1 := C53_decode_partial ino hi k hk
  have h2 := C53_decode_partial ino' hi' k' hk'
  rw [h] at h1
  exact ⟨h1.1.symm.trans h2.1, objkey_ext (h1.2.1.symm.trans h2.2.1) (h1.2.2.symm.trans h2.2.2)⟩

/-- Keys are ordered by inode, then kind, then offset. -/
theorem C53_order_partial (ino ino' : Nat) (k k' : ObjKey) (hk : Fits k) (hk' : Fits k') :
    new ino k < new ino' k' ↔ ino < ino' ∨ (ino = ino' ∧ (k.discriminant < k'.discriminant ∨
      (k.discriminant = k'.discriminant ∧ k.offset < k'.offset))) := by
  have hd := disc_lt k
  have hd' := disc_lt k'
  simp only [Fits] at hk hk'
  rw [new, new, compose_eq (by omega) hk, compose_eq (by omega) hk']
  omega

/-- The range of a directory's entries from `o` on contains exactly the keys
of its directory entries with at least that hash. -/
theorem C53_dirent_range (ino o : Nat) (ho : o < 2 ^ 56) (k : Nat)
    (hk : k < 2 ^ 128) :
    (direntRange ino o).mem k ↔
      object k = ino ∧ objtype k = (ObjKey.dirEntry 0).discriminant ∧ o ≤ offset k := by
  have hf := fields k hk
  simp only [direntRange, Range.mem, ObjKey.discriminant]
  rw [compose_eq (by omega) ho, compose_eq (by omega) (by omega)]
  constructor <;> intro h <;> omega

/-- The range of the extended attributes of a file contains exactly those. -/
theorem C53_extattr_range (ino : Nat) (k : Nat) (hk : k < 2 ^ 128) :
    (extattrRange ino).mem k ↔
      object k = ino ∧ objtype k = (ObjKey.extAttr 0).discriminant := by
  have hf := fields k hk
  simp only [extattrRange, Range.mem, ObjKey.discriminant]
  rw [compose_eq (by omega) (by omega), compose_eq (by omega) (by omega)]
  constructor <;> intro h <;> omega

/-- The range of dying inodes contains exactly those. -/
theorem C53_dying_inode_range (k : Nat) (hk : k < 2 ^ 128) :
    dyingInodeRange.mem k ↔
      object k = 0 ∧ objtype k = (ObjKey.dyingInode 0).discriminant := by
  have hf := fields k hk
  simp only [dyingInodeRange, Range.mem, ObjKey.discriminant]
  rw [compose_eq (by omega) (by omega), compose_eq (by omega) (by omega)]
  constructor <;> intro h <;> omega

/-- The range of an object contains exactly its items. -/
theorem C53_obj_range (ino : Nat) (k : Nat) (hk : k < 2 ^ 128) :
    (objRange ino).mem k ↔ object k = ino := by
  have hf := fields k hk
  simp only [objRange, Range.mem]
  rw [compose_eq (by omega) (by omega), compose_eq (by omega) (by omega)]
  constructor <;> intro h <;> omega

/-- The range of a file's extents from `s` on contains exactly those. -/
theorem C53_extent_range_from (ino s : Nat) (hs : s < 2 ^ 56) (k : Nat)
    (hk : k < 2 ^ 128) :
    (extentRange ino s none).mem k ↔
      object k = ino ∧ objtype k = (ObjKey.extent 0).discriminant ∧ s ≤ offset k := by
  have hf := fields k hk
  simp only [extentRange, Range.mem, ObjKey.discriminant]
  rw [compose_eq (by omega) hs, compose_eq (by omega) (by omega)]
  constructor <;> intro h <;> omega

/-- The range of a file's extents in `[s, e)` contains exactly those.

Partial: only for `e ≤ 2^56`; see `C53_extent_range_hits_xattrs`. -/
theorem C53_extent_range_partial (ino s e : Nat) (hs : s < 2 ^ 56)
    (he : e ≤ 2 ^ 56) (k : Nat) (hk : k < 2 ^ 128) :
    (extentRange ino s (some e)).mem k ↔
      object k = ino ∧ objtype k = (ObjKey.extent 0).discriminant ∧ s ≤ offset k ∧
      offset k < e := by
  have hf := fields k hk
  simp only [extentRange, Range.mem, ObjKey.discriminant]
  by_cases hee : e = 2 ^ 56
  · subst hee
    have : compose ino 2 (2 ^ 56) = compose ino 3 0 := by
      simp only [compose]
      rw [Nat.or_assoc, Nat.or_assoc]
      congr 1
    rw [this, compose_eq (by omega) hs, compose_eq (by omega) (by omega)]
    constructor <;> intro h <;> omega
  · rw [compose_eq (by omega) hs, compose_eq (by omega) (by omega)]
    constructor <;> intro h <;> omega

/-- The ranges of different objects, and of different kinds of one object,
never overlap. -/
theorem C53_ranges_disjoint (ino ino' o s k : Nat) (ho : o < 2 ^ 56) (hs : s < 2 ^ 56) (hk : k < 2 ^ 128) :
    (ino ≠ ino' → ¬ ((objRange ino).mem k ∧ (objRange ino').mem k)) ∧
    ¬ ((direntRange ino o).mem k ∧ (extattrRange ino).mem k) ∧
    ¬ ((direntRange ino o).mem k ∧ (extentRange ino s none).mem k) ∧
    ¬ ((extattrRange ino).mem k ∧ (extentRange ino s none).mem k) := by
  rw [C53_obj_range ino k hk, C53_obj_range ino' k hk, C53_dirent_range ino o ho k hk,
    C53_extattr_range ino k hk, C53_extent_range_from ino s hs k hk]
  simp only [ObjKey.discriminant]
  omega

/-- The violation for very large sparse files: a file offset of 64 PiB or more
does not fit in the key.  The key of the extent at offset 2^56 + 5 is the key
of the extended attribute with hash 5. -/
theorem C53_extent_aliases_xattr (ino : Nat) (y : Nat) (hy : y < 2 ^ 56) :
    new ino (.extent (2 ^ 56 + y)) = new ino (.extAttr y) := by
  have h : (2 : Nat) ^ 56 + y = (1 <<< 56) ||| y := by
    rw [← Nat.shiftLeft_add_eq_or_of_lt hy]; rfl
  simp only [new, ObjKey.discriminant, ObjKey.offset, compose]
  rw [h, ← Nat.or_assoc, Nat.or_assoc (ino <<< 64)]
  rfl

/-- So punching a hole from offset 0 up to such an offset covers extended
attributes of the file. -/
theorem C53_extent_range_hits_xattrs (ino y h : Nat) (hy : y < 2 ^ 56)
    (hh : h < y) : (extentRange ino 0 (some (2 ^ 56 + y))).mem (new ino (.extAttr h)) := by
  have := C53_extent_aliases_xattr ino y hy
  simp only [new, ObjKey.discriminant, ObjKey.offset] at this
  simp only [extentRange, Range.mem, new, ObjKey.discriminant, ObjKey.offset]
  rw [this, compose_eq (by omega) (by omega), compose_eq (by omega) (by omega),
    compose_eq (by omega) (by omega)]
  omega

/-- Non-vacuity: the keys of inode 5's entry with hash 77, its inode, and its
extents, and ranges that contain them. -/
example : Fits (.dirEntry 77) ∧ new 5 (.dirEntry 77) < new 5 .inode ∧
    new 5 .inode < new 5 (.extent 0) ∧ (direntRange 5 77).mem (new 5 (.dirEntry 77)) ∧
    ¬ (direntRange 5 78).mem (new 5 (.dirEntry 77)) ∧
    (extentRange 5 4096 (some 8192)).mem (new 5 (.extent 4096)) ∧
    (objRange 5).mem (new 5 (.extent 4096)) := by
  refine ⟨by simp [Fits, ObjKey.offset], ?_⟩; decide

end Verif.FSKey
