import Verif.Isol.Good

/-!
# What each call uses
-/

namespace Verif.Isol

/-! ## Keys -/

theorem obj_key {o t f : Nat} (ht : t < 256) (hf : f < 2 ^ 56) : key o t f / 2 ^ 64 = o := by
  unfold key; omega

theorem typ_key {o t f : Nat} (ht : t < 256) (hf : f < 2 ^ 56) : key o t f / 2 ^ 56 % 256 = t := by
  unfold key; omega

theorem obj_range {o k : Nat} : (key o 0 0 ≤ k ∧ k < key (o + 1) 0 0) ↔ k / 2 ^ 64 = o := by
  unfold key; omega

theorem obj_inodeKey (o : Nat) : inodeKey o / 2 ^ 64 = o := obj_key (by omega) (by omega)

theorem inodeKey_inj {a b : Nat} (h : inodeKey a = inodeKey b) : a = b := by
  rw [← obj_inodeKey a, ← obj_inodeKey b, h]

theorem obj_extentKey {o f : Nat} (hf : f < 2 ^ 56) : extentKey o f / 2 ^ 64 = o :=
  obj_key (by omega) hf

theorem extentKey_inj {o a b : Nat} (h : extentKey o a = extentKey o b) : a = b := by
  unfold extentKey key at h; omega

variable {H : Hash}

theorem obj_direntKey (hH : H.Ok) (o : Nat) (n : Name) : direntKey H o n / 2 ^ 64 = o :=
  obj_key (by omega) (hH.name n)

theorem obj_xattrKey (hH : H.Ok) (o ns : Nat) (n : Name) : xattrKey H o ns n / 2 ^ 64 = o :=
  obj_key (by omega) (hH.xattr ns n)

theorem obj_dyingKey (hH : H.Ok) (o : Nat) : dyingKey H o / 2 ^ 64 = 0 := obj_key (by omega) (hH.dying o)

theorem typ_direntKey (hH : H.Ok) (o : Nat) (n : Name) : direntKey H o n / 2 ^ 56 % 256 = 0 :=
  typ_key (by omega) (hH.name n)

theorem typ_inodeKey (o : Nat) : inodeKey o / 2 ^ 56 % 256 = 1 := typ_key (by omega) (by omega)

theorem typ_dyingKey (hH : H.Ok) (o : Nat) : dyingKey H o / 2 ^ 56 % 256 = 5 :=
  typ_key (by omega) (hH.dying o)

theorem dirent_ne_inode (hH : H.Ok) (o o' : Nat) (n : Name) : direntKey H o n ≠ inodeKey o' := by
  intro h
  have := typ_direntKey hH o n
  rw [h, typ_inodeKey] at this
  omega

theorem dying_ne_inode (hH : H.Ok) (o o' : Nat) : dyingKey H o ≠ inodeKey o' := by
  intro h
  have := typ_dyingKey hH o
  rw [h, typ_inodeKey] at this
  omega

theorem dots_ne (hH : H.Ok) (o : Nat) : direntKey H o dot ≠ direntKey H o dotdot := by
  intro h
  unfold direntKey key at h
  have := hH.dots
  omega

/-- The keys of some files: all of their own, and those for when they are dying. -/
def Foot (H : Hash) (os : List Nat) (k : Nat) : Prop :=
  k / 2 ^ 64 ∈ os ∨ ∃ i ∈ os, k = dyingKey H i

theorem foot_obj {os : List Nat} {k : Nat} (h : k / 2 ^ 64 ∈ os) : Foot H os k := .inl h

/-! ## Tables -/

variable {T : Type} {S : Nat → Prop} {m : Store}

structure Table.Lawful (t : Table T) : Prop where
  single_val : ∀ x, t.single? (t.val x) = some x
  single_bucket : ∀ l, t.single? (t.bucket l) = none
  bucket_bucket : ∀ l, t.bucket? (t.bucket l) = some l

theorem direntTable_lawful : direntTable.Lawful := ⟨fun _ => rfl, fun _ => rfl, fun _ => rfl⟩
theorem xattrTable_lawful : xattrTable.Lawful := ⟨fun _ => rfl, fun _ => rfl, fun _ => rfl⟩

def tmem (t : Table T) (v : Option Val) : List T :=
  match v with
  | none => []
  | some v => match t.single? v with
    | some x => [x]
    | none => (t.bucket? v).getD []

theorem members_eq (v : Option Val) : members v = tmem direntTable v := by
  cases v with
  | none => rfl
  | some v => cases v <;> rfl

theorem findIn_mem {t : Table T} {n : T → Bool} {v : Option Val} {x : T}
    (h : findIn t n v = some (some x)) : x ∈ tmem t v ∧ n x = true := by
  unfold findIn at h
  cases v with
  | none => simp at h
  | some v =>
    simp only [tmem] at h ⊢
    cases hs : t.single? v with
    | some y =>
      simp only [hs] at h ⊢
      split at h <;> simp_all
    | none =>
      simp only [hs] at h ⊢
      cases hb : t.bucket? v with
      | none => simp [hb] at h
      | some l =>
        simp only [hb] at h
        split at h
        · simp only [Option.some.injEq] at h
          exact ⟨List.mem_of_find?_eq_some h, List.find?_some h⟩
        · cases h

theorem good_htGet {t : Table T} {n : T → Bool} {k : Nat} {f : Option T → Prog} (hk : S k)
    (h : ∀ o, findIn t n (m k) = some o → Good S (f o) m) : Good S (htGet t n k f) m := by
  unfold htGet
  refine good_get hk ?_
  split
  · exact h _ ‹_›
  · exact good_ret

theorem part_htInsert {t : Table T} {k : Nat} {x : T} {f : Option T → Prog} (hk : S k)
    (h : ∀ o, Part S (f o)) : Part S (htInsert t k x f) := by
  unfold htInsert
  refine part_insert hk fun old => ?_
  split
  · exact h _
  · split
    · split
      · exact h _
      · refine part_get hk fun r => ?_
        split
        · exact part_insert hk fun _ => h _
        · exact part_panic
    · split
      · refine part_get hk fun r => ?_
        split
        · split
          · exact part_insert hk fun _ => h _
          · exact part_insert hk fun _ => h _
        · exact part_panic
      · exact part_panic

theorem good_htInsert {t : Table T} {k : Nat} {x : T} {f : Option T → Prog} (hk : S k)
    (h : ∀ o m', (∀ y, o = some y → y ∈ tmem t (m k) ∧ t.same x y = true) → Good S (f o) m') :
    Good S (htInsert t k x f) m := by
  have hn : ∀ m', Good S (f none) m' := fun m' => h none m' (by simp)
  unfold htInsert
  refine good_insert hk ?_
  split
  · exact hn _
  · rename_i v hv
    split
    · rename_i o ho
      split
      · rename_i hs
        refine h _ _ ?_
        rintro y ⟨⟩
        exact ⟨by simp [tmem, hv, ho], hs⟩
      · refine good_get hk ?_
        split
        · exact good_insert hk (hn _)
        · exact good_ret
    · rename_i ho
      split
      · rename_i l hl
        refine good_get hk ?_
        split
        · split
          · rename_i i hi
            refine good_insert hk (h _ _ ?_)
            intro y hy
            rw [List.findIdx?_eq_some_iff_getElem] at hi
            obtain ⟨hlt, hsame, _⟩ := hi
            rw [List.getElem?_eq_getElem hlt] at hy
            cases hy
            exact ⟨by simp [tmem, hv, ho, hl], hsame⟩
          · exact good_insert hk (hn _)
        · exact good_ret
      · exact good_ret

theorem mem_swapRemove {l : List T} {i : Nat} {y : T} (h : y ∈ swapRemove l i) : y ∈ l := by
  unfold swapRemove at h
  split at h
  · exact h
  · rename_i z hz
    rcases List.mem_or_eq_of_mem_set ((List.dropLast_subset _) h) with h | h
    · exact h
    · rw [h]; exact List.mem_of_getLast? hz

theorem set_set (m : Store) (k : Nat) (a b : Option Val) : (m.set k a).set k b = m.set k b := by
  funext x; unfold Store.set; split <;> rfl

theorem tmem_shrink {t : Table T} (hl : t.Lawful) (l : List T) : tmem t (some (shrink t l)) = l := by
  unfold shrink
  split
  · simp [tmem, hl.single_val]
  · simp [tmem, hl.single_bucket, hl.bucket_bucket]

theorem good_htRemove {t : Table T} (hl : t.Lawful) {e : Err} {n : T → Bool} {k : Nat} {f : T → Prog}
    (hk : S k)
    (h : ∀ x v', x ∈ tmem t (m k) → n x = true → (∀ y ∈ tmem t v', y ∈ tmem t (m k)) →
      Good S (f x) (m.set k v')) : Good S (htRemove t e n k f) m := by
  unfold htRemove
  refine good_remove hk ?_
  split
  · exact good_ret
  · rename_i v hv
    split
    · rename_i o ho
      split
      · rename_i hs
        exact h o none (by simp [tmem, hv, ho]) hs (by simp [tmem])
      · exact good_insert hk good_ret
    · rename_i ho
      split
      · rename_i l hb
        have htm : tmem t (m k) = l := by simp [tmem, hv, ho, hb]
        split
        · rename_i i x hi hx
          refine good_insert hk ?_
          rw [set_set]
          refine h x _ (by rw [htm]; exact List.mem_of_find?_eq_some hx) (List.find?_some hx) ?_
          intro y hy
          rw [tmem_shrink hl] at hy
          rw [htm]; exact mem_swapRemove hy
        · exact good_insert hk good_ret
      · exact good_ret

theorem only_htRemove {t : Table T} {e : Err} {n : T → Bool} {k : Nat} {f : T → Prog}
    (hk : S k) (h : ∀ x, Only S (f x)) : Only S (htRemove t e n k f) := by
  unfold htRemove
  refine ⟨hk, fun old => ?_⟩
  simp only
  split
  · exact trivial
  · split
    · split
      · exact h _
      · exact ⟨hk, fun _ => trivial⟩
    · split
      · split
        · exact ⟨hk, fun _ => h _⟩
        · exact ⟨hk, fun _ => trivial⟩
      · trivial

/-- A name that has been found can be removed. -/
theorem htRemove_found {t : Table T} {e : Err} {n : T → Bool} {k : Nat} {r : Res} {x : T}
    (h : findIn t n (m k) = some (some x)) :
    (exec (htRemove t e n k fun _ => .ok r) m).out = .ok r := by
  unfold findIn at h
  simp only [htRemove, exec, Result.after]
  cases hv : m k with
  | none => simp [hv] at h
  | some v =>
    simp only [hv] at h ⊢
    cases hs : t.single? v with
    | some o =>
      simp only [hs] at h ⊢
      split at h
      · simp_all [exec]
      · simp at h
    | none =>
      simp only [hs] at h ⊢
      cases hb : t.bucket? v with
      | none => simp [hb] at h
      | some l =>
        simp only [hb] at h ⊢
        split at h
        · simp only [Option.some.injEq] at h
          cases hi : l.findIdx? n with
          | some i => simp [h, exec, Result.after]
          | none =>
            rw [List.findIdx?_eq_none_iff] at hi
            have := hi x (List.mem_of_find?_eq_some h)
            rw [List.find?_some h] at this
            cases this
        · cases h

/-! ## Parts of calls -/

theorem part_updateInode {ino : Nat} {g : Inode → Inode} {p : Prog} (hk : S (inodeKey ino))
    (h : Part S p) : Part S (updateInode ino g p) := by
  unfold updateInode
  refine part_get hk fun r => ?_
  split
  · exact part_insert hk fun _ => h
  · exact part_panic

theorem part_touch {ino : Nat} {p : Prog} (hk : S (inodeKey ino)) (h : Part S p) :
    Part S (touch ino p) := by
  unfold touch doSetattr
  refine part_get hk fun r => ?_
  split
  · rw [if_neg (by simp)]
    exact part_insert hk fun _ => h
  · exact part_panic

theorem part_delete {ino : Nat} {p : Prog} (hk : ∀ k, k / 2 ^ 64 = ino → S k) (h : Part S p) :
    Part S (doDeleteInode ino p) :=
  part_clear (fun k h1 h2 => hk k (obj_range.1 ⟨h1, h2⟩)) h

theorem part_doUnlink (hH : H.Ok) (active : Bool) (ino : Nat) :
    Part (fun k => k / 2 ^ 64 = ino ∨ k = dyingKey H ino) (doUnlink H active ino (.ok .unit)) := by
  unfold doUnlink
  refine part_get (.inl (obj_inodeKey ino)) fun r => ?_
  split
  · simp only
    split
    · refine part_join (S1 := (· = dyingKey H ino)) (S2 := (· = inodeKey ino)) ?_
        (part_insert rfl fun _ => part_ok) ?_ (fun k h => .inr h) ?_ fun _ _ => part_ok
      · split
        · refine part_insert rfl fun old => ?_
          split
          · exact part_panic
          · exact part_ok
        · exact part_ok
      · rintro k rfl h; exact dying_ne_inode hH _ _ h
      · rintro k rfl; exact .inl (obj_inodeKey ino)
    · exact part_delete (fun k h => .inl h) part_ok
  · exact part_panic

theorem part_doRmdir {parent ino : Nat} (dec : Bool) (hne : parent ≠ ino) :
    Part (fun k => k / 2 ^ 64 = ino ∨ (dec = true ∧ k = inodeKey parent)) (doRmdir parent ino dec) := by
  unfold doRmdir
  refine part_join (S1 := fun k => k / 2 ^ 64 = ino) (S2 := fun k => dec = true ∧ k = inodeKey parent)
    (part_delete (fun _ h => h) part_ok) ?_ ?_ (fun k h => .inl h) (fun k h => .inr h) fun _ _ => part_ok
  · split
    · exact part_updateInode ⟨‹_›, rfl⟩ part_ok
    · exact part_ok
  · rintro k h ⟨_, rfl⟩; exact hne ((obj_inodeKey parent).symm.trans h)

theorem good_okToRmdir {ino : Nat} {p : Prog} (hk : ∀ k, k / 2 ^ 64 = ino → S k) (h : Good S p m) :
    Good S (okToRmdir ino p) m := by
  unfold okToRmdir
  refine good_scan (fun k h1 h2 => hk k (obj_range.1 ⟨h1, h2⟩)) ?_
  split
  · exact good_ret
  · split
    · exact h
    · exact good_ret

theorem part_doCreate {Sx : Nat → Prop} (hH : H.Ok) {parent ino nlink attr : Nat} {name : Name}
    {kind : Kind} {isDir : Bool} {extra : Prog} (hx : Part Sx extra)
    (h1 : ¬ Sx (inodeKey ino)) (h2 : ¬ Sx (direntKey H parent name))
    (hS : ∀ k, k = inodeKey ino ∨ k = direntKey H parent name ∨ Sx k → S k) :
    Part S (doCreate H parent ino name kind nlink attr isDir extra) := by
  unfold doCreate
  refine part_join (S1 := (· = inodeKey ino)) (S2 := fun k => k = direntKey H parent name ∨ Sx k)
    (part_insert rfl fun _ => part_ok) ?_ ?_ (fun k h => hS k (.inl h)) (fun k h => hS k (.inr h)) ?_
  · refine part_join (S1 := (· = direntKey H parent name)) (S2 := Sx)
      (part_htInsert rfl fun _ => part_ok) hx ?_ (fun k h => .inl h) (fun k h => .inr h)
      fun _ _ => part_ok
    rintro k rfl h; exact h2 h
  · rintro k rfl (h | h)
    · exact dirent_ne_inode hH _ _ _ h.symm
    · exact h1 h
  · intro a b
    split
    · exact part_panic
    · exact part_ok

theorem part_mkdirExtra (hH : H.Ok) {parent ino : Nat} (hne : parent ≠ ino) :
    Part (fun k => k = direntKey H ino dot ∨ k = direntKey H ino dotdot ∨ k = inodeKey parent)
      (mkdirExtra H parent ino) := by
  unfold mkdirExtra
  refine part_join (S1 := (· = direntKey H ino dot))
    (S2 := fun k => k = direntKey H ino dotdot ∨ k = inodeKey parent)
    (part_htInsert rfl fun _ => part_ok) ?_ ?_ (fun k h => .inl h) (fun k h => .inr h) fun _ _ => part_ok
  · refine part_join (S1 := (· = direntKey H ino dotdot)) (S2 := (· = inodeKey parent))
      (part_htInsert rfl fun _ => part_ok) (part_updateInode rfl part_ok) ?_ (fun k h => .inl h)
      (fun k h => .inr h) fun _ _ => part_ok
    rintro k rfl h; exact dirent_ne_inode hH _ _ _ h
  · rintro k rfl (h | h)
    · exact dots_ne hH _ h
    · exact dirent_ne_inode hH _ _ _ h

/-! ## Deallocation -/

theorem good_deallocLeft {ino off rs : Nat} {len : Option Nat} {f : Prog → Prog}
    (hk : off % rs ≠ 0 → S (extentKey ino (off - off % rs)))
    (hf : ∀ p m', Part (fun k => off % rs ≠ 0 ∧ k = extentKey ino (off - off % rs)) p →
      Good S (f p) m') : Good S (deallocLeft ino off len rs f) m := by
  unfold deallocLeft
  split
  · exact hf _ _ part_ok
  · rename_i h
    simp only
    refine good_remove (hk h) ?_
    split
    · exact hf _ _ part_ok
    · split
      · exact hf _ _ (part_insert ⟨h, rfl⟩ fun _ => part_ok)
      · cases len <;> simp only <;> split <;>
          exact hf _ _ (part_insert ⟨h, rfl⟩ fun _ => part_ok)
    · exact good_ret

/-- The key of the record at the right end. -/
def RightKey (ino off rs : Nat) (len : Option Nat) (k : Nat) : Prop :=
  ∃ l, len = some l ∧ (off % rs = 0 ∨ off / rs < (off + l) / rs) ∧ (off + l) % rs ≠ 0 ∧
    k = extentKey ino (off + l - (off + l) % rs)

theorem good_deallocRight {ino off rs : Nat} {len : Option Nat} {f : Prog → Prog}
    (hk : ∀ k, RightKey ino off rs len k → S k)
    (hf : ∀ p m', Part (RightKey ino off rs len) p → Good S (f p) m') :
    Good S (deallocRight ino off len rs f) m := by
  unfold deallocRight
  split
  · exact hf _ _ part_ok
  · rename_i l
    split
    · rename_i h
      have hr : RightKey ino off rs (some l) (extentKey ino (off + l - (off + l) % rs)) :=
        ⟨l, rfl, h.1, h.2, rfl⟩
      simp only
      refine good_remove (hk _ hr) ?_
      split
      · exact hf _ _ part_ok
      · split
        · exact hf _ _ (part_insert hr fun _ => part_ok)
        · exact hf _ _ part_ok
      · exact good_ret
    · exact hf _ _ part_ok

theorem sub_mod (a b : Nat) : a - a % b = b * (a / b) := by
  have := Nat.div_add_mod a b
  omega

/-- The right end is not before the start. -/
theorem right_ge {off l rs : Nat} (hrs : 0 < rs) (h : off % rs = 0 ∨ off / rs < (off + l) / rs) :
    off ≤ off + l - (off + l) % rs := by
  rw [sub_mod]
  have hd := Nat.div_add_mod off rs
  rcases h with h | h
  · rw [h, Nat.add_zero] at hd
    have : off / rs ≤ (off + l) / rs := Nat.div_le_div_right (by omega)
    have := Nat.mul_le_mul_left rs this
    omega
  · have h1 : rs * (off / rs + 1) ≤ rs * ((off + l) / rs) := Nat.mul_le_mul_left rs h
    have := Nat.mod_lt off hrs
    rw [Nat.mul_add, Nat.mul_one] at h1
    omega

/-- The keys of the extents of a file. -/
def Extents (ino k : Nat) : Prop := key ino 2 0 ≤ k ∧ k < key ino 3 0

theorem Extents.obj {ino k : Nat} (h : Extents ino k) : k / 2 ^ 64 = ino := by
  unfold Extents key at h; omega

theorem Extents.ne_inode {ino k : Nat} (h : Extents ino k) : k ≠ inodeKey ino := by
  unfold Extents key at h; unfold inodeKey key; omega

theorem extents_key {ino off : Nat} (h : off < 2 ^ 56) : Extents ino (extentKey ino off) := by
  unfold Extents extentKey key; omega

theorem extentKey_ge (ino off : Nat) : key ino 2 0 ≤ extentKey ino off := by
  unfold extentKey key; omega

theorem extentKey_le {ino off : Nat} (h : off < 2 ^ 56) : extentKey ino off ≤ key ino 3 0 := by
  unfold extentKey key; omega

theorem part_deallocFull {ino off rs : Nat} {len : Option Nat} :
    Part (fun k => extentKey ino off ≤ k ∧ k < (match len with
      | some l => extentKey ino (max ((off + l) - (off + l) % rs) off)
      | none => key ino 3 0)) (deallocFull ino off len rs) := by
  unfold deallocFull
  refine part_scan (fun k h1 h2 => ⟨h1, ?_⟩) fun l => part_clear (fun k h1 h2 => ⟨h1, ?_⟩) part_ok
  · cases len <;> exact h2
  · cases len <;> exact h2

theorem good_doDeallocate {ino off rs : Nat} {len : Option Nat} {f : Nat → Prog} (hrs : 0 < rs)
    (hoff : off < 2 ^ 56) (hlen : ∀ l, len = some l → off + l < 2 ^ 56)
    (hS : ∀ k, Extents ino k → S k) (hf : ∀ n m', Good S (f n) m') :
    Good S (doDeallocate ino off len rs f) m := by
  have hR : ∀ k, RightKey ino off rs len k → S k := by
    rintro k ⟨l, hl, _, _, rfl⟩
    have := hlen l hl
    exact hS _ (extents_key (by omega))
  unfold doDeallocate
  refine good_deallocLeft (fun _ => hS _ (extents_key (by omega))) fun left m' hleft => ?_
  refine good_deallocRight hR fun right m'' hright => ?_
  refine good_join_parts
    (S2 := fun k => (off % rs ≠ 0 ∧ k = extentKey ino (off - off % rs)) ∨ RightKey ino off rs len k)
    part_deallocFull
    (part_join hleft hright ?_ (fun k h => .inl h) (fun k h => .inr h) fun _ _ => part_ok)
    ?_ ?_ ?_ fun _ _ m3 => hf _ m3
  · rintro k ⟨h, rfl⟩ ⟨l, _, hc, _, he⟩
    have := extentKey_inj he
    have := right_ge hrs hc
    have := Nat.mod_le off rs
    omega
  · rintro k ⟨h1, h2⟩ (⟨h, rfl⟩ | ⟨l, hl, hc, _, rfl⟩)
    · have := Nat.mod_le off rs
      unfold extentKey key at h1; omega
    · have := right_ge hrs hc
      rw [hl] at h2
      simp only [Nat.max_eq_left this] at h2
      omega
  · rintro k ⟨h1, h2⟩
    refine hS k ⟨?_, ?_⟩
    · exact Nat.le_trans (extentKey_ge ino off) h1
    · cases hl : len with
      | none => rw [hl] at h2; exact h2
      | some l =>
        rw [hl] at h2
        have := hlen l hl
        exact Nat.lt_of_lt_of_le h2 (extentKey_le (by omega))
  · rintro k (⟨_, rfl⟩ | h)
    · exact hS _ (extents_key (by omega))
    · exact hR k h

theorem good_doSetattr {ino : Nat} {size : Option Nat} {g : Nat → Nat} {p : Prog}
    (hm : SizeOk m ino) (hi : S (inodeKey ino)) (hS : ∀ k, Extents ino k → S k)
    (hp : ∀ m', Good S p m') : Good S (doSetattr ino size g p) m := by
  unfold doSetattr
  refine good_get hi ?_
  split
  · rename_i i hv
    obtain ⟨h1, h2⟩ := hm i hv
    simp only
    split
    · split
      · rename_i rs hrs
        refine good_doDeallocate (h2 rs hrs) (by omega) (by simp) hS fun n m' => ?_
        exact good_insert hi (hp _)
      · exact good_ret
    · exact good_insert hi (hp _)
  · exact good_ret

/-! ## Writing -/

theorem part_writeRecord {ino rs off ofs : Nat} {data : List Nat} (hk : S (extentKey ino off)) :
    Part S (writeRecord ino rs off ofs data) := by
  unfold writeRecord
  simp only
  split
  · refine part_remove hk fun r => ?_
    split
    · exact part_insert hk fun _ => part_ok
    · exact part_insert hk fun _ => part_ok
    · exact part_panic
  · exact part_insert hk fun _ => part_ok

theorem part_writeRest {ino rs base : Nat} (hrs : 0 < rs) (cs : List (List Nat)) : ∀ i,
    Part (fun k => ∃ j, i ≤ j ∧ j < i + cs.length ∧ k = extentKey ino (base + j * rs))
      (joinAll (writeRest ino rs base i cs) fun n => .ok (.int n)) := by
  induction cs with
  | nil => intro i; exact part_ok
  | cons c cs ih =>
    intro i
    simp only [writeRest, joinAll]
    refine part_join (S1 := (· = extentKey ino (base + i * rs))) (part_writeRecord rfl) (ih (i + 1))
      ?_ ?_ ?_ ?_
    · rintro k rfl ⟨j, h1, _, he⟩
      have h2 := extentKey_inj he
      have h3 : i * rs = j * rs := by omega
      have := Nat.eq_of_mul_eq_mul_right hrs h3
      omega
    · rintro k rfl; exact ⟨i, Nat.le_refl _, by simp, rfl⟩
    · rintro k ⟨j, h1, h2, he⟩; exact ⟨j, by omega, by simp only [List.length_cons]; omega, he⟩
    · intro a b
      split
      · exact part_ok
      · exact part_panic

theorem chunks_length {rs : Nat} (hrs : 0 < rs) : ∀ n l, (chunks rs n l).length * rs < l.length + rs := by
  intro n
  induction n with
  | zero => intro l; simp [chunks]; omega
  | succ n ih =>
    intro l
    unfold chunks
    split
    · simp; omega
    · rename_i hl
      have := ih (l.drop rs)
      have h0 : 0 < l.length := List.length_pos_iff.2 hl
      simp only [List.length_cons, List.length_drop, Nat.add_mul, Nat.one_mul] at this ⊢
      by_cases hlr : rs ≤ l.length
      · omega
      · have hd : l.drop rs = [] := List.drop_eq_nil_of_le (by omega)
        have hc : chunks rs n ([] : List Nat) = [] := by cases n <;> simp [chunks]
        rw [hd, hc]; simp; omega

theorem good_writeAll {ino rs off : Nat} {data : List Nat} {f : Int → Prog} (hrs : 0 < rs)
    (hlen : off + data.length < 2 ^ 56) (hS : ∀ k, Extents ino k → S k) (hf : ∀ n m', Good S (f n) m') :
    Good S (joinAll (writeAll ino rs off data) f) m := by
  unfold writeAll
  split
  · exact hf _ _
  · simp only [joinAll]
    have hmod := Nat.mod_le off rs
    have hml := Nat.mod_lt off hrs
    refine good_join_parts (S1 := (· = extentKey ino (off - off % rs))) (part_writeRecord rfl)
      (part_writeRest hrs _ 1) ?_ ?_ ?_ ?_
    · rintro k rfl ⟨j, h1, _, he⟩
      have h2 := extentKey_inj he
      have h3 : 1 * rs ≤ j * rs := Nat.mul_le_mul_right rs h1
      omega
    · rintro k rfl; exact hS _ (extents_key (by omega))
    · rintro k ⟨j, h1, h2, rfl⟩
      refine hS _ (extents_key ?_)
      have hc := chunks_length hrs data.length (data.drop (rs - off % rs))
      rw [List.length_drop] at hc
      have h3 := Nat.mul_le_mul_right rs (Nat.le_of_lt_succ (by omega :
        j < (chunks rs data.length (data.drop (rs - off % rs))).length + 1))
      by_cases hd : data.length ≤ rs - off % rs
      · have he : data.drop (rs - off % rs) = [] := List.drop_eq_nil_of_le hd
        have hz : chunks rs data.length ([] : List Nat) = [] := by cases data.length <;> simp [chunks]
        rw [he, hz] at h2
        simp at h2; omega
      · omega
    · intro a b m'
      split
      · exact hf _ _
      · exact good_ret

end Verif.Isol
