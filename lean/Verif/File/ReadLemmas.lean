import Verif.File.WriteLemmas

/-! Lemmas about `read` and `lseek`. -/

namespace Verif.File
open OMap

theorem fillHole_flatten (sg : List (List Byte)) (n : Nat) :
    (fillHole sg n).flatten = sg.flatten ++ List.replicate n 0 := by
  fun_induction fillHole sg n with
  | case1 sg => simp
  | case2 sg n h l ih =>
    rw [ih]
    simp only [List.flatten_append, List.flatten_cons, List.flatten_nil, List.append_nil,
      List.append_assoc, List.append_cancel_left_eq, List.replicate_append_replicate]
    congr 1; omega

/-- The bytes `[a, b)` of the file. -/
def bytesOf (ext : OMap (List Byte)) (rs a b : Nat) : List Byte :=
  (List.range (b - a)).map fun i => byteAt ext rs (a + i)

theorem bytesOf_append {ext : OMap (List Byte)} {rs a b c : Nat} (h1 : a ≤ b) (h2 : b ≤ c) :
    bytesOf ext rs a b ++ bytesOf ext rs b c = bytesOf ext rs a c := by
  simp only [bytesOf]
  have : c - a = (b - a) + (c - b) := by omega
  rw [this, List.range_add, List.map_append, List.map_map]
  congr 1
  apply List.map_congr_left
  intro i _
  simp only [Function.comp]
  congr 1; omega

theorem bytesOf_self {ext : OMap (List Byte)} {rs a : Nat} : bytesOf ext rs a a = [] := by
  simp [bytesOf]

theorem bytesOf_zero {ext : OMap (List Byte)} {rs a b : Nat}
    (h : ∀ o, a ≤ o → o < b → byteAt ext rs o = 0) :
    bytesOf ext rs a b = List.replicate (b - a) 0 := by
  simp only [bytesOf]
  apply List.ext_getElem
  · simp
  · intro i h1 h2
    simp at h1
    simp
    exact h _ (by omega) (by omega)

/-- A slice of an extent is the corresponding bytes of the file. -/
theorem slice_bytesOf {ext : OMap (List Byte)} {rs q s e : Nat} {v : List Byte}
    (hg : get ext (rs * q) = some v) (hv : v.length ≤ rs) (he : e ≤ v.length) (hs : s ≤ e) :
    slice v s e = bytesOf ext rs (rs * q + s) (rs * q + e) := by
  simp only [bytesOf, slice]
  apply List.ext_getElem
  · simp; omega
  · intro i h1 h2
    simp at h1 h2
    simp only [List.getElem_take, List.getElem_drop, List.getElem_map, List.getElem_range]
    have hlt : s + i < rs := by omega
    have := divmod_of (rs := rs) (q := q) (j := s + i) hlt
    simp only [byteAt, recByte]
    rw [show rs * q + s + i = rs * q + (s + i) by omega, this.1, this.2, hg]
    simp only [Option.getD_some, nth]
    rw [List.getElem?_eq_getElem (by omega)]; rfl

/-- Invariant of the fold in `do_read`.  `m` is what remains of the range. -/
structure RInv (ext : OMap (List Byte)) (rs offset size : Nat) (m : OMap (List Byte))
    (sg : List (List Byte)) (p rec : Nat) : Prop where
  lo : offset ≤ p
  hi : p ≤ offset + size
  flat : sg.flatten = bytesOf ext rs offset p
  sorted : Sorted m
  /-- what remains is every later extent -/
  rest : ∀ k v, (k, v) ∈ m → get ext k = some v ∧ k < offset + size ∧
    (rec ≠ 0 → p ≤ k) ∧ (rec = 0 → p = offset)
  gap : ∀ o, p ≤ o → o < offset + size → (∀ k v, (k, v) ∈ m → o / rs * rs ≠ k) →
    byteAt ext rs o = 0
  first : rec = 0 → ∀ k v, (k, v) ∈ m → offset - offset % rs ≤ k

theorem rinv_fold {ext : OMap (List Byte)} {rs offset size : Nat} (hrs : 0 < rs)
    (hrec : ∀ k v, get ext k = some v → (∃ q, k = rs * q) ∧ v.length ≤ rs)
    (m : OMap (List Byte)) : ∀ (sg : List (List Byte)) (p rec : Nat),
    RInv ext rs offset size m sg p rec →
    ∃ sg' p' rec', m.foldl (readStep offset size) (some (sg, p, rec)) = some (sg', p', rec') ∧
      RInv ext rs offset size [] sg' p' rec' := by
  induction m with
  | nil => intro sg p rec h; exact ⟨sg, p, rec, rfl, h⟩
  | cons e m ih =>
    intro sg p rec h
    obtain ⟨k, v⟩ := e
    obtain ⟨hg, hk1, hk2, hk3⟩ := h.rest k v (by simp)
    obtain ⟨⟨q, hq⟩, hvl⟩ := hrec k v hg
    have hlater : ∀ k' v', (k', v') ∈ m → k + rs ≤ k' := by
      intro k' v' hm
      have h1 := (List.pairwise_cons.1 h.sorted).1 _ hm
      obtain ⟨⟨q', hq'⟩, _⟩ := hrec k' v' (h.rest k' v' (by simp [hm])).1
      simp only at h1
      rw [hq, hq'] at h1 ⊢
      have : q < q' := (Nat.mul_lt_mul_left hrs).1 h1
      have : rs * (q + 1) ≤ rs * q' := Nat.mul_le_mul_left _ this
      rw [Nat.mul_add] at this; omega
    -- a byte below `k + rs` and at or above the end of `v`, in record `k`, is zero
    have htail : ∀ o, k + v.length ≤ o → o < k + rs → byteAt ext rs o = 0 := by
      intro o h1 h2
      have hd := divmod_of (rs := rs) (q := q) (j := o - k) (by omega)
      rw [← hq, show k + (o - k) = o by omega] at hd
      simp only [byteAt, recByte]
      rw [hd.1, hd.2, ← hq, hg]
      exact nth_of_ge (by simp only [Option.getD_some]; omega)
    have hdivk : ∀ o, o / rs * rs = k → k ≤ o ∧ o < k + rs := by
      intro o ho
      have h1 := Nat.div_add_mod o rs
      have h2 := Nat.mod_lt o hrs
      rw [Nat.mul_comm] at ho; omega
    -- gaps after this step
    have hgap' : ∀ p', (∀ o, o / rs * rs = k → p' ≤ o → o < offset + size →
          k + v.length ≤ o) → p ≤ p' →
        ∀ o, p' ≤ o → o < offset + size → (∀ k' v', (k', v') ∈ m → o / rs * rs ≠ k') →
        byteAt ext rs o = 0 := by
      intro p' hp' hpp o h1 h2 h3
      by_cases hko : o / rs * rs = k
      · exact htail o (hp' o hko h1 h2) (hdivk o hko).2
      · apply h.gap o (by omega) h2
        intro k' v' hm
        simp at hm
        rcases hm with ⟨rfl, rfl⟩ | hm
        · exact hko
        · exact h3 k' v' hm
    simp only [List.foldl_cons, readStep]
    split
    · rename_i hlt
      have hr0 : rec = 0 := by
        apply Classical.byContradiction; intro hne; have := hk2 hne; omega
      rw [if_pos hr0]
      have hp0 := hk3 hr0
      have hlo : k = offset - offset % rs := by
        have h1 := h.first hr0 k v (by simp)
        have h2 := Nat.mod_lt offset hrs
        rw [base_eq] at h1 ⊢
        have h3 := Nat.div_add_mod offset rs
        rw [hq] at h1 hlt ⊢
        have h4 : offset / rs ≤ q := Nat.le_of_mul_le_mul_left h1 hrs
        have h5 : rs * q + 0 < rs * (offset / rs) + offset % rs := by omega
        rw [lex_lt hrs h2] at h5
        have : q = offset / rs := by omega
        rw [this]
      have h2 := Nat.mod_lt offset hrs
      split
      · rename_i hes
        refine ih _ _ _ ⟨by omega, by omega, ?_, h.sorted.tail, ?_, ?_, by omega⟩
        · rw [List.flatten_append, h.flat, hp0]
          rw [slice_bytesOf (hq ▸ hg) hvl (Nat.min_le_left _ _) (by omega), ← hq]
          simp only [List.flatten_cons, List.flatten_nil, List.append_nil]
          rw [bytesOf_self, List.nil_append]
          congr 1 <;> omega
        · intro k' v' hm
          have h3 := h.rest k' v' (by simp [hm])
          have h4 := hlater k' v' hm
          exact ⟨h3.1, h3.2.1, fun _ => by omega, fun h => by omega⟩
        · apply hgap' _ _ (by omega)
          intro o ho h3 h4
          omega
      · rename_i hes
        refine ih _ _ _ ⟨h.lo, h.hi, h.flat, h.sorted.tail, ?_, ?_, by omega⟩
        · intro k' v' hm
          have h3 := h.rest k' v' (by simp [hm])
          have h4 := hlater k' v' hm
          exact ⟨h3.1, h3.2.1, fun _ => by omega, fun h => by omega⟩
        · apply hgap' _ _ (Nat.le_refl _)
          intro o ho h3 h4
          omega
    · rename_i hge
      -- the hole before this extent
      have hhole : ∀ o, p ≤ o → o < k → byteAt ext rs o = 0 := by
        intro o h1 h2
        apply h.gap o h1 (by omega)
        intro k' v' hm
        simp at hm
        have hd := Nat.div_add_mod o rs
        rw [Nat.mul_comm] at hd
        rcases hm with ⟨rfl, rfl⟩ | hm
        · omega
        · have := hlater k' v' hm; omega
      generalize hdb : (if k + v.length > offset + size then v.take (offset + size - k) else v) = db
      have hdbl : db.length = min v.length (offset + size - k) := by
        rw [← hdb]; split
        · rw [List.length_take]; omega
        · omega
      have hdbs : db = slice v 0 (min v.length (offset + size - k)) := by
        rw [← hdb]; split
        · simp only [slice, List.drop_zero]; rw [List.take_eq_take_iff]; omega
        · simp only [slice, List.drop_zero]; rw [List.take_of_length_le]; omega
      have hplo := h.lo
      refine ih _ _ _ ⟨by omega, by rw [hdbl]; omega, ?_, h.sorted.tail, ?_, ?_, by omega⟩
      · rw [List.flatten_append, fillHole_flatten, h.flat]
        rw [← bytesOf_zero (b := k) hhole, bytesOf_append h.lo (by omega)]
        simp only [List.flatten_cons, List.flatten_nil, List.append_nil]
        rw [hdbl, hdbs, slice_bytesOf (hq ▸ hg) hvl (Nat.min_le_left _ _) (by omega), ← hq,
          Nat.add_zero, bytesOf_append (by omega) (by omega)]
        congr 1; omega
      · intro k' v' hm
        have h3 := h.rest k' v' (by simp [hm])
        have h4 := hlater k' v' hm
        exact ⟨h3.1, h3.2.1, fun _ => by omega, fun h => by omega⟩
      · apply hgap' _ _ (by omega)
        intro o ho h3 h4
        omega

theorem read_bytes {f : File} (h : WF f) (offset size : Nat) :
    read f offset size =
      some (bytesOf f.ext f.rs offset (offset + min size (f.size - offset))) := by
  simp only [read, readSG]
  have hrs := h.rs_pos
  generalize hsz : min size (f.size - offset) = sz
  have hI : RInv f.ext f.rs offset sz
      (f.ext.range (offset - offset % f.rs) (offset + sz)) [] offset 0 := by
    refine ⟨Nat.le_refl _, by omega, by simp [bytesOf], h.sorted.range _ _, ?_, ?_, ?_⟩
    · intro k v hm
      simp [OMap.range] at hm
      exact ⟨get_of_mem h.sorted hm.1, hm.2.2, by simp, by simp⟩
    · intro o h1 h2 h3
      simp only [byteAt, recByte]
      cases hg : get f.ext (f.rs * (o / f.rs)) with
      | none => simp [nth]
      | some v =>
        exfalso
        apply h3 (f.rs * (o / f.rs)) v
        · simp only [OMap.range, List.mem_filter]
          refine ⟨mem_of_get hg, ?_⟩
          have hd := Nat.div_add_mod o f.rs
          rw [base_eq]
          have : offset / f.rs ≤ o / f.rs := Nat.div_le_div_right h1
          have := Nat.mul_le_mul_left f.rs this
          simp; omega
        · exact Nat.mul_comm _ _
    · intro _ k v hm
      simp [OMap.range] at hm
      omega
  obtain ⟨sg, p, rec, he, hI'⟩ := rinv_fold hrs
    (fun k v hk => ⟨(h.recs k v hk).1, (h.recs k v hk).2.2.1⟩) _ _ _ _ hI
  rw [he]
  simp only [Option.map_some, fillHole_flatten, hI'.flat]
  have h1 := hI'.lo
  have h2 := hI'.hi
  have hz : bytesOf f.ext f.rs p (offset + sz) = List.replicate (sz - (p - offset)) 0 := by
    rw [bytesOf_zero (fun o h3 h4 => hI'.gap o h3 h4 (by simp))]
    congr 1; omega
  rw [← hz, bytesOf_append h1 h2]

/-! ### Seeking -/

/-- Offset `o` lies in a data extent. -/
def InData (f : File) (o : Nat) : Prop := ∃ k v, get f.ext k = some v ∧ k ≤ o ∧ o < k + v.length

/-- extents of a well-formed file are disjoint and in order -/
theorem ext_order {f : File} (h : WF f) {k k' : Nat} {v v' : List Byte}
    (hk : get f.ext k = some v) (hk' : get f.ext k' = some v') (hlt : k < k') :
    k + f.rs ≤ k' := by
  obtain ⟨⟨q, rfl⟩, _⟩ := h.recs k v hk
  obtain ⟨⟨q', rfl⟩, _⟩ := h.recs k' v' hk'
  have : q < q' := (Nat.mul_lt_mul_left h.rs_pos).1 hlt
  have : f.rs * (q + 1) ≤ f.rs * q' := Nat.mul_le_mul_left _ this
  rw [Nat.mul_add] at this; omega

/-- Remaining extents: all extents whose end is beyond `off` are in `m`. -/
def Covers (f : File) (m : OMap (List Byte)) (off : Nat) : Prop :=
  Sorted m ∧ (∀ k v, (k, v) ∈ m → get f.ext k = some v) ∧
  ∀ k v, get f.ext k = some v → off < k + v.length → (k, v) ∈ m

theorem covers_base {f : File} (h : WF f) (off : Nat) :
    Covers f (f.ext.rangeFrom (off - off % f.rs)) off := by
  refine ⟨h.sorted.rangeFrom _, ?_, ?_⟩
  · intro k v hm
    simp [OMap.rangeFrom] at hm
    exact get_of_mem h.sorted hm.1
  · intro k v hk hlt
    simp only [OMap.rangeFrom, List.mem_filter]
    refine ⟨mem_of_get hk, ?_⟩
    obtain ⟨⟨q, rfl⟩, _, hl, _⟩ := h.recs k v hk
    have h1 := Nat.div_add_mod off f.rs
    rw [base_eq]
    simp only [decide_eq_true_eq]
    apply Nat.mul_le_mul_left
    have h2 := Nat.mod_lt off h.rs_pos
    have : f.rs * (off / f.rs) + 0 < f.rs * (q + 1) + 0 := by rw [Nat.mul_add]; omega
    rw [lex_lt h.rs_pos h.rs_pos] at this
    omega

theorem covers_tail {f : File} {m : OMap (List Byte)} {k : Nat} {v : List Byte} {off off' : Nat}
    (hc : Covers f ((k, v) :: m) off) (h1 : off ≤ off') (h2 : k + v.length ≤ off') :
    Covers f m off' := by
  refine ⟨hc.1.tail, fun k' v' hm => hc.2.1 k' v' (by simp [hm]), ?_⟩
  intro k' v' hk hlt
  have := hc.2.2 k' v' hk (by omega)
  simp at this
  rcases this with ⟨rfl, rfl⟩ | hm
  · omega
  · exact hm

theorem lseekLoop_data {f : File} (h : WF f) (off : Nat) (m : OMap (List Byte)) :
    Covers f m off →
    match lseekLoop .data m off none with
    | none => ∀ o, off ≤ o → ¬ InData f o
    | some r => off ≤ r ∧ InData f r ∧ ∀ o, off ≤ o → o < r → ¬ InData f o := by
  induction m with
  | nil =>
    intro hc
    simp only [lseekLoop]
    rintro o ho ⟨k, v, hk, h1, h2⟩
    have := hc.2.2 k v hk (by omega)
    simp at this
  | cons e m ih =>
    obtain ⟨k, v⟩ := e
    intro hc
    have hk := hc.2.1 k v (by simp)
    have hv := h.recs k v hk
    simp only [lseekLoop]
    by_cases hle : k + v.length ≤ off
    · rw [if_pos hle]; exact ih (covers_tail hc (Nat.le_refl _) hle)
    · have hgt := hle; clear hle
      rw [if_neg hgt]
      by_cases hle : k ≤ off
      · rw [if_pos hle]
        exact ⟨Nat.le_refl _, ⟨k, v, hk, hle, by omega⟩, fun o h1 h2 => by omega⟩
      · rw [if_neg hle]
        simp only
        refine ⟨by omega, ⟨k, v, hk, Nat.le_refl _, by omega⟩, ?_⟩
        rintro o h1 h2 ⟨k', v', hk', h3, h4⟩
        have hm := hc.2.2 k' v' hk' (by omega)
        simp at hm
        rcases hm with ⟨rfl, rfl⟩ | hm
        · omega
        · have := (List.pairwise_cons.1 hc.1).1 _ hm
          simp at this; omega

theorem lseekLoop_hole {f : File} (h : WF f) (m : OMap (List Byte)) :
    ∀ (off0 off : Nat) (r : Option Nat), Covers f m off → off0 ≤ off →
    (∀ o, off0 ≤ o → o < off → InData f o) → (off0 < off → r = some off) →
    match lseekLoop .hole m off r with
    | none => r = none
    | some x => (off0 ≤ x ∧ ¬ InData f x ∧ ∀ o, off0 ≤ o → o < x → InData f o) ∨
        (some x = r ∧ off0 = off ∧ ∀ o, off0 ≤ o → ¬ InData f o) := by
  induction m with
  | nil =>
    intro off0 off r hc h0 hd hr
    simp only [lseekLoop]
    have hnd : ∀ o, off ≤ o → ¬ InData f o := by
      rintro o ho ⟨k, v, hk, h1, h2⟩
      have := hc.2.2 k v hk (by omega)
      simp at this
    cases hrr : r with
    | none => rfl
    | some x =>
      simp only
      by_cases hlt : off0 < off
      · rw [hr hlt] at hrr
        simp at hrr; subst hrr
        exact Or.inl ⟨h0, hnd off (Nat.le_refl _), hd⟩
      · have : off0 = off := by omega
        subst this
        exact Or.inr ⟨trivial, rfl, hnd⟩
  | cons e m ih =>
    obtain ⟨k, v⟩ := e
    intro off0 off r hc h0 hd hr
    have hk := hc.2.1 k v (by simp)
    have hv := h.recs k v hk
    simp only [lseekLoop]
    by_cases hle : k + v.length ≤ off
    · rw [if_pos hle]; exact ih off0 off r (covers_tail hc (Nat.le_refl _) hle) h0 hd hr
    · have hgt := hle; clear hle
      rw [if_neg hgt]
      by_cases hle : k ≤ off
      · rw [if_pos hle]
        have := ih off0 (k + v.length) (some (k + v.length))
          (covers_tail hc (by omega) (Nat.le_refl _)) (by omega)
          (by
            intro o h1 h2
            by_cases ho : o < off
            · exact hd o h1 ho
            · exact ⟨k, v, hk, by omega, h2⟩) (fun _ => rfl)
        revert this
        cases lseekLoop .hole m (k + v.length) (some (k + v.length)) with
        | none => simp
        | some x =>
          simp only
          rintro (h1 | ⟨h1, h2, h3⟩)
          · exact Or.inl h1
          · omega
      · rw [if_neg hle]
        simp only
        left
        refine ⟨h0, ?_, hd⟩
        rintro ⟨k', v', hk', h3, h4⟩
        have hm := hc.2.2 k' v' hk' (by omega)
        simp at hm
        rcases hm with ⟨rfl, rfl⟩ | hm
        · omega
        · have := (List.pairwise_cons.1 hc.1).1 _ hm
          simp at this; omega

end Verif.File
