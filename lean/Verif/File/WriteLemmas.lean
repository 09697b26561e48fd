import Verif.File.Lemmas

/-! The effect of `write`, `deallocate` and `setSize` on well-formed files. -/

namespace Verif.File
open OMap

theorem perm_mem {order : List Nat} {n : Nat} (hp : order.Perm (List.range n)) :
    order.Nodup ∧ ∀ i, i ∈ order ↔ i < n :=
  ⟨hp.nodup_iff.2 List.nodup_range, fun i => by rw [hp.mem_iff]; exact List.mem_range⟩

theorem write_spec {junk : Nat → Byte} {order : List Nat} {f : File} {offset : Nat}
    {data : List Byte} (h : WF f) (hp : order.Perm (writeOrder f offset data)) :
    WF (write junk order f offset data) ∧
    ∀ o, byteAt (write junk order f offset data).ext f.rs o =
      if offset ≤ o ∧ o < offset + data.length then nth data (o - offset)
      else byteAt f.ext f.rs o := by
  obtain ⟨hnd, hmem⟩ := perm_mem hp
  have hrs := h.rs_pos
  have ho0 := Nat.mod_lt offset hrs
  have hoff := Nat.div_add_mod offset f.rs
  obtain ⟨hs, hd, hin, hout⟩ := writeRecords_spec (junk := junk) (offset := offset) (data := data)
    hrs order f.ext 0 h.sorted hnd
  -- facts about each record written
  have hrec : ∀ i, i ∈ order →
      let d := chunk data (offset % f.rs) f.rs i
      let old := get f.ext (f.rs * (offset / f.rs + i))
      d.length = min (f.rs - into (offset % f.rs) i) (data.length - (i * f.rs - offset % f.rs)) ∧
      (∀ j, nth d j = if j < f.rs - into (offset % f.rs) i
          then nth data (i * f.rs - offset % f.rs + j) else 0) ∧
      into (offset % f.rs) i + d.length ≤ f.rs ∧
      (∀ b, old = some b → b.length ≤ f.rs) ∧ i * f.rs < offset % f.rs + data.length := by
    intro i hi
    have hlt := (hmem i).1 hi
    have hb := nrecs_bounds ho0 hlt
    have hil : into (offset % f.rs) i ≤ offset % f.rs := by simp only [into]; split <;> omega
    refine ⟨length_chunk ho0 hlt, ?_, ?_, ?_, hb⟩
    · intro j; rw [chunk_eq ho0 hlt, nth_take, nth_drop]
    · rw [length_chunk ho0 hlt]; omega
    · intro b hb; exact (h.recs _ _ hb).2.2.1
  refine ⟨⟨hrs, hs, ?_, ?_⟩, ?_⟩
  · intro k v hk
    simp only [write] at hk ⊢
    by_cases hex : ∃ i ∈ order, k = f.rs * (offset / f.rs + i)
    · obtain ⟨i, hi, rfl⟩ := hex
      rw [hin i hi] at hk
      obtain ⟨h1, h2, h3, h4, h5⟩ := hrec i hi
      simp only [Option.some.injEq] at hk
      have hsp := recBuf_spec (junk := junk) h3 h4
      rw [hk] at hsp
      obtain ⟨hl, -⟩ := hsp
      have hold : ((get f.ext (f.rs * (offset / f.rs + i))).getD []).length ≤ f.rs ∧
          (f.rs * (offset / f.rs + i) +
            ((get f.ext (f.rs * (offset / f.rs + i))).getD []).length ≤ f.size ∨
           ((get f.ext (f.rs * (offset / f.rs + i))).getD []).length = 0) := by
        cases hg : get f.ext (f.rs * (offset / f.rs + i)) with
        | none => simp
        | some b => have := h.recs _ _ hg; simp; omega
      have hmul : f.rs * (offset / f.rs + i) = f.rs * (offset / f.rs) + i * f.rs := by
        rw [Nat.mul_add, Nat.mul_comm f.rs i]
      have hic : i = 0 ∧ into (offset % f.rs) i = offset % f.rs ∨
          (into (offset % f.rs) i = 0 ∧ f.rs ≤ i * f.rs) := by
        by_cases hz : i = 0
        · left; simp [hz, into]
        · right; exact ⟨by simp [into, hz], Nat.le_mul_of_pos_left _ (by omega)⟩
      refine ⟨⟨_, rfl⟩, ?_, ?_, ?_⟩
      · rcases hic with ⟨rfl, hic⟩ | ⟨hic, hge⟩ <;> omega
      · omega
      · rcases hic with ⟨rfl, hic⟩ | ⟨hic, hge⟩ <;> omega
    · rw [hout k (fun i hi e => hex ⟨i, hi, e⟩)] at hk
      have := h.recs k v hk
      refine ⟨this.1, this.2.1, this.2.2.1, ?_⟩
      have := this.2.2.2; omega
  · have hsp := h.space
    simp only [write, satAddSigned]
    have e1 := extLen_eq f.ext
    have e2 := extLen_eq (writeRecords junk f.rs offset data order (f.ext, 0)).1
    omega
  · intro o
    simp only [write, byteAt, recByte]
    have hj := Nat.mod_lt o hrs
    have ho := Nat.div_add_mod o f.rs
    generalize hqd : o / f.rs = q at *
    generalize hjd : o % f.rs = j at *
    have hmul : ∀ i, f.rs * (offset / f.rs + i) = f.rs * (offset / f.rs) + i * f.rs := by
      intro i; rw [Nat.mul_add, Nat.mul_comm f.rs i]
    by_cases hex : ∃ i ∈ order, q = offset / f.rs + i
    · obtain ⟨i, hi, rfl⟩ := hex
      obtain ⟨h1, h2, h3, h4, h5⟩ := hrec i hi
      rw [hin i hi]
      have hsp := (recBuf_spec (junk := junk) h3 h4).2 j
      simp only [Option.getD_some]
      rw [hsp]
      have hm := hmul i
      have hic : i = 0 ∧ into (offset % f.rs) i = offset % f.rs ∨
          (into (offset % f.rs) i = 0 ∧ f.rs ≤ i * f.rs) := by
        by_cases hz : i = 0
        · left; simp [hz, into]
        · right; exact ⟨by simp [into, hz], Nat.le_mul_of_pos_left _ (by omega)⟩
      rw [h1]
      rcases hic with ⟨rfl, hic⟩ | ⟨hic, hge⟩
      · rw [hic] at h2 ⊢
        by_cases hc : offset ≤ o ∧ o < offset + data.length
        · rw [if_pos hc, if_pos (by omega), h2, if_pos (by omega)]; congr 1; omega
        · rw [if_neg hc, if_neg (by omega)]
      · rw [hic] at h2 ⊢
        by_cases hc : offset ≤ o ∧ o < offset + data.length
        · rw [if_pos hc, if_pos (by omega), h2, if_pos (by omega)]; congr 1; omega
        · rw [if_neg hc, if_neg (by omega)]
    · have hne : ∀ i ∈ order, f.rs * q ≠ f.rs * (offset / f.rs + i) := by
        intro i hi e
        exact hex ⟨i, hi, mul_left_cancel' hrs e⟩
      rw [hout _ hne]
      by_cases hc : offset ≤ o ∧ o < offset + data.length
      · exfalso
        apply hex
        have h1 : offset / f.rs ≤ q := by
          rw [← hqd]; exact Nat.div_le_div_right hc.1
        refine ⟨q - offset / f.rs, ?_, by omega⟩
        rw [hmem]
        apply lt_nrecs ho0
        have hm := hmul (q - offset / f.rs)
        rw [show offset / f.rs + (q - offset / f.rs) = q by omega] at hm
        omega
      · rw [if_neg hc]

/-! ### Deallocation -/

/-- Effect on the extents of replacing one record. -/
theorem recByte_insert {ext : OMap (List Byte)} {rs a q j : Nat} {b : List Byte} (hrs : 0 < rs) :
    recByte (ext.insert (rs * a) b) rs q j = if q = a then nth b j else recByte ext rs q j := by
  simp only [recByte, get_insert]
  by_cases h : q = a
  · simp [h]
  · rw [if_neg (fun e => h (mul_left_cancel' hrs e)), if_neg h]

theorem recByte_remove {ext : OMap (List Byte)} {rs a q j : Nat} (hrs : 0 < rs) :
    recByte (ext.remove (rs * a)) rs q j = if q = a then 0 else recByte ext rs q j := by
  simp only [recByte, get_remove]
  by_cases h : q = a
  · simp [h, nth]
  · rw [if_neg (fun e => h (mul_left_cancel' hrs e)), if_neg h]

/-- What each part of a deallocation guarantees: `P q j` says which bytes it
clears. -/
structure Dealloc (rs : Nat) (ext ext' : OMap (List Byte)) (freed : Nat) (P : Nat → Nat → Prop) :
    Prop where
  sorted : Sorted ext'
  bytes : ∀ q j, j < rs → (P q j → recByte ext' rs q j = 0) ∧
    (¬ P q j → recByte ext' rs q j = recByte ext rs q j)
  space : (freed : Int) = total (fun v => (v.length : Int)) ext -
    total (fun v => (v.length : Int)) ext'
  /-- extents only shrink or vanish, and never become empty -/
  shrink : ∀ k v, get ext' k = some v → ∃ v', get ext k = some v' ∧ 0 < v.length ∧
    v.length ≤ v'.length

theorem dealloc_id {rs : Nat} {ext : OMap (List Byte)} (hs : Sorted ext)
    (hne : ∀ k v, get ext k = some v → 0 < v.length) :
    Dealloc rs ext ext 0 (fun _ _ => False) :=
  ⟨hs, fun _ _ _ => ⟨False.elim, fun _ => rfl⟩, by omega, fun k v hk => ⟨v, hk, hne k v hk, by omega⟩⟩

theorem dealloc_left {rs : Nat} {ext : OMap (List Byte)} (hrs : 0 < rs) (hs : Sorted ext)
    (hne : ∀ k v, get ext k = some v → 0 < v.length ∧ v.length ≤ rs)
    (offset : Nat) (len : Option Nat) :
    Dealloc rs ext (deallocLeft ext offset len rs).1 (deallocLeft ext offset len rs).2
      (fun q j => offset % rs ≠ 0 ∧ q = offset / rs ∧ offset % rs ≤ j ∧
        ∀ l, len = some l → j < offset % rs + l) := by
  have hne' : ∀ k v, get ext k = some v → 0 < v.length := fun k v h => (hne k v h).1
  simp only [deallocLeft]
  split
  rotate_left
  · rename_i hz
    have := dealloc_id (rs := rs) hs hne'
    refine ⟨this.sorted, fun q j hj => ?_, this.space, this.shrink⟩
    exact ⟨fun h => absurd h.1 hz, fun _ => rfl⟩
  rename_i hz
  rw [base_eq]
  generalize ha : offset / rs = a
  have hr := Nat.mod_lt offset hrs
  generalize hrd : offset % rs = r at *
  -- length cleared in this record
  generalize hl : leftLen rs r len = n
  have hn : ∀ j, j < rs → ((∀ l, len = some l → j < r + l) ↔ j < r + n) := by
    intro j hj
    cases len with
    | none => simp [leftLen] at hl ⊢; omega
    | some l => simp [leftLen] at hl ⊢; omega
  have hnrs : r + n ≤ rs := by
    cases len with
    | none => simp [leftLen] at hl; omega
    | some l => simp [leftLen] at hl; omega
  cases hg : get ext (rs * a) with
  | none =>
    rw [remove_of_none hg]
    have := dealloc_id (rs := rs) hs hne'
    refine ⟨this.sorted, fun q j hj => ⟨fun h => ?_, fun _ => rfl⟩, this.space, this.shrink⟩
    rw [h.2.1]; simp [recByte, hg, nth]
  | some b =>
    have hb := hne _ _ hg
    dsimp only
    -- all three cases insert some buffer `b'` at this key
    have key : ∀ (b' : List Byte) (freed : Nat), 0 < b'.length → b'.length ≤ b.length →
        freed = b.length - b'.length →
        (∀ j, j < rs → nth b' j = if r ≤ j ∧ j < r + n then 0 else nth b j) →
        Dealloc rs ext ((ext.remove (rs * a)).insert (rs * a) b') freed
          (fun q j => r ≠ 0 ∧ q = a ∧ r ≤ j ∧ ∀ l, len = some l → j < r + l) := by
      intro b' freed h0 h1 h2 h3
      rw [insert_remove hs]
      refine ⟨hs.insert _ _, ?_, ?_, ?_⟩
      · intro q j hj
        rw [recByte_insert hrs, hn j hj]
        have := h3 j hj
        constructor
        · rintro ⟨-, rfl, h4, h5⟩
          rw [if_pos rfl, this, if_pos ⟨h4, h5⟩]
        · intro hP
          by_cases hq : q = a
          · subst hq
            rw [if_pos rfl, this, if_neg (fun h => hP ⟨hz, rfl, h.1, h.2⟩)]
            simp [recByte, hg]
          · rw [if_neg hq]
      · rw [total_insert hs, hg]; simp; omega
      · intro k v hk
        rw [get_insert] at hk
        split at hk
        · rename_i e; subst e; simp at hk; subst hk; exact ⟨b, hg, h0, h1⟩
        · exact ⟨v, hk, hne' _ _ hk, Nat.le_refl _⟩
    split
    · rename_i h1
      apply key b 0 hb.1 (Nat.le_refl _) (by omega)
      intro j hj
      split
      · rw [nth_of_ge (by omega)]
      · rfl
    · split
      · rename_i h1 h2
        have hlt : (b.take r).length = r := by simp; omega
        apply key (b.take r) (b.length - r) (by omega) (by omega) (by omega)
        intro j hj
        rw [nth_take]
        by_cases hjr : j < r
        · rw [if_pos hjr, if_neg (by omega)]
        · rw [if_neg hjr]
          split
          · rfl
          · rw [nth_of_ge (by omega)]
      · rename_i h1 h2
        have hlen : r + (List.replicate n (0 : Byte)).length ≤ b.length := by simp; omega
        apply key _ 0
        · rw [length_overlayAt hlen]; exact hb.1
        · rw [length_overlayAt hlen]; exact Nat.le_refl _
        · rw [length_overlayAt hlen]; omega
        · intro j hj
          rw [nth_overlayAt hlen, nth_replicate]; simp

theorem dealloc_right {rs : Nat} {ext : OMap (List Byte)} (hrs : 0 < rs) (hs : Sorted ext)
    (hne : ∀ k v, get ext k = some v → 0 < v.length ∧ v.length ≤ rs)
    (offset : Nat) (len : Option Nat) :
    Dealloc rs ext (deallocRight ext offset len rs).1 (deallocRight ext offset len rs).2
      (fun q j => ∃ l, len = some l ∧ (offset % rs = 0 ∨ (offset + l) / rs > offset / rs) ∧
        q = (offset + l) / rs ∧ j < (offset + l) % rs) := by
  have hne' : ∀ k v, get ext k = some v → 0 < v.length := fun k v h => (hne k v h).1
  cases len with
  | none =>
    have := dealloc_id (rs := rs) hs hne'
    refine ⟨this.sorted, fun q j hj => ?_, this.space, this.shrink⟩
    exact ⟨fun ⟨l, h, _⟩ => by simp at h, fun _ => rfl⟩
  | some l =>
    simp only [deallocRight, Option.some.injEq, exists_eq_left']
    rw [base_eq]
    generalize hb0 : (offset + l) / rs = bq
    have hr := Nat.mod_lt (offset + l) hrs
    generalize hsd : (offset + l) % rs = s at *
    split
    rotate_left
    · rename_i hz
      have := dealloc_id (rs := rs) hs hne'
      refine ⟨this.sorted, fun q j hj => ⟨fun h => ?_, fun _ => rfl⟩, this.space, this.shrink⟩
      exact absurd ⟨h.1, by omega⟩ hz
    rename_i hz
    cases hg : get ext (rs * bq) with
    | none =>
      rw [remove_of_none hg]
      have := dealloc_id (rs := rs) hs hne'
      refine ⟨this.sorted, fun q j hj => ⟨fun h => ?_, fun _ => rfl⟩, this.space, this.shrink⟩
      rw [h.2.1]; simp [recByte, hg, nth]
    | some b =>
      have hb := hne _ _ hg
      dsimp only
      split
      · rename_i hlt
        have hlen : 0 + (List.replicate s (0 : Byte)).length ≤ b.length := by simp; omega
        rw [insert_remove hs]
        refine ⟨hs.insert _ _, ?_, ?_, ?_⟩
        · intro q j hj
          rw [recByte_insert hrs]
          constructor
          · rintro ⟨-, rfl, h4⟩
            rw [if_pos rfl, nth_overlayAt hlen, nth_replicate, if_pos (by simp; omega)]
          · intro hP
            by_cases hq : q = bq
            · subst hq
              rw [if_pos rfl, nth_overlayAt hlen, if_neg]
              · simp [recByte, hg]
              · simp; exact Nat.not_lt.1 (fun h => hP ⟨hz.1, rfl, h⟩)
            · rw [if_neg hq]
        · rw [total_insert hs, hg, length_overlayAt hlen]; simp
        · intro k v hk
          rw [get_insert] at hk
          split at hk
          · rename_i e; subst e; simp at hk; subst hk
            exact ⟨b, hg, by rw [length_overlayAt hlen]; exact hb.1,
              by rw [length_overlayAt hlen]; exact Nat.le_refl _⟩
          · exact ⟨v, hk, hne' _ _ hk, Nat.le_refl _⟩
      · rename_i hge
        refine ⟨hs.remove _, ?_, ?_, ?_⟩
        · intro q j hj
          rw [recByte_remove hrs]
          constructor
          · rintro ⟨-, rfl, h4⟩; rw [if_pos rfl]
          · intro hP
            by_cases hq : q = bq
            · subst hq
              rw [if_pos rfl]
              have : ¬ j < s := fun h => hP ⟨hz.1, rfl, h⟩
              simp only [recByte, hg, Option.getD_some]
              rw [nth_of_ge (by omega)]
            · rw [if_neg hq]
        · rw [total_remove hs, hg]; simp; omega
        · intro k v hk
          rw [get_remove] at hk
          split at hk
          · simp at hk
          · exact ⟨v, hk, hne' _ _ hk, Nat.le_refl _⟩

theorem dealloc_full {rs : Nat} {ext : OMap (List Byte)} (hs : Sorted ext)
    (hne : ∀ k v, get ext k = some v → 0 < v.length ∧ v.length ≤ rs)
    (offset : Nat) (len : Option Nat) :
    Dealloc rs ext (deallocFull ext offset len rs).1 (deallocFull ext offset len rs).2
      (fun q _ => offset ≤ rs * q ∧ ∀ l, len = some l → q < (offset + l) / rs) := by
  have hne' : ∀ k v, get ext k = some v → 0 < v.length := fun k v h => (hne k v h).1
  cases len with
  | none =>
    simp only [deallocFull]
    refine ⟨hs.rangeDeleteFrom _, ?_, ?_, ?_⟩
    · intro q j hj
      simp only [recByte, get_rangeDeleteFrom]
      constructor
      · rintro ⟨h1, -⟩; rw [if_pos h1]; simp [nth]
      · intro h; rw [if_neg (fun h1 => h ⟨h1, by simp⟩)]
    · rw [total_rangeDeleteFrom, extLen_eq]; omega
    · intro k v hk
      rw [get_rangeDeleteFrom] at hk
      split at hk
      · simp at hk
      · exact ⟨v, hk, hne' _ _ hk, Nat.le_refl _⟩
  | some l =>
    simp only [deallocFull]
    rw [base_eq]
    refine ⟨hs.rangeDelete _ _, ?_, ?_, ?_⟩
    · intro q j hj
      have hrs : 0 < rs := by omega
      simp only [recByte, get_rangeDelete, Option.some.injEq, forall_eq']
      have hiff : rs * q < rs * ((offset + l) / rs) ↔ q < (offset + l) / rs :=
        Nat.mul_lt_mul_left hrs
      constructor
      · rintro ⟨h1, h2⟩
        rw [if_pos ⟨h1, by have := hiff.2 h2; omega⟩]; simp [nth]
      · intro h
        rw [if_neg]
        rintro ⟨h1, h2⟩
        exact h ⟨h1, hiff.1 (by omega)⟩
    · rw [total_rangeDelete, extLen_eq]; omega
    · intro k v hk
      rw [get_rangeDelete] at hk
      split at hk
      · simp at hk
      · exact ⟨v, hk, hne' _ _ hk, Nat.le_refl _⟩

theorem dealloc_trans {rs : Nat} {e0 e1 e2 : OMap (List Byte)} {f1 f2 : Nat}
    {P1 P2 : Nat → Nat → Prop} (h1 : Dealloc rs e0 e1 f1 P1) (h2 : Dealloc rs e1 e2 f2 P2) :
    Dealloc rs e0 e2 (f1 + f2) (fun q j => P1 q j ∨ P2 q j) := by
  refine ⟨h2.sorted, ?_, ?_, ?_⟩
  · intro q j hj
    have a1 := h1.bytes q j hj
    have a2 := h2.bytes q j hj
    by_cases hp2 : P2 q j
    · exact ⟨fun _ => a2.1 hp2, fun h => absurd (Or.inr hp2) h⟩
    · rw [a2.2 hp2]
      exact ⟨fun h => a1.1 (h.resolve_right hp2), fun h => a1.2 (fun hp1 => h (Or.inl hp1))⟩
  · have := h1.space; have := h2.space; omega
  · intro k v hk
    obtain ⟨v1, hv1, h01, hl1⟩ := h2.shrink k v hk
    obtain ⟨v0, hv0, h00, hl0⟩ := h1.shrink k v1 hv1
    exact ⟨v0, hv0, h01, by omega⟩

theorem Dealloc.ne {rs : Nat} {e0 e1 : OMap (List Byte)} {f1 : Nat} {P1 : Nat → Nat → Prop}
    (h1 : Dealloc rs e0 e1 f1 P1)
    (hne : ∀ k v, get e0 k = some v → 0 < v.length ∧ v.length ≤ rs) :
    ∀ k v, get e1 k = some v → 0 < v.length ∧ v.length ≤ rs := by
  intro k v hk
  obtain ⟨v0, hv0, h0, hl⟩ := h1.shrink k v hk
  have := hne k v0 hv0
  omega

/-- `do_deallocate` clears exactly the bytes `[offset, offset+len)`. -/
theorem doDeallocate_spec {rs : Nat} {ext : OMap (List Byte)} (hrs : 0 < rs) (hs : Sorted ext)
    (hne : ∀ k v, get ext k = some v → 0 < v.length ∧ v.length ≤ rs)
    (offset : Nat) (len : Option Nat) :
    Dealloc rs ext (doDeallocate ext offset len rs).1 (doDeallocate ext offset len rs).2
      (fun q j => offset ≤ rs * q + j ∧ ∀ l, len = some l → rs * q + j < offset + l) := by
  have hL := dealloc_left hrs hs hne offset len
  have hR := dealloc_right hrs hL.sorted (hL.ne hne) offset len
  have hF := dealloc_full hR.sorted (hR.ne (hL.ne hne)) offset len
  have hT := dealloc_trans (dealloc_trans hL hR) hF
  simp only [doDeallocate]
  refine ⟨hT.sorted, ?_, ?_, hT.shrink⟩
  · intro q j hj
    have hb := hT.bytes q j hj
    have hiff : (offset ≤ rs * q + j ∧ ∀ l, len = some l → rs * q + j < offset + l) ↔
        (((offset % rs ≠ 0 ∧ q = offset / rs ∧ offset % rs ≤ j ∧
          ∀ l, len = some l → j < offset % rs + l) ∨
        (∃ l, len = some l ∧ (offset % rs = 0 ∨ (offset + l) / rs > offset / rs) ∧
          q = (offset + l) / rs ∧ j < (offset + l) % rs)) ∨
        (offset ≤ rs * q ∧ ∀ l, len = some l → q < (offset + l) / rs)) := by
      have h1 := Nat.div_add_mod offset rs
      have h2 := Nat.mod_lt offset hrs
      have hle := lex_le (rs := rs) (q := offset / rs) (a := q) (j := offset % rs) (r := j) h2 hj
      have hle0 := lex_le (rs := rs) (q := offset / rs) (a := q) (j := offset % rs) (r := 0) h2 hrs
      rw [h1] at hle hle0
      rw [Nat.add_zero] at hle0
      rw [hle, hle0]
      cases len with
      | none =>
        simp
        constructor
        · rintro (h | ⟨h, h'⟩)
          · exact Or.inr (Or.inl h)
          · by_cases hz : offset % rs = 0
            · exact Or.inr (Or.inr ⟨h, hz⟩)
            · exact Or.inl ⟨hz, h.symm, h'⟩
        · rintro (⟨h, h', h''⟩ | h | ⟨h, h'⟩)
          · exact Or.inr ⟨h'.symm, h''⟩
          · exact Or.inl h
          · exact Or.inr ⟨h, by omega⟩
      | some l =>
        have h3 := Nat.div_add_mod (offset + l) rs
        have h4 := Nat.mod_lt (offset + l) hrs
        have hlt := lex_lt (rs := rs) (q := q) (a := (offset + l) / rs) (j := j)
          (r := (offset + l) % rs) hj h4
        rw [h3] at hlt
        simp only [Option.some.injEq, forall_eq', exists_eq_left']
        rw [hlt]
        have hle2 := lex_le (rs := rs) (q := offset / rs) (a := (offset + l) / rs)
          (j := offset % rs) (r := (offset + l) % rs) h2 h4
        rw [h1, h3] at hle2
        have hle3 : offset / rs < (offset + l) / rs ∨
          offset / rs = (offset + l) / rs ∧ offset % rs ≤ (offset + l) % rs := hle2.1 (by omega)
        -- when both ends are in the same record, `l` is the difference of the remainders
        have hsame : offset / rs = (offset + l) / rs →
            (offset + l) % rs = offset % rs + l := by
          intro e; rw [← e] at h3; omega
        have hdiff : offset / rs < (offset + l) / rs → rs ≤ offset % rs + l := by
          intro hlt'
          have : rs * (offset / rs + 1) ≤ rs * ((offset + l) / rs) := Nat.mul_le_mul_left _ hlt'
          rw [Nat.mul_add] at this
          omega
        generalize offset / rs = a at *
        generalize offset % rs = r at *
        generalize (offset + l) / rs = b at *
        generalize (offset + l) % rs = s at *
        clear hb hT hF hR hL h1 h3 hle hle0 hlt hle2 hne hs
        rcases hle3 with hab | ⟨hab, hrsle⟩
        · have := hdiff hab; clear hsame hdiff
          omega
        · have := hsame hab; clear hsame hdiff
          omega
    rw [hiff]
    exact hb
  · have := hT.space; omega

theorem byteAt_dealloc {rs : Nat} {ext ext' : OMap (List Byte)} {freed : Nat}
    {P : Nat → Nat → Prop} (hrs : 0 < rs) (h : Dealloc rs ext ext' freed P) (o : Nat) :
    (P (o / rs) (o % rs) → byteAt ext' rs o = 0) ∧
    (¬ P (o / rs) (o % rs) → byteAt ext' rs o = byteAt ext rs o) :=
  h.bytes _ _ (Nat.mod_lt o hrs)

/-- Bytes at or past the end of a well-formed file are zero. -/
theorem byteAt_past {f : File} (h : WF f) {o : Nat} (ho : f.size ≤ o) :
    byteAt f.ext f.rs o = 0 := by
  simp only [byteAt, recByte]
  cases hg : get f.ext (f.rs * (o / f.rs)) with
  | none => simp [nth]
  | some v =>
    have := h.recs _ _ hg
    have h1 := Nat.div_add_mod o f.rs
    simp only [Option.getD_some]
    exact nth_of_ge (by omega)

theorem deallocate_spec {f : File} (h : WF f) (offset len : Nat) :
    WF (deallocate f offset len) ∧ (deallocate f offset len).size = f.size ∧
    (deallocate f offset len).rs = f.rs ∧
    ∀ o, o < f.size → byteAt (deallocate f offset len).ext f.rs o =
      if offset ≤ o ∧ o < offset + len then 0 else byteAt f.ext f.rs o := by
  simp only [deallocate]
  split
  · rename_i hpos
    have hD := doDeallocate_spec h.rs_pos h.sorted
      (fun k v hk => ⟨(h.recs k v hk).2.1, (h.recs k v hk).2.2.1⟩)
      (min f.size offset) (some (min (f.size - min f.size offset) len))
    refine ⟨⟨h.rs_pos, hD.sorted, ?_, ?_⟩, rfl, rfl, ?_⟩
    · intro k v hk
      obtain ⟨v', hv', h0, hl⟩ := hD.shrink k v hk
      have := h.recs k v' hv'
      exact ⟨this.1, h0, by simp only; omega, by simp only; omega⟩
    · have hsp := hD.space
      have := h.space
      have e1 := extLen_eq f.ext
      have e2 := extLen_eq (doDeallocate f.ext (min f.size offset)
        (some (min (f.size - min f.size offset) len)) f.rs).1
      simp only
      omega
    · intro o ho
      have hb := byteAt_dealloc h.rs_pos hD o
      have h1 := Nat.div_add_mod o f.rs
      simp only [Option.some.injEq, forall_eq', h1] at hb
      by_cases hc : offset ≤ o ∧ o < offset + len
      · rw [if_pos hc]; exact hb.1 (by omega)
      · rw [if_neg hc]; exact hb.2 (by omega)
  · rename_i hz
    refine ⟨h, rfl, rfl, ?_⟩
    intro o ho
    rw [if_neg (by omega)]

theorem setSize_spec {f : File} (h : WF f) (n : Nat) :
    WF (setSize f n) ∧ (setSize f n).size = n ∧ (setSize f n).rs = f.rs ∧
    ∀ o, byteAt (setSize f n).ext f.rs o = if o < n then byteAt f.ext f.rs o else 0 := by
  simp only [setSize]
  split
  · rename_i hlt
    have hD := doDeallocate_spec h.rs_pos h.sorted
      (fun k v hk => ⟨(h.recs k v hk).2.1, (h.recs k v hk).2.2.1⟩) n none
    refine ⟨⟨h.rs_pos, hD.sorted, ?_, ?_⟩, rfl, rfl, ?_⟩
    · intro k v hk
      obtain ⟨v', hv', h0, hl⟩ := hD.shrink k v hk
      have hrec := h.recs k v' hv'
      refine ⟨hrec.1, h0, by simp only; omega, ?_⟩
      -- an extent reaching past `n` would contain cleared bytes only if it were shorter
      simp only
      obtain ⟨q, rfl⟩ := hrec.1
      have hk' : get (doDeallocate f.ext n none f.rs).1 (f.rs * q) = some v := hk
      clear hD hk
      -- direct argument on the three parts
      simp only [doDeallocate, deallocRight, deallocFull] at hk'
      rw [get_rangeDeleteFrom] at hk'
      split at hk'
      · simp at hk'
      rename_i hkn
      have hrs := h.rs_pos
      have hr := Nat.mod_lt n hrs
      have hn := Nat.div_add_mod n f.rs
      simp only [deallocLeft] at hk'
      split at hk'
      · rename_i hz
        rw [base_eq] at hk'
        by_cases hq : q = n / f.rs
        · subst hq
          cases hg : get f.ext (f.rs * (n / f.rs)) with
          | none => rw [hg] at hk'; simp [get_remove] at hk'
          | some b =>
            rw [hg] at hk'
            dsimp only at hk'
            have hb := h.recs _ _ hg
            split at hk'
            · rw [get_insert, if_pos rfl] at hk'; simp at hk'; subst hk'; omega
            · split at hk'
              · rw [get_insert, if_pos rfl] at hk'; simp at hk'; subst hk'
                simp; omega
              · simp only [leftLen] at *; omega
        · have hlt2 : q < n / f.rs := by
            have := (lex_lt (rs := f.rs) (q := q) (a := n / f.rs) (j := 0) (r := n % f.rs) hrs hr).1
              (by omega)
            omega
          have : f.rs * (q + 1) ≤ f.rs * (n / f.rs) := Nat.mul_le_mul_left _ hlt2
          rw [Nat.mul_add] at this
          omega
      · rename_i hz
        have hlt2 : q < n / f.rs := by
          have := (lex_lt (rs := f.rs) (q := q) (a := n / f.rs) (j := 0) (r := n % f.rs) hrs hr).1
            (by omega)
          omega
        have : f.rs * (q + 1) ≤ f.rs * (n / f.rs) := Nat.mul_le_mul_left _ hlt2
        rw [Nat.mul_add] at this
        omega
    · have hsp := hD.space
      have := h.space
      have e1 := extLen_eq f.ext
      have e2 := extLen_eq (doDeallocate f.ext n none f.rs).1
      simp only
      omega
    · intro o
      have hb := byteAt_dealloc h.rs_pos hD o
      have h1 := Nat.div_add_mod o f.rs
      rw [h1] at hb
      by_cases hc : o < n
      · rw [if_pos hc]; exact hb.2 (by omega)
      · rw [if_neg hc]; exact hb.1 ⟨by omega, by simp⟩
  · rename_i hge
    refine ⟨⟨h.rs_pos, h.sorted, ?_, h.space⟩, rfl, rfl, ?_⟩
    · intro k v hk
      have := h.recs k v hk
      exact ⟨this.1, this.2.1, this.2.2.1, by simp only; omega⟩
    · intro o
      split
      · rfl
      · exact byteAt_past h (by omega)

end Verif.File
