import Verif.File.Model

/-! Helper lemmas for the file-data properties. -/

namespace Verif.File
open OMap

/-! ### Arithmetic with records -/

theorem base_eq (o rs : Nat) : o - o % rs = rs * (o / rs) := by
  have := Nat.div_add_mod o rs; omega

theorem lex_lt {rs q a j r : Nat} (hj : j < rs) (hr : r < rs) :
    rs * q + j < rs * a + r ↔ q < a ∨ (q = a ∧ j < r) := by
  rcases Nat.lt_trichotomy q a with h | h | h
  · have : rs * (q + 1) ≤ rs * a := Nat.mul_le_mul_left _ h
    rw [Nat.mul_add] at this
    constructor
    · intro _; exact Or.inl h
    · intro _; omega
  · subst h; omega
  · have : rs * (a + 1) ≤ rs * q := Nat.mul_le_mul_left _ h
    rw [Nat.mul_add] at this
    constructor
    · intro _; omega
    · intro _; omega

theorem lex_le {rs q a j r : Nat} (hj : j < rs) (hr : r < rs) :
    rs * q + j ≤ rs * a + r ↔ q < a ∨ (q = a ∧ j ≤ r) := by
  have := lex_lt (rs := rs) (q := a) (a := q) (j := r) (r := j) hr hj
  omega

theorem divmod_of {rs q j : Nat} (hj : j < rs) :
    (rs * q + j) / rs = q ∧ (rs * q + j) % rs = j := by
  have h0 : 0 < rs := by omega
  constructor
  · rw [Nat.mul_add_div h0, Nat.div_eq_of_lt hj]; omega
  · rw [Nat.mul_add_mod, Nat.mod_eq_of_lt hj]

theorem mul_left_cancel' {rs a b : Nat} (h0 : 0 < rs) (h : rs * a = rs * b) : a = b :=
  Nat.eq_of_mul_eq_mul_left h0 h

/-! ### Bytes of a file -/

/-- Byte `j` of a buffer, zero beyond its end. -/
def nth (b : List Byte) (j : Nat) : Byte := b[j]?.getD 0

/-- Byte `j` of record `q`. -/
def recByte (ext : OMap (List Byte)) (rs q j : Nat) : Byte :=
  nth ((get ext (rs * q)).getD []) j

/-- Byte at file offset `o`, ignoring the file size. -/
def byteAt (ext : OMap (List Byte)) (rs o : Nat) : Byte := recByte ext rs (o / rs) (o % rs)

theorem nth_of_ge {b : List Byte} {j : Nat} (h : b.length ≤ j) : nth b j = 0 := by
  simp [nth, List.getElem?_eq_none h]

theorem nth_replicate (n j : Nat) : nth (List.replicate n 0) j = 0 := by
  simp only [nth, List.getElem?_replicate]; split <;> rfl

theorem nth_append (a b : List Byte) (j : Nat) :
    nth (a ++ b) j = if j < a.length then nth a j else nth b (j - a.length) := by
  simp only [nth, List.getElem?_append]; split <;> rfl

theorem nth_take (a : List Byte) (n j : Nat) :
    nth (a.take n) j = if j < n then nth a j else 0 := by
  simp only [nth, List.getElem?_take]; split <;> rfl

theorem nth_drop (a : List Byte) (n j : Nat) : nth (a.drop n) j = nth a (n + j) := by
  simp only [nth, List.getElem?_drop]

theorem nth_slice (d : List Byte) (a b j : Nat) :
    nth (slice d a b) j = if j < b - a then nth d (a + j) else 0 := by
  rw [slice, nth_take, nth_drop]

theorem length_overlayAt {b d : List Byte} {o : Nat} (h : o + d.length ≤ b.length) :
    (overlayAt b o d).length = b.length := by
  simp [overlayAt]; omega

theorem nth_overlayAt {b d : List Byte} {o j : Nat} (h : o + d.length ≤ b.length) :
    nth (overlayAt b o d) j = if o ≤ j ∧ j < o + d.length then nth d (j - o) else nth b j := by
  have h1 : (b.take o).length = o := by simp; omega
  simp only [overlayAt]
  rw [nth_append, nth_append, nth_take, nth_drop]
  simp only [List.length_append, h1]
  by_cases h2 : j < o
  · rw [if_pos (by omega), if_pos h2, if_pos h2, if_neg (by omega)]
  · by_cases h3 : j < o + d.length
    · rw [if_pos h3, if_neg h2, if_pos (by omega)]
    · rw [if_neg h3, if_neg (by omega)]; congr 1; omega

theorem nth_resize (b : List Byte) (n j : Nat) : nth (resize b n) j = nth b j := by
  simp only [resize]
  rw [nth_append]
  split
  · rfl
  · rw [nth_replicate, nth_of_ge (by omega)]

theorem length_resize {b : List Byte} {n : Nat} (h : b.length ≤ n) : (resize b n).length = n := by
  simp [resize]; omega

/-! ### Well-formed files -/

structure WF (f : File) : Prop where
  rs_pos : 0 < f.rs
  sorted : Sorted f.ext
  /-- extents start on record boundaries, are non-empty, at most one record
  long, and do not run past the end of the file -/
  recs : ∀ (k : Nat) (v : List Byte), get f.ext k = some v →
    (∃ q, k = f.rs * q) ∧ 0 < v.length ∧ v.length ≤ f.rs ∧ k + v.length ≤ f.size
  space : f.bytes = extLen f.ext

theorem extLen_eq (m : OMap (List Byte)) :
    (extLen m : Int) = total (fun v => (v.length : Int)) m := by
  induction m with
  | nil => rfl
  | cons e m ih =>
    simp only [extLen, total, List.map_cons, List.sum_cons] at *
    omega

theorem wf_empty {rs : Nat} (h : 0 < rs) : WF (File.empty rs) := by
  refine ⟨h, sorted_nil, ?_, rfl⟩
  intro k v hk; simp [File.empty] at hk

/-! ### Chunks -/

/-- Offset of record `i`'s data within the record. -/
def into (o0 i : Nat) : Nat := if i = 0 then o0 else 0

theorem nrecs_bounds {o0 rs len i : Nat} (h0 : o0 < rs) (hi : i < nrecs o0 rs len) :
    i * rs < o0 + len := by
  have hrs : 0 < rs := by omega
  simp only [nrecs, divCeil, Nat.div_eq_of_lt h0, Nat.sub_zero] at hi
  have : (i + 1) * rs ≤ o0 + len + rs - 1 := by
    rw [Nat.lt_iff_add_one_le, Nat.le_div_iff_mul_le hrs] at hi; exact hi
  rw [Nat.add_mul] at this; omega

theorem lt_nrecs {o0 rs len i : Nat} (h0 : o0 < rs) (hi : i * rs < o0 + len) :
    i < nrecs o0 rs len := by
  have hrs : 0 < rs := by omega
  simp only [nrecs, divCeil, Nat.div_eq_of_lt h0, Nat.sub_zero]
  rw [Nat.lt_iff_add_one_le, Nat.le_div_iff_mul_le hrs, Nat.add_mul]
  omega

theorem chunk_eq {data : List Byte} {o0 rs i : Nat} (h0 : o0 < rs)
    (hi : i < nrecs o0 rs data.length) :
    chunk data o0 rs i = (data.drop (i * rs - o0)).take (rs - into o0 i) := by
  have hb := nrecs_bounds h0 hi
  simp only [chunk, into]
  by_cases hz : i = 0
  · subst hz
    simp [slice]
    omega
  · rw [if_neg hz, if_neg hz]
    have hge : rs ≤ i * rs := Nat.le_mul_of_pos_left rs (by omega)
    have hm : (i - 1) * rs = i * rs - rs := by rw [Nat.sub_mul, Nat.one_mul]
    have hlen : min data.length (rs - o0) = rs - o0 := by omega
    rw [hlen]
    have ha : rs - o0 + (i - 1) * rs = i * rs - o0 := by omega
    rw [ha]
    split
    · rename_i hl
      -- last record
      have hnot : ¬ (i + 1 < nrecs o0 rs data.length) := by omega
      have : ¬ ((i + 1) * rs < o0 + data.length) := fun h => hnot (lt_nrecs h0 h)
      rw [Nat.add_mul] at this
      rw [slice, List.take_eq_take_iff]
      simp only [List.length_drop]; omega
    · rw [slice]; congr 1; omega

theorem length_chunk {data : List Byte} {o0 rs i : Nat} (h0 : o0 < rs)
    (hi : i < nrecs o0 rs data.length) :
    (chunk data o0 rs i).length = min (rs - into o0 i) (data.length - (i * rs - o0)) := by
  rw [chunk_eq h0 hi]; simp

/-! ### One record -/

/-- The buffer `write_record` stores, given the record's old contents. -/
def recBuf (junk : Nat → Byte) (rs o0 i : Nat) (d : List Byte) (old : Option (List Byte)) :
    List Byte :=
  if d.length < rs then
    let base := match old with
      | none => overlayAt (uninit junk (d.length + into o0 i)) 0 (List.replicate (into o0 i) 0)
      | some b => b
    overlayAt (resize base (max (into o0 i + d.length) base.length)) (into o0 i) d
  else d

theorem off_into (offset rs i : Nat) :
    (if i = 0 then offset - (offset - offset % rs) else 0) = into (offset % rs) i := by
  have := Nat.mod_le offset rs
  simp only [into]; split <;> omega

theorem writeRecord_eq {junk : Nat → Byte} {ext : OMap (List Byte)} (hs : Sorted ext)
    (rs offset i : Nat) (d : List Byte) :
    writeRecord junk ext rs offset i d =
      (ext.insert (rs * (offset / rs + i)) (recBuf junk rs (offset % rs) i d
          (get ext (rs * (offset / rs + i)))),
       ((recBuf junk rs (offset % rs) i d (get ext (rs * (offset / rs + i)))).length : Int) -
          ((get ext (rs * (offset / rs + i))).map (fun b => (b.length : Int))).getD 0) := by
  have hk : offset - offset % rs + i * rs = rs * (offset / rs + i) := by
    rw [base_eq, Nat.mul_add, Nat.mul_comm i rs]
  simp only [writeRecord, recBuf, hk, off_into]
  split
  · rw [insert_remove hs]
    cases hg : get ext (rs * (offset / rs + i)) <;> simp
  · cases hg : get ext (rs * (offset / rs + i)) <;> simp

theorem length_uninit (junk : Nat → Byte) (n : Nat) : (uninit junk n).length = n := by
  simp [uninit]

/-- What a written record contains and how long it is. -/
theorem recBuf_spec {junk : Nat → Byte} {rs o0 i : Nat} {d : List Byte}
    {old : Option (List Byte)} (hd : into o0 i + d.length ≤ rs)
    (hold : ∀ b, old = some b → b.length ≤ rs) :
    (recBuf junk rs o0 i d old).length = max (into o0 i + d.length) ((old.getD []).length) ∧
    ∀ j, nth (recBuf junk rs o0 i d old) j =
      if into o0 i ≤ j ∧ j < into o0 i + d.length then nth d (j - into o0 i)
      else nth (old.getD []) j := by
  simp only [recBuf]
  split
  · rename_i hlt
    cases old with
    | none =>
      dsimp only
      have h1 : (overlayAt (uninit junk (d.length + into o0 i)) 0
          (List.replicate (into o0 i) 0)).length = d.length + into o0 i := by
        rw [length_overlayAt] <;> simp [length_uninit]
      have h2 := length_resize (b := overlayAt (uninit junk (d.length + into o0 i)) 0
          (List.replicate (into o0 i) 0))
          (n := max (into o0 i + d.length) (overlayAt (uninit junk (d.length + into o0 i)) 0
          (List.replicate (into o0 i) 0)).length) (by omega)
      constructor
      · rw [length_overlayAt (by omega), h2, h1]; simp; omega
      · intro j
        rw [nth_overlayAt (by omega), nth_resize]
        split
        · rfl
        · rename_i hj
          by_cases hjs : j < into o0 i
          · rw [nth_overlayAt (by simp [length_uninit])]
            rw [if_pos (by simp; omega), nth_replicate]; simp [nth]
          · rw [nth_of_ge (by omega)]; simp [nth]
    | some b =>
      dsimp only
      have h2 := length_resize (b := b) (n := max (into o0 i + d.length) b.length) (by omega)
      constructor
      · rw [length_overlayAt (by omega), h2]; simp
      · intro j
        rw [nth_overlayAt (by omega), nth_resize]; simp
  · rename_i hge
    have hz : into o0 i = 0 := by omega
    have hl : d.length = rs := by omega
    have holdl : (old.getD []).length ≤ rs := by
      cases old with
      | none => simp
      | some b => exact hold b rfl
    rw [hz]
    refine ⟨by omega, ?_⟩
    intro j
    split
    · rfl
    · rename_i hj
      rw [nth_of_ge (by omega), nth_of_ge (by omega)]

/-! ### All records of a write -/

theorem writeRecords_spec {junk : Nat → Byte} {rs offset : Nat} {data : List Byte}
    (hrs : 0 < rs) (is : List Nat) :
    ∀ (ext : OMap (List Byte)) (d0 : Int), Sorted ext → is.Nodup →
      let r := writeRecords junk rs offset data is (ext, d0)
      Sorted r.1 ∧
      r.2 - d0 = total (fun v => (v.length : Int)) r.1 - total (fun v => (v.length : Int)) ext ∧
      (∀ i ∈ is, get r.1 (rs * (offset / rs + i)) =
        some (recBuf junk rs (offset % rs) i (chunk data (offset % rs) rs i)
          (get ext (rs * (offset / rs + i))))) ∧
      (∀ k, (∀ i ∈ is, k ≠ rs * (offset / rs + i)) → get r.1 k = get ext k) := by
  induction is with
  | nil => intro ext d0 hs _; simp [writeRecords, hs]
  | cons i is ih =>
    intro ext d0 hs hnd
    rw [List.nodup_cons] at hnd
    simp only [writeRecords]
    rw [writeRecord_eq hs]
    simp only
    generalize hbuf : recBuf junk rs (offset % rs) i (chunk data (offset % rs) rs i)
      (get ext (rs * (offset / rs + i))) = buf
    have hs1 := hs.insert (rs * (offset / rs + i)) buf
    obtain ⟨h1, h2, h3, h4⟩ := ih _ (d0 + ((buf.length : Int) -
      ((get ext (rs * (offset / rs + i))).map (fun b => (b.length : Int))).getD 0)) hs1 hnd.2
    have hne : ∀ j ∈ is, rs * (offset / rs + j) ≠ rs * (offset / rs + i) := by
      intro j hj e
      have := mul_left_cancel' hrs e
      have : j = i := by omega
      subst this; exact hnd.1 hj
    refine ⟨h1, ?_, ?_, ?_⟩
    · rw [total_insert hs] at h2
      omega
    · intro j hj
      rw [List.mem_cons] at hj
      rcases hj with rfl | hj
      · rw [h4 _ (fun l hl => (hne l hl).symm), get_insert, if_pos rfl, hbuf]
      · rw [h3 j hj, get_insert, if_neg (hne j hj)]
    · intro k hk
      rw [h4 k (fun l hl => hk l (List.mem_cons_of_mem _ hl)), get_insert,
        if_neg (hk i List.mem_cons_self)]

end Verif.File
