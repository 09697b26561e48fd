import Verif.File.Steps

/-!
# Properties of file data: C44, C45, C46

`Step`/`Steps` (Steps.lean) say how user operations act on the model;
`Spec` (Spec.lean) says what a byte array is.
-/

namespace Verif.File
open OMap

/-! ## C44: a file is an array of bytes -/

/-- For every sequence of writes, truncations and hole punches on a new file,
with any record size, whatever order the records of each write are processed
in and whatever is in uninitialised memory: the file's size is the length of
the byte array, and every read, at any offset and of any length, succeeds and
returns exactly the array's bytes.

Partial: writes of zero bytes are excluded (see
`C44_empty_write_extends_file`). -/
theorem C44_file_is_byte_array_partial {rs : Nat} {ops : List Spec.Op} {f : File}
    (hrs : 0 < rs) (h : Steps (File.empty rs) ops f) (hne : ∀ op ∈ ops, NotEmptyWrite op) :
    f.size = (Spec.contents ops).length ∧
    ∀ offset n, read f offset n = some (Spec.read (Spec.contents ops) offset n) := by
  have := holds_steps h [] (wf_empty hrs) hne ⟨rfl, by intro o; simp [byteAt, recByte, File.empty, nth]⟩
  exact ⟨this.2.1, holds_read this.1 this.2⟩

/-- No read ever panics, not even after a zero-byte write. -/
theorem C44_read_never_panics {rs : Nat} {ops : List Spec.Op} {f : File}
    (hrs : 0 < rs) (h : Steps (File.empty rs) ops f) (offset n : Nat) :
    read f offset n ≠ none := by
  rw [read_bytes (steps_wf h (wf_empty hrs)).1]; simp

/-- The violation: a zero-byte write beyond the end of a file makes it longer. -/
theorem C44_empty_write_extends_file :
    ∃ f, Steps (File.empty 4) [.write 6 []] f ∧ f.size ≠ (Spec.contents [.write 6 []]).length := by
  refine ⟨_, .cons (.write _ 6 [] (fun _ => 0) _ (List.Perm.refl _)) (.nil _), ?_⟩
  decide

/-- Non-vacuity: with 4-byte records, two overlapping unaligned writes (the
second processed last record first), a punch and two truncations. -/
example : ∃ f, Steps (File.empty 4)
    [.write 3 [1, 2, 3, 4, 5, 6], .write 5 [7, 8, 9, 10, 11, 12, 13], .punch 4 3, .truncate 10,
     .truncate 12] f ∧
    (∀ op ∈ [Spec.Op.write 3 [1, 2, 3, 4, 5, 6], .write 5 [7, 8, 9, 10, 11, 12, 13], .punch 4 3,
     .truncate 10, .truncate 12], NotEmptyWrite op) ∧
    read f 2 100 = some [0, 1, 0, 0, 0, 9, 10, 11, 0, 0] := by
  refine ⟨_, .cons (.write _ _ _ (fun _ => 77) _ (List.Perm.refl _))
    (.cons (.write _ _ _ (fun _ => 78) [1, 0] (by decide))
      (.cons (.punch _ _ _) (.cons (.truncate _ _) (.cons (.truncate _ _) (.nil _))))), ?_, ?_⟩
  · simp [NotEmptyWrite]
  · set_option maxRecDepth 4000 in decide +kernel

/-! ## C45: the space accounted to a file -/

/-- After every sequence of operations the inode's byte count is exactly the
sum of the lengths of the stored extents, and extents never run past the end of
the file nor overlap. -/
theorem C45_bytes_is_sum_of_extents {rs : Nat} {ops : List Spec.Op} {f : File}
    (hrs : 0 < rs) (h : Steps (File.empty rs) ops f) :
    f.bytes = (f.ext.map fun e => e.2.length).sum ∧
    (∀ k v, (k, v) ∈ f.ext → 0 < v.length ∧ k + v.length ≤ f.size) ∧
    f.ext.Pairwise fun e1 e2 => e1.1 + e1.2.length ≤ e2.1 := by
  have hw := (steps_wf h (wf_empty hrs)).1
  refine ⟨hw.space, ?_, ?_⟩
  · intro k v hm
    have := hw.recs k v (get_of_mem hw.sorted hm)
    exact ⟨this.2.1, this.2.2.2⟩
  · refine List.Pairwise.imp_of_mem ?_ hw.sorted
    intro a b ha hb hab
    have h1 := get_of_mem hw.sorted (k := a.1) (v := a.2) ha
    have h2 := get_of_mem hw.sorted (k := b.1) (v := b.2) hb
    have := ext_order hw h1 h2 hab
    have := (hw.recs _ _ h1).2.2.1
    omega

/-- Truncating to nothing, or punching out the whole file, accounts for no
space at all. -/
theorem C45_empty_file_has_no_space {rs : Nat} {ops : List Spec.Op} {f f' : File}
    (hrs : 0 < rs) (h : Steps (File.empty rs) ops f) (h0 : Step f (.truncate 0) f') :
    f'.bytes = 0 ∧ f'.ext = [] := by
  have hw := (steps_wf h (wf_empty hrs)).1
  have hw' := (step_wf h0 hw).1
  have hz : f'.size = 0 := by cases h0; exact (setSize_spec hw 0).2.1
  have he : f'.ext = [] := by
    cases hx : f'.ext with
    | nil => rfl
    | cons e m =>
      have := hw'.recs e.1 e.2 (by simp [hx, OMap.get])
      omega
  exact ⟨by rw [hw'.space, he]; rfl, he⟩

/-- Punching a hole gives space back: no extent that lies wholly inside the
punched range is left, and the space accounted never grows. -/
theorem C45_punch_frees_space {rs : Nat} {ops : List Spec.Op} {f f' : File}
    (hrs : 0 < rs) (h : Steps (File.empty rs) ops f) (offset len : Nat) (hlen : 0 < len)
    (h0 : Step f (.punch offset len) f') :
    f'.bytes ≤ f.bytes ∧
    ∀ e ∈ f'.ext, ¬ (offset ≤ e.1 ∧ e.1 + e.2.length ≤ offset + len) := by
  have hw := (steps_wf h (wf_empty hrs)).1
  have hw' := (step_wf h0 hw).1
  cases h0
  simp only [deallocate] at hw' ⊢
  split
  · rename_i hpos
    rw [if_pos hpos] at hw'
    refine ⟨Nat.sub_le _ _, ?_⟩
    rintro e he ⟨h1, h2⟩
    have hk := get_of_mem hw'.sorted (k := e.1) (v := e.2) he
    have hsz := (hw'.recs _ _ hk).2.2.2
    simp only at hsz hk
    exact doDeallocate_frees hw.rs_pos
      (fun k v hg => ⟨(hw.recs k v hg).1, (hw.recs k v hg).2.1, (hw.recs k v hg).2.2.1⟩)
      _ _ e.1 e.2 hk (by omega) (by omega)
  · rename_i hz
    refine ⟨Nat.le_refl _, ?_⟩
    rintro e he ⟨h1, h2⟩
    have hk := hw.recs _ _ (get_of_mem hw.sorted (k := e.1) (v := e.2) he)
    omega

/-- Non-vacuity: a file with a hole; only two partial records are stored. -/
example : ∃ f, Steps (File.empty 4) [.write 2 [1], .write 9 [5, 6]] f ∧ f.bytes = 6 ∧ f.size = 11 := by
  refine ⟨_, .cons (.write _ _ _ (fun _ => 77) _ (List.Perm.refl _))
    (.cons (.write _ _ _ (fun _ => 78) _ (List.Perm.refl _)) (.nil _)), ?_⟩
  decide

/-! ## C46: seeking for data and holes -/

/-- Offset `o` holds data: some stored extent covers it. -/
def HasData (f : File) (o : Nat) : Prop := ∃ e ∈ f.ext, e.1 ≤ o ∧ o < e.1 + e.2.length

theorem inData_iff {f : File} (h : WF f) (o : Nat) : InData f o ↔ HasData f o := by
  constructor
  · rintro ⟨k, v, hk, h1⟩; exact ⟨(k, v), mem_of_get hk, h1⟩
  · rintro ⟨e, he, h1⟩; exact ⟨e.1, e.2, get_of_mem h.sorted he, h1⟩

/-- A byte of the file that is not data reads as zero. -/
theorem C46_hole_reads_zero {rs : Nat} {ops : List Spec.Op} {f : File}
    (hrs : 0 < rs) (h : Steps (File.empty rs) ops f) (o : Nat) (ho : o < f.size)
    (hh : ¬ HasData f o) : read f o 1 = some [0] := by
  have hw := (steps_wf h (wf_empty hrs)).1
  rw [← inData_iff hw] at hh
  rw [read_bytes hw, show min 1 (f.size - o) = 1 by omega]
  have : byteAt f.ext f.rs o = 0 := by
    simp only [byteAt, recByte]
    cases hg : f.ext.get (f.rs * (o / f.rs)) with
    | none => simp [nth]
    | some v =>
      apply nth_of_ge
      simp only [Option.getD_some]
      apply Classical.byContradiction
      intro hlt
      have := Nat.div_add_mod o f.rs
      exact hh ⟨_, v, hg, by omega, by omega⟩
  simp [bytesOf, this]

/-- SEEK_DATA: in every reachable file and for every offset, the result is the
least offset at or after the given one that holds data; it is ENXIO exactly
when there is no such offset. -/
theorem C46_seek_data {rs : Nat} {ops : List Spec.Op} {f : File}
    (hrs : 0 < rs) (h : Steps (File.empty rs) ops f) (offset : Nat) :
    (∀ r, lseek f offset .data = some r ↔
      offset ≤ r ∧ HasData f r ∧ ∀ o, offset ≤ o → o < r → ¬ HasData f o) ∧
    (lseek f offset .data = none ↔ ∀ o, offset ≤ o → ¬ HasData f o) := by
  have hw := (steps_wf h (wf_empty hrs)).1
  have hrs' := (steps_wf h (wf_empty hrs)).2
  simp only [← inData_iff hw]
  simp only [lseek]
  by_cases hgt : offset > f.size
  · simp only [if_pos hgt]
    have hno : ∀ o, offset ≤ o → ¬ InData f o := by
      rintro o ho ⟨k, v, hk, h1, h2⟩
      have := (hw.recs k v hk).2.2.2
      omega
    refine ⟨fun r => ⟨by simp, fun ⟨h1, h2, _⟩ => absurd h2 (hno r h1)⟩, by simpa using hno⟩
  · simp only [if_neg hgt]
    have hl := lseekLoop_data hw offset _ (covers_base hw offset)
    revert hl
    cases lseekLoop .data (f.ext.rangeFrom (offset - offset % f.rs)) offset none with
    | none =>
      intro hl
      refine ⟨fun r => ⟨by simp, fun ⟨h1, h2, _⟩ => absurd h2 (hl r h1)⟩, by simpa using hl⟩
    | some x =>
      intro hl
      simp only at hl
      constructor
      · intro r
        constructor
        · intro he; simp at he; subst he; exact hl
        · rintro ⟨h1, h2, h3⟩
          by_cases hxr : x < r
          · exact absurd hl.2.1 (h3 x hl.1 hxr)
          · by_cases hrx : r < x
            · exact absurd h2 (hl.2.2 r h1 hrx)
            · congr 1; omega
      · simp only [reduceCtorEq, false_iff]
        intro h1; exact h1 x hl.1 hl.2.1

/-- SEEK_HOLE: if there is still data at or after the offset, the result is
the least offset at or after the given one that holds no data (the end of the
file counts as a hole).

Partial: inside the last hole the code answers with the end of the file rather
than the given offset; see `C46_seek_hole_in_final_hole` and
`C46_seek_hole_skips_final_hole`. -/
theorem C46_seek_hole_partial {rs : Nat} {ops : List Spec.Op} {f : File}
    (hrs : 0 < rs) (h : Steps (File.empty rs) ops f) (offset : Nat)
    (hd : ∃ o, offset ≤ o ∧ HasData f o) (r : Nat) :
    lseek f offset .hole = some r ↔
      offset ≤ r ∧ ¬ HasData f r ∧ ∀ o, offset ≤ o → o < r → HasData f o := by
  have hw := (steps_wf h (wf_empty hrs)).1
  simp only [← inData_iff hw] at *
  obtain ⟨o, ho, hod⟩ := hd
  have hsz : ¬ offset > f.size := by
    obtain ⟨k, v, hk, h1, h2⟩ := hod
    have := (hw.recs k v hk).2.2.2
    omega
  simp only [lseek, if_neg hsz]
  have hl := lseekLoop_hole hw _ offset offset (some f.size) (covers_base hw offset)
    (Nat.le_refl _) (by intros; omega) (by intros; omega)
  revert hl
  cases lseekLoop .hole (f.ext.rangeFrom (offset - offset % f.rs)) offset (some f.size) with
  | none => simp
  | some x =>
    rintro (⟨h1, h2, h3⟩ | ⟨_, _, h3⟩)
    · constructor
      · intro he; simp at he; subst he; exact ⟨h1, h2, h3⟩
      · rintro ⟨g1, g2, g3⟩
        by_cases hxr : x < r
        · exact absurd (g3 x h1 hxr) h2
        · by_cases hrx : r < x
          · exact absurd (h3 r g1 hrx) g2
          · congr 1; omega
    · exact absurd hod (h3 o ho)

/-- With no data left, SEEK_HOLE answers with the end of the file, and with
ENXIO only beyond it. -/
theorem C46_seek_hole_in_final_hole {rs : Nat} {ops : List Spec.Op} {f : File}
    (hrs : 0 < rs) (h : Steps (File.empty rs) ops f) (offset : Nat)
    (hd : ∀ o, offset ≤ o → ¬ HasData f o) :
    lseek f offset .hole = if offset ≤ f.size then some f.size else none := by
  have hw := (steps_wf h (wf_empty hrs)).1
  simp only [← inData_iff hw] at *
  simp only [lseek]
  by_cases hsz : offset > f.size
  · rw [if_pos hsz, if_neg (by omega)]
  · simp only [if_neg hsz]
    rw [if_pos (by omega)]
    have hall : ∀ e ∈ f.ext.rangeFrom (offset - offset % f.rs), e.1 + e.2.length ≤ offset := by
      intro e he
      have hk := (covers_base hw offset).2.1 e.1 e.2 he
      apply Classical.byContradiction
      intro hgt
      have hpos := (hw.recs _ _ hk).2.1
      by_cases hle : e.1 ≤ offset
      · exact hd offset (Nat.le_refl _) ⟨e.1, e.2, hk, hle, by omega⟩
      · exact hd e.1 (by omega) ⟨e.1, e.2, hk, Nat.le_refl _, by omega⟩
    generalize f.ext.rangeFrom (offset - offset % f.rs) = m at hall
    induction m with
    | nil => rfl
    | cons e m ih =>
      simp only [lseekLoop]
      rw [if_pos (hall e (by simp))]
      exact ih (fun e' he' => hall e' (by simp [he']))

/-- The violation: a file whose last ten bytes are a hole.  Asked for the next
hole at an offset inside it, the code answers with the end of the file, though
the offset itself already lies in a hole. -/
theorem C46_seek_hole_skips_final_hole :
    ∃ f, Steps (File.empty 4) [.write 0 [1, 2, 3], .truncate 13] f ∧
      (∀ o, 5 ≤ o → ¬ HasData f o) ∧ lseek f 5 .hole = some 13 := by
  refine ⟨_, .cons (.write _ _ _ (fun _ => 0) _ (List.Perm.refl _))
    (.cons (.truncate _ _) (.nil _)), ?_, by decide⟩
  rintro o ho ⟨e, he, h1, h2⟩
  have : e = (0, [1, 2, 3]) := by
    have hx : (setSize (write (fun _ => 0) (writeOrder (File.empty 4) 0 [1, 2, 3])
      (File.empty 4) 0 [1, 2, 3]) 13).ext = [(0, [1, 2, 3])] := by decide
    rw [hx] at he; simpa using he
  subst this
  simp at h2; omega

/-- Non-vacuity of `C46_seek_hole_partial` and `C46_seek_data`: data, hole, data. -/
example : ∃ f, Steps (File.empty 4) [.write 0 [1, 2, 3, 4, 5], .write 9 [1]] f ∧
    lseek f 2 .hole = some 5 ∧ lseek f 5 .data = some 8 ∧ lseek f 9 .hole = some 10 ∧
    lseek f 10 .data = none ∧ (∃ o, 2 ≤ o ∧ HasData f o) := by
  refine ⟨_, .cons (.write _ _ _ (fun _ => 0) _ (List.Perm.refl _))
    (.cons (.write _ _ _ (fun _ => 0) _ (List.Perm.refl _)) (.nil _)), by decide, by decide,
    by decide, by decide, 2, by omega, (0, [1, 2, 3, 4]), by decide, by decide, by decide⟩

end Verif.File
