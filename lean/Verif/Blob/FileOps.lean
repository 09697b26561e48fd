import Verif.Blob.Steps
import Verif.File.Steps

/-! Operations on files, whatever is flushed while they run, do what
`File/Model.lean` says. -/

namespace Verif.Blob
open Verif (OMap)
open OMap
open Spec (Plain)

variable {N : Type}

/-- The tree holds the extents `ext`. -/
structure Rel (d0 : Dml) (s : St N) (ext : OMap Bytes) : Prop where
  good : Good d0 s
  eq : view s = mapV Plain.ext ext

theorem Rel.get {d0 : Dml} {s : St N} {ext : OMap Bytes} (h : Rel d0 s ext) (k : Nat) :
    (OMap.get (view s) k).map ofPlain = (OMap.get ext k).map Val.inline := by
  rw [h.eq, get_mapV]
  cases OMap.get ext k <;> rfl

theorem rel_insert {d0 : Dml} (fl : Sched) {s : Run N} {ext : OMap Bytes} (h : Rel d0 s.st ext)
    (k : Nat) (b : Bytes) :
    ∃ s', tInsert fl s k (.inline b) = (s', .ok ((OMap.get ext k).map Val.inline)) ∧
      Rel d0 s'.st (OMap.insert ext k b) := by
  obtain ⟨s', h1, h2, h3⟩ := tInsert_good fl h.good k (Plain.ext b)
  rw [h.get] at h1
  exact ⟨s', h1, h2, by rw [h3, h.eq, insert_mapV]⟩

theorem rel_remove {d0 : Dml} (fl : Sched) {s : Run N} {ext : OMap Bytes} (h : Rel d0 s.st ext)
    (k : Nat) :
    ∃ s', tRemove fl s k = (s', .ok ((OMap.get ext k).map Val.inline)) ∧
      Rel d0 s'.st (OMap.remove ext k) := by
  obtain ⟨s', h1, h2, h3⟩ := tRemove_good fl h.good k
  rw [h.get] at h1
  exact ⟨s', h1, h2, by rw [h3, h.eq, remove_mapV]⟩

/-! ## Writing -/

theorem writeRecord_sim {d0 : Dml} (fl : Sched) (junk : Nat → UInt8) {s : Run N}
    {ext : OMap Bytes} (h : Rel d0 s.st ext) (rs offset i : Nat) (data : Bytes) :
    ∃ s', writeRecord fl junk s rs offset i data =
        (s', .ok (File.writeRecord junk ext rs offset i data).2) ∧
      Rel d0 s'.st (File.writeRecord junk ext rs offset i data).1 := by
  unfold writeRecord File.writeRecord
  by_cases hl : data.length < rs
  · simp only [if_pos hl]
    obtain ⟨s1, h1, h2⟩ := rel_remove fl h (offset - offset % rs + i * rs)
    rw [h1]
    cases hg : OMap.get ext (offset - offset % rs + i * rs) with
    | none =>
      simp only [Option.map_none, recBase]
      obtain ⟨s2, h3, h4⟩ := rel_insert fl h2 (offset - offset % rs + i * rs) (File.overlayAt
        (File.resize (File.overlayAt (File.uninit junk (data.length +
          if i = 0 then offset - (offset - offset % rs) else 0)) 0
          (List.replicate (if i = 0 then offset - (offset - offset % rs) else 0) 0))
          (max ((if i = 0 then offset - (offset - offset % rs) else 0) + data.length)
            (File.overlayAt (File.uninit junk (data.length +
          if i = 0 then offset - (offset - offset % rs) else 0)) 0
          (List.replicate (if i = 0 then offset - (offset - offset % rs) else 0) 0)).length))
        (if i = 0 then offset - (offset - offset % rs) else 0) data)
      rw [h3]
      exact ⟨s2, rfl, h4⟩
    | some b =>
      simp only [Option.map_some, recBase]
      obtain ⟨s2, h3, h4⟩ := rel_insert fl h2 (offset - offset % rs + i * rs) (File.overlayAt
        (File.resize b (max ((if i = 0 then offset - (offset - offset % rs) else 0) + data.length)
          b.length)) (if i = 0 then offset - (offset - offset % rs) else 0) data)
      rw [h3]
      exact ⟨s2, rfl, h4⟩
  · simp only [if_neg hl]
    obtain ⟨s1, h1, h2⟩ := rel_insert fl h (offset - offset % rs + i * rs) data
    rw [h1]
    refine ⟨s1, ?_, h2⟩
    cases OMap.get ext (offset - offset % rs + i * rs) <;> rfl

theorem writeRecords_sim {d0 : Dml} (fl : Sched) (junk : Nat → UInt8) (rs offset : Nat)
    (data : Bytes) (order : List Nat) : ∀ {s : Run N} {ext : OMap Bytes} (delta : Int),
    Rel d0 s.st ext →
    ∃ s', writeRecords fl junk rs offset data order s delta =
        (s', .ok (File.writeRecords junk rs offset data order (ext, delta)).2) ∧
      Rel d0 s'.st (File.writeRecords junk rs offset data order (ext, delta)).1 := by
  induction order with
  | nil => intro s ext delta h; exact ⟨s, rfl, h⟩
  | cons i is ih =>
    intro s ext delta h
    obtain ⟨s1, h1, h2⟩ := writeRecord_sim fl junk h rs offset i
      (File.chunk data (offset % rs) rs i)
    obtain ⟨s2, h3, h4⟩ := ih (delta + (File.writeRecord junk ext rs offset i
      (File.chunk data (offset % rs) rs i)).2) h2
    refine ⟨s2, ?_, h4⟩
    simp only [writeRecords, h1]
    exact h3

/-- The file of the code and the file of `File/Model.lean`. -/
structure FRel (d0 : Dml) (f : BFile N) (g : File.File) : Prop where
  rs : f.rs = g.rs
  size : f.size = g.size
  bytes : f.bytes = g.bytes
  rel : Rel d0 f.st g.ext

theorem write_sim {d0 : Dml} (fl : Sched) (junk : Nat → UInt8) (order : List Nat) {f : BFile N}
    {g : File.File} (h : FRel d0 f g) (offset : Nat) (data : Bytes) :
    ∃ f', write fl junk order f offset data = (f', .ok ()) ∧
      FRel d0 f' (File.write junk order g offset data) := by
  obtain ⟨s', h1, h2⟩ := writeRecords_sim fl junk g.rs offset data order (s := ⟨f.st, 0⟩) 0 h.rel
  simp only [write, h.rs, h1]
  refine ⟨_, rfl, ⟨rfl, ?_, ?_, h2⟩⟩
  · simp only [File.write, h.size]
  · simp only [File.write, h.bytes]

/-! ## Deallocation -/

theorem leftCut_sim (ext : OMap Bytes) (offset : Nat) (len : Option Nat) (rs : Nat)
    (h0 : offset % rs ≠ 0) (b : Bytes) (hb : OMap.get ext (offset - offset % rs) = some b) :
    File.deallocLeft ext offset len rs =
      (OMap.insert (OMap.remove ext (offset - offset % rs)) (offset - offset % rs)
        (leftCut (offset % rs) (File.leftLen rs (offset % rs) len) b).1,
       (leftCut (offset % rs) (File.leftLen rs (offset % rs) len) b).2) := by
  simp only [File.deallocLeft, if_pos h0, hb, leftCut]
  split
  · rfl
  · split <;> rfl

theorem deallocLeft_sim {d0 : Dml} (fl : Sched) {s : Run N} {ext : OMap Bytes}
    (h : Rel d0 s.st ext) (offset : Nat) (len : Option Nat) (rs : Nat) :
    ∃ s', deallocLeft fl s offset len rs = (s', .ok (File.deallocLeft ext offset len rs).2) ∧
      Rel d0 s'.st (File.deallocLeft ext offset len rs).1 := by
  by_cases h0 : offset % rs ≠ 0
  · obtain ⟨s1, h1, h2⟩ := rel_remove fl h (offset - offset % rs)
    simp only [deallocLeft, if_pos h0, h1]
    cases hg : OMap.get ext (offset - offset % rs) with
    | none =>
      simp only [Option.map_none, File.deallocLeft, if_pos h0, hg]
      exact ⟨s1, rfl, h2⟩
    | some b =>
      simp only [Option.map_some, leftCut_sim ext offset len rs h0 b hg]
      obtain ⟨s2, h3, h4⟩ := rel_insert fl h2 (offset - offset % rs)
        (leftCut (offset % rs) (File.leftLen rs (offset % rs) len) b).1
      rw [h3]
      exact ⟨s2, rfl, h4⟩
  · simp only [deallocLeft, if_neg h0, File.deallocLeft]
    exact ⟨s, rfl, h⟩

theorem deallocRight_sim {d0 : Dml} (fl : Sched) {s : Run N} {ext : OMap Bytes}
    (h : Rel d0 s.st ext) (offset : Nat) (len : Option Nat) (rs : Nat) :
    ∃ s', deallocRight fl s offset len rs = (s', .ok (File.deallocRight ext offset len rs).2) ∧
      Rel d0 s'.st (File.deallocRight ext offset len rs).1 := by
  cases len with
  | none => exact ⟨s, rfl, h⟩
  | some l =>
    simp only [deallocRight, File.deallocRight]
    split
    · obtain ⟨s1, h1, h2⟩ := rel_remove fl h (offset + l - (offset + l) % rs)
      rw [h1]
      cases hg : OMap.get ext (offset + l - (offset + l) % rs) with
      | none => exact ⟨s1, rfl, h2⟩
      | some b =>
        simp only [Option.map_some]
        split
        · obtain ⟨s2, h3, h4⟩ := rel_insert fl h2 (offset + l - (offset + l) % rs)
            (File.overlayAt b 0 (List.replicate ((offset + l) % rs) 0))
          rw [h3]
          exact ⟨s2, rfl, h4⟩
        · exact ⟨s1, rfl, h2⟩
    · exact ⟨s, rfl, h⟩

/-- All extents are shorter than 4 GiB. -/
def Small (ext : OMap Bytes) : Prop := ∀ e ∈ ext, e.2.length < 2 ^ 32

/-- A value that looks like an extent is one. -/
theorem plain_ext_cases {d : Dml} {v : Val N} {b : Bytes} (h : plain d v = .ext b) :
    v = .inline b ∨ ∃ l r, v = .blob l r ∧ (d.recs.get r).getD [] = b := by
  cases v with
  | inline x => left; simp only [plain, Plain.ext.injEq] at h; rw [h]
  | blob l r => right; exact ⟨l, r, rfl, by simpa only [plain, Plain.ext.injEq] using h⟩
  | other x => simp [plain] at h
  | attr a => simp [plain] at h
  | attrs l => simp [plain] at h

theorem sumExtents_sim {d : Dml} (l : OMap (Val N)) : ∀ (m : OMap Bytes),
    (∀ e ∈ l, ∀ x ∈ lrefs e.2, ∃ b, d.recs.get x.2 = some b ∧ x.1 = u32 b.length) →
    mapV (plain d) l = mapV Plain.ext m → Small m →
    sumExtents l = some (File.extLen m) := by
  induction l with
  | nil =>
    intro m _ h _
    have : m = [] := by simpa [mapV] using h.symm
    subst this; rfl
  | cons e l ih =>
    obtain ⟨k, v⟩ := e
    intro m hr h hs
    cases m with
    | nil => simp [mapV] at h
    | cons y m =>
      obtain ⟨k', b⟩ := y
      simp only [mapV, List.map_cons, List.cons_eq_cons, Prod.mk.injEq] at h
      have h1 := ih m (fun e he => hr e (List.mem_cons_of_mem _ he)) h.2
        (fun e he => hs e (List.mem_cons_of_mem _ he))
      have hb : b.length < 2 ^ 32 := hs (k', b) List.mem_cons_self
      have h2 : extentLen v = some b.length := by
        rcases plain_ext_cases h.1.2 with rfl | ⟨x, r, rfl, hx⟩
        · rfl
        · obtain ⟨b', h3, h4⟩ := hr (k, .blob x r) List.mem_cons_self (x, r) (by simp [lrefs])
          simp only at h3 h4
          rw [h3] at hx
          simp only [Option.getD_some] at hx
          subst hx
          simp only [extentLen, h4, u32]
          rw [Nat.mod_eq_of_lt hb]
      simp only [sumExtents, h1, h2, File.extLen, List.map_cons, List.sum_cons]

/-- The whole-record part on the plain extents. -/
theorem file_deallocFull (ext : OMap Bytes) (offset : Nat) (len : Option Nat) (rs : Nat) :
    File.deallocFull ext offset len rs =
      (ext.filter (fun e => !inRange offset (fullEnd offset len rs) e.1),
       File.extLen (ext.filter fun e => inRange offset (fullEnd offset len rs) e.1)) := by
  cases len with
  | none =>
    simp only [File.deallocFull, fullEnd, Option.map_none, inRange, OMap.rangeDeleteFrom,
      OMap.rangeFrom]
    congr 1
    congr 1
    funext e; rw [decide_not]
  | some l =>
    simp only [File.deallocFull, fullEnd, Option.map_some, inRange, OMap.rangeDelete,
      OMap.range]
    congr 1
    congr 1
    funext e; rw [decide_not]

theorem deallocFull_sim {d0 : Dml} (fl : Sched) {s : Run N} {ext : OMap Bytes}
    (h : Rel d0 s.st ext) (hs : Small ext) (offset : Nat) (len : Option Nat) (rs : Nat) :
    ∃ s', deallocFull fl s offset len rs = (s', .ok (File.deallocFull ext offset len rs).2) ∧
      Rel d0 s'.st (File.deallocFull ext offset len rs).1 := by
  rw [file_deallocFull]
  generalize hp : inRange offset (fullEnd offset len rs) = p
  obtain ⟨h1, h2, h3, h4⟩ := tRange_good fl h.good p
  have h5 : sumExtents (tRange fl s p).2 = some (File.extLen (ext.filter fun e => p e.1)) := by
    apply sumExtents_sim (d := (tRange fl s p).1.st.dml)
    · intro e he x hx
      obtain ⟨_, b, q1, q2, _⟩ := lref_here h1 (h3 e he) hx
      exact ⟨b, q1, q2⟩
    · rw [h4, h.eq, filter_mapV]
    · intro e he; exact hs e (List.mem_filter.1 he).1
  obtain ⟨s', h6, h7, h8⟩ := tRangeDelete_good fl h1 p
  simp only [deallocFull, hp, h5, h6]
  refine ⟨s', rfl, h7, ?_⟩
  rw [h8, h2, h.eq]
  exact (filter_mapV Plain.ext ext (fun k => !p k)).symm

theorem small_insert {ext : OMap Bytes} (h : Small ext) {b : Bytes} (hb : b.length < 2 ^ 32)
    (k k' : Nat) : Small (OMap.insert (OMap.remove ext k) k' b) := by
  intro e he
  rcases mem_insert he with rfl | he
  · exact hb
  · exact h e (List.mem_filter.1 he).1

theorem overlayAt_zero_le (b : Bytes) (o n : Nat) (h : o + n ≤ b.length) :
    (File.overlayAt b o (List.replicate n 0)).length ≤ b.length := by
  simp only [File.overlayAt, List.length_append, List.length_take, List.length_replicate,
    List.length_drop]
  omega

theorem small_left {ext : OMap Bytes} (h : Small ext) (offset : Nat) (len : Option Nat) (rs : Nat) :
    Small (File.deallocLeft ext offset len rs).1 := by
  by_cases h0 : offset % rs ≠ 0
  · cases hg : OMap.get ext (offset - offset % rs) with
    | none =>
      simp only [File.deallocLeft, if_pos h0, hg]
      intro e he; exact h e (List.mem_filter.1 he).1
    | some b =>
      rw [leftCut_sim ext offset len rs h0 b hg]
      have hb := h _ (mem_of_get hg)
      simp only at hb
      apply small_insert h
      simp only [leftCut]
      split
      · exact hb
      · split
        · simp only [List.length_take]; omega
        · have := overlayAt_zero_le b (offset % rs) (File.leftLen rs (offset % rs) len) (by omega)
          exact Nat.lt_of_le_of_lt this hb
  · simp only [File.deallocLeft, if_neg h0]; exact h

theorem small_right {ext : OMap Bytes} (h : Small ext) (offset : Nat) (len : Option Nat) (rs : Nat) :
    Small (File.deallocRight ext offset len rs).1 := by
  cases len with
  | none => exact h
  | some l =>
    simp only [File.deallocRight]
    split
    · cases hg : OMap.get ext (offset + l - (offset + l) % rs) with
      | none => intro e he; exact h e (List.mem_filter.1 he).1
      | some b =>
        have hb := h _ (mem_of_get hg)
        simp only at hb ⊢
        split
        · apply small_insert h
          have := overlayAt_zero_le b 0 ((offset + l) % rs) (by omega)
          omega
        · intro e he; exact h e (List.mem_filter.1 he).1
    · exact h

theorem doDeallocate_sim {d0 : Dml} (fl : Sched) {s : Run N} {ext : OMap Bytes}
    (h : Rel d0 s.st ext) (hs : Small ext) (offset : Nat) (len : Option Nat) (rs : Nat) :
    ∃ s', doDeallocate fl s offset len rs = (s', .ok (File.doDeallocate ext offset len rs).2) ∧
      Rel d0 s'.st (File.doDeallocate ext offset len rs).1 := by
  obtain ⟨s1, h1, h2⟩ := deallocLeft_sim fl h offset len rs
  obtain ⟨s2, h3, h4⟩ := deallocRight_sim fl h2 offset len rs
  obtain ⟨s3, h5, h6⟩ := deallocFull_sim fl h4 (small_right (small_left hs _ _ _) _ _ _)
    offset len rs
  simp only [doDeallocate, h1, h3, h5]
  exact ⟨s3, rfl, h6⟩

theorem deallocate_sim {d0 : Dml} (fl : Sched) {f : BFile N} {g : File.File} (h : FRel d0 f g)
    (hs : Small g.ext) (offset len : Nat) :
    ∃ f', deallocate fl f offset len = (f', .ok ()) ∧
      FRel d0 f' (File.deallocate g offset len) := by
  simp only [deallocate, File.deallocate, h.size, h.rs]
  split
  · obtain ⟨s', h1, h2⟩ := doDeallocate_sim fl (s := ⟨f.st, 0⟩) h.rel hs (min g.size offset)
      (some (min (g.size - min g.size offset) len)) g.rs
    rw [h1]
    exact ⟨_, rfl, ⟨rfl, rfl, by simp only [h.bytes], h2⟩⟩
  · exact ⟨f, rfl, h⟩

theorem setSize_sim {d0 : Dml} (fl : Sched) {f : BFile N} {g : File.File} (h : FRel d0 f g)
    (hs : Small g.ext) (n : Nat) :
    ∃ f', setSize fl f n = (f', .ok ()) ∧ FRel d0 f' (File.setSize g n) := by
  simp only [setSize, File.setSize, h.size, h.rs]
  split
  · obtain ⟨s', h1, h2⟩ := doDeallocate_sim fl (s := ⟨f.st, 0⟩) h.rel hs n none g.rs
    rw [h1]
    exact ⟨_, rfl, ⟨rfl, rfl, by simp only [h.bytes], h2⟩⟩
  · exact ⟨_, rfl, ⟨rfl, rfl, h.bytes, h.rel⟩⟩

/-! ## Reading -/

theorem fetch_sim {d0 : Dml} (fl : Sched) (l : OMap (Val N)) : ∀ {s : Run N} (m : OMap Bytes),
    Good d0 s.st →
    (∀ e ∈ l, ∀ x ∈ lrefs e.2, x.2 < s.st.dml.next ∧ ∃ b, s.st.dml.recs.get x.2 = some b) →
    mapV (plain s.st.dml) l = mapV Plain.ext m →
    ∃ s', fetch fl s l = (s', .ok m) ∧ Good d0 s'.st ∧ view s'.st = view s.st := by
  induction l with
  | nil =>
    intro s m hg _ h
    have : m = [] := by simpa [mapV] using h.symm
    subst this
    exact ⟨s, rfl, hg, rfl⟩
  | cons e l ih =>
    obtain ⟨k, v⟩ := e
    intro s m hg hr h
    cases m with
    | nil => simp [mapV] at h
    | cons y m =>
      obtain ⟨k', b⟩ := y
      simp only [mapV, List.map_cons, List.cons_eq_cons, Prod.mk.injEq] at h
      obtain ⟨⟨rfl, h1⟩, h2⟩ := h
      rcases plain_ext_cases h1 with rfl | ⟨x, r, rfl, hx⟩
      · obtain ⟨s', h3, h4, h5⟩ := ih m hg (fun e he => hr e (List.mem_cons_of_mem _ he)) h2
        simp only [fetch, h3]
        exact ⟨s', rfl, h4, h5⟩
      · obtain ⟨hlt, b', hb'⟩ := hr (k, .blob x r) List.mem_cons_self (x, r) (by simp [lrefs])
        simp only at hlt hb'
        rw [hb'] at hx
        simp only [Option.getD_some] at hx
        subst hx
        obtain ⟨h3, h4, h5, h6⟩ := tGetBlob_good fl hg r
        have h7 := h6 hlt
        rw [hb'] at h7
        obtain ⟨s', h8, h9, h10⟩ := ih (s := (tGetBlob fl s r).1) m h3
          (fun e he y hy => by
            obtain ⟨q1, q2⟩ := hr e (List.mem_cons_of_mem _ he) y hy
            exact ⟨Nat.lt_of_lt_of_le q1 h5.le, by rw [h5.same _ q1]; exact q2⟩)
          (by
            rw [← show mapV Plain.ext m = List.map (fun e => (e.1, Plain.ext e.2)) m from rfl] at h2
            rw [← h2]
            apply mapV_congr
            intro e he
            apply plain_ext h5
            intro y hy
            exact (hr e (List.mem_cons_of_mem _ he) y hy).1)
        simp only [fetch]
        rw [show tGetBlob fl s r = ((tGetBlob fl s r).1, some b') from Prod.ext rfl h7]
        simp only [h8]
        exact ⟨s', rfl, h9, h10.trans h4⟩

theorem read_sim {d0 : Dml} (fl : Sched) {f : BFile N} {g : File.File} (h : FRel d0 f g)
    (offset size : Nat) :
    FRel d0 (read fl f offset size).1 g ∧
    (read fl f offset size).2 =
      (match File.read g offset size with | some b => Res.ok b | none => Res.panic) := by
  generalize hp : inRange (offset - offset % g.rs) (some (offset + min size (g.size - offset))) = p
  obtain ⟨h1, h2, h3, h4⟩ := tRange_good fl (s := ⟨f.st, 0⟩) h.rel.good p
  obtain ⟨s', h5, h6, h7⟩ := fetch_sim fl (tRange fl ⟨f.st, 0⟩ p).2 (g.ext.filter fun e => p e.1) h1
    (fun e he x hx => by
      obtain ⟨q1, b, q2, _⟩ := lref_here h1 (h3 e he) hx
      exact ⟨q1, b, q2⟩)
    (by rw [h4, h.rel.eq, filter_mapV])
  have hrange : g.ext.range (offset - offset % g.rs) (offset + min size (g.size - offset)) =
      g.ext.filter fun e => p e.1 := by rw [← hp]; rfl
  have hr : FRel d0 { f with rs := g.rs, size := g.size, st := s'.st } g :=
    ⟨rfl, rfl, h.bytes, ⟨h6, by rw [h7, h2]; exact h.rel.eq⟩⟩
  simp only [read, h.size, h.rs, hp, h5, assemble, File.read, File.readSG, hrange]
  cases List.foldl (File.readStep offset (min size (g.size - offset))) (some ([], offset, 0))
    (g.ext.filter fun e => p e.1) with
  | none => exact ⟨hr, rfl⟩
  | some x => exact ⟨hr, rfl⟩

end Verif.Blob
