import Verif.Blob.History

/-!
# Out-of-line values: C67

`Spec` (Spec.lean) says what the tree of a file system is to its users: a map to
values that hold their data, `File.Spec` what a file is, and `Spec.AMap` what
extended attributes are.  None of them knows about records or flushes.

The code moves values longer than a quarter of a block out of the tree into
records of their own when a leaf is written, and back when they are needed.
-/

namespace Verif.Blob
open Verif (OMap)
open Spec (Plain)

variable {N : Type}

/-- The ids of the records that hold data of a value. -/
def Attr.rids : Attr N → List Nat
  | .inline _ _ => []
  | .blob _ _ r => [r]

def Val.rids : Val N → List Nat
  | .blob _ r => [r]
  | .attr a => a.rids
  | .attrs l => l.flatMap Attr.rids
  | _ => []

def St.rids (s : St N) : List Nat := s.tree.flatMap fun e => e.2.rids

/-- No id has been handed out that the layer below will hand out again. -/
def NewIds (d0 : Dml) : Prop := ∀ r, d0.next ≤ r → d0.recs.get r = none

/-- The records are those of `d0` as they were, and one for each piece of data
of the tree that is out of line: it is new, it exists, and nothing else refers
to it. -/
structure Accounted (d0 : Dml) (s : St N) : Prop where
  once : s.rids.Nodup
  new : ∀ r ∈ s.rids, d0.recs.get r = none ∧ s.dml.recs.get r ≠ none
  others : ∀ r, r ∉ s.rids → s.dml.recs.get r = d0.recs.get r

theorem rids_eq (s : St N) : s.rids = (treeRefs s.tree).map (·.2) := by
  have ha : ∀ a : Attr N, a.rids = (lrefsA a).map (·.2) := by intro a; cases a <;> rfl
  have hv : ∀ v : Val N, v.rids = (lrefs v).map (·.2) := by
    intro v
    cases v with
    | attr a => exact ha a
    | attrs l => simp only [Val.rids, lrefs, List.map_flatMap, ← ha]
    | _ => rfl
  simp only [St.rids, treeRefs, List.map_flatMap, hv]

theorem accounted_of_good {d0 : Dml} {s : St N} (h : Good d0 s) : Accounted d0 s := by
  have hm : ∀ r, r ∈ s.rids ↔ ∃ e ∈ treeRefs s.tree, e.2 = r := by
    intro r; rw [rids_eq, List.mem_map]
  refine ⟨by rw [rids_eq]; exact h.inv.nodup, ?_, ?_⟩
  · intro r hr
    obtain ⟨e, he, rfl⟩ := (hm r).1 hr
    refine ⟨h.fresh _ (h.inv.range e he).1, ?_⟩
    obtain ⟨b, hb, -⟩ := h.inv.here e he
    rw [hb]; simp
  · intro r hr
    exact h.inv.frame r fun e he hn => hr ((hm r).2 ⟨e, he, hn⟩)

/-! ## Trees -/

/-- For every history of insertions, removals, lookups and range deletions, and
whatever leaves are flushed before each of them: no operation fails or panics,
and all return what a map that holds its data in place would return. -/
theorem C67_tree_holds_its_data {d0 : Dml} (h0 : NewIds d0)
    (ops : List ((Nat → Bool) × Spec.Op N)) :
    (execAll ⟨[], d0⟩ ops).2 = (Spec.run [] (ops.map (·.2))).2.map some :=
  (execAll_good ops (good_empty h0)).2.2

/-- After every such history the records are accounted for: none is leaked, lost
or shared, and no record of anyone else is touched. -/
theorem C67_records_accounted {d0 : Dml} (h0 : NewIds d0)
    (ops : List ((Nat → Bool) × Spec.Op N)) : Accounted d0 (execAll ⟨[], d0⟩ ops).1 :=
  accounted_of_good (execAll_good ops (good_empty h0)).1

/-- In particular, deleting everything gives all records back. -/
theorem C67_delete_all_frees_all {d0 : Dml} (h0 : NewIds d0)
    (ops : List ((Nat → Bool) × Spec.Op N)) (fl : Nat → Bool) (r : Nat) :
    (execAll ⟨[], d0⟩ (ops ++ [(fl, .rangeDelete 0 none)])).1.dml.recs.get r =
      d0.recs.get r := by
  have h := execAll_good (ops ++ [(fl, .rangeDelete 0 none)]) (good_empty (N := N) h0)
  refine (accounted_of_good h.1).others r ?_
  have hrun : ∀ (l : List (Spec.Op N)) (m : OMap (Plain N)),
      (Spec.run m (l ++ [.rangeDelete 0 none])).1 = [] := by
    intro l
    induction l with
    | nil =>
      intro m
      simp only [List.nil_append, Spec.run, Spec.apply, Spec.within]
      exact List.filter_eq_nil_iff.2 fun e _ => by simp
    | cons o l ih => intro m; exact ih _
  have hv := h.2.1
  rw [List.map_append] at hv
  rw [show [(fl, Spec.Op.rangeDelete (N := N) 0 none)].map (·.2) = [.rangeDelete 0 none] from rfl,
    hrun] at hv
  have : (execAll ⟨[], d0⟩ (ops ++ [(fl, Spec.Op.rangeDelete (N := N) 0 none)])).1.tree = [] := by
    simpa [view, mapV] using hv
  rw [St.rids, this]
  simp

/-- After a history and a flush of the whole tree, what is out of line is
exactly the data longer than a quarter of a block: the tree's records, in the
order of the keys, hold those pieces and nothing else. -/
theorem C67_exactly_large_data_out_of_line {d0 : Dml} (h0 : NewIds d0)
    (ops : List ((Nat → Bool) × Spec.Op N)) :
    let s := flush (fun _ => true) (execAll ⟨[], d0⟩ ops).1
    s.rids.map (fun r => (s.dml.recs.get r).getD []) =
      (Spec.run [] (ops.map (·.2))).1.flatMap fun e => Spec.big 1024 e.2 := by
  intro s
  have h := execAll_good ops (good_empty (N := N) h0)
  have := flush_all_exact h.1
  rw [h.2.1] at this
  rw [rids_eq, List.map_map]
  exact this

/-- Non-vacuity: a layer with a record of someone else's. -/
def demo : Dml := ⟨[(3, [9])], 5⟩

theorem demo_new : NewIds demo := by
  intro r hr
  simp only [demo] at hr ⊢
  simp only [OMap.get]
  rw [if_neg (by omega)]

example : NewIds demo ∧
    (execAll ⟨[], demo⟩ [(fun _ => false, .insert 1 (.ext (List.replicate 1025 7))),
        (fun _ => true, .insert 2 (.attr 'x' [1])), (fun _ => true, .remove 1)]).2 =
      [some none, some none, some (some (.ext (List.replicate 1025 7)))] ∧
    (execAll ⟨[], demo⟩ [(fun _ => false, .insert 1 (.ext (List.replicate 1025 7))),
        (fun _ => true, .insert 2 (.attr 'x' [1]))]).1.rids = [5] := by
  refine ⟨demo_new, ?_, ?_⟩ <;> decide +kernel

/-! ## Files -/

/-- For every history of writes, truncations, hole punches and reads of a new
file, with flushes of any of its extents before each tree operation of each of
them: no operation fails, and the file's size, its space and all reads are those
of a file whose data never leaves the tree (`File`, properties C44–C46). -/
theorem C67_file_like_inline {d0 : Dml} {rs : Nat} {ops : List File.Spec.Op}
    {res : List (Res Unit)} {f : BFile N} (h0 : NewIds d0) (hrs : 0 < rs) (hmax : rs < 2 ^ 32)
    (h : BSteps (BFile.empty rs d0) ops res f) :
    (∀ r ∈ res, r = .ok ()) ∧ Accounted d0 f.st ∧
    ∃ g, File.Steps (File.File.empty rs) ops g ∧ f.size = g.size ∧ f.bytes = g.bytes ∧
      ∀ fl offset n, ∃ b, File.read g offset n = some b ∧ (read fl f offset n).2 = .ok b := by
  obtain ⟨h1, g, h2, h3⟩ := bsteps_sim h (frel_empty h0 rs) (File.wf_empty hrs) hmax
  refine ⟨h1, accounted_of_good h3.rel.good, g, h2, h3.size, h3.bytes, ?_⟩
  intro fl offset n
  obtain ⟨-, hr⟩ := read_sim fl h3 offset n
  have hb := File.read_bytes (File.steps_wf h2 (File.wf_empty hrs)).1 offset n
  rw [hb] at hr ⊢
  exact ⟨_, rfl, hr⟩

/-- The same in terms of bytes: the file is the array of bytes that the
operations describe.  (Writes of zero bytes are left out, as in C44, because of
`File.C44_empty_write_extends_file`.) -/
theorem C67_file_is_byte_array_partial {d0 : Dml} {rs : Nat} {ops : List File.Spec.Op}
    {res : List (Res Unit)} {f : BFile N} (h0 : NewIds d0) (hrs : 0 < rs) (hmax : rs < 2 ^ 32)
    (h : BSteps (BFile.empty rs d0) ops res f) (hne : ∀ op ∈ ops, File.NotEmptyWrite op) :
    f.size = (File.Spec.contents ops).length ∧
    ∀ fl offset n,
      (read fl f offset n).2 = .ok (File.Spec.read (File.Spec.contents ops) offset n) := by
  obtain ⟨-, -, g, h2, h3, -, h5⟩ := C67_file_like_inline h0 hrs hmax h
  have hh := File.holds_steps h2 [] (File.wf_empty hrs) hne
    ⟨rfl, by intro o; simp [File.byteAt, File.recByte, File.File.empty, File.nth]⟩
  refine ⟨h3.trans hh.2.1, ?_⟩
  intro fl offset n
  obtain ⟨b, hb, hr⟩ := h5 fl offset n
  rw [hr]
  have := File.holds_read hh.1 hh.2 offset n
  rw [hb] at this
  have h6 : b = File.Spec.read (File.Spec.contents ops) offset n := Option.some.inj this
  rw [h6]

/-- Non-vacuity: a file of two records, both flushed; then the first is partly
overwritten while the second is flushed again. -/
example : ∃ (res : List (Res Unit)) (f : BFile Char), BSteps (BFile.empty 2048 demo)
    [.write 0 (List.replicate 4000 1), .write 5 [2], .truncate 3000] res f ∧ res.length = 4 ∧
    (∀ op ∈ [File.Spec.Op.write 0 (List.replicate 4000 1), .write 5 [2], .truncate 3000],
      File.NotEmptyWrite op) ∧
    (read (fun _ _ => true) f 4 3).2 = .ok [1, 2, 1] := by
  refine ⟨_, _, BSteps.cons (.write (fun _ _ => true) _ 0 (List.replicate 4000 1) (fun _ => 0) [1, 0]
    (by decide +kernel))
    (.cons (op := none) (.flush (fun _ => true) _)
    (.cons (.write (fun _ _ => true) _ 5 [2] (fun _ => 0) [0] (by decide +kernel))
    (.cons (.truncate (fun _ _ => true) _ 3000) (.nil _)))), rfl, ?_, ?_⟩
  · intro op h
    simp only [List.mem_cons, List.not_mem_nil, or_false] at h
    rcases h with rfl | rfl | rfl
    · exact (by decide +kernel : List.replicate 4000 (1 : UInt8) ≠ [])
    · exact List.cons_ne_nil _ _
    · trivial
  · decide +kernel

/-! ## Extended attributes -/

/-- For every history of setting, getting, measuring, deleting and listing
extended attributes, whatever the hash function and whatever is flushed before
each tree operation: no operation fails or panics, and all answers are right.

Partial: no flush may take a new value longer than a quarter of a block out of
the tree between the tree operations of the `setextattr` that stores it.  See
`C67_flush_during_set_loses_value`. -/
theorem C67_attrs_partial [DecidableEq N] {d0 : Dml} (h0 : NewIds d0) (hash : N → Nat)
    (ops : List (Sched × Spec.AOp N)) (hc : ∀ o ∈ ops, Calm hash o.1 o.2) :
    Accounted d0 (aexecAll hash ⟨[], d0⟩ ops).1 ∧
    ∃ as, (aexecAll hash ⟨[], d0⟩ ops).2 = as.map .ok ∧
      Spec.AMap.allRight (fun _ => none) (ops.map (·.2)) as := by
  obtain ⟨as, h1, h2, h3⟩ := aexecAll_sim ops (arel_empty h0) (Dir.wf_nil Prod.fst hash)
    (by intro n a h; simp [Dir.lookup, Dir.slot] at h) hc
  refine ⟨accounted_of_good h3, as, h1, ?_⟩
  have : amap hash ([] : Dir.Table (N × Bytes)) = fun _ => none := by
    funext n; simp [amap, Dir.lookup, Dir.slot]
  rw [← this]; exact h2

/-- Non-vacuity: two attributes with the same hash, one of them large; flushes
everywhere but inside the second `set`. -/
example : (∀ o ∈ ([(fun _ _ => true, .set 'a' [1, 2]),
      (fun n _ => n != 1, .set 'b' (List.replicate 1025 7)),
      (fun _ _ => true, .len 'b'), (fun _ _ => true, .delete 'a')] : List (Sched × Spec.AOp Char)),
      Calm (fun _ => 0) o.1 o.2) ∧
    (getAttr (fun _ => 0) (fun _ _ => true) (aexecAll (fun _ => 0) ⟨[], demo⟩
      [(fun _ _ => true, .set 'a' [1, 2]), (fun n _ => n != 1, .set 'b' (List.replicate 1025 7)),
       (fun _ _ => true, .len 'b'), (fun _ _ => true, .delete 'a')]).1 'b').2 =
      .ok (some (List.replicate 1025 7)) := by
  refine ⟨?_, by decide +kernel⟩
  intro o ho
  simp only [List.mem_cons, List.not_mem_nil, or_false] at ho
  rcases ho with rfl | rfl | rfl | rfl
  · exact ⟨by decide +kernel, Or.inl (by decide +kernel)⟩
  · exact ⟨by decide +kernel, Or.inr (by decide +kernel)⟩
  · trivial
  · trivial

/-- The violation: the second attribute has the hash of the first and a value
longer than a quarter of a block, and its leaf is flushed between the insertion
of the single attribute and the lookup that gets it back to put both into one
bucket (fs.rs:152-163).  Then the bucket refers to the record of the value, and
inserting the bucket deletes that record.  `setextattr` reports success; getting
the attribute fails from then on, and so does deleting it, or setting it to a
new value. -/
theorem C67_flush_during_set_loses_value :
    let s := (setAttr (fun _ => 0) (fun n _ => n == 1)
      (setAttr (fun _ => 0) (fun _ _ => false) (⟨[], demo⟩ : St Char) 'a' [1]).1 'b'
      (List.replicate 1025 7))
    s.2 = .ok () ∧
    ∀ (fl : Sched), (∀ n k, fl n k = false) →
      (getAttr (fun _ => 0) fl s.1 'b').2 = .err ∧
      (delAttr (fun _ => 0) fl s.1 'b').2 = .err ∧
      (setAttr (fun _ => 0) fl s.1 'b' [2]).2 = .err := by
  intro s
  refine ⟨by decide +kernel, ?_⟩
  intro fl hfl
  obtain rfl : fl = fun _ _ => false := by funext n k; exact hfl n k
  refine ⟨?_, ?_, ?_⟩ <;> decide +kernel

end Verif.Blob
