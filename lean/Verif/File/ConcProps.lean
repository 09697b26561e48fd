import Verif.File.ConcLemmas

/-!
# C59: concurrent writes to one file

`Fs::write` writes back the inode it read before its transaction began, so a
write can undo the size update of another one: the property does not hold
(`C59_lost_size_counterexample`).  What holds is stated by the theorems
below.  The same stale inode makes `Inode::bytes` wrong
(`C59_lost_bytes_counterexample`), and the remove-modify-insert of a partly
written record lets two writes to different bytes of one record destroy the
bytes that neither of them wrote (`C59_same_record_counterexample`).
-/

namespace Verif.File.Conc

open OMap

/-- C59, partial: the file is at least as long as every completed write that
was not overtaken, whatever the interleaving.  Missing: the writes that were
overtaken by a write that began before they finished (see
`C59_lost_size_counterexample`). -/
theorem C59_size_partial {junk : Nat → Byte} {arg : Nat → Arg} {f : File} {es : List Ev} {s : St}
    (h : run junk arg f es = some s) {a : Nat} (ha : .fin a ∈ es) (hn : ¬ Overtaken es a) :
    (arg a).offset + (arg a).data.length ≤ s.file.size :=
  (run_size es s h).file a ha hn

/-- No interleaving of writes makes the file shorter than it was before them. -/
theorem C59_never_shrinks {junk : Nat → Byte} {arg : Nat → Arg} {f : File} {es : List Ev} {s : St}
    (h : run junk arg f es = some s) : f.size ≤ s.file.size :=
  (run_size es s h).init

/-- Nor longer than the furthest end of a write that was begun. -/
theorem C59_size_upper {junk : Nat → Byte} {arg : Nat → Arg} {f : File} {es : List Ev} {s : St}
    (h : run junk arg f es = some s) (m : Nat) (hf : f.size ≤ m)
    (hm : ∀ a, .read a ∈ es → (arg a).offset + (arg a).data.length ≤ m) : s.file.size ≤ m :=
  ((run_size es s h).upper m hf hm).1

/-- The writes begun in `es` touch different records of the file. -/
def Disjoint (arg : Nat → Arg) (rs : Nat) (es : List Ev) : Prop :=
  ∀ a b, .read a ∈ es → .read b ∈ es → a ≠ b → ∀ x, ¬ (Touches rs (arg a) x ∧ Touches rs (arg b) x)

/-- Writes that touch different records do not disturb each other: when all
of them have finished, the file's extents are the ones that performing the
writes one after the other, in any order, would have left. -/
theorem C59_disjoint_data {junk : Nat → Byte} {arg : Nat → Arg} {f : File} {es : List Ev} {s : St}
    (hrs : 0 < f.rs) (hs : Sorted f.ext)
    (h : run junk arg f es = some s) (hd : Disjoint arg f.rs es)
    (ts : List Nat) (hnd : ts.Nodup) (hts : ∀ t, t ∈ ts ↔ .read t ∈ es)
    (hdone : ∀ t ∈ ts, s.ph t = .done) :
    s.file.ext = (serially junk arg f ts).ext := by
  have hap : KeysApart arg f.rs es := fun a b ha hb hab i j hi hj =>
    keysApart_of hrs (hd a b ha hb hab) hi hj
  have hi := run_data hrs hs es s h hap
  obtain ⟨_, g2, g3, g4, _⟩ := serially_spec (junk := junk) (arg := arg) ts f hrs hs hnd
    (fun a ha b hb hab i j => hap a b ((hts a).1 ha) ((hts b).1 hb) hab i j)
  refine OMap.ext hi.sorted g2 (fun k => ?_)
  by_cases hk : ∃ t, t ∈ ts ∧ ∃ i, i < recCount f.rs (arg t) ∧ k = recKey f.rs (arg t) i
  · obtain ⟨t, ht, i, hil, rfl⟩ := hk
    rw [g3 t ht i hil, (hi.done t (hdone t ht)).2 i hil]
  · rw [hi.frame k (fun t ht i hil e => hk ⟨t, (hts t).2 ht, i, hil, e⟩),
      g4 k (fun t ht i hil e => hk ⟨t, ht, i, hil, e⟩)]

theorem read_congr {f g : File} (h1 : f.rs = g.rs) (h2 : f.size = g.size) (h3 : f.ext = g.ext)
    (o n : Nat) : read f o n = read g o n := by
  cases f; cases g
  cases h1; cases h2; cases h3
  rfl

/-- If, besides, the last write to finish is not the only one whose size
counts, that is, no write was overtaken, then every read returns what it would
return after the writes were performed one after the other, in any order. -/
theorem C59_disjoint_reads_partial {junk : Nat → Byte} {arg : Nat → Arg} {f : File} {es : List Ev}
    {s : St} (hrs : 0 < f.rs) (hs : Sorted f.ext)
    (h : run junk arg f es = some s) (hd : Disjoint arg f.rs es)
    (ts : List Nat) (hnd : ts.Nodup) (hts : ∀ t, t ∈ ts ↔ .read t ∈ es)
    (hfin : ∀ t ∈ ts, .fin t ∈ es ∧ ¬ Overtaken es t) (hdone : ∀ t ∈ ts, s.ph t = .done)
    (o n : Nat) :
    read s.file o n = read (serially junk arg f ts) o n := by
  have hap : KeysApart arg f.rs es := fun a b ha hb hab i j hi hj =>
    keysApart_of hrs (hd a b ha hb hab) hi hj
  have hi := run_data hrs hs es s h hap
  have hz := run_size es s h
  obtain ⟨g1, _, _, _, g5, g6, g7⟩ := serially_spec (junk := junk) (arg := arg) ts f hrs hs hnd
    (fun a ha b hb hab i j => hap a b ((hts a).1 ha) ((hts b).1 hb) hab i j)
  refine read_congr (hi.rs.trans g1.symm) ?_ (C59_disjoint_data hrs hs h hd ts hnd hts hdone) o n
  refine Nat.le_antisymm ((hz.upper _ g5 (fun a ha => g6 a ((hts a).2 ha))).1) ?_
  exact g7 _ hz.init (fun t ht => hz.file t (hfin t ht).1 (hfin t ht).2)

/-! ## Examples and counterexamples -/

/-- Two writes of one whole record each, in the first and second record. -/
def exArg (t : Nat) : Arg := if t = 0 then ⟨0, [1, 2, 3, 4]⟩ else ⟨4, [5, 6, 7, 8]⟩

/-- Write 0 begins and ends between the data and the inode update of write 1,
which began earlier. -/
def exLost : List Ev :=
  [.fin 0, .fin 1, .full 1 0, .read 1, .full 0 0, .read 0]

/-- The size update of write 1 is lost: it has completed, its record is in the tree,
but the file ends before it and its data cannot be read. -/
theorem C59_lost_size_counterexample :
    ∃ s, run (fun _ => 0) exArg (File.empty 4) exLost = some s ∧
      .fin 1 ∈ exLost ∧ s.file.size = 4 ∧ (exArg 1).offset + (exArg 1).data.length = 8 ∧
      s.file.ext = [(0, [1, 2, 3, 4]), (4, [5, 6, 7, 8])] ∧
      read s.file 4 4 = some [] ∧
      read (serially (fun _ => 0) exArg (File.empty 4) [0, 1]) 4 4 = some [5, 6, 7, 8] ∧
      read (serially (fun _ => 0) exArg (File.empty 4) [1, 0]) 4 4 = some [5, 6, 7, 8] :=
  ⟨_, rfl, by decide +kernel, by decide +kernel, by decide +kernel, by decide +kernel, by decide +kernel, by decide +kernel, by decide +kernel⟩

/-- The byte count is lost in the same way (C45): eight bytes are stored, the
inode says four. -/
theorem C59_lost_bytes_counterexample :
    ∃ s, run (fun _ => 0) exArg (File.empty 4) exLost = some s ∧
      s.file.bytes = 4 ∧ extLen s.file.ext = 8 :=
  ⟨_, rfl, by decide +kernel, by decide +kernel⟩

/-- One byte each, at 0 and at 2. -/
def exArg2 (t : Nat) : Arg := if t = 0 then ⟨0, [1]⟩ else ⟨2, [3]⟩

def exSame : List Ev :=
  [.fin 1, .fin 0, .put 1 0, .put 0 0, .take 1 0, .take 0 0, .read 1, .read 0]

/-- Two writes to different bytes of one record: the second finds the record
missing while the first is modifying it.  The bytes nobody wrote are lost, and so is what the first
wrote. -/
theorem C59_same_record_counterexample :
    ∃ s, run (fun _ => 0) exArg2 ⟨4, 4, 4, [(0, [9, 9, 9, 9])]⟩ exSame = some s ∧
      read s.file 0 4 = some [0, 0, 3, 0] ∧
      read (serially (fun _ => 0) exArg2 ⟨4, 4, 4, [(0, [9, 9, 9, 9])]⟩ [0, 1]) 0 4 =
        some [1, 9, 3, 9] :=
  ⟨_, rfl, by decide +kernel, by decide +kernel⟩

/-- Write 0 ends before write 1 begins. -/
def exFine : List Ev :=
  [.fin 1, .full 1 0, .read 1, .fin 0, .full 0 0, .read 0]

theorem exFine_not_overtaken (a : Nat) (h : Overtaken exFine a) : False := by
  obtain ⟨b, e1, e2, e3, he, hr⟩ := h
  have hl := congrArg List.length he
  simp only [exFine, List.length_append, List.length_cons, List.length_nil] at hl
  match e3, e2, e1, he with
  | [], [], e1, he => simp [exFine] at he
  | [], [_], e1, he => simp [exFine] at he
  | [], [_, _], e1, he =>
    simp only [exFine, List.nil_append, List.cons_append, List.cons.injEq] at he
    obtain ⟨h1, _, _, _, rfl⟩ := he
    cases h1
    simp at hr
  | [], [_, _, _], e1, he => simp [exFine] at he
  | [], [_, _, _, _], e1, he => simp [exFine] at he
  | [], _ :: _ :: _ :: _ :: _ :: _, e1, he => simp at hl; omega
  | [_], e2, e1, he => simp [exFine] at he
  | [_, _], e2, e1, he => simp [exFine] at he
  | [_, _, _], [], e1, he => simp [exFine] at he
  | [_, _, _], [_], e1, he => simp [exFine] at he
  | [_, _, _], _ :: _ :: _, e1, he => simp at hl; omega
  | [_, _, _, _], e2, e1, he => simp [exFine] at he
  | _ :: _ :: _ :: _ :: _ :: _, e2, e1, he => simp at hl; omega

/-- The hypotheses of the theorems above are met: two writes, both finished, in
different records, neither overtaken; and in `exLost`, too, the records are different. -/
example : ∃ s, run (fun _ => 0) exArg (File.empty 4) exFine = some s ∧ .fin 0 ∈ exFine ∧
    ¬ Overtaken exFine 0 ∧ ¬ Overtaken exFine 1 ∧ s.file.size = 8 ∧
    read s.file 0 8 = some [1, 2, 3, 4, 5, 6, 7, 8] :=
  ⟨_, rfl, by decide +kernel, exFine_not_overtaken 0, exFine_not_overtaken 1, by decide +kernel, by decide +kernel⟩

theorem exArg_disjoint (es : List Ev) (h : ∀ a, Ev.read a ∈ es → a = 0 ∨ a = 1) :
    Disjoint exArg 4 es := by
  intro a b ha hb hab x hx
  have h1 := h a ha
  have h2 := h b hb
  rcases h1 with rfl | rfl <;> rcases h2 with rfl | rfl <;>
    simp [Touches, exArg] at hx hab <;> omega

example : ∃ s, run (fun _ => 0) exArg (File.empty 4) exLost = some s ∧
    0 < (File.empty 4).rs ∧ Sorted (File.empty 4).ext ∧ Disjoint exArg 4 exLost ∧
    (∀ t, t ∈ [0, 1] ↔ Ev.read t ∈ exLost) ∧ (∀ t ∈ [0, 1], (s.ph t).isDone = true) :=
  ⟨_, rfl, by decide +kernel, sorted_nil, exArg_disjoint _ (by simp [exLost]), by
    intro t; simp [exLost]; omega, by decide +kernel⟩

end Verif.File.Conc
