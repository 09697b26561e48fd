import Verif.Share.Leak

/-!
# C68: the flusher, the readers and the writers of a file share buffers

The events of a history are the await points of reads, of writes and of the
flusher, in any order that the kernel's vnode lock allows (`Model.lean`).
-/

namespace Verif.Share
open Verif (OMap)

/-- What the reads of a history should answer, when the file holds `c` and the
reads in progress have the ranges `g`: a read returns the records of its range
as the writes before it left them.  Flushes have no effect. -/
def expected (c : OMap Bytes) (g : OMap (Nat × Nat)) : List Ev → List (List (Nat × Bytes))
  | [] => []
  | .openW l :: evs => expected (Spec.write c (l.map fun w => (w.1, w.2.1))) g evs
  | .openR id lo hi :: evs => expected c (g.insert id (lo, hi)) evs
  | .closeR id :: evs =>
    (match g.get id with
    | some (lo, hi) => [Spec.read c lo hi]
    | none => []) ++ expected c g evs
  | _ :: evs => expected c g evs

/-- What the file holds after the writes of a history. -/
def written (c : OMap Bytes) : List Ev → OMap Bytes
  | [] => c
  | .openW l :: evs => written (Spec.write c (l.map fun w => (w.1, w.2.1))) evs
  | _ :: evs => written c evs

/-- The writes of a history have one update for each record, and updates of
whole records do not depend on the old data. -/
def OkWrites (evs : List Ev) : Prop := ∀ l, Ev.openW l ∈ evs → okWrite l

theorem expected_cons (c : OMap Bytes) (g : OMap (Nat × Nat)) (ev : Ev) (evs : List Ev) :
    expected c g (ev :: evs) =
      (answer c g ev).toList ++ expected (after c ev) (ranges g ev) evs := by
  cases ev with
  | closeR id =>
    simp only [expected, answer, after, ranges]
    cases g.get id <;> rfl
  | _ => rfl

theorem written_cons (c : OMap Bytes) (ev : Ev) (evs : List Ev) :
    written c (ev :: evs) = written (after c ev) evs := by
  cases ev <;> rfl

theorem steps_spec {s s' : St} {evs : List Ev} {outs : List (List (Nat × Bytes))}
    (h : Steps s evs outs s') : ∀ {c : OMap Bytes} {g : OMap (Nat × Nat)}, Inv c s → REq g s →
      NoLeak s → OkWrites evs →
      outs = expected c g evs ∧ Inv (written c evs) s' ∧ (∃ g', REq g' s') ∧ NoLeak s' := by
  induction h with
  | nil s => intro c g hi hg hl _; exact ⟨rfl, hi, ⟨g, hg⟩, hl⟩
  | cons hst _ ih =>
    rename_i s s1 s2 ev evs o outs _
    intro c g hi hg hl hok
    have hl' := step_leak hi.sorted hl hst
    rcases step_spec hi hg (fun l he => hok l (by simp [he])) hst with ⟨s'', h1, h2, h3⟩ | ⟨h1, _⟩
    · simp only [Res.ok.injEq] at h1
      obtain ⟨rfl, rfl⟩ := h1
      have := ih h2 h3 hl' (fun l he => hok l (by simp [he]))
      rw [expected_cons, written_cons, ← this.1]
      exact ⟨rfl, this.2⟩
    · simp at h1

theorem reachable {evs : List Ev} {outs : List (List (Nat × Bytes))} {s : St}
    (hok : OkWrites evs) (h : Steps St.empty evs outs s) :
    outs = expected [] [] evs ∧ Inv (written [] evs) s ∧ (∃ g, REq g s) ∧ NoLeak s :=
  steps_spec h inv_empty (by intro id r hr; simp [St.empty] at hr)
    (by intro r hr; simp [St.empty] at hr) hok

/-- Whatever reads, writes and flushes do in between, each read answers with the
records of its range, as the writes that were complete when it began left them. -/
theorem C68_reads_see_completed_writes {evs : List Ev} {outs : List (List (Nat × Bytes))} {s : St}
    (hok : OkWrites evs) (h : Steps St.empty evs outs s) : outs = expected [] [] evs :=
  (reachable hok h).1

/-- No read or write fails or panics; only the flusher can panic. -/
theorem C68_only_flush_panics {evs : List Ev} {outs : List (List (Nat × Bytes))} {s : St}
    (hok : OkWrites evs) (h : Steps St.empty evs outs s) {ev : Ev}
    (hev : ∀ l, ev = .openW l → okWrite l) {res : Res} (hst : step s ev = some res) :
    (∃ s' o, res = .ok s' o) ∨ (res = .panic ∧ ∃ p, ev = .flush p) := by
  obtain ⟨_, hi, ⟨g, hg⟩, _⟩ := reachable hok h
  rcases step_spec hi hg hev hst with ⟨s', h1, _⟩ | h1
  · exact Or.inl ⟨s', _, h1⟩
  · exact Or.inr h1

/-- The flusher panics exactly if it comes to an extent whose buffer a write is
not done with, or to one of more than 1024 bytes that a read has fetched from
the tree and not looked at. -/
theorem C68_flush_panics_iff (s : St) (p : Nat → Bool) :
    step s (.flush p) = some .panic ↔
      ∃ k b d, (k, Ent.inline b d) ∈ s.tree ∧ p k = true ∧
        ((∃ l w, s.writer = some l ∧ w ∈ l ∧ w.ph = .placed b) ∨
          (1024 < d.length ∧ ∃ id r k' d', (id, r) ∈ s.readers ∧ (k', Ent.inline b d') ∈ r.todo)) := by
  have h1 : step s (.flush p) = some .panic ↔ flushItems p s s.tree = none := by
    simp only [step]
    cases flushItems p s s.tree with
    | none => simp
    | some q => obtain ⟨t, recs, n⟩ := q; simp
  have hm : ∀ b, s.mutHeld b = true ↔ ∃ l w, s.writer = some l ∧ w ∈ l ∧ w.ph = .placed b := by
    intro b
    simp only [St.mutHeld]
    cases s.writer with
    | none => simp
    | some l =>
      simp only [List.any_eq_true, Option.some.injEq]
      constructor
      · rintro ⟨w, hw, hp⟩
        refine ⟨l, w, rfl, hw, ?_⟩
        cases hph : w.ph with
        | placed b' =>
          rw [hph] at hp
          simp only [Phase.isPlaced, beq_iff_eq] at hp
          rw [hp]
        | _ => rw [hph] at hp; simp [Phase.isPlaced] at hp
      · rintro ⟨_, w, rfl, hw, hp⟩
        exact ⟨w, hw, by simp [hp, Phase.isPlaced]⟩
  have ha : ∀ b, s.arcHeld b = true ↔
      ∃ id r k' d', (id, r) ∈ s.readers ∧ (k', Ent.inline b d') ∈ r.todo := by
    intro b
    simp only [St.arcHeld, List.any_eq_true]
    constructor
    · rintro ⟨⟨id, r⟩, hr, ⟨k', e⟩, he, hb⟩
      cases e with
      | inline b' d' =>
        simp only [beq_iff_eq] at hb
        subst hb
        exact ⟨id, r, k', d', hr, he⟩
      | blob x => simp at hb
    · rintro ⟨id, r, k', d', hr, he⟩
      exact ⟨(id, r), hr, (k', .inline b d'), he, by simp⟩
  rw [h1, flushItems_none]
  simp only [hm, ha]
  rfl

/-- Reads and writes never get stuck in the middle: an item that a read has
fetched can be handled, and a record of a write can be continued. -/
theorem C68_no_one_gets_stuck {evs : List Ev} {outs : List (List (Nat × Bytes))} {s : St}
    (hok : OkWrites evs) (h : Steps St.empty evs outs s) :
    (∀ id r, s.readers.get id = some r → r.todo ≠ [] → ∃ s', step s (.next id) = some (.ok s' none)) ∧
    (∀ l i, s.writer = some l → i < l.length → ∃ s', step s (.advance i) = some (.ok s' none)) := by
  obtain ⟨_, hi, ⟨g, hg⟩, _⟩ := reachable hok h
  have fin : ∀ ev, step s ev ≠ none → (∀ l, ev ≠ .openW l) → (∀ p, ev ≠ .flush p) →
      answer (written [] evs) g ev = none → ∃ s', step s ev = some (.ok s' none) := by
    intro ev hne h1 h2 h3
    obtain ⟨res, hres⟩ := Option.ne_none_iff_exists'.1 hne
    rcases step_spec hi hg (fun l he => absurd he (h1 l)) hres with ⟨s', e, _⟩ | ⟨_, p, e⟩
    · rw [h3] at e
      exact ⟨s', by rw [hres, e]⟩
    · exact absurd e (h2 p)
  refine ⟨?_, ?_⟩
  · intro id r hr ht
    apply fin _ _ (by simp) (by simp) rfl
    simp only [step, hr]
    cases hx : r.todo with
    | nil => exact absurd hx ht
    | cons e l =>
      simp only
      cases next s r e l <;> simp
  · intro l i hw hlt
    apply fin _ _ (by simp) (by simp) rfl
    simp only [step, hw, List.getElem?_eq_getElem hlt]
    cases advance s l[i] <;> simp

/-- When nothing is written, the tree holds what was written, and the records
are those of the tree's extents, each of one extent: no space is lost to races
of writes and flushes. -/
theorem C68_idle_state {evs : List Ev} {outs : List (List (Nat × Bytes))} {s : St}
    (hok : OkWrites evs) (h : Steps St.empty evs outs s) (hw : s.writer = none) :
    (∀ k, (written [] evs).get k =
      match s.tree.get k with
      | none => none
      | some (.inline _ d) => some d
      | some (.blob r) => s.recs.get r) ∧
    (∀ r, s.recs.get r ≠ none ↔ ∃ k, s.tree.get k = some (.blob r)) ∧
    (∀ k k' r, s.tree.get k = some (.blob r) → s.tree.get k' = some (.blob r) → k = k') := by
  obtain ⟨_, hi, _, hl⟩ := reachable hok h
  have hmem : ∀ {k r}, s.tree.get k = some (.blob r) → r ∈ tr s.tree := fun hg =>
    mem_tr (OMap.mem_of_get hg) (by simp [er])
  refine ⟨?_, ?_, ?_⟩
  · intro k
    rw [← inv_cont hi hw, cont, Blob.get_mapV]
    cases hg : s.tree.get k with
    | none => rfl
    | some e =>
      cases e with
      | inline b d => rfl
      | blob r =>
        have := (hi.rhere r (hmem hg)).2
        obtain ⟨d, hd⟩ := Option.ne_none_iff_exists'.1 this
        simp [dat, hd]
  · intro r
    constructor
    · intro hr
      obtain ⟨⟨k, e⟩, he, hx⟩ := List.mem_flatMap.1 (hl r hr)
      cases e with
      | inline b d => simp [er] at hx
      | blob x =>
        obtain rfl : r = x := by simpa [er] using hx
        exact ⟨k, OMap.get_of_mem hi.sorted he⟩
    · rintro ⟨k, hg⟩
      exact (hi.rhere r (hmem hg)).2
  · intro k k' r hk hk'
    apply Decidable.byContradiction
    intro hne
    have h1 := perm_flat_remove er hi.sorted hk
    have h2 : OMap.get (s.tree.remove k) k' = some (.blob r) := by
      rw [OMap.get_remove, if_neg (fun e => hne e.symm)]; exact hk'
    have h3 : r ∈ tr (s.tree.remove k) := mem_tr (OMap.mem_of_get h2) (by simp [er])
    have h4 : (er (.blob r) ++ tr (s.tree.remove k)).Nodup := h1.nodup_iff.1 hi.rnodup
    exact (List.nodup_append.1 h4).2.2 r (by simp [er]) r h3 rfl

/-- **Partial**: flushes that come when no write is in progress and no read has
fetched items that it has not looked at do not panic.  What is missing is that
flushes never panic: they do, see below. -/
theorem C68_flush_safe_when_quiet_partial {evs : List Ev} {outs : List (List (Nat × Bytes))}
    {s : St} (hok : OkWrites evs) (h : Steps St.empty evs outs s) (p : Nat → Bool)
    (hw : s.writer = none) (hr : ∀ id r, (id, r) ∈ s.readers → r.todo = []) :
    ∃ s', step s (.flush p) = some (.ok s' none) := by
  obtain ⟨_, hi, ⟨g, hg⟩, _⟩ := reachable hok h
  have hne : step s (.flush p) ≠ none := by
    simp only [step]
    cases flushItems p s s.tree <;> simp
  obtain ⟨res, hres⟩ := Option.ne_none_iff_exists'.1 hne
  rcases step_spec hi hg (fun l he => by simp at he) hres with ⟨s', e, _⟩ | ⟨e, _⟩
  · exact ⟨s', by rw [hres, e]; rfl⟩
  · exfalso
    rw [e] at hres
    obtain ⟨k, b, d, _, _, h | ⟨_, id, r, k', d', h1, h2⟩⟩ := (C68_flush_panics_iff s p).1 hres
    · obtain ⟨l, w, h, _⟩ := h
      rw [hw] at h; simp at h
    · rw [hr id r h1] at h2; simp at h2

/-! ## Counterexamples -/

/-- A record of 1025 bytes. -/
def big : Bytes := List.replicate 1025 7

theorem big_length : big.length = 1025 := List.length_replicate

theorem okWrite_full (k : Nat) (d : Bytes) : okWrite [(k, fun _ => d, true)] := by
  refine ⟨by simp, ?_⟩
  intro w hw _ x y
  obtain rfl : w = (k, fun _ => d, true) := by simpa using hw
  rfl

theorem okWrite_part (k : Nat) (f : Spec.Update) : okWrite [(k, f, false)] := by
  refine ⟨by simp, ?_⟩
  intro w hw h
  obtain rfl : w = (k, f, false) := by simpa using hw
  simp at h

/-- A write of one large record, and then a read of it. -/
def readHistory : List Ev :=
  [.openW [(0, fun _ => big, true)], .advance 0, .closeW, .openR 0 0 1, .fill 0 1]

/-- A write of a few bytes, up to the point where the record is in the tree. -/
def writeHistory : List Ev := [.openW [(0, fun _ => [1], false)], .advance 0, .advance 0]

theorem readHistory_steps : Steps St.empty readHistory []
    ⟨[(0, .inline 0 big)], [], 0, 1, [(0, ⟨0, 1, 1, [(0, .inline 0 big)], [], []⟩)], none⟩ := by
  refine Steps.cons (o := none) rfl (Steps.cons (o := none) rfl (Steps.cons (o := none) rfl
    (Steps.cons (o := none) rfl (Steps.cons (o := none) rfl (Steps.nil _)))))

theorem writeHistory_steps : Steps St.empty writeHistory []
    ⟨[(0, .inline 0 [1])], [], 0, 1, [], some [⟨0, fun _ => [1], false, .placed 0⟩]⟩ := by
  refine Steps.cons (o := none) rfl (Steps.cons (o := none) rfl (Steps.cons (o := none) rfl
    (Steps.nil _)))

/-- The flusher panics if it meets a large extent that a read has fetched and
not looked at: `Arc::try_unwrap(..).unwrap()`, fs_tree.rs:1065. -/
theorem C68_flush_panics_during_read : ∃ evs outs s, OkWrites evs ∧ Steps St.empty evs outs s ∧
    s.writer = none ∧ step s (.flush fun _ => true) = some .panic := by
  refine ⟨readHistory, _, _, ?_, readHistory_steps, rfl, ?_⟩
  · intro l hl
    simp only [readHistory, List.mem_cons, Ev.openW.injEq, reduceCtorEq, List.not_mem_nil, or_false]
      at hl
    subst hl
    exact okWrite_full 0 big
  · rw [C68_flush_panics_iff]
    refine ⟨0, 0, big, by simp, rfl, Or.inr ⟨by rw [big_length]; decide, 0, _, 0, big,
      List.mem_cons_self, List.mem_cons_self⟩⟩

/-- The flusher panics if it meets an extent, of any size, that a write has just
put back into the tree: the write's `DivBufMut` still exists. -/
theorem C68_flush_panics_during_write : ∃ evs outs s, OkWrites evs ∧ Steps St.empty evs outs s ∧
    s.readers = [] ∧ step s (.flush fun _ => true) = some .panic := by
  refine ⟨writeHistory, _, _, ?_, writeHistory_steps, rfl, ?_⟩
  · intro l hl
    simp only [writeHistory, List.mem_cons, Ev.openW.injEq, reduceCtorEq, List.not_mem_nil, or_false]
      at hl
    subst hl
    exact okWrite_part 0 _
  · rw [C68_flush_panics_iff]
    exact ⟨0, 0, [1], by simp, rfl, Or.inl ⟨_, _, rfl, List.mem_cons_self, rfl⟩⟩

/-! ## The hypotheses can be met -/

theorem ex_cons {s s' : St} {ev : Ev} {evs : List Ev} {o : Option (List (Nat × Bytes))}
    {outs : List (List (Nat × Bytes))} (h : step s ev = some (.ok s' o))
    (ht : ∃ s'', Steps s' evs outs s'') : ∃ s'', Steps s (ev :: evs) (o.toList ++ outs) s'' :=
  ht.imp fun _ => Steps.cons h

/-- A history with flushes between every two steps of a write and of two reads. -/
def busy : List Ev :=
  [.openW [(0, fun _ => [1, 2], true), (5, fun o => (o.getD []) ++ [3], false)],
   .advance 1, .flush (fun _ => true), .advance 0, .advance 1, .flush (fun k => k == 0),
   .advance 1, .closeW, .flush (fun _ => true),
   .openR 0 0 9, .openR 1 5 9, .fill 0 3, .flush (fun _ => true), .next 0, .fill 1 9, .fill 0 9,
   .next 1, .next 0, .closeR 0, .closeR 1]

example : OkWrites busy := by
  intro l hl
  simp only [busy, List.mem_cons, Ev.openW.injEq, reduceCtorEq, List.not_mem_nil, or_false] at hl
  subst hl
  refine ⟨by simp, ?_⟩
  intro w hw h x y
  simp only [List.mem_cons, List.not_mem_nil, or_false] at hw
  rcases hw with rfl | rfl
  · rfl
  · simp at h

example : ∃ s, Steps St.empty busy [[(0, [1, 2]), (5, [3])], [(5, [3])]] s := by
  iterate 18 refine ex_cons (o := none) rfl ?_
  refine ex_cons (o := some _) (outs := [[(5, [3])]]) rfl ?_
  exact ex_cons (o := some _) (outs := []) rfl ⟨_, Steps.nil _⟩

example : expected [] [] busy = [[(0, [1, 2]), (5, [3])], [(5, [3])]] := rfl

/-- Large records are moved out of the tree by a flush and read from there. -/
example : ∃ s, Steps St.empty
    [.openW [(0, fun _ => big, true)], .advance 0, .closeW, .flush (fun _ => true), .openR 0 0 1,
      .fill 0 1, .flush (fun _ => true), .next 0, .closeR 0] [[(0, big)]] s := by
  have hf : ∀ (r : OMap Reader), r = [] →
      step ⟨[(0, .inline 0 big)], [], 0, 1, r, none⟩ (.flush fun _ => true) =
        some (.ok ⟨[(0, .blob 0)], [(0, big)], 1, 1, r, none⟩ none) := by
    intro r hr
    subst hr
    have : big.length > threshold := by rw [big_length]; decide
    simp only [step, flushItems, flushEnt, St.mutHeld, St.arcHeld, this, if_true]
    rfl
  iterate 3 refine ex_cons (o := none) rfl ?_
  refine ex_cons (o := none) (hf [] rfl) ?_
  iterate 4 refine ex_cons (o := none) rfl ?_
  exact ex_cons (o := some _) (outs := []) rfl ⟨_, Steps.nil _⟩

/-- The hypotheses of `C68_flush_safe_when_quiet_partial` hold at the end of it. -/
example : ∃ s, Steps St.empty [.openW [(0, fun _ => [1], false)], .advance 0, .advance 0,
    .advance 0, .closeW, .openR 0 0 1, .fill 0 1, .next 0] [] s ∧ s.writer = none ∧
    s.tree ≠ [] ∧ s.readers ≠ [] ∧ ∀ id r, (id, r) ∈ s.readers → r.todo = [] := by
  refine ⟨⟨[(0, .inline 0 [1])], [], 0, 1, [(0, ⟨0, 1, 1, [], [(0, [1])], [0]⟩)], none⟩, ?_, rfl,
    by simp, by simp, ?_⟩
  · iterate 8 refine Steps.cons (o := none) rfl ?_
    exact Steps.nil _
  · intro id r h
    obtain ⟨_, rfl⟩ : id = 0 ∧ r = ⟨0, 1, 1, [], [(0, [1])], [0]⟩ := by
      simpa using h
    rfl

end Verif.Share
