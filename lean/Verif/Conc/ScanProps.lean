import Verif.Conc.ScanSystem
import Verif.Conc.Props

/-!
# C85: range queries among other tasks

Property: while other tasks insert, remove, look up and flush, one call of `get_range` returns what
a map that is copied at one instant during the call holds in the first part of the range; so a range
query, which is a sequence of such calls, reports its keys in order, each at most once and with a
value that it had at some instant during the query, and does not miss a key that was there all the
time.
-/

namespace Verif.Conc

open Verif
open Verif.Tree (Limits Bnd inRange startOk stopOk inRange_eq)

variable {V : Type}

/-- Every run of the concurrent tree with range queries looks to its callers like a run of a map on
which each insertion, removal and lookup is one instant, and each call of `get_range` another one. -/
theorem C85_chunk_atomic {L : Limits} (hL : L.Ok) {seq : Bool} {s : XSys V} {es : List (XEvent V)}
    (hr : XRun L seq XSys.empty es s) :
    ∃ a, XARun ⟨⟨[], [], []⟩, fun _ => none⟩ es a ∧ a.atom.calls = s.sys.calls ∧
      (¬ s.sys.Busy → a.atom.map = s.sys.stored ∧ a.atom.done = []) := by
  obtain ⟨a, h1, _, h2⟩ := xrun_ok hL hr (a := ⟨⟨[], [], []⟩, fun _ => none⟩) (xinv_empty L)
    sim_empty
  refine ⟨a, h1, h2.calls, fun hb => ?_⟩
  obtain ⟨h3, h4⟩ := idle_sys hb
  refine ⟨h2.map.trans h3, ?_⟩
  have := h2.done
  rw [h4] at this
  exact this.eq_nil

/-! ## Whole queries -/

/-- The calls of one range query from `s` to `e` among the events: every call but the last one says
where the next one starts. -/
inductive Query (es : List (XEvent V)) (e : Bnd Nat) : Bnd Nat → List (Nat × OMap V) → Prop
  | last {id : Nat} {s : Bnd Nat} {v : OMap V} : .scan id s e ∈ es → .chunk id v none ∈ es →
      Query es e s [(id, v)]
  | more {id : Nat} {s s' : Bnd Nat} {v : OMap V} {rest : List (Nat × OMap V)} :
      .scan id s e ∈ es → .chunk id v (some s') ∈ es → Query es e s' rest →
      Query es e s ((id, v) :: rest)

theorem xa_keep {a a' : XAtomic V} {es : List (XEvent V)} (h : XARun a es a') {id : Nat}
    {x : Bnd Nat × Bnd Nat × OMap V} (hx : a.copies id = some x) : a'.copies id = some x := by
  induction h with
  | nil => exact hx
  | cons hst _ ih =>
    refine ih ?_
    cases hst with
    | base => exact hx
    | chunk => exact hx
    | scan a c id' s e hnone =>
      show (if id = id' then _ else c id) = _
      split
      · next h =>
        subst h
        have hx : c id = some x := hx
        rw [hnone] at hx
        cases hx
      · exact hx

theorem spec_sorted {m : OMap V} (h : OMap.Sorted m) (op : Op V) :
    OMap.Sorted (specStep m op).1 := by
  cases op with
  | insert k v => exact h.insert k v
  | remove k => exact h.remove k
  | get => exact h
  | lastKey => exact h
  | visit => exact h

/-- What the events say about the copies. -/
theorem xa_events {a a' : XAtomic V} {es : List (XEvent V)} (h : XARun a es a')
    (hs : OMap.Sorted a.atom.map) (hc : ∀ id s e m, a.copies id = some (s, e, m) → OMap.Sorted m) :
    (∀ id s e, XEvent.scan id s e ∈ es → ∃ m, a'.copies id = some (s, e, m)) ∧
    (∀ id v b, XEvent.chunk id v b ∈ es → ∃ s e m, a'.copies id = some (s, e, m) ∧
      Part m s e v b) ∧
    (∀ id s e m, a'.copies id = some (s, e, m) → OMap.Sorted m) := by
  induction h with
  | nil => exact ⟨by simp, by simp, hc⟩
  | cons hst hrest ih =>
    cases hst with
    | @base a1 a2 _ c hst =>
      have hs' : OMap.Sorted a2.map := by
        cases hst with
        | call => exact hs
        | effect m pre post ds id op => exact spec_sorted hs op
        | ret => exact hs
      obtain ⟨h1, h2, h3⟩ := ih hs' hc
      refine ⟨fun id s e hm => ?_, fun id v b hm => ?_, h3⟩
      · rcases List.mem_append.mp hm with hm | hm
        · simp at hm
        · exact h1 _ _ _ hm
      · rcases List.mem_append.mp hm with hm | hm
        · simp at hm
        · exact h2 _ _ _ hm
    | scan a c id' s' e' hnone =>
      obtain ⟨h1, h2, h3⟩ := ih hs (by
        intro id s e m hm
        simp only at hm
        split at hm
        · cases hm; exact hs
        · exact hc _ _ _ _ hm)
      refine ⟨fun id s e hm => ?_, fun id v b hm => ?_, h3⟩
      · rcases List.mem_append.mp hm with hm | hm
        · simp only [List.mem_singleton, XEvent.scan.injEq] at hm
          obtain ⟨rfl, rfl, rfl⟩ := hm
          exact ⟨a.map, xa_keep hrest (by simp)⟩
        · exact h1 _ _ _ hm
      · rcases List.mem_append.mp hm with hm | hm
        · simp at hm
        · exact h2 _ _ _ hm
    | chunk a c id' s' e' m' v' b' hm' hp =>
      obtain ⟨h1, h2, h3⟩ := ih hs hc
      refine ⟨fun id s e hm => ?_, fun id v b hm => ?_, h3⟩
      · rcases List.mem_append.mp hm with hm | hm
        · simp at hm
        · exact h1 _ _ _ hm
      · rcases List.mem_append.mp hm with hm | hm
        · simp only [List.mem_singleton, XEvent.chunk.injEq] at hm
          obtain ⟨rfl, rfl, rfl⟩ := hm
          exact ⟨s', e', m', xa_keep hrest hm', hp⟩
        · exact h2 _ _ _ hm

theorem after_range {s s' e : Bnd Nat} {k : Nat} (h : After s' k) (hr : inRange s e k = true) :
    inRange s' e k = true := by
  rw [inRange_eq] at hr ⊢
  rw [after_iff.mp h]
  simp only [Bool.and_eq_true] at hr
  simp [hr.2]

theorem range_after {s e : Bnd Nat} {k : Nat} (hr : inRange s e k = true) : After s k := by
  rw [inRange_eq] at hr
  simp only [Bool.and_eq_true] at hr
  exact after_iff.mpr hr.1

/-- A range query reports keys of the range in ascending order, each at most once; and what it
reports for a key is what the map held for it at one instant, that of the call of `get_range` which
covers this key. -/
theorem C85_whole_query {L : Limits} (hL : L.Ok) {seq : Bool} {t : XSys V} {es : List (XEvent V)}
    (hr : XRun L seq XSys.empty es t) {s e : Bnd Nat} {q : List (Nat × OMap V)}
    (hq : Query es e s q) :
    ∃ a, XARun ⟨⟨[], [], []⟩, fun _ => none⟩ es a ∧ OMap.Sorted (q.flatMap (·.2)) ∧
      (∀ x ∈ q.flatMap (·.2), inRange s e x.1 = true) ∧
      ∀ k, inRange s e k = true → ∃ p ∈ q, ∃ s' m, a.copies p.1 = some (s', e, m) ∧
        ∀ v, (k, v) ∈ q.flatMap (·.2) ↔ (k, v) ∈ m := by
  obtain ⟨a, h1, _, _⟩ := C85_chunk_atomic hL hr
  obtain ⟨e1, e2, e3⟩ := xa_events h1 List.Pairwise.nil (by simp)
  refine ⟨a, h1, ?_⟩
  induction hq with
  | @last id s v hs hc =>
    obtain ⟨m, hm⟩ := e1 _ _ _ hs
    obtain ⟨s', e', m', hm', hp⟩ := e2 _ _ _ hc
    rw [hm] at hm'
    cases hm'
    have hp : v = m.filter fun x => inRange s e x.1 := hp
    simp only [List.flatMap_cons, List.flatMap_nil, List.append_nil]
    refine ⟨?_, ?_, ?_⟩
    · rw [hp]
      exact List.Pairwise.filter _ (e3 _ _ _ _ hm)
    · intro x hx
      rw [hp] at hx
      exact (List.mem_filter.mp hx).2
    · intro k hk
      refine ⟨(id, v), by simp, s, m, hm, fun w => ?_⟩
      rw [hp, List.mem_filter]
      exact ⟨fun h => h.1, fun h => ⟨h, hk⟩⟩
  | @more id s s' v rest hs hc _ ih =>
    obtain ⟨m, hm⟩ := e1 _ _ _ hs
    obtain ⟨s'', e', m', hm', hp⟩ := e2 _ _ _ hc
    rw [hm] at hm'
    cases hm'
    obtain ⟨_, p2, p3, p4⟩ := hp
    obtain ⟨i1, i2, i3⟩ := ih
    have hin : ∀ x ∈ v, x ∈ m ∧ inRange s e x.1 = true := by
      intro x hx
      have : x ∈ m.filter fun x => inRange s e x.1 := by rw [p4]; exact List.mem_append_left _ hx
      exact List.mem_filter.mp this
    have hrest : ∀ x ∈ rest.flatMap (·.2), inRange s e x.1 = true := by
      intro x hx
      have := i2 x hx
      have h3 := p3 _ (range_after this)
      exact after_range h3 this
    rw [List.flatMap_cons]
    refine ⟨?_, ?_, ?_⟩
    · refine List.pairwise_append.mpr ⟨?_, i1, ?_⟩
      · have := List.Pairwise.filter (fun x => inRange s e x.1) (e3 _ _ _ _ hm)
        rw [p4] at this
        exact (List.pairwise_append.mp this).1
      · intro x hx y hy
        have h1 := p2 x hx
        have h2 := range_after (i2 y hy)
        rw [after_iff] at h1 h2
        exact Tree.startOk_lt (by simpa using h1) h2
    · intro x hx
      rcases List.mem_append.mp hx with hx | hx
      · exact (hin x hx).2
      · exact hrest x hx
    · intro k hk
      by_cases hak : After s' k
      · obtain ⟨p, hp, sp, mp, hcp, hv⟩ := i3 k (after_range hak hk)
        refine ⟨p, List.mem_cons_of_mem _ hp, sp, mp, hcp, fun w => ?_⟩
        rw [List.mem_append, ← hv w]
        exact ⟨fun h => h.resolve_left fun h => p2 _ h hak, Or.inr⟩
      · refine ⟨(id, v), by simp, s, m, hm, fun w => ?_⟩
        rw [List.mem_append]
        constructor
        · rintro (h | h)
          · exact (hin _ h).1
          · exact absurd (range_after (i2 _ h)) hak
        · intro h
          have : (k, w) ∈ m.filter fun x => inRange s e x.1 := List.mem_filter.mpr ⟨h, hk⟩
          rw [p4] at this
          rcases List.mem_append.mp this with this | this
          · exact Or.inl this
          · exact absurd (range_after (List.mem_filter.mp this).2) hak

/-! ## Examples -/

theorem XRun.base {L : Limits} {seq : Bool} {s s' : Sys V} {used : List Nat} {t : XSys V}
    {es : List (Event V)} {es' : List (XEvent V)} (h1 : SysStepOf Read.plain L seq s es s')
    (h2 : XRun L seq ⟨s', used⟩ es' t) : XRun L seq ⟨s, used⟩ (es.map .base ++ es') t :=
  .cons (.base h1) h2

def scanEvents : List (XEvent Nat) :=
  [.base (.call 0 (.insert 1 10)), .base (.ret 0 (.value none)), .base (.call 1 (.insert 5 50)),
    .base (.ret 1 (.value none)), .base (.call 2 (.insert 3 30)), .base (.ret 2 (.value none)),
    .scan 7 .unb .unb, .base (.call 3 (.insert 1 11)), .chunk 7 [(1, 10), (3, 30)] (some (.incl 5)),
    .base (.ret 3 (.value (some 10))), .base (.call 4 (.insert 5 51)),
    .base (.ret 4 (.value (some 50))), .scan 8 (.incl 5) .unb, .chunk 8 [(5, 51)] (some (.excl 5)),
    .scan 9 (.excl 5) .unb, .chunk 9 [] none]

/-- A query is in the first leaf and keeps the second one locked.  An insertion that goes to the first
leaf has to wait.  The second part of the query comes after another insertion. -/
theorem scan_demo : XRun demoL false XSys.empty scanEvents ⟨⟨[], .free,
    ⟨1, fresh [(0, fresh [(1, 11), (3, 30)]), (5, fresh [(5, 51)])]⟩⟩, [9, 8, 7]⟩ := by
  unfold scanEvents XSys.empty
  refine XRun.base (es := [_]) (.call 0 (.insert 1 10)) ?_
  refine XRun.base (es := []) (.enterExcl (pre := []) (post := []) (w := .insert 0 1 10) rfl) ?_
  refine XRun.base (es := [_]) (.insertLeaf (n := []) rfl) ?_
  refine XRun.base (es := [_]) (.call 1 (.insert 5 50)) ?_
  refine XRun.base (es := []) (.enterExcl (pre := []) (post := []) (w := .insert 1 5 50) rfl) ?_
  refine XRun.base (es := [_]) (.insertLeaf (n := [(1, 10)]) rfl) ?_
  refine XRun.base (es := [_]) (.call 2 (.insert 3 30)) ?_
  refine XRun.base (es := []) (.enterExcl (pre := []) (post := []) (w := .insert 2 3 30) rfl) ?_
  refine XRun.base (es := []) (.insertSplit (h := 0) (n := [(1, 10), (5, 50)]) (left := [(1, 10)])
    (right := [(5, 50)]) (k' := 5) rfl rfl) ?_
  refine XRun.base (es := [_]) (.inside (l := some (2, .value none))
    (.insertLeaf (key := 0) (n := [(1, 10)]) rfl rfl)) ?_
  refine XRun.cons (es := [_]) (.scan (id := 7) (s := .unb) (e := .unb) (rs := []) (by simp) rfl) ?_
  refine XRun.cons (es := []) (.root (pre := []) (post := []) (rs := []) (id := 7) (s := .unb)
    (e := .unb)) ?_
  refine XRun.cons (es := []) (.swap (id := 7) (.downNext (k := 5) (pre := []) (post := []) (rs := [])
    (rs' := []) (key := 0) (key' := 5) (n := [(1, 10), (3, 30)]) (n' := [(5, 50)])
    rfl rfl rfl rfl rfl)) ?_
  refine XRun.base (es := [_]) (.call 3 (.insert 1 11)) ?_
  refine XRun.base (es := []) (.enterExcl (pre := []) (post := []) (w := .insert 3 1 11) rfl) ?_
  refine XRun.base (es := []) (.insertDown (h := 0) (n := [(0, (⟨.shared [.scan 7 .unb .unb (some 5)],
    [(1, 10), (3, 30)]⟩ : Node Nat 0)), (5, (⟨.shared [.guard 7 .unb .unb 5], [(5, 50)]⟩ : Node Nat 0))])
    rfl) ?_
  refine XRun.cons (es := [_]) (.ret (id := 7) (ScanStep.deeper (pre := [])
    (.leafRet (s := .unb) (e := .unb) (next := some 5) (pre := []) (post := []) rfl))) ?_
  refine XRun.base (es := [_]) (.inside (l := some (3, .value (some 10)))
    (.insertLeaf (key := 0) (n := [(1, 10), (3, 30)]) rfl rfl)) ?_
  refine XRun.base (es := [_]) (.call 4 (.insert 5 51)) ?_
  refine XRun.base (es := []) (.enterExcl (pre := []) (post := []) (w := .insert 4 5 51) rfl) ?_
  refine XRun.base (es := []) (.insertDown (h := 0)
    (n := [(0, fresh [(1, 11), (3, 30)]), (5, fresh [(5, 50)])]) rfl) ?_
  refine XRun.base (es := [_]) (.inside (l := some (4, .value (some 50)))
    (.insertLeaf (key := 5) (n := [(5, 50)]) rfl rfl)) ?_
  refine XRun.cons (es := [_]) (.scan (id := 8) (s := .incl 5) (e := .unb) (rs := []) (by simp) rfl) ?_
  refine XRun.cons (es := []) (.root (pre := []) (post := []) (rs := []) (id := 8) (s := .incl 5)
    (e := .unb)) ?_
  refine XRun.cons (es := []) (.down (id := 8) (.downLast (pre := []) (post := []) (rs := [])
    (next := none) (s := .incl 5) (e := .unb) (key := 5) (n := [(5, 51)]) (by decide) rfl)) ?_
  refine XRun.cons (es := [_]) (.ret (id := 8) (ScanStep.deeper (pre := [(0, fresh [(1, 11), (3, 30)])])
    (.leafRet (s := .incl 5) (e := .unb) (next := none) (pre := []) (post := []) rfl))) ?_
  refine XRun.cons (es := [_]) (.scan (id := 9) (s := .excl 5) (e := .unb) (rs := []) (by simp) rfl) ?_
  refine XRun.cons (es := []) (.root (pre := []) (post := []) (rs := []) (id := 9) (s := .excl 5)
    (e := .unb)) ?_
  refine XRun.cons (es := []) (.down (id := 9) (.downLast (pre := []) (post := []) (rs := [])
    (next := none) (s := .excl 5) (e := .unb) (key := 5) (n := [(5, 51)]) (by decide) rfl)) ?_
  refine XRun.cons (es := [_]) (.ret (id := 9) (ScanStep.deeper (pre := [(0, fresh [(1, 11), (3, 30)])])
    (.leafRet (s := .excl 5) (e := .unb) (next := none) (pre := []) (post := []) rfl))) ?_
  exact .nil _

theorem scan_query : Query scanEvents .unb .unb [(7, [(1, 10), (3, 30)]), (8, [(5, 51)]), (9, [])] := by
  refine .more (s' := .incl 5) ?_ ?_ (.more (s' := .excl 5) ?_ ?_ (.last ?_ ?_)) <;> simp [scanEvents]

/-- The properties apply to it.  The query reports 10 for the key 1, which was there when its first
part was copied. -/
example : ∃ a, XARun ⟨⟨[], [], []⟩, fun _ => none⟩ scanEvents a ∧
    ∃ id s' m, a.copies id = some (s', .unb, m) ∧ ((1, 10) : Nat × Nat) ∈ m := by
  obtain ⟨a, h1, _, _, h2⟩ := C85_whole_query demoL_ok scan_demo scan_query
  obtain ⟨p, _, s', m, h3, h4⟩ := h2 1 rfl
  exact ⟨a, h1, p.1, s', m, h3, (h4 10).mp (by simp)⟩

end Verif.Conc
