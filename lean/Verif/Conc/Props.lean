import Verif.Conc.Term

/-!
# C71: concurrent calls on one tree

Property: while any number of tasks insert, remove, look up and flush in the same tree, every call
takes effect at one instant between its start and its end; no call waits forever; and every call
ends.
-/

namespace Verif.Conc

open Verif
open Verif.Tree (Limits)

variable {V : Type}

/-- Every run of the concurrent tree looks to its callers like a run of a map on which each call is
one instant.  When nobody holds a lock, the items in the leaves are that map, and no call has taken
effect without having returned. -/
theorem C71_linearizable {L : Limits} (hL : L.Ok) {seq : Bool} {s : Sys V} {es : List (Event V)}
    (hr : Run L seq Sys.empty es s) :
    ∃ a, ARun ⟨[], [], []⟩ es a ∧ a.calls = s.calls ∧
      (¬ s.Busy → a.map = s.stored ∧ a.done = []) := by
  obtain ⟨_, h⟩ := run_ok hL hr (inv_empty L)
  obtain ⟨a, h1, h2⟩ := h _ sim_empty
  refine ⟨a, h1, h2.calls, fun hb => ?_⟩
  obtain ⟨h3, h4⟩ := idle_sys hb
  refine ⟨h2.map.trans h3, ?_⟩
  have := h2.done
  rw [h4] at this
  exact this.eq_nil

/-- In a state that can be reached, if anything remains to be done, then some task can go on.  If
some task holds a lock, then a task that is in the tree can: a task never has to wait for one that
has not started. -/
theorem C71_no_deadlock {L : Limits} (hL : L.Ok) {seq : Bool} {s : Sys V} {es : List (Event V)}
    (hr : Run L seq Sys.empty es s) :
    (s.Busy → ∃ es' s', SysStep L seq s es' s' ∧ NoCall es' ∧ s'.calls = s.calls) ∧
    (¬ s.Busy → ∀ call ∈ s.calls, ∃ s', SysStep L seq s [] s' ∧ s'.Busy ∧
      s'.calls.length + 1 = s.calls.length ∧ s.calls.Perm (call :: s'.calls)) := by
  obtain ⟨hi, _⟩ := run_ok hL hr (inv_empty L)
  constructor
  · intro hb
    obtain ⟨es', s', h1, h2, h3⟩ := sys_progress hL seq hi hb
    exact ⟨es', s', h1, h3, h2⟩
  · rintro hb ⟨id, op⟩ hc
    obtain ⟨pre, post, hcs⟩ := List.append_of_mem hc
    obtain ⟨calls, top, t⟩ := s
    simp only [Sys.Busy, not_or, Classical.not_not] at hb
    obtain ⟨rfl, _⟩ := hb
    simp only at hcs
    subst hcs
    have hfin : ∀ top' : Lock V, top' ≠ .free →
        SysStep L seq ⟨pre ++ (id, op) :: post, .free, t⟩ [] ⟨pre ++ post, top', t⟩ →
        ∃ s', SysStep L seq ⟨pre ++ (id, op) :: post, .free, t⟩ [] s' ∧ s'.Busy ∧
          s'.calls.length + 1 = (pre ++ (id, op) :: post).length ∧
          (pre ++ (id, op) :: post).Perm ((id, op) :: s'.calls) := by
      intro top' hne hst
      exact ⟨_, hst, Or.inl hne, by simp; omega, List.perm_middle⟩
    cases op with
    | insert k v => exact hfin _ (by simp) (.enterExcl (w := .insert id k v) rfl)
    | remove k => exact hfin _ (by simp) (.enterExcl (w := .remove id k) rfl)
    | visit => exact hfin _ (by simp) (.enterExcl (w := .visit id) rfl)
    | get k => exact hfin _ (by simp) (.enterShared (r := .get id k) rfl)
    | lastKey => exact hfin _ (by simp) (.enterShared (r := .lastKey id) rfl)

theorem cap_empty (L : Limits) : CapN L (Sys.empty : Sys V).tree.h (Sys.empty : Sys V).tree.node :=
  ⟨Nat.zero_le _, trivial, fun _ h => absurd h List.not_mem_nil⟩

theorem run_cap {L : Limits} (hL : L.Ok) {seq : Bool} {s s' : Sys V} {es : List (Event V)}
    (hr : Run L seq s es s') (hi : Inv L s) (hc : CapN L s.tree.h s.tree.node) :
    CapN L s'.tree.h s'.tree.node := by
  induction hr with
  | nil => exact hc
  | cons hst _ ih => exact ih (sys_step hL hst hi).1 (sys_cap hL hst hi hc).1

theorem finish_bound {L : Limits} (hL : L.Ok) {seq : Bool} {n : Nat} {s s' : Sys V}
    (hf : Finish L seq n s s') (hi : Inv L s) (hc : CapN L s.tree.h s.tree.node) :
    n + s'.pot L ≤ s.pot L ∧ Inv L s' := by
  induction hf with
  | nil => exact ⟨by omega, hi⟩
  | cons hst hn _ ih =>
    have h1 := sys_cap hL hst hi hc
    have h2 := ih (sys_step hL hst hi).1 h1.1
    have h3 := h1.2 hn
    exact ⟨by omega, h2.2⟩

/-- Once no new calls are made, the tree comes to rest: there is a bound on the number of steps
that can follow, in any order of the tasks, and when no step is possible any more, every call has
returned and nobody holds a lock. -/
theorem C71_every_call_returns {L : Limits} (hL : L.Ok) {seq : Bool} {s : Sys V}
    {es : List (Event V)} (hr : Run L seq Sys.empty es s) :
    (∃ bound, ∀ n s', Finish L seq n s s' → n ≤ bound) ∧
    (∀ n s', Finish L seq n s s' → (∀ s'', ¬ Finish L seq 1 s' s'') →
      s'.calls = [] ∧ ¬ s'.Busy) := by
  obtain ⟨hi, _⟩ := run_ok hL hr (inv_empty L)
  have hc := run_cap hL hr (inv_empty L) (cap_empty L)
  refine ⟨⟨s.pot L, fun n s' hf => ?_⟩, fun n s' hf hstop => ?_⟩
  · have := (finish_bound hL hf hi hc).1
    omega
  · have hi' := (finish_bound hL hf hi hc).2
    have hnb : ¬ s'.Busy := by
      intro hb
      obtain ⟨es', s'', h1, _, h3⟩ := sys_progress hL seq hi' hb
      exact hstop s'' (.cons h1 h3 (.nil _))
    refine ⟨?_, hnb⟩
    cases hcs : s'.calls with
    | nil => rfl
    | cons c cs =>
      exfalso
      obtain ⟨calls, top, t⟩ := s'
      simp only [Sys.Busy, not_or, Classical.not_not] at hnb hcs
      obtain ⟨rfl, _⟩ := hnb
      subst hcs
      have hno : NoCall ([] : List (Event V)) := fun _ _ h => absurd h List.not_mem_nil
      have hgo : ∀ top' : Lock V,
          SysStep L seq ⟨[] ++ c :: cs, .free, t⟩ [] ⟨[] ++ cs, top', t⟩ → False :=
        fun top' h1 => hstop _ (.cons h1 hno (.nil _))
      obtain ⟨id, op⟩ := c
      cases op with
      | insert k v => exact hgo _ (.enterExcl (w := .insert id k v) rfl)
      | remove k => exact hgo _ (.enterExcl (w := .remove id k) rfl)
      | visit => exact hgo _ (.enterExcl (w := .visit id) rfl)
      | get k => exact hgo _ (.enterShared (r := .get id k) rfl)
      | lastKey => exact hgo _ (.enterShared (r := .lastKey id) rfl)

/-! ## Examples -/

def demoL : Limits := ⟨2, 4, 1, 2⟩

theorem demoL_ok : demoL.Ok := ⟨by decide, by decide, by decide, by decide⟩

theorem Run.one {L : Limits} {seq : Bool} {s s' : Sys V} {es : List (Event V)}
    (h : SysStep L seq s es s') : Run L seq s es s' := by
  have := Run.cons h (.nil _)
  rwa [List.append_nil] at this

theorem Run.trans {L : Limits} {seq : Bool} {s s1 s2 : Sys V} {es es' : List (Event V)}
    (h1 : Run L seq s es s1) (h2 : Run L seq s1 es' s2) : Run L seq s (es ++ es') s2 := by
  induction h1 with
  | nil => exact h2
  | cons h _ ih => rw [List.append_assoc]; exact .cons h (ih h2)

/-- Two leaves under one root. -/
def demoTree : Tree Nat := ⟨1, fresh [(0, fresh [(1, 10), (3, 30)]), (5, fresh [(5, 50)])]⟩

/-- A leaf fills up and the root is split.  The insertion of 3 enters while the tree is small. -/
theorem demo_build : Run demoL false Sys.empty
    [.call 0 (.insert 1 10), .ret 0 (.value none), .call 1 (.insert 5 50), .ret 1 (.value none),
      .call 2 (.insert 3 30), .ret 2 (.value none)] ⟨[], .free, demoTree⟩ := by
  refine .cons (es := [_]) (.call 0 (.insert 1 10)) ?_
  refine .cons (es := []) (.enterExcl (pre := []) (post := []) (w := .insert 0 1 10) rfl) ?_
  refine .cons (es := [_]) (.insertLeaf (n := []) rfl) ?_
  refine .cons (es := [_]) (.call 1 (.insert 5 50)) ?_
  refine .cons (es := []) (.enterExcl (pre := []) (post := []) (w := .insert 1 5 50) rfl) ?_
  refine .cons (es := [_]) (.insertLeaf (n := [(1, 10)]) rfl) ?_
  refine .cons (es := [_]) (.call 2 (.insert 3 30)) ?_
  refine .cons (es := []) (.enterExcl (pre := []) (post := []) (w := .insert 2 3 30) rfl) ?_
  refine .cons (es := []) (.insertSplit (h := 0) (n := [(1, 10), (5, 50)]) (left := [(1, 10)])
    (right := [(5, 50)]) (k' := 5) rfl rfl) ?_
  exact Run.one (.inside (l := some (2, .value none))
    (.insertLeaf (key := 0) (n := [(1, 10)]) rfl rfl))

/-- A removal of 3 and a lookup of 5 are in the tree together: the remover has let go of the root
and of the root pointer, holds the leaf with 3, and the reader is already in the other leaf. -/
theorem demo_both : Run demoL false Sys.empty
    ([.call 0 (.insert 1 10), .ret 0 (.value none), .call 1 (.insert 5 50), .ret 1 (.value none),
      .call 2 (.insert 3 30), .ret 2 (.value none)] ++ [.call 3 (.remove 3), .call 4 (.get 5)])
    ⟨[], .free, ⟨1, fresh [(0, (⟨.excl (.remove 3 3), [(1, 10), (3, 30)]⟩ : Node Nat 0)),
      (5, (⟨.shared [.get 4 5], [(5, 50)]⟩ : Node Nat 0))]⟩⟩ := by
  refine demo_build.trans ?_
  refine .cons (es := [_]) (.call 3 (.remove 3)) ?_
  refine .cons (es := []) (.enterExcl (pre := []) (post := []) (w := .remove 3 3) rfl) ?_
  refine .cons (es := []) (.removeDown (h := 1) (n := [(0, fresh [(1, 10), (3, 30)]), (5, fresh [(5, 50)])])
    (Or.inr (by decide))) ?_
  refine .cons (es := []) (.inside (l := none)
    (.removeDown (h := 0) (key := 0) (n := [(1, 10), (3, 30)]) rfl rfl)) ?_
  refine .cons (es := [_]) (.call 4 (.get 5)) ?_
  refine .cons (es := []) (.enterShared (pre := []) (post := []) (rs := []) (r := .get 4 5) rfl) ?_
  refine .cons (es := []) (.readDown (r := .get 4 5) (pre := []) (post := []) (rs := []) (h := 1) rfl) ?_
  refine .cons (es := []) (.inside (l := none)
    (.readDown (r := .get 4 5) (pre := []) (post := []) (rs := []) (h := 0) (key := 5)
      (n := [(5, 50)]) rfl rfl)) ?_
  exact .nil _

/-- The properties apply to it: it is busy, and can go on. -/
example : ∃ (es : List (Event Nat)) (s : Sys Nat), Run demoL false Sys.empty es s ∧ s.Busy ∧
    ∃ es' s', SysStep demoL false s es' s' ∧ NoCall es' ∧ s'.calls = s.calls := by
  have hr := demo_both
  refine ⟨_, _, hr, Or.inr (Or.inr ⟨_, List.mem_cons_self .., Or.inl (by simp)⟩), ?_⟩
  exact (C71_no_deadlock demoL_ok hr).1
    (Or.inr (Or.inr ⟨_, List.mem_cons_self .., Or.inl (by simp)⟩))

/-- After the first three calls the tree is idle and holds what was inserted. -/
example : ∃ a : Atomic Nat, a.map = [(1, 10), (3, 30), (5, 50)] ∧ a.calls = [] ∧ a.done = [] := by
  obtain ⟨a, _, h2, h3⟩ := C71_linearizable demoL_ok demo_build
  have h4 := h3 (by
    rintro (hb | hb | ⟨e, he, hb⟩)
    · exact hb rfl
    · exact hb rfl
    simp only [demoTree, fresh] at he
    simp only [List.mem_cons, List.not_mem_nil, or_false] at he
    rcases he with rfl | rfl
    · rcases hb with hb | ⟨_, _, hb⟩
      · exact hb rfl
      · exact hb
    · rcases hb with hb | ⟨_, _, hb⟩
      · exact hb rfl
      · exact hb)
  exact ⟨a, h4.1, h2, h4.2⟩

/-- The specification does refuse some behaviour: a lookup in a map that is empty, with nothing else
going on, finds nothing. -/
example (a : Atomic Nat) : ¬ ARun ⟨[], [], []⟩ [.call 1 (.get 7), .ret 1 (.value (some 3))] a := by
  intro h
  have key : ∀ {s a : Atomic Nat} {es : List (Event Nat)}, ARun s es a →
      s.map = [] → (∀ c ∈ s.calls, c.2 = Op.get 7) →
      (∀ d ∈ s.done, d.2 = Res.value none) → (∀ id op, Event.call id op ∈ es → op = Op.get 7) →
      ∀ id r, Event.ret id r ∈ es → r = Res.value none := by
    intro s a es h
    induction h with
    | nil => intro _ _ _ _ id r hm; simp at hm
    | cons hst _ ih =>
      intro h1 h2 h3 h4 id r hm
      have h4' : ∀ id op, Event.call id op ∈ _ → op = Op.get 7 :=
        fun id op h => h4 id op (List.mem_append.mpr (Or.inr h))
      cases hst with
      | call m cs ds id' op =>
        have ho := h4 id' op (by simp)
        subst ho
        rcases List.mem_append.mp hm with hm | hm
        · simp at hm
        · exact ih h1 (by simpa using h2) h3 h4' id r hm
      | effect m pre post ds id' op =>
        have ho : op = Op.get 7 := h2 (id', op) (by simp)
        subst ho
        simp only at h1
        subst h1
        refine ih rfl (fun c hc => h2 c ?_) (fun d hd => ?_) h4' id r (by simpa using hm)
        · simp only [List.mem_append, List.mem_cons] at hc ⊢
          rcases hc with hc | hc
          · exact Or.inl hc
          · exact Or.inr (Or.inr hc)
        · simp only [List.mem_cons] at hd
          rcases hd with rfl | hd
          · rfl
          · exact h3 d hd
      | ret m cs pre post id' r' =>
        rcases List.mem_append.mp hm with hm | hm
        · simp only [List.mem_singleton, Event.ret.injEq] at hm
          obtain ⟨rfl, rfl⟩ := hm
          exact h3 (id, r) (by simp)
        · refine ih h1 h2 (fun d hd => h3 d ?_) h4' id r hm
          simp only [List.mem_append, List.mem_cons] at hd ⊢
          rcases hd with hd | hd
          · exact Or.inl hd
          · exact Or.inr (Or.inr hd)
  have := key h rfl (by simp) (by simp) (by simp) 1 (.value (some 3)) (by simp)
  simp at this

/-! ## What goes wrong with `range_delete` -/

/-- `range_delete` holds the root pointer's and the root's lock in this state (both are free here),
wants to delete the leaves, and takes them out without waiting for their locks: with a removal (or a
lookup) still in the leaf, that panics. -/
theorem C71_range_delete_panics : ∃ (es : List (Event Nat)) (cs : Kids Nat 1),
    Run demoL false Sys.empty es ⟨[], .free, ⟨1, fresh cs⟩⟩ ∧ purgeLeaves cs 0 1 = none ∧
      purgeLeaves cs 1 2 = none := by
  exact ⟨_, _, demo_both, rfl, rfl⟩

/-- With nobody in the leaves, it does not. -/
theorem C71_range_delete_partial (cs : Kids V 1) (first last : Nat)
    (h : ∀ e ∈ cs, e.2.lock = .free) :
    purgeLeaves cs first last = some (cs.take first ++ cs.drop last) := by
  unfold purgeLeaves
  rw [if_pos]
  simp only [List.all_eq_true]
  intro e he
  rw [h e (List.mem_of_mem_drop (List.mem_of_mem_take he))]

example : purgeLeaves [(0, fresh [(1, 10)]), (5, (fresh [(5, 50)] : Node Nat 0))] 0 1 =
    some [(5, fresh [(5, 50)])] :=
  C71_range_delete_partial _ _ _ (by simp [fresh])

end Verif.Conc
