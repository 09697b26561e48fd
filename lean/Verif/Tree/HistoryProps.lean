import Verif.Tree.Props
import Verif.Tree.History
import Verif.Tree.Eval

/-!
# C38, C39: histories with range deletions

`C38_history_partial` says what every call returns, if it returns.  Here: which calls return.
-/

namespace Verif.Tree

variable {V : Type}

/-- The limits of the tests of the code (`Limits::new(2, 5, 2, 5)`). -/
abbrev L25 : Limits := { minInt := 2, maxInt := 5, minLeaf := 2, maxLeaf := 5 }

theorem L25_roomy : L25.Roomy := ⟨⟨by decide, by decide, by decide, by decide⟩, by decide⟩

theorem L28_roomy : L28.Roomy := ⟨L28_ok, by decide⟩

/-- The limits of `Tree::create` (`mod.rs:655-705`), for any fanout that is not tiny: the minimum
is a quarter of the maximum, rounded up. -/
theorem created_roomy (maxInt maxLeaf : Nat) (h1 : 5 ≤ maxInt) (h2 : 2 ≤ maxLeaf) :
    Limits.Roomy { minInt := (maxInt + 3) / 4, maxInt, minLeaf := (maxLeaf + 3) / 4, maxLeaf } :=
  ⟨⟨by show 1 ≤ (maxLeaf + 3) / 4; omega, by show 2 ≤ (maxInt + 3) / 4; omega,
    by show 2 * ((maxLeaf + 3) / 4) ≤ maxLeaf; omega,
    by show 2 * ((maxInt + 3) / 4) ≤ maxInt; omega⟩,
    by show 2 * ((maxInt + 3) / 4) + 1 ≤ maxInt; omega⟩

/-- C38: `range_delete` of any range other than one that excludes the same key at both ends
returns, from any tree in order, and removes exactly the keys in the range. -/
theorem C38_rangeDelete {L : Limits} (hL : L.Roomy) (txg : Nat) {t : Tree V} (ht : t.Ordered)
    (s e : Bnd Nat) (hse : ∀ k, ¬ (s = .excl k ∧ e = .excl k)) :
    ∃ t', t.rangeDelete L txg s e = some t' ∧ t'.Ordered ∧
      ∀ k, OMap.get t'.toMap k = if inRange s e k then none else OMap.get t.toMap k := by
  obtain ⟨t', h1, -⟩ := rangeDelete_total hL txg ht (s := s) (e := e) (by
    cases s <;> cases e <;> simp [rangeIsEmpty, btreeRangePanics] at hse ⊢ <;> omega)
  exact ⟨t', h1, C38_rangeDelete_partial hL.toOk ht h1⟩

/-- It applies to a deletion that crosses several nodes of a tree of four levels. -/
example : ∃ t, wide.rangeDelete L28 1 (.excl 3) (.incl 12) = some t ∧ t.Ordered ∧
    OMap.get t.toMap 3 = some 3 ∧ OMap.get t.toMap 12 = none ∧ OMap.get t.toMap 13 = some 13 := by
  obtain ⟨t, h1, h2, h3⟩ := C38_rangeDelete L28_roomy 1 (t := wide) (by decide +kernel) (.excl 3)
    (.incl 12) (by intro k h; cases h.2)
  exact ⟨t, h1, h2, by rw [h3]; decide +kernel, by rw [h3]; decide +kernel,
    by rw [h3]; decide +kernel⟩

/-- The excluded range panics on every tree in order, not just on a leaf. -/
theorem C38_rangeDelete_excluded_panics (L : Limits) (txg k : Nat) {t : Tree V} (ht : t.Ordered) :
    t.rangeDelete L txg (.excl k) (.excl k) = none := by
  unfold Tree.rangeDelete
  rw [if_neg (by simp [rangeIsEmpty])]
  have hu := unmark_spec t.h ht.1
  have := pass1_insane L txg k t.h hu.1 (fun h0 h => by
    have := hu.2.2; rw [h] at this
    exact ht.2 h0 (List.length_eq_zero_iff.mp this.symm))
  simp only [Tree.xlockRoot, this, Option.bind_none]

example : wide.rangeDelete L28 1 (.excl 7) (.excl 7) = none :=
  C38_rangeDelete_excluded_panics L28 1 7 (by decide +kernel)

abbrev L24 : Limits := { minInt := 2, maxInt := 4, minLeaf := 1, maxLeaf := 2 }

def six : List (Op Nat) := [4, 5, 6, 7, 8, 9].map (fun k => .insert 1 k k)

/-- The room in the limits is needed: if the maximum were just twice the minimum, then after six
insertions the deletion of a range below all of them would panic.  (The limits that the code
creates do have room, see `created_roomy`; this only shows why it is a hypothesis.) -/
theorem C38_tight_limits_counterexample :
    L24.Ok ∧ (∃ t rs, run L24 false (Tree.empty : Tree Nat) six = some (t, rs)) ∧
      run L24 false (Tree.empty : Tree Nat) (six ++ [.rangeDelete 1 (.incl 1) (.excl 3)]) = none := by
  refine ⟨⟨by decide, by decide, by decide, by decide⟩, ?_, ?_⟩
  · have h : ((run L24 false (Tree.empty : Tree Nat) six).map (·.1)).isSome = true := by
      rw [runS_eq]; decide +kernel
    simp only [Option.isSome_map] at h
    obtain ⟨⟨t, rs⟩, h⟩ := Option.isSome_iff_exists.mp h
    exact ⟨t, rs, h⟩
  · have h : ((run L24 false (Tree.empty : Tree Nat)
        (six ++ [.rangeDelete 1 (.incl 1) (.excl 3)])).map (·.1)).isNone = true := by
      rw [runS_eq]; decide +kernel
    simpa using h

/-- C38: a history of calls with any ranges but the excluded ones (and, for `range`, those that
fail its own check) either returns to the end, with the results of an ordered map; or stops at a
`remove` on a tree whose root has a single child which has a single child itself.

Partial: whether such a tree can come about is open; `remove` merges only one level of it into
the root. -/
theorem C38_histories_partial {L : Limits} (hL : L.Roomy) (seq : Bool) (ops : List (Op V))
    (hops : ∀ op ∈ ops, op.sane = true) :
    (∃ t, run L seq Tree.empty ops = some (t, (specRun [] ops).2) ∧
      t.toMap = (specRun [] ops).1) ∨
    ∃ pre txg k post t rs, ops = pre ++ .remove txg k :: post ∧
      run L seq Tree.empty pre = some (t, rs) ∧ t.slender = true := by
  cases h : run L seq (Tree.empty : Tree V) ops with
  | none => exact Or.inr (run_total hL seq ops empty_ordered (empty_slim L) hops h)
  | some p =>
    obtain ⟨t, rs⟩ := p
    obtain ⟨h1, h2⟩ := C38_history_partial hL.toOk seq ops h
    exact Or.inl ⟨t, by rw [← h1], h2⟩

/-- C38: in particular a history without `remove` never panics, whatever it inserts and whichever
ranges it deletes. -/
theorem C38_no_remove_no_panic {L : Limits} (hL : L.Roomy) (seq : Bool) (ops : List (Op V))
    (hops : ∀ op ∈ ops, op.sane = true) (hrm : ∀ txg k, .remove txg k ∉ ops) :
    ∃ t, run L seq Tree.empty ops = some (t, (specRun [] ops).2) ∧
      t.toMap = (specRun [] ops).1 := by
  rcases C38_histories_partial hL seq ops hops with h | ⟨pre, txg, k, post, -, -, rfl, -⟩
  · exact h
  · exact absurd (List.mem_append_right _ (List.mem_cons_self ..)) (hrm txg k)

/-- A history of 120 insertions, overlapping range deletions and queries. -/
def busy : List (Op Nat) :=
  (List.range 120).map (fun k => .insert 1 k k) ++ [.flush 1 0, .rangeDelete 2 (.incl 7) (.excl 50),
    .rangeDelete 2 (.excl 40) (.incl 63), .insert 3 44 1, .rangeDelete 3 (.excl 5) (.excl 6),
    .rangeDelete 3 .unb (.excl 3), .get 44, .lastKey]

example : ∃ t, run L25 false Tree.empty busy = some (t, (specRun [] busy).2) ∧
    t.toMap.length = 61 := by
  obtain ⟨t, h1, h2⟩ := C38_no_remove_no_panic L25_roomy false busy (by decide +kernel) (by
    intro txg k h
    simp only [busy, List.mem_append, List.mem_map, List.mem_cons, reduceCtorEq, and_false,
      exists_false, List.not_mem_nil, or_self] at h)
  exact ⟨t, h1, by rw [h2]; decide +kernel⟩

/-- The exception of `C38_histories_partial` is real in this sense: there is a tree in order, with
no node too large, on which `remove` panics. -/
theorem C38_slender_remove_panics :
    ∃ t : Tree Nat, t.Ordered ∧ t.Slim L25 ∧ t.slender = true ∧ t.remove L25 1 0 = none := by
  refine ⟨{ h := 2, info := mem, root := node2 [(0, [(0, [0, 1])])] }, by decide +kernel,
    ⟨by decide +kernel, ?_⟩, by decide +kernel, by decide +kernel⟩
  intro e he
  simp only [node2, node1, leaf, List.map_cons, List.map_nil, List.mem_singleton] at he
  subst he
  refine ⟨Nat.zero_le _, by decide, ?_⟩
  intro e he
  simp only [el, List.mem_singleton] at he
  subst he
  exact ⟨Nat.zero_le _, by decide, fun _ _ => trivial⟩

/-- C39: after any history that returns, no node has more than the maximum number of elements.

Partial: the minimum is missing, and is violated (`C39_rangeDelete_counterexample`). -/
theorem C39_max_partial {L : Limits} (hL : L.Roomy) (seq : Bool) (ops : List (Op V))
    {t : Tree V} {rs : List (Res V)} (hr : run L seq Tree.empty ops = some (t, rs)) :
    t.root.length ≤ L.max t.h ∧ ∀ e ∈ t.root, NotOver L t.h e.2 :=
  (slim_iff L t).mp (run_slim hL ops empty_ordered (empty_slim L) hr)

/-- It applies to a history with range deletions after which the tree still has 49 items, which
is more than one leaf can hold. -/
example : ∃ t rs, run L25 true (Tree.empty : Tree Nat)
    ((List.range 70).map (fun k => .insert 1 k k) ++ [.rangeDelete 2 (.incl 10) (.excl 31)]) =
      some (t, rs) ∧ t.root.length ≤ L25.max t.h ∧ 1 ≤ t.h := by
  obtain ⟨t, h1, h2⟩ := C38_no_remove_no_panic (V := Nat) L25_roomy true
    ((List.range 70).map (fun k => .insert 1 k k) ++ [.rangeDelete 2 (.incl 10) (.excl 31)])
    (by decide +kernel) (by
        intro txg k h
        simp only [List.mem_append, List.mem_map, List.mem_cons, reduceCtorEq, and_false,
          exists_false, List.not_mem_nil, or_self] at h)
  have hf := C39_max_partial L25_roomy true _ h1
  refine ⟨t, _, h1, hf.1, ?_⟩
  have hlen : t.toMap.length = 49 := by rw [h2]; decide +kernel
  obtain ⟨ht, info, root⟩ := t
  cases ht with
  | zero =>
    have h1 : root.length ≤ 5 := hf.1
    have h2 : (items 0 root).length = 49 := hlen
    rw [items_zero] at h2
    have h3 : root.length = 49 := h2
    omega
  | succ n => show 1 ≤ n + 1; omega

/-- Nineteen insertions and two range deletions. -/
def thinning : List (Op Nat) :=
  [0, 1, 2, 3, 4, 5, 6, 7, 8, 9, 13, 14, 15, 64, 65, 66, 67, 68, 69].map (fun k => .insert 1 k k) ++
    [.rangeDelete 1 (.incl 2) (.excl 4), .rangeDelete 1 (.incl 7) (.excl 11)]

abbrev L25s : Limits := { minInt := 2, maxInt := 5, minLeaf := 1, maxLeaf := 2 }

/-- Violation of C39, from the empty tree: a short history leaves a node other than the root with
too few children. -/
theorem C39_history_counterexample :
    L25s.Roomy ∧ ∃ t rs, run L25s false Tree.empty thinning = some (t, rs) ∧ ¬ t.Filled L25s := by
  refine ⟨⟨⟨by decide, by decide, by decide, by decide⟩, by decide⟩, ?_⟩
  have h : (((run L25s false Tree.empty thinning).map (·.1)).map fun t =>
      decide (t.Filled L25s)) = some false := by
    rw [runS_eq]; decide +kernel
  rw [Option.map_map] at h
  obtain ⟨⟨t, rs⟩, h1, h2⟩ := Option.map_eq_some_iff.mp h
  exact ⟨t, rs, h1, of_decide_eq_false h2⟩

end Verif.Tree
