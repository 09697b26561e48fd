import Verif.Tree.Stream

/-!
# Properties of the B+tree

C38: the tree answers like an ordered map.  C39: the shape of the tree.  C40: range queries
while the tree changes.
-/

namespace Verif.Tree

variable {V : Type}

/-! ## C38 -/

/-- C38: starting from an empty tree, whatever is inserted, removed, range-deleted, read,
listed and flushed, and in whatever order, every call that returns has returned what an
ordered map would return, and in the end the tree holds what that map would hold.

Partial: says nothing about histories in which a call panics.  `C38_no_panic_partial` shows that
none does unless `range_delete` is among them. -/
theorem C38_history_partial {L : Limits} (hL : L.Ok) (seq : Bool) (ops : List (Op V))
    {t : Tree V} {rs : List (Res V)} (hr : run L seq Tree.empty ops = some (t, rs)) :
    rs = (specRun [] ops).2 ∧ t.toMap = (specRun [] ops).1 := by
  have := run_order hL ops empty_ordered hr
  exact ⟨this.2.2, this.2.1⟩

/-- C38: the same from any tree in order, for one `insert`: the old value is returned, and the
tree afterwards differs in that one key. -/
theorem C38_insert {L : Limits} (hL : L.Ok) (seq : Bool) (txg : Nat) {t : Tree V} (ht : t.Ordered)
    (hf : t.Filled L) (k : Nat) (v : V) :
    ∃ t' old, t.insert L seq txg k v = some (t', old) ∧ t'.Ordered ∧ t'.Filled L ∧
      old = OMap.get t.toMap k ∧
      ∀ k', OMap.get t'.toMap k' = if k' = k then some v else OMap.get t.toMap k' := by
  obtain ⟨t', r, h1, h2⟩ := step_filled hL seq ht hf (op := .insert txg k v) rfl
  obtain ⟨⟨t1, o⟩, h3, h4⟩ := Option.map_eq_some_iff.mp h1
  simp only [Prod.mk.injEq] at h4
  obtain ⟨rfl, rfl⟩ := h4
  obtain ⟨a, b, c⟩ := insert_order hL ht h3
  exact ⟨_, _, h3, a, h2, c, fun k' => by rw [b, OMap.get_insert]⟩

/-- C38: `remove` returns the old value and removes that one key. -/
theorem C38_remove {L : Limits} (hL : L.Ok) (txg : Nat) {t : Tree V} (ht : t.Ordered)
    (hf : t.Filled L) (k : Nat) :
    ∃ t' old, t.remove L txg k = some (t', old) ∧ t'.Ordered ∧ t'.Filled L ∧
      old = OMap.get t.toMap k ∧
      ∀ k', OMap.get t'.toMap k' = if k' = k then none else OMap.get t.toMap k' := by
  obtain ⟨t', old, h1, h2⟩ := remove_filled hL txg ht hf k
  obtain ⟨a, b, c⟩ := remove_order hL ht h1
  exact ⟨t', old, h1, a, h2, c, fun k' => by rw [b, OMap.get_remove]⟩

/-- C38: `range_delete`, if it returns, removes exactly the keys in the range. -/
theorem C38_rangeDelete_partial {L : Limits} (hL : L.Ok) {txg : Nat} {t t' : Tree V}
    (ht : t.Ordered) {s e : Bnd Nat} (hr : t.rangeDelete L txg s e = some t') :
    t'.Ordered ∧
      ∀ k, OMap.get t'.toMap k = if inRange s e k then none else OMap.get t.toMap k := by
  obtain ⟨a, b⟩ := rangeDelete_order hL ht hr
  refine ⟨a, fun k => ?_⟩
  rw [b, OMap.get_filter t.toMap (fun k => !inRange s e k)]
  cases inRange s e k <;> simp

/-- C38: no history without `range_delete` panics (and with ranges that pass the sanity check
of `range`), so `C38_history_partial` applies to all of them. -/
theorem C38_no_panic_partial {L : Limits} (hL : L.Ok) (seq : Bool) (ops : List (Op V))
    (hops : ∀ op ∈ ops, op.plain = true) : ∃ t rs, run L seq Tree.empty ops = some (t, rs) := by
  obtain ⟨t, rs, h, -⟩ := run_filled hL seq ops empty_ordered (empty_filled L) hops
  exact ⟨t, rs, h⟩

/-- C38: the stream returned by `range` over a tree that is left alone: the items of the range,
in order. -/
theorem C38_range {t : Tree V} (ht : t.Ordered) {s e : Bnd Nat} (hs : rangeSane s e = true) :
    t.range s e = some (t.toMap.filter (fun x => inRange s e x.1)) := range_spec ht hs

/-- Small limits that satisfy what the code demands of them. -/
abbrev L28 : Limits := { minInt := 2, maxInt := 8, minLeaf := 1, maxLeaf := 6 }

theorem L28_ok : L28.Ok := ⟨by decide, by decide, by decide, by decide⟩

/-- The hypotheses of `C38_no_panic_partial` are met by a history that grows the tree well beyond
one node and then removes from it. -/
example : ∃ t rs, run L28 false (Tree.empty : Tree Nat)
    ((List.range 100).map (fun k => .insert 1 k k) ++ [.flush 1 0] ++
      (List.range 80).map (fun k => .remove 2 k) ++ [.lastKey, .range (.incl 3) (.excl 95)]) =
      some (t, rs) ∧ t.toMap.length = 20 := by
  have hplain : ∀ op ∈ ((List.range 100).map (fun k => Op.insert 1 k k) ++ [.flush 1 0] ++
      (List.range 80).map (fun k => .remove 2 k) ++ [.lastKey, .range (.incl 3) (.excl 95)] :
      List (Op Nat)), op.plain = true := by decide +kernel
  obtain ⟨t, rs, h⟩ := C38_no_panic_partial L28_ok false _ hplain
  refine ⟨t, rs, h, ?_⟩
  rw [(C38_history_partial L28_ok false _ h).2]
  decide +kernel

/-- Violation of C38: a range deletion with both bounds excluded and equal, which is empty, is not
recognised as empty and panics in the first leaf it reaches. -/
theorem C38_rangeDelete_panic_counterexample (L : Limits) (txg k v : Nat) :
    (({ h := 0, info := { start := 0, stop := 1, addr := none, mark := false },
        root := [(k, v)] } : Tree Nat).rangeDelete L txg (.excl k) (.excl k)) = none := by
  simp [Tree.rangeDelete, rangeIsEmpty, Tree.xlockRoot, pass1, btreeRangePanics]

/-! ## C39 -/

/-- C39: after any history, the keys of the tree are in order, and each child's key bounds its
contents.  (That all leaves have the same depth is part of the model's type of trees.)

Partial: the fanout is missing; see `C39_fanout_partial`. -/
theorem C39_order_partial {L : Limits} (hL : L.Ok) (seq : Bool) (ops : List (Op V))
    {t : Tree V} {rs : List (Res V)} (hr : run L seq Tree.empty ops = some (t, rs)) :
    t.Ordered := (run_order hL ops empty_ordered hr).1

/-- C39: after any history without `range_delete`, every node but the root has between the minimum
and the maximum number of children, and the root has at most the maximum. -/
theorem C39_fanout_partial {L : Limits} (hL : L.Ok) (seq : Bool) (ops : List (Op V))
    (hops : ∀ op ∈ ops, op.plain = true) {t : Tree V} {rs : List (Res V)}
    (hr : run L seq Tree.empty ops = some (t, rs)) : t.Filled L := by
  obtain ⟨t', rs', h, hf⟩ := run_filled hL seq ops empty_ordered (empty_filled L) hops
  rw [hr] at h
  simp only [Option.some.injEq, Prod.mk.injEq] at h
  rw [h.1]
  exact hf

/-- Both apply to the history of the example above. -/
example : ∃ t rs, run L28 true (Tree.empty : Tree Nat)
    ((List.range 50).map (fun k => .insert 1 k k) ++ [.remove 2 7]) = some (t, rs) ∧
      t.Ordered ∧ t.Filled L28 ∧ 1 ≤ t.h := by
  have hplain : ∀ op ∈ ((List.range 50).map (fun k => Op.insert 1 k k) ++ [.remove 2 7] :
      List (Op Nat)), op.plain = true := by decide +kernel
  obtain ⟨t, rs, h⟩ := C38_no_panic_partial L28_ok true _ hplain
  refine ⟨t, rs, h, C39_order_partial L28_ok true _ h, ?_⟩
  have hf := C39_fanout_partial L28_ok true _ hplain h
  refine ⟨hf, ?_⟩
  -- a single leaf would not hold 49 items
  have hm := (C38_history_partial L28_ok true _ h).2
  have hlen : t.toMap.length = 49 := by rw [hm]; decide +kernel
  obtain ⟨ht, info, root⟩ := t
  cases ht with
  | zero =>
    have h1 : root.length ≤ 6 := hf.1
    have h2 : (items 0 root).length = 49 := hlen
    rw [items_zero] at h2
    have h3 : root.length = 49 := h2
    omega
  | succ n => show 1 ≤ n + 1; omega

/-- Shorthand for a tree given by its keys. -/
def mem : Meta := { start := 0, stop := 1, addr := none, mark := false }

abbrev leaf (ks : List Nat) : Node Nat 0 := ks.map fun k => (k, (k : Sub Nat 0))

abbrev node1 (ks : List (Nat × List Nat)) : Node Nat 1 :=
  ks.map fun e => el e.1 mem (leaf e.2)

abbrev node2 (ks : List (Nat × List (Nat × List Nat))) : Node Nat 2 :=
  ks.map fun e => el e.1 mem (node1 e.2)

abbrev node3 (ks : List (Nat × List (Nat × List (Nat × List Nat)))) : Node Nat 3 :=
  ks.map fun e => el e.1 mem (node2 e.2)

/-- A tree of four levels in which every node has at least the minimum number of children. -/
def wide : Tree Nat :=
  { h := 3, info := mem
    root := node3
      [(0, [(0, [(0, [0]), (1, [1])]), (2, [(2, [2]), (3, [3])]), (4, [(4, [4]), (5, [5])])]),
        (6, [(6, [(6, [6]), (7, [7])]), (8, [(8, [8]), (9, [9])])]),
        (10, [(10, [(10, [10]), (11, [11])]), (12, [(12, [12]), (13, [13])]),
          (14, [(14, [14]), (15, [15])])])] }

instance decFilledSub (L : Limits) : ∀ (h : Nat) (c : Sub V h), Decidable (FilledSub L h c)
  | 0, _ => isTrue trivial
  | h + 1, c =>
    have : ∀ e : Nat × Sub V h, Decidable (FilledSub L h e.2) := fun e => decFilledSub L h e.2
    inferInstanceAs (Decidable (_ ∧ _ ∧ ∀ e ∈ c.kids, FilledSub L h e.2))

instance (L : Limits) (t : Tree V) : Decidable (t.Filled L) :=
  inferInstanceAs (Decidable (_ ∧ ∀ e ∈ t.root, FilledSub L t.h e.2))

instance (k : Nat) : ∀ b : Option Nat, Decidable (Below k b)
  | none => isTrue trivial
  | some u => inferInstanceAs (Decidable (k < u))

instance decChain {α} {P : Nat → Option Nat → α → Prop} [∀ a b c, Decidable (P a b c)] :
    ∀ (lo : Nat) (hi : Option Nat) (l : List (Nat × α)), Decidable (Chain P lo hi l)
  | _, _, [] => isTrue trivial
  | _, hi, e :: es =>
    have := decChain (P := P) (e.1 + 1) hi es
    inferInstanceAs (Decidable (_ ∧ _ ∧ _ ∧ _))

def isNil {α} (l : List α) : Decidable (l ≠ []) :=
  match l with
  | [] => isFalse fun h => h rfl
  | _ :: _ => isTrue (by simp)

instance decBounded : ∀ (h lo : Nat) (hi : Option Nat) (c : Sub V h), Decidable (Bounded h lo hi c)
  | 0, _, _, _ => isTrue trivial
  | h + 1, _, _, c =>
    have : ∀ a b c, Decidable (Bounded (V := V) h a b c) := fun a b c => decBounded h a b c
    have := isNil c.kids
    inferInstanceAs (Decidable (_ ∧ _))

instance (t : Tree V) : Decidable t.Ordered :=
  have := isNil t.root
  inferInstanceAs (Decidable (_ ∧ (_ → _)))

/-- Violation of C39: from a tree in which every node has enough children, `range_delete` makes one
in which a node other than the root has too few.

The second pass treats the node on the left edge of the range as a common ancestor because it
has only one endangered child, and merges that child twice; but its parent, which is the true
common ancestor, has only made sure that it can afford to lose one child. -/
theorem C39_rangeDelete_counterexample :
    wide.Ordered ∧ wide.Filled L28 ∧
      ∃ t, wide.rangeDelete L28 1 (.incl 5) (.excl 7) = some t ∧ t.Ordered ∧ ¬ t.Filled L28 := by
  refine ⟨by decide +kernel, by decide +kernel, ?_⟩
  have h : ((wide.rangeDelete L28 1 (.incl 5) (.excl 7)).map fun t => decide (t.Filled L28)) =
      some false := by decide +kernel
  obtain ⟨t, h1, h2⟩ := Option.map_eq_some_iff.mp h
  exact ⟨t, h1, (rangeDelete_order L28_ok (by decide +kernel) h1).1, of_decide_eq_false h2⟩

/-- `C38_rangeDelete_partial` applies to it: a range deletion across several nodes. -/
example : ∃ t, wide.rangeDelete L28 1 (.incl 5) (.excl 7) = some t ∧
    OMap.get t.toMap 4 = some 4 ∧ OMap.get t.toMap 6 = none := by
  obtain ⟨h1, -, t, h2, -⟩ := C39_rangeDelete_counterexample
  have := (C38_rangeDelete_partial L28_ok h1 h2).2
  exact ⟨t, h2, by rw [this]; decide +kernel, by rw [this]; decide +kernel⟩

/-! ## C40 -/

/-- C40: a range query is polled again and again, and at each poll the tree may be another one (any
tree that is in order, so in particular whatever any history of other calls has made of it).
The polls do not panic; the keys returned increase strictly, so none comes twice; whatever is
returned was in the tree at one of the polls, and in the range; and if the end of the stream is
reached, every item of the range that was in the tree all the time has been returned.

`get_range` is one step of the model; the code descends with lock coupling. -/
theorem C40_resume (s e : Bnd Nat) (hs : rangeSane s e = true) (ts : List (Tree V))
    (hts : ∀ t ∈ ts, t.Ordered) :
    ∃ os q, (Query.new s e).polls ts = some (os, q) ∧
      List.Pairwise (fun a b => a.1 < b.1) (os.filterMap id) ∧
      (∀ x, some x ∈ os → inRange s e x.1 = true ∧ ∃ t ∈ ts, x ∈ t.toMap) ∧
      (none ∈ os → ∀ k v, inRange s e k = true → (∀ t ∈ ts, OMap.get t.toMap k = some v) →
        some (k, v) ∈ os) := by
  obtain ⟨os, q, h1, h2, h3, h4⟩ := polls_ok ts (new_inv (V := V) (rangeSane_spec hs)) hts
  have hmem : ∀ x, x ∈ got os ↔ some x ∈ os := by intro x; simp [got]
  refine ⟨os, q, h1, h2, ?_, ?_⟩
  · intro x hx
    obtain ⟨-, b, c⟩ := h3 x ((hmem x).mpr hx)
    refine ⟨b, ?_⟩
    rcases c with c | c
    · cases c
    · exact c
  · intro hend k v hk hall
    refine (hmem _).mp (h4 k v hk hend (Or.inr ⟨s, rfl, ?_⟩) fun t ht => OMap.mem_of_get (hall t ht))
    rw [inRange_eq, Bool.and_eq_true] at hk
    exact hk.1

/-- C40, for values that change: a key of the range that was in the tree all the time, with whatever
values, has been returned when the end of the stream is reached. -/
theorem C40_resume_value (s e : Bnd Nat) (hs : rangeSane s e = true) (ts : List (Tree V))
    (hts : ∀ t ∈ ts, t.Ordered) {os : List (Option (Nat × V))} {q : Query V}
    (hr : (Query.new s e).polls ts = some (os, q)) (hend : none ∈ os) (k : Nat)
    (hk : inRange s e k = true) (hall : ∀ t ∈ ts, (OMap.get t.toMap k).isSome) :
    ∃ v, some (k, v) ∈ os := by
  have hk' := hk
  rw [inRange_eq, Bool.and_eq_true] at hk'
  obtain ⟨v, hv⟩ := polls_key ts (new_inv (V := V) (rangeSane_spec hs)) hts hr hend k hk
    (Or.inr ⟨s, rfl, hk'.1⟩) (fun t ht => by
      obtain ⟨v, hv⟩ := Option.isSome_iff_exists.mp (hall t ht)
      exact ⟨v, OMap.mem_of_get hv⟩)
  exact ⟨v, by simpa [got] using hv⟩

/-- A query over `wide` that is polled four times while the tree changes: after the first leaf,
another tree in which 2 has gone and 9 is new. -/
example : ∃ q, (Query.new (.incl 1) (.excl 4)).polls
      [wide, { wide with h := 0, root := leaf [1, 3, 9] }, { wide with h := 0, root := leaf [1, 3] },
        { wide with h := 0, root := leaf [3] }] =
      some ([some (1, 1), some (3, 3), none, none], q) := by
  refine ⟨{ cursor := none, data := [], stop := .excl 4 }, ?_⟩
  rfl

end Verif.Tree
