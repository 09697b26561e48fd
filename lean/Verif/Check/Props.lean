import Verif.Check.Answer
import Verif.Tree.HistoryProps

/-!
# C78: the consistency check

`rd a` says whether the node at disk address `a` can be read.  Every theorem is for every tree,
whatever its keys, sizes and depth, unless it says otherwise.
-/

namespace Verif.Check

open Verif (OMap)
open Verif.Tree (Addr Meta Child Sub Node Tree Limits Reached items)

variable {V : Type} {L : Limits} {rd : Addr → Bool}

theorem readable_below {t : Tree V} : Readable rd t ↔ readable rd t.info = true ∧
    ∀ a ∈ Tree.addrsBelow t.h t.root, rd a = true := by
  unfold Readable Tree.Tree.addrs
  rw [readable_iff]
  constructor
  · exact fun h => ⟨fun a ha => h a (List.mem_append_left _ ha),
      fun a ha => h a (List.mem_append_right _ ha)⟩
  · rintro ⟨h1, h2⟩ a ha
    rcases List.mem_append.mp ha with ha | ha
    · exact h1 a ha
    · exact h2 a ha

/-- C78: exactly the consistent trees pass the check, except for what it does not look at: that the
keys within a leaf increase, and that everything below a child has a smaller key than its right
neighbour.

Full statement: `check L rd t = .ok true ↔ Consistent L rd t`; see `C78_misses_duplicate` and
`C78_misses_separator` for why this is not so. -/
theorem C78_passes_iff_partial (t : Tree V) : Consistent L rd t ↔
    check L rd t = .ok true ∧ Leaves t.h t.root ∧ Separated t.h t.root := by
  obtain ⟨h, info, n⟩ := t
  cases h with
  | zero =>
    rw [check_leaf]
    constructor
    · rintro ⟨⟨ho, -⟩, hf, -, hr⟩
      exact ⟨⟨(readable_below.mp hr).1, hf.1⟩, chain_leaves 0 ho⟩
    · rintro ⟨⟨hr, hl⟩, hle, -⟩
      refine ⟨⟨chain_leaf (fun _ _ => Nat.zero_le _) (fun _ _ => trivial) hle, fun h => absurd rfl h⟩,
        ⟨hl, fun _ _ => trivial⟩, ⟨trivial, trivial⟩, readable_below.mpr ⟨hr, ?_⟩⟩
      intro a ha; cases ha
  | succ h =>
    rw [check_int]
    constructor
    · rintro ⟨⟨ho, hn⟩, hf, hc, hr⟩
      obtain ⟨r1, r2⟩ := readable_below.mp hr
      exact ⟨⟨r1, hf.1, chain_passed h ho (hn (by show h + 1 ≠ 0; omega)) hf.2 hc.2 r2, hc.1⟩,
        chain_leaves (h + 1) ho⟩
    · rintro ⟨⟨hr, hl, hp, hc⟩, hle, hs⟩
      obtain ⟨f1, f2, f3⟩ := passed_filled h hp
      exact ⟨⟨passed_chain h hp hle hs (fun _ _ => Nat.zero_le _) (fun _ _ => trivial),
        fun _ => hp.ne⟩, ⟨hl, f1⟩, ⟨hc, f2⟩, readable_below.mpr ⟨hr, f3⟩⟩

/-- C78: what a passed check promises of any tree whose leaves are in order (they are `BTreeMap`s,
but nothing compares their keys when they are read): every node can be read and has the right number
of elements, the transactions recorded for each node include those of its children, listing the
tree never goes back to a smaller key, and nothing below a child has a smaller key than it. -/
theorem C78_detects_partial {t : Tree V} (hc : check L rd t = .ok true) (hl : Leaves t.h t.root) :
    Readable rd t ∧ t.Filled L ∧ Covering t ∧ (t.toMap.Pairwise fun a b => a.1 ≤ b.1) ∧
      LowerBounds t.h t.root := by
  obtain ⟨h, info, n⟩ := t
  cases h with
  | zero =>
    obtain ⟨h1, h2⟩ := check_leaf.mp hc
    refine ⟨readable_below.mpr ⟨h1, fun a ha => by cases ha⟩, ⟨h2, fun _ _ => trivial⟩,
      ⟨trivial, trivial⟩, ?_, trivial⟩
    show Up (items 0 n)
    rw [Tree.items_zero]
    exact up_strict hl
  | succ h =>
    obtain ⟨hr, hm, hp, hv⟩ := check_int.mp hc
    obtain ⟨f1, f2, f3⟩ := passed_filled h hp
    obtain ⟨u1, u2⟩ := passed_up h hp hl
    exact ⟨readable_below.mpr ⟨hr, f3⟩, ⟨hm, f1⟩, ⟨hv, f2⟩, u1, u2⟩

/-- C78: in a tree that passed, and in which what it does not look at is right, every lookup finds
what a listing shows. -/
theorem C78_lookup_partial {t : Tree V} (hc : check L rd t = .ok true) (hl : Leaves t.h t.root)
    (hs : Separated t.h t.root) (k : Nat) : t.get k = some (OMap.get t.toMap k) := by
  have ho := ((C78_passes_iff_partial t).mpr ⟨hc, hl, hs⟩).ordered
  exact Tree.getR_spec t.h k ho.1 ho.2

/-- C78: the check of a tree returns, with `true` or `false`, if and only if every node can be read and no
node other than a root that is a leaf is empty. -/
theorem C78_returns (t : Tree V) :
    (∃ b, check L rd t = .ok b) ↔ Readable rd t ∧ NoEmpty t.h t.root := by
  obtain ⟨h, info, n⟩ := t
  rw [readable_below]
  unfold check
  cases hr : readable rd info with
  | false => simp [hr]
  | true =>
    simp only [hr, Bool.not_true, Bool.false_eq_true, if_false, true_and]
    cases h with
    | zero =>
      refine ⟨fun _ => ⟨fun a ha => (by cases ha), trivial⟩, fun _ => ⟨_, rfl⟩⟩
    | succ h =>
      rw [← checkR_returns (L := L)]
      dsimp only
      constructor
      · rintro ⟨b, hb⟩
        cases hq : checkR L rd h n with
        | ok r => exact ⟨r, rfl⟩
        | err => rw [hq] at hb; cases hb
        | panic => rw [hq] at hb; cases hb
      · rintro ⟨r, hq⟩
        rw [hq]
        unfold rootRest
        dsimp only
        split <;> exact ⟨_, rfl⟩

/-- C78: a tree that only this code has changed passes the check if and only if its nodes have the
right sizes and can be read; the order of the keys and the transactions are always right. -/
theorem C78_reached (hL : L.Ok) {seq : Bool} {T : Nat} {t : Tree V} (ht : Reached L seq T t) :
    check L rd t = .ok true ↔ t.Filled L ∧ Readable rd t := by
  have ho := (Tree.reached_good hL ht).ordered
  constructor
  · intro hc
    have := (C78_passes_iff_partial t).mpr ⟨hc, chain_leaves t.h ho.1⟩
    exact ⟨this.filled, this.readable⟩
  · rintro ⟨hf, hr⟩
    exact ((C78_passes_iff_partial t).mp ⟨ho, hf, reached_covering ht, hr⟩).1

/-- C78: the check of such a tree never panics, and never fails if its nodes can be read. -/
theorem C78_reached_returns (hL : L.Ok) {seq : Bool} {T : Nat} {t : Tree V} (ht : Reached L seq T t)
    (hr : Readable rd t) : ∃ b, check L rd t = .ok b := by
  have ho := (Tree.reached_good hL ht).ordered
  exact (C78_returns t).mpr ⟨hr, chain_noEmpty t.h ho.1 ho.2⟩

/-- C78: no false alarm: after any history of insertions, removals, queries, flushes and zone cleanings,
the check passes if the disk can be read.

Missing: histories with `range_delete`; see `C78_false_alarm`. -/
theorem C78_no_false_alarm_partial (hL : L.Ok) {seq : Bool} {T : Nat} {t : Tree V}
    (ht : Grown L seq T t) (hr : Readable rd t) : check L rd t = .ok true :=
  (C78_reached hL (grown_reached ht)).mpr ⟨grown_filled hL ht, hr⟩

/-! ## The database -/

theorem foldTrees_ok : ∀ {fss : List (Res Bool)} {b c : Bool}, foldTrees b fss = .ok c ↔
    ∃ rs : List Bool, fss = rs.map .ok ∧ c = (b && rs.all id)
  | [], b, c => by
    constructor
    · intro h; cases h; exact ⟨[], rfl, by simp⟩
    · rintro ⟨rs, h1, h2⟩
      cases rs with
      | nil => simp only [List.all_nil, Bool.and_true] at h2; rw [h2]; rfl
      | cons r rs => cases h1
  | .ok r :: fss, b, c => by
    rw [foldTrees, foldTrees_ok]
    constructor
    · rintro ⟨rs, h1, h2⟩
      refine ⟨r :: rs, by rw [h1]; rfl, ?_⟩
      rw [h2]
      cases r <;> cases b <;> simp
    · rintro ⟨rs, h1, h2⟩
      cases rs with
      | nil => cases h1
      | cons s rs =>
        simp only [List.map_cons, List.cons.injEq, Res.ok.injEq] at h1
        refine ⟨rs, h1.2, ?_⟩
        rw [h2, h1.1]
        cases s <;> cases b <;> simp
  | .err :: fss, b, c => by
    constructor
    · intro h; cases h
    · rintro ⟨rs, h1, -⟩
      cases rs <;> cases h1
  | .panic :: fss, b, c => by
    constructor
    · intro h; cases h
    · rintro ⟨rs, h1, -⟩
      cases rs <;> cases h1

theorem idmlCheck_ok {x y z : Res Bool} {c : Bool} : idmlCheck x y z = .ok c ↔
    ∃ a b d, x = .ok a ∧ y = .ok b ∧ z = .ok d ∧ c = (a && b && d) := by
  cases x <;> cases y <;> cases z <;> simp [idmlCheck, eq_comm]

/-- C78: the check of a database returns if and only if the check of each part returns, and then it
passes if and only if each part did. -/
theorem C78_database {x y z : Res Bool} {fss : List (Res Bool)} {c : Bool} :
    dbCheck x y z fss = .ok c ↔ (∀ r ∈ x :: y :: z :: fss, ∃ b, r = .ok b) ∧
      (c = true ↔ ∀ r ∈ x :: y :: z :: fss, r = .ok true) := by
  have key : dbCheck x y z fss = .ok c ↔ ∃ p q, idmlCheck x y z = .ok p ∧ foldTrees true fss = .ok q ∧
      c = (p && q) := by
    unfold dbCheck
    cases idmlCheck x y z <;> cases foldTrees true fss <;> simp [eq_comm]
  rw [key]
  have all : ∀ rs : List Bool, rs.all id = true ↔ ∀ r ∈ rs.map Res.ok, r = .ok true := by
    intro rs
    rw [List.all_eq_true, List.forall_mem_map]
    simp
  constructor
  · rintro ⟨p, q, hp, hq, rfl⟩
    obtain ⟨a, b, d, rfl, rfl, rfl, rfl⟩ := idmlCheck_ok.mp hp
    obtain ⟨rs, rfl, rfl⟩ := foldTrees_ok.mp hq
    refine ⟨?_, ?_⟩
    · simp only [List.forall_mem_cons]
      refine ⟨⟨_, rfl⟩, ⟨_, rfl⟩, ⟨_, rfl⟩, ?_⟩
      intro r hr
      obtain ⟨s, -, rfl⟩ := List.mem_map.mp hr
      exact ⟨s, rfl⟩
    · simp only [List.forall_mem_cons, ← all, Res.ok.injEq, Bool.and_eq_true, true_and, and_assoc]
  · rintro ⟨h1, h2⟩
    simp only [List.forall_mem_cons] at h1
    obtain ⟨⟨a, rfl⟩, ⟨b, rfl⟩, ⟨d, rfl⟩, h3⟩ := h1
    have : ∃ rs : List Bool, fss = rs.map .ok := by
      clear h2 key
      induction fss with
      | nil => exact ⟨[], rfl⟩
      | cons f fss ih =>
        obtain ⟨⟨s, rfl⟩, h4⟩ := List.forall_mem_cons.mp h3
        obtain ⟨rs, rfl⟩ := ih h4
        exact ⟨s :: rs, rfl⟩
    obtain ⟨rs, rfl⟩ := this
    refine ⟨a && b && d, rs.all id, rfl, foldTrees_ok.mpr ⟨rs, rfl, by simp⟩, ?_⟩
    simp only [List.forall_mem_cons, ← all, Res.ok.injEq] at h2
    rw [Bool.eq_iff_iff, h2]
    simp only [Bool.and_eq_true, and_assoc]

/-! ## Concrete cases -/

open Verif.Tree (mem leaf node1 L28 L28_ok el L25s thinning cleanL cleanL_ok)

abbrev two (xs ys : Nat × List Nat) : Tree Nat := { h := 1, info := mem, root := node1 [xs, ys] }

/-- Two leaves that the check finds to be right, with the parts that it does not look at. -/
example : check cleanL (fun _ => false) (two (0, [5, 6]) (7, [7, 8])) = .ok true ∧
    Leaves 1 (two (0, [5, 6]) (7, [7, 8])).root ∧
    (two (0, [5, 6]) (7, [7, 8])).get 6 = some (some 6) := by
  have h1 : check cleanL (fun _ => false) (two (0, [5, 6]) (7, [7, 8])) = .ok true := by decide +kernel
  have h2 : (two (0, [5, 6]) (7, [7, 8])).Ordered := by decide +kernel
  refine ⟨h1, (chain_leaves 1 h2.1).1, ?_⟩
  rw [C78_lookup_partial h1 (chain_leaves 1 h2.1).1 (chain_leaves 1 h2.1).2]
  decide +kernel

/-- Keys out of order, too many elements, and a key below its parent's are found. -/
example : check cleanL (fun _ => false) (two (0, [7, 8]) (7, [5, 6])) = .ok false ∧
    check cleanL (fun _ => false) (two (0, [5, 6, 7]) (8, [8])) = .ok false ∧
    check cleanL (fun _ => false) (two (0, [5, 6]) (8, [7, 8])) = .ok false := by
  decide +kernel

/-- Violation of C78: the same key in two neighbouring leaves is not found. -/
theorem C78_misses_duplicate : check cleanL (fun _ => true) (two (0, [1, 2]) (2, [2, 3])) = .ok true ∧
    ¬ (two (0, [1, 2]) (2, [2, 3])).Ordered ∧
    (two (0, [1, 2]) (2, [2, 3])).toMap.map (·.1) = [1, 2, 2, 3] := by
  decide +kernel

/-- Violation of C78: the key recorded for a leaf may be less than the keys of the leaf before it.  The
check passes, but lookups do not find what is there. -/
theorem C78_misses_separator : check cleanL (fun _ => true) (two (0, [5, 6]) (1, [7, 8])) = .ok true ∧
    OMap.get (two (0, [5, 6]) (1, [7, 8])).toMap 5 = some 5 ∧
    (two (0, [5, 6]) (1, [7, 8])).get 5 = some none := by
  decide +kernel

/-- Violation of C78: an empty leaf makes the check panic, instead of its answering `false`. -/
theorem C78_empty_panics : check cleanL (fun _ => true) (two (0, [5, 6]) (7, [])) = .panic := by
  decide +kernel

/-- Violation of C78: a healthy tree, made by this code alone, does not pass after `range_delete`. -/
theorem C78_false_alarm : ∃ (T : Nat) (t : Tree Nat), Reached L25s false T t ∧ (∀ k, t.get k = some (OMap.get t.toMap k)) ∧
    check L25s (fun _ => true) t = .ok false := by
  obtain ⟨hL, t, rs, h1, h2⟩ := Tree.C39_history_counterexample
  have hr := Tree.reached_run thinning .empty (by decide +kernel) h1
  have ho := (Tree.reached_good hL.1 hr).ordered
  refine ⟨_, t, hr, fun k => Tree.getR_spec t.h k ho.1 ho.2, ?_⟩
  obtain ⟨b, hb⟩ := C78_reached_returns (rd := fun _ => true) hL.1 hr fun _ _ => rfl
  cases b with
  | false => exact hb
  | true => exact absurd ((C78_reached hL.1 hr).mp hb).1 h2

/-- Violation of C78: `bfffs check` exits with status 0 whether or not the pool is consistent. -/
theorem C78_command_silent {x y z : Res Bool} {fss : List (Res Bool)} {c : Bool}
    (h : dbCheck x y z fss = .ok c) : command true (dbCheck x y z fss) = 0 := by
  rw [h]; rfl

/-- It applies to a file system that does not pass. -/
example : dbCheck (.ok true) (.ok true) (.ok true)
    [check cleanL (fun _ => true) (two (0, [7, 8]) (7, [5, 6]))] = .ok false ∧
    command true (dbCheck (.ok true) (.ok true) (.ok true)
      [check cleanL (fun _ => true) (two (0, [7, 8]) (7, [5, 6]))]) = 0 := by
  decide +kernel

/-- The transactions of these calls do not decrease, and none is a range deletion. -/
def Timely : Nat → List (Tree.Op V) → Prop
  | _, [] => True
  | T, o :: ops => T ≤ o.time T ∧ o.plain = true ∧ Timely (o.time T) ops

instance decTimely : ∀ (T : Nat) (ops : List (Tree.Op V)), Decidable (Timely T ops)
  | _, [] => isTrue trivial
  | T, o :: ops =>
    have := decTimely (o.time T) ops
    inferInstanceAs (Decidable (_ ∧ _ ∧ _))

theorem grown_run {seq : Bool} : ∀ (ops : List (Tree.Op V)) {T : Nat} {t t' : Tree V}
    {rs : List (Tree.Res V)}, Grown L seq T t → Timely T ops → Tree.run L seq t ops = some (t', rs) →
    Grown L seq (ops.foldl (fun T o => o.time T) T) t'
  | [], _, _, _, _, h, _, hr => by
    simp only [Tree.run, Option.some.injEq, Prod.mk.injEq] at hr
    rw [← hr.1]; exact h
  | o :: ops, T, t, t', rs, h, ⟨hT, hp, ho⟩, hr => by
    simp only [Tree.run] at hr
    obtain ⟨⟨t1, r⟩, h1, hr⟩ := Option.bind_eq_some_iff.mp hr
    obtain ⟨⟨t2, rs'⟩, h2, hr⟩ := Option.map_eq_some_iff.mp hr
    simp only [Prod.mk.injEq] at hr
    rw [← hr.1]
    exact grown_run ops (.op h hT hp h1) ho h2

/-- A tree of four levels, most of it on disk, is among those of `C78_no_false_alarm_partial`. -/
example : Grown cleanL false 2 Tree.cleanTree ∧ Tree.cleanTree.addrs.length = 19 ∧
    check cleanL (fun _ => true) Tree.cleanTree = .ok true := by
  obtain ⟨rs, h⟩ := Tree.runS_run (L := cleanL) (seq := false) (t := Tree.empty) (ops := Tree.cleanOps)
    (by decide +kernel)
  have hg : Grown cleanL false 2 Tree.cleanTree := grown_run Tree.cleanOps .empty (by decide +kernel) h
  exact ⟨hg, by decide +kernel, C78_no_false_alarm_partial cleanL_ok hg fun _ _ => rfl⟩

/-- If one of its nodes cannot be read, it does not pass. -/
example : check cleanL (fun a => decide (a.pba ≠ 113)) Tree.cleanTree = .err := by decide +kernel

end Verif.Check
