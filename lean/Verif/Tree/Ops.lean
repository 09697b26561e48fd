import Verif.Tree.Range

/-!
# Whole-tree operations
-/

namespace Verif.Tree

variable {V : Type}

theorem sorted_toMap {t : Tree V} (ht : t.Ordered) : OMap.Sorted t.toMap := (items_bound _ ht.1).2

theorem empty_ordered : (Tree.empty : Tree V).Ordered := ⟨trivial, fun h => absurd rfl h⟩

theorem empty_filled (L : Limits) : (Tree.empty : Tree V).Filled L :=
  ⟨Nat.zero_le _, by intro e he; cases he⟩

theorem xlockRoot_ordered {t : Tree V} {txg : Nat} : (t.xlockRoot txg).Ordered ↔ t.Ordered := Iff.rfl

/-! ## Insertion -/

/-- The two halves of a root that is split. -/
theorem split_root {h : Nat} {l r : Node V h} {x : Nat × Sub V h} {i j : Meta}
    (hc : Chain (Bounded h) 0 none (l ++ x :: r)) (hl : l ≠ []) :
    Chain (Bounded (h + 1)) 0 none [el 0 i l, el x.1 j (x :: r)] ∧
      items (h + 1) [el 0 i l, el x.1 j (x :: r)] = items h (l ++ x :: r) := by
  have h1 := chain_append_cons.mp hc
  refine ⟨⟨Nat.le_refl _, trivial, ⟨hl, h1.1⟩, ?_, trivial, ⟨by simp, h1.2.2⟩, trivial⟩, ?_⟩
  · show 0 + 1 ≤ x.1
    cases l with
    | nil => exact absurd rfl hl
    | cons y ys =>
      have h2 : Below y.1 (some x.1) := h1.1.2.1
      have h2 : y.1 < x.1 := h2
      omega
  · rw [items_cons, items_cons, items_nil, itemsOf_succ, itemsOf_succ, items_append]
    simp

theorem insert_order {L : Limits} (hL : L.Ok) {seq : Bool} {txg : Nat} {t t' : Tree V}
    (ht : t.Ordered) {k : Nat} {v : V} {old : Option V}
    (hr : t.insert L seq txg k v = some (t', old)) :
    t'.Ordered ∧ t'.toMap = OMap.insert t.toMap k v ∧ old = OMap.get t.toMap k := by
  unfold Tree.insert at hr
  simp only at hr
  have hm : (t.xlockRoot txg).toMap = t.toMap := rfl
  have ht1 : (t.xlockRoot txg).Ordered := ht
  rw [← hm]
  generalize t.xlockRoot txg = t at *
  by_cases hs : shouldSplit L t.h t.root k = true
  · rw [if_pos hs] at hr
    obtain ⟨l, x, r, h1, h2, h3, -⟩ := split_spec hL seq (shouldSplit_full hs)
    have hlne : l ≠ [] := by
      have := hL.min_pos t.h
      intro h0; rw [h0] at h3; simp at h3; omega
    rw [h1] at hr
    simp only [Option.bind_some] at hr
    obtain ⟨⟨n, o⟩, hi, he⟩ := Option.map_eq_some_iff.mp hr
    simp only [Prod.mk.injEq] at he
    obtain ⟨rfl, rfl⟩ := he
    have hc := ht1.1
    rw [h2] at hc
    have hsr := fun i j => split_root (i := i) (j := j) hc hlne
    have := insertInt_order hL seq txg (t.h + 1) 2 (hsr _ _).1 (by simp) (Nat.zero_le _) trivial hi
    refine ⟨⟨this.1, fun _ => this.2.1⟩, ?_, ?_⟩
    · show items (t.h + 1) n = _
      rw [this.2.2.1, (hsr _ _).2, ← h2]; rfl
    · rw [this.2.2.2, (hsr _ _).2, ← h2]; rfl
  · rw [if_neg hs] at hr
    obtain ⟨⟨n, o⟩, hi, he⟩ := Option.map_eq_some_iff.mp hr
    simp only [Prod.mk.injEq] at he
    obtain ⟨rfl, rfl⟩ := he
    have := insertInt_order hL seq txg t.h 2 ht1.1 ht1.2 (Nat.zero_le _) trivial hi
    exact ⟨⟨this.1, fun _ => this.2.1⟩, this.2.2.1, this.2.2.2⟩

theorem insert_sized {m : Nat → Nat} {L : Limits} (hL : L.Ok) (hm : ∀ h, m h ≤ L.min h)
    (seq : Bool) (txg : Nat) {t : Tree V} (ht : t.Ordered) (hlen : t.root.length ≤ L.max t.h)
    (hz : ∀ e ∈ t.root, SizedSub m L t.h e.2) (k : Nat) (v : V) :
    ∃ t' old, t.insert L seq txg k v = some (t', old) ∧ t'.root.length ≤ L.max t'.h ∧
      ∀ e ∈ t'.root, SizedSub m L t'.h e.2 := by
  unfold Tree.insert
  simp only
  have ht1 : (t.xlockRoot txg).Ordered := ht
  have hlen : (t.xlockRoot txg).root.length ≤ L.max (t.xlockRoot txg).h := hlen
  have hz : ∀ e ∈ (t.xlockRoot txg).root, SizedSub m L (t.xlockRoot txg).h e.2 := hz
  generalize t.xlockRoot txg = t at *
  by_cases hs : shouldSplit L t.h t.root k = true
  · rw [if_pos hs]
    obtain ⟨l, x, r, h1, h2, h3, h4, h5⟩ := split_spec hL seq (shouldSplit_full hs)
    have h5 := h5 hlen
    have hlne : l ≠ [] := by
      have := hL.min_pos t.h
      intro h0; rw [h0] at h3; simp at h3; omega
    rw [h1]
    simp only [Option.bind_some]
    have hc := ht1.1
    rw [h2] at hc
    have hmt := hm t.h
    have hmax : 2 < L.max (t.h + 1) := by
      have := hL.int; have := hL.int_two; show 2 < L.maxInt; omega
    have hkey : ∀ i j : Meta, ∃ n' old, insertInt L seq txg (t.h + 1) 2
        [el 0 i l, el x.1 j (x :: r)] k v = some (n', old) ∧
        [el 0 i l, el x.1 j (x :: r)].length ≤ n'.length ∧ n'.length ≤ L.max (t.h + 1) ∧
        ∀ e ∈ n', SizedSub m L (t.h + 1) e.2 := by
      intro i j
      refine insertInt_sized hL hm seq txg (t.h + 1) (split_root (i := i) (j := j) hc hlne).1
        (by simp) (Nat.zero_le _) ?_ ?_ ?_
      · show 2 ≤ _; omega
      · exact shouldSplit_false (by show 2 < _; exact hmax)
      · intro e he
        rw [h2] at hz
        rcases List.mem_cons.mp he with rfl | he
        · exact ⟨by show m t.h ≤ l.length; omega, by show l.length ≤ _; omega,
            fun y hy => hz y (List.mem_append_left _ hy)⟩
        · simp only [List.mem_cons, List.not_mem_nil, or_false] at he
          subst he
          exact ⟨by show m t.h ≤ r.length + 1; omega, by show r.length + 1 ≤ _; omega,
            fun y hy => hz y (List.mem_append_right _ hy)⟩
    obtain ⟨n', old, h6, -, h7, h8⟩ := hkey
      { start := startTxg txg t.h l, stop := txg + 1, addr := none, mark := false }
      { start := startTxg txg t.h (x :: r), stop := txg + 1, addr := none, mark := false }
    exact ⟨_, _, by rw [h6]; rfl, h7, h8⟩
  · rw [if_neg hs]
    obtain ⟨n', old, h6, -, h7, h8⟩ := insertInt_sized hL hm seq txg t.h (v := v) ht1.1 ht1.2
      (Nat.zero_le k) hlen (by simpa using hs) hz
    exact ⟨_, _, by rw [h6]; rfl, h7, h8⟩

/-! ## Removal -/

theorem mergeRoot_spec {txg : Nat} {t : Tree V} (ht : t.Ordered) :
    (t.mergeRoot txg).Ordered ∧ (t.mergeRoot txg).toMap = t.toMap := by
  obtain ⟨h, info, n⟩ := t
  cases h with
  | zero => exact ⟨ht, rfl⟩
  | succ h =>
    match n with
    | [] => exact absurd rfl (ht.2 (by simp))
    | [e] =>
      obtain ⟨k, c⟩ := e
      have h1 : Chain (Bounded h) k none c.kids := ht.1.2.2.1.2
      have h2 : c.kids ≠ [] := ht.1.2.2.1.1
      refine ⟨⟨chain_wide (Nat.zero_le _) (fun _ h => h) h1, fun _ => h2⟩, ?_⟩
      show items h c.kids = items (h + 1) _
      rw [items_cons, items_nil, itemsOf_succ, List.append_nil]
    | _ :: _ :: _ => exact ⟨ht, rfl⟩

theorem remove_order {L : Limits} (hL : L.Ok) {txg : Nat} {t t' : Tree V}
    (ht : t.Ordered) {k : Nat} {old : Option V} (hr : t.remove L txg k = some (t', old)) :
    t'.Ordered ∧ t'.toMap = OMap.remove t.toMap k ∧ old = OMap.get t.toMap k := by
  unfold Tree.remove at hr
  simp only at hr
  obtain ⟨⟨n, o⟩, hi, he⟩ := Option.map_eq_some_iff.mp hr
  simp only [Prod.mk.injEq] at he
  obtain ⟨rfl, rfl⟩ := he
  obtain ⟨h1, h2⟩ := mergeRoot_spec (txg := txg) ht
  have := removeR_order hL txg _ h1.1 h1.2 hi
  refine ⟨⟨this.1, fun h0 => this.2.1 (Or.inl h0)⟩, ?_, ?_⟩
  · rw [← h2]; exact this.2.2.1
  · rw [← h2]; exact this.2.2.2

theorem mergeRoot_filled {L : Limits} (hL : L.Ok) {txg : Nat} {t : Tree V} (ht : t.Ordered)
    (hf : t.Filled L) : (t.mergeRoot txg).Filled L ∧
      ((t.mergeRoot txg).h ≠ 0 → 2 ≤ (t.mergeRoot txg).root.length) := by
  obtain ⟨h, info, n⟩ := t
  cases h with
  | zero => exact ⟨hf, fun h0 => absurd rfl h0⟩
  | succ h =>
    match n with
    | [] => exact absurd rfl (ht.2 (by simp))
    | [e] =>
      have h1 := hf.2 e (by simp)
      refine ⟨⟨h1.2.1, h1.2.2⟩, fun h0 => ?_⟩
      have h2 : L.min h ≤ (kid e).length := h1.1
      show 2 ≤ (kid e).length
      cases h with
      | zero => exact absurd rfl h0
      | succ h =>
        have h3 : L.minInt ≤ (kid e).length := h2
        have := hL.int_two
        omega
    | _ :: _ :: es => exact ⟨hf, fun _ => by simp [Tree.mergeRoot, Tree.xlockRoot]⟩

theorem remove_filled {L : Limits} (hL : L.Ok) (txg : Nat) {t : Tree V} (ht : t.Ordered)
    (hf : t.Filled L) (k : Nat) :
    ∃ t' old, t.remove L txg k = some (t', old) ∧ t'.Filled L := by
  obtain ⟨h1, h2⟩ := mergeRoot_spec (txg := txg) ht
  obtain ⟨h3, h4⟩ := mergeRoot_filled (txg := txg) hL ht hf
  obtain ⟨n', old, h5, h6, h7, h8⟩ := removeR_filled hL txg (t.mergeRoot txg).h (k := k) h1.1 h4 h3.2
  unfold Tree.remove
  simp only
  refine ⟨_, _, by rw [h5]; rfl, ⟨?_, h8⟩⟩
  exact Nat.le_trans h7 h3.1

/-! ## Range deletion -/

theorem rangeIsEmpty_spec {s e : Bnd Nat} (h : rangeIsEmpty s e = true) (k : Nat) :
    inRange s e k = false := by
  cases s <;> cases e <;> simp [rangeIsEmpty, inRange] at * <;> omega

theorem rangeDelete_order {L : Limits} (hL : L.Ok) {txg : Nat} {t t' : Tree V} (ht : t.Ordered)
    {s e : Bnd Nat} (hr : t.rangeDelete L txg s e = some t') :
    t'.Ordered ∧ t'.toMap = t.toMap.filter (fun x => !inRange s e x.1) := by
  unfold Tree.rangeDelete at hr
  split at hr
  · next h0 =>
    simp only [Option.some.injEq] at hr
    subst hr
    refine ⟨ht, (filter_id fun x _ => ?_).symm⟩
    rw [rangeIsEmpty_spec h0]; rfl
  · simp only [Tree.xlockRoot] at hr
    obtain ⟨⟨n, d⟩, h1, h2⟩ := Option.bind_eq_some_iff.mp hr
    obtain ⟨n2, h3, rfl⟩ := Option.map_eq_some_iff.mp h2
    have hu := unmark_spec t.h ht.1
    have hp1 := pass1_order L txg s e t.h hu.1 (fun h0 h => by
      have := hu.2.2; rw [h] at this
      exact ht.2 h0 (List.length_eq_zero_iff.mp this.symm)) h1
    have hm1 := mergeDown_spec txg t.h { t.info with stop := txg + 1, addr := none } n hp1.1
    simp only at h3
    generalize mergeDown txg t.h { t.info with stop := txg + 1, addr := none } n = t1 at *
    have hp2 : Chain (Bounded t1.h) 0 none n2 ∧ items t1.h n2 = items t1.h t1.root := by
      by_cases hne : t1.root = []
      · have h0 : t1.h = 0 := Classical.byContradiction fun h0 => hm1.1.2 h0 hne
        obtain ⟨h, info, r⟩ := t1
        simp only at h0 hne h3 ⊢
        subst h0 hne
        simp only [pass2R, Option.some.injEq] at h3
        subst h3
        exact ⟨trivial, rfl⟩
      · have := pass2R_order hL txg t1.h hm1.1.1 hne h3
        exact ⟨this.chain, this.items⟩
    have hm2 := mergeDown_spec txg t1.h t1.info n2 hp2.1
    refine ⟨hm2.1, ?_⟩
    rw [hm2.2, hp2.2]
    show t1.toMap = _
    rw [hm1.2, hp1.2, hu.2.1]
    rfl

/-! ## Flushing -/

theorem flushR_nextKey {h : Nat} (txg next : Nat) (n : Node V (h + 1)) (hi : Option Nat) :
    nextKey (flushR txg (h + 1) next n).2 hi = nextKey n hi := by
  cases n with
  | nil => simp [flushR]
  | cons e es =>
    obtain ⟨k, c⟩ := e
    unfold flushR
    split <;> rfl

theorem flushR_spec (txg : Nat) : ∀ (h : Nat) (next : Nat) (n : Node V h),
    items h (flushR txg h next n).2 = items h n ∧
      (flushR txg h next n).2.length = n.length ∧
      (∀ m L, (∀ e ∈ n, SizedSub m L h e.2) → ∀ e ∈ (flushR txg h next n).2, SizedSub m L h e.2) ∧
      ∀ lo hi, Chain (Bounded h) lo hi n → Chain (Bounded h) lo hi (flushR txg h next n).2 := by
  intro h
  induction h with
  | zero => intro next n; simp only [flushR]; exact ⟨trivial, trivial, fun _ _ h => h, fun _ _ h => h⟩
  | succ h ih =>
    intro next n
    induction n generalizing next with
    | nil => simp [flushR]
    | cons e es ihn =>
      obtain ⟨k, c⟩ := e
      unfold flushR
      split
      · obtain ⟨i1, i2, i3, i4⟩ := ihn next
        refine ⟨?_, ?_, ?_, ?_⟩
        · rw [items_cons, items_cons, i1]
        · show _ + 1 = _ + 1; rw [i2]
        · intro m L hz e he
          rcases List.mem_cons.mp he with rfl | he
          · exact hz _ (List.mem_cons_self ..)
          · exact i3 m L (fun y hy => hz y (List.mem_cons_of_mem _ hy)) e he
        · intro lo hi hc
          refine ⟨hc.1, hc.2.1, ?_, i4 _ _ hc.2.2.2⟩
          rw [flushR_nextKey]
          exact hc.2.2.1
      · obtain ⟨i1, i2, i3, i4⟩ := ihn ((flushR txg h next c.kids).1 + 1)
        obtain ⟨j1, j2, j3, j4⟩ := ih next c.kids
        refine ⟨?_, ?_, ?_, ?_⟩
        · rw [items_cons, items_cons, i1, itemsOf_succ, itemsOf_succ]
          show items h (flushR txg h next c.kids).2 ++ _ = _
          rw [j1]
        · show _ + 1 = _ + 1; rw [i2]
        · intro m L hz e he
          rcases List.mem_cons.mp he with rfl | he
          · have hz0 := hz _ (List.mem_cons_self ..)
            refine ⟨?_, ?_, ?_⟩
            · show m h ≤ (flushR txg h next c.kids).2.length
              rw [j2]; exact hz0.1
            · show (flushR txg h next c.kids).2.length ≤ _
              rw [j2]; exact hz0.2.1
            · exact j3 m L hz0.2.2
          · exact i3 m L (fun y hy => hz y (List.mem_cons_of_mem _ hy)) e he
        · intro lo hi hc
          refine ⟨hc.1, hc.2.1, ?_, i4 _ _ hc.2.2.2⟩
          rw [flushR_nextKey]
          have hb : Chain (Bounded h) k (nextKey es hi) c.kids := hc.2.2.1.2
          have hne : c.kids ≠ [] := hc.2.2.1.1
          refine ⟨?_, j4 _ _ hb⟩
          intro h0
          have h1 : (flushR txg h next c.kids).2 = [] := h0
          rw [h1] at j2
          exact hne (List.length_eq_zero_iff.mp j2.symm)

theorem flush_order {txg next : Nat} {t : Tree V} (ht : t.Ordered) :
    (t.flush txg next).Ordered ∧ (t.flush txg next).toMap = t.toMap := by
  unfold Tree.flush
  split
  · exact ⟨ht, rfl⟩
  · obtain ⟨i1, i2, i3, i4⟩ := flushR_spec txg t.h next t.root
    refine ⟨⟨i4 _ _ ht.1, fun h0 hr => ?_⟩, i1⟩
    have hr : (flushR txg t.h next t.root).2 = [] := hr
    rw [hr] at i2
    exact ht.2 h0 (List.length_eq_zero_iff.mp i2.symm)

theorem flush_sized {m : Nat → Nat} {L : Limits} {txg next : Nat} {t : Tree V}
    (hlen : t.root.length ≤ L.max t.h) (hz : ∀ e ∈ t.root, SizedSub m L t.h e.2) :
    (t.flush txg next).root.length ≤ L.max (t.flush txg next).h ∧
      ∀ e ∈ (t.flush txg next).root, SizedSub m L (t.flush txg next).h e.2 := by
  unfold Tree.flush
  split
  · exact ⟨hlen, hz⟩
  · obtain ⟨i1, i2, i3, i4⟩ := flushR_spec txg t.h next t.root
    exact ⟨by rw [i2]; exact hlen, i3 m L hz⟩

/-! ## Range queries -/

theorem range_done {m : OMap V} {s e : Bnd Nat} {v : OMap V} {b : Option (Bnd Nat)}
    (h : RangeStep m s e v b) (hv : v = []) : b = none := by
  cases b with
  | none => rfl
  | some s' => exact absurd hv h.1

end Verif.Tree
