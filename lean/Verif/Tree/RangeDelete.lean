import Verif.Tree.Remove

/-!
# Range deletion
-/

namespace Verif.Tree

variable {V : Type} {α : Type}

/-! ## Where the range starts and ends -/

/-- Is `k` at or after the start of the range? -/
def startOk (s : Bnd Nat) (k : Nat) : Bool :=
  match s with
  | .incl a => decide (a ≤ k)
  | .excl a => decide (a < k)
  | .unb => true

/-- Is `k` at or before the end of the range? -/
def stopOk (e : Bnd Nat) (k : Nat) : Bool :=
  match e with
  | .incl b => decide (k ≤ b)
  | .excl b => decide (k < b)
  | .unb => true

theorem inRange_eq (s e : Bnd Nat) (k : Nat) : inRange s e k = (startOk s k && stopOk e k) := rfl

/-- All items of `n` satisfy `p`. -/
def All (p : Nat → Bool) (b : Bool) {h : Nat} (n : Node V h) : Prop :=
  ∀ x ∈ items h n, p x.1 = b

/-- What the start index says about the children. -/
def StartAt (s : Bnd Nat) {h : Nat} (cs : Node V (h + 1)) : Bnd Nat → Prop
  | .incl i => ∃ A B, cs = A ++ B ∧ i = A.length ∧ All (startOk s) false A ∧ All (startOk s) true B
  | .excl i => ∃ A c B, cs = A ++ c :: B ∧ i = A.length ∧ All (startOk s) false A ∧
      All (startOk s) true B
  | .unb => False

/-- What the stop index says about the children. -/
def StopAt (e : Bnd Nat) {h : Nat} (cs : Node V (h + 1)) : Bnd Nat → Prop
  | .excl j => ∃ C D, cs = C ++ D ∧ j = C.length ∧ All (stopOk e) true C ∧ All (stopOk e) false D
  | .incl j => ∃ C c D, cs = C ++ c :: D ∧ j = C.length ∧ All (stopOk e) true C ∧
      All (stopOk e) false D
  | .unb => False

theorem all_nil (p : Nat → Bool) (b : Bool) {h : Nat} : All p b ([] : Node V h) := by
  intro x hx; simp [items_nil] at hx

/-- The items left of a child are below its key, those right of it are at or above the next key. -/
theorem items_left {h : Nat} {lo hi} {pre post : Node V h} {e : Nat × Sub V h}
    (hc : Chain (Bounded h) lo hi (pre ++ e :: post)) : ∀ x ∈ items h pre, x.1 < e.1 :=
  fun _ hx => (items_key (chain_mid.mp hc).1 hx).2

theorem items_from {h : Nat} {lo hi} {pre post : Node V h} {e : Nat × Sub V h}
    (hc : Chain (Bounded h) lo hi (pre ++ e :: post)) : ∀ x ∈ items h (e :: post), e.1 ≤ x.1 :=
  fun _ hx => (items_key (chain_append_cons.mp hc).2.2 hx).1

/-- Like `position_spec`, for a key that is not below the first one. -/
theorem position_spec' {P : Nat → Option Nat → α → Prop} {lo hi} {n : List (Nat × α)}
    (hc : Chain P lo hi n) {key : Nat} (hk : firstKey n = some key) {k : Nat} (hle : key ≤ k) :
    ∃ pre e post, n = pre ++ e :: post ∧ position n k = pre.length ∧ e.1 ≤ k ∧
      (∀ x ∈ post, k < x.1) := by
  have hn : n ≠ [] := by intro h0; rw [h0] at hk; simp [firstKey] at hk
  obtain ⟨pre, e, post, rfl, hp, h1, h2⟩ := position_spec hc hn k
  refine ⟨pre, e, post, rfl, hp, ?_, h2⟩
  rcases h1 with rfl | h1
  · simp [firstKey] at hk; omega
  · exact h1

theorem startBound_spec {h : Nat} {lo hi} {cs : Node V (h + 1)} {key : Nat} {s a : Bnd Nat}
    (hc : Chain (Bounded (h + 1)) lo hi cs) (hk : firstKey cs = some key)
    (hs : startBound cs key s = some a) : StartAt s cs a := by
  have hall : ∀ x ∈ items (h + 1) cs, key ≤ x.1 := by
    cases cs with
    | nil => simp [firstKey] at hk
    | cons e es =>
      simp [firstKey] at hk
      subst hk
      exact items_from (pre := []) hc
  cases s with
  | unb =>
    simp only [startBound, Option.some.injEq] at hs
    subst hs
    exact ⟨[], cs, rfl, rfl, all_nil _ _, fun x _ => rfl⟩
  | incl t =>
    simp only [startBound] at hs
    split at hs
    · next ht =>
      simp only [Option.some.injEq] at hs
      subst hs
      refine ⟨[], cs, rfl, rfl, all_nil _ _, fun x hx => ?_⟩
      have := hall x hx
      simp only [startOk, decide_eq_true_eq]; omega
    · next ht =>
      obtain ⟨pre, e, post, rfl, hp, h1, h2⟩ := position_spec' hc hk (k := t) (by omega)
      rw [hp, getElem?_mid] at hs
      simp only [Option.map_some, Option.some.injEq] at hs
      have hl := items_left hc
      have hA : All (startOk (.incl t)) false pre := by
        intro x hx
        have := hl x hx
        simp only [startOk, decide_eq_false_iff_not]; omega
      split at hs
      · next he =>
        subst hs
        refine ⟨pre, e :: post, rfl, rfl, hA, fun x hx => ?_⟩
        have := items_from hc x hx
        simp only [startOk, decide_eq_true_eq]; omega
      · subst hs
        refine ⟨pre, e, post, rfl, rfl, hA, fun x hx => ?_⟩
        have := (items_around hc (Or.inr h1) h2).2 x hx
        simp only [startOk, decide_eq_true_eq]; omega
  | excl t =>
    simp only [startBound] at hs
    split at hs
    · next ht =>
      simp only [Option.some.injEq] at hs
      subst hs
      refine ⟨[], cs, rfl, rfl, all_nil _ _, fun x hx => ?_⟩
      have := hall x hx
      simp only [startOk, decide_eq_true_eq]; omega
    · next ht =>
      obtain ⟨pre, e, post, rfl, hp, h1, h2⟩ := position_spec' hc hk (k := t) (by omega)
      simp only [hp, Option.some.injEq] at hs
      subst hs
      have hl := items_left hc
      refine ⟨pre, e, post, rfl, rfl, fun x hx => ?_, fun x hx => ?_⟩
      · have := hl x hx
        simp only [startOk, decide_eq_false_iff_not]; omega
      · have := (items_around hc (Or.inr h1) h2).2 x hx
        simp only [startOk, decide_eq_true_eq]; omega

theorem stopBound_spec {h : Nat} {lo ub} {cs : Node V (h + 1)} {e b : Bnd Nat}
    (hc : Chain (Bounded (h + 1)) lo ub cs) (hne : cs ≠ [])
    (hs : stopBound cs ub e = some b) : StopAt e cs b := by
  -- beyond the upper bound everything is below the end
  have hbey : ∀ t, beyond ub t = true → (∀ x ∈ items (h + 1) cs, x.1 < t) ∧
      position cs t + 1 = cs.length := by
    intro t ht
    cases ub with
    | none => simp [beyond] at ht
    | some u =>
      simp only [beyond, decide_eq_true_eq] at ht
      refine ⟨fun x hx => ?_, ?_⟩
      · have : x.1 < u := (items_key hc hx).2
        omega
      · obtain ⟨pre, c, post, rfl, hp, h1, h2⟩ := position_spec hc hne t
        cases post with
        | nil => rw [hp]; simp
        | cons f fs =>
          have h3 := h2 f (by simp)
          have h4 : f.1 < u := (chain_mem hc f (by simp)).2
          omega
  cases e with
  | unb =>
    simp only [stopBound, Option.some.injEq] at hs
    subst hs
    exact ⟨cs, [], by simp, rfl, fun _ _ => rfl, all_nil _ _⟩
  | incl t =>
    simp only [stopBound] at hs
    split at hs
    · next ht =>
      simp only [Option.some.injEq] at hs
      subst hs
      obtain ⟨h1, h2⟩ := hbey t ht
      refine ⟨cs, [], by simp, h2, fun x hx => ?_, all_nil _ _⟩
      have := h1 x hx
      simp only [stopOk, decide_eq_true_eq]; omega
    · simp only [Option.some.injEq] at hs
      subst hs
      obtain ⟨pre, c, post, rfl, hp, h1, h2⟩ := position_spec hc hne t
      have ha := items_around hc h1 h2
      refine ⟨pre, c, post, rfl, hp, fun x hx => ?_, fun x hx => ?_⟩
      · have := ha.1 x hx
        simp only [stopOk, decide_eq_true_eq]; omega
      · have := ha.2 x hx
        simp only [stopOk, decide_eq_false_iff_not]; omega
  | excl t =>
    simp only [stopBound] at hs
    split at hs
    · next ht =>
      simp only [Option.some.injEq] at hs
      subst hs
      obtain ⟨h1, h2⟩ := hbey t ht
      refine ⟨cs, [], by simp, h2, fun x hx => ?_, all_nil _ _⟩
      have := h1 x hx
      simp only [stopOk, decide_eq_true_eq]; omega
    · obtain ⟨pre, c, post, rfl, hp, h1, h2⟩ := position_spec hc hne t
      have ha := items_around hc h1 h2
      have hA : All (stopOk (.excl t)) true pre := by
        intro x hx
        have := ha.1 x hx
        simp only [stopOk, decide_eq_true_eq]; omega
      rw [hp, getElem?_mid] at hs
      simp only [Option.map_some, Option.some.injEq] at hs
      split at hs
      · next he =>
        subst hs
        refine ⟨pre, c :: post, rfl, rfl, hA, fun x hx => ?_⟩
        have := items_from hc x hx
        simp only [stopOk, decide_eq_false_iff_not]; omega
      · subst hs
        refine ⟨pre, c, post, rfl, rfl, hA, fun x hx => ?_⟩
        have := ha.2 x hx
        simp only [stopOk, decide_eq_false_iff_not]; omega

/-! ## Cutting -/

theorem chain_prefix {h : Nat} {lo hi} {A B : Node V h}
    (hc : Chain (Bounded h) lo hi (A ++ B)) : Chain (Bounded h) lo hi A := by
  cases B with
  | nil => simpa using hc
  | cons e es =>
    have h1 := chain_append_cons.mp hc
    refine chain_wide (hi := some e.1) (Nat.le_refl _) (fun x (hx : x < e.1) => ?_) h1.1
    have := h1.2.2.2.1
    cases hi with
    | none => trivial
    | some u => exact Nat.lt_trans hx this

/-- Dropping some children in the middle. -/
theorem chain_cut {h : Nat} {lo hi} {A M B : Node V h}
    (hc : Chain (Bounded h) lo hi (A ++ (M ++ B))) : Chain (Bounded h) lo hi (A ++ B) := by
  cases B with
  | nil => rw [List.append_nil]; exact chain_prefix hc
  | cons e es =>
    rw [← List.append_assoc] at hc
    have h1 := chain_append_cons.mp hc
    exact chain_append_cons.mpr ⟨chain_prefix h1.1, h1.2⟩

/-- Replacing a child by part of it, perhaps with a higher key. -/
theorem chain_shrink {h : Nat} {lo hi} {A B : Node V (h + 1)} {e : Nat × Sub V (h + 1)} {k : Nat}
    {i : Meta} {c : Node V h} (hc : Chain (Bounded (h + 1)) lo hi (A ++ e :: B))
    (hk : e.1 ≤ k) (hkb : Below k (nextKey B hi)) (hne : c ≠ [])
    (hcc : Chain (Bounded h) k (nextKey B hi) c) :
    Chain (Bounded (h + 1)) lo hi (A ++ el k i c :: B) := by
  have hm := chain_mid.mp hc
  refine chain_mid.mpr ⟨?_, Nat.le_trans hm.2.1 hk, ?_, ⟨hne, hcc⟩, ?_⟩
  · exact chain_wide (hi := some e.1) (Nat.le_refl _) (fun x (hx : x < e.1) => (Nat.lt_of_lt_of_le hx hk : x < k))
      hm.1
  · cases B with
    | nil => exact hkb
    | cons f fs =>
      have h1 : Below f.1 hi := hm.2.2.2.2.2.1
      have h2 : k < f.1 := hkb
      cases hi with
      | none => trivial
      | some u => exact Nat.lt_trans h2 h1
  · cases B with
    | nil => trivial
    | cons f fs => exact ⟨hkb, hm.2.2.2.2.2⟩

theorem nextKey_below {h : Nat} {lo hi} {A B : Node V (h + 1)} {e : Nat × Sub V (h + 1)}
    (hc : Chain (Bounded (h + 1)) lo hi (A ++ e :: B)) : Below e.1 (nextKey B hi) := by
  have hm := chain_mid.mp hc
  cases B with
  | nil => exact hm.2.2.1
  | cons f fs => exact (hm.2.2.2.2.1 : e.1 + 1 ≤ f.1)

theorem xlockNc_mid {txg h : Nat} {nk : Option Nat} {A B : Node V (h + 1)}
    {e : Nat × Sub V (h + 1)} {r} (hb : Chain (Bounded h) e.1 nk (kid e)) (hbel : Below e.1 nk)
    (hr : xlockNc txg h (A ++ e :: B) A.length = some r) :
    ∃ k i, r = (A ++ el k i (kid e) :: B, kid e) ∧ e.1 ≤ k ∧ Below k nk ∧
      Chain (Bounded h) k nk (kid e) := by
  unfold xlockNc at hr
  rw [getElem?_mid] at hr
  simp only [Option.bind_some] at hr
  split at hr
  · simp only [set_mid, Option.some.injEq] at hr
    exact ⟨e.1, _, hr.symm, Nat.le_refl _, hbel, hb⟩
  · change Option.map _ (firstKey (kid e)) = _ at hr
    cases hfk : firstKey (kid e) with
    | none => rw [hfk] at hr; simp at hr
    | some k =>
      rw [hfk] at hr
      simp only [Option.map_some, set_mid, Option.some.injEq] at hr
      have hb' : e.1 ≤ k ∧ Below k nk ∧ Chain (Bounded h) k nk (kid e) := by
        cases hk : kid e with
        | nil => rw [hk] at hfk; simp [firstKey] at hfk
        | cons x xs =>
          rw [hk] at hfk hb
          simp [firstKey] at hfk
          subst hfk
          exact ⟨hb.1, hb.2.1, chain_raise hb⟩
      exact ⟨k, _, hr.symm, hb'⟩

/-! ## The first pass -/

theorem ubAfter_mid {h : Nat} (A B : Node V h) (e : Nat × Sub V h) (ub : Option Nat) :
    ubAfter (A ++ e :: B) ub A.length = nextKey B ub := by
  unfold ubAfter
  rw [show A ++ e :: B = (A ++ [e]) ++ B by simp, show A.length + 1 = (A ++ [e]).length by simp,
    List.drop_left]
  cases B <;> rfl

theorem purge_mid (A M B : List (Nat × α)) :
    purge (A ++ (M ++ B)) A.length (A.length + M.length) = some (A ++ B) := by
  unfold purge
  rw [if_neg (by simp), List.take_left, ← List.append_assoc,
    show A.length + M.length = (A ++ M).length by simp, List.drop_left]

theorem setMark_mid (h : Nat) (A B : Node V (h + 1)) (e : Nat × Sub V (h + 1)) (d : Bool) :
    ∃ i, setMark h (A ++ e :: B) A.length d = A ++ el e.1 i (kid e) :: B := by
  unfold setMark
  split
  · exact ⟨_, putInfo_mid h A e B _⟩
  · exact ⟨inf e, rfl⟩

/-- Of two ways to split a list, one refines the other. -/
theorem append_split {A B C D : List α} (h : A ++ B = C ++ D) (hle : A.length ≤ C.length) :
    ∃ M, C = A ++ M ∧ B = M ++ D := by
  refine ⟨C.drop A.length, ?_, ?_⟩
  · have h1 := congrArg (List.take A.length) h
    rw [List.take_left, List.take_append_of_le_length hle] at h1
    have h2 := List.take_append_drop A.length C
    rw [← h1] at h2
    exact h2.symm
  · have h1 := congrArg (List.drop A.length) h
    rw [List.drop_left, List.drop_append_of_le_length hle] at h1
    exact h1

/-- Filtering keeps what lies outside of the range, and drops what lies within. -/
theorem filter_before {s e : Bnd Nat} {h : Nat} {A : Node V h} (hA : All (startOk s) false A) :
    (items h A).filter (fun x => !inRange s e x.1) = items h A := by
  apply filter_id
  intro x hx
  rw [inRange_eq, hA x hx]; rfl

theorem filter_after {s e : Bnd Nat} {h : Nat} {A : Node V h} (hA : All (stopOk e) false A) :
    (items h A).filter (fun x => !inRange s e x.1) = items h A := by
  apply filter_id
  intro x hx
  rw [inRange_eq, hA x hx]; simp

theorem filter_within {s e : Bnd Nat} {h : Nat} {A : Node V h} (hs : All (startOk s) true A)
    (he : All (stopOk e) true A) : (items h A).filter (fun x => !inRange s e x.1) = [] := by
  rw [List.filter_eq_nil_iff]
  intro x hx
  rw [inRange_eq, hs x hx, he x hx]; simp

theorem All.left {p : Nat → Bool} {b : Bool} {h : Nat} {A B : Node V h} (hA : All p b (A ++ B)) :
    All p b A := fun x hx => hA x (by rw [items_append]; exact List.mem_append_left _ hx)

theorem All.right {p : Nat → Bool} {b : Bool} {h : Nat} {A B : Node V h} (hA : All p b (A ++ B)) :
    All p b B := fun x hx => hA x (by rw [items_append]; exact List.mem_append_right _ hx)

theorem All.tail {p : Nat → Bool} {b : Bool} {h : Nat} {e} {B : Node V h} (hA : All p b (e :: B)) :
    All p b B := fun x hx => hA x (by rw [items_cons]; exact List.mem_append_right _ hx)

/-- A child on the edge of the cut, unless nothing is left of it. -/
def keep {h : Nat} (k : Nat) (i : Meta) (c : Node V h) : Node V (h + 1) :=
  if c.length = 0 then [] else [el k i c]

theorem items_keep {h : Nat} (k : Nat) (i : Meta) (c : Node V h) :
    items (h + 1) (keep k i c) = items h c := by
  unfold keep
  split
  · next h0 => rw [List.length_eq_zero_iff.mp h0]; rfl
  · simp [items_cons, itemsOf_succ, items_nil]

theorem chain_keep {h : Nat} {lo hi} {A B : Node V (h + 1)} {e : Nat × Sub V (h + 1)} {k : Nat}
    {i : Meta} {c : Node V h} (hc : Chain (Bounded (h + 1)) lo hi (A ++ e :: B))
    (hk : e.1 ≤ k) (hkb : Below k (nextKey B hi)) (hcc : Chain (Bounded h) k (nextKey B hi) c) :
    Chain (Bounded (h + 1)) lo hi (A ++ (keep k i c ++ B)) := by
  unfold keep
  split
  · exact chain_cut (M := [e]) hc
  · next h0 =>
    exact chain_shrink hc hk hkb (by intro h1; rw [h1] at h0; simp at h0) hcc

/-- Joining, with a left edge only. -/
theorem join_left {L : Limits} {h : Nat} {A M D : Node V (h + 1)} {k : Nat} {i : Meta}
    {c : Node V h} {cut : Cut} {d : Bool} {r}
    (h1 : cut.first = A.length + 1) (h2 : cut.last = A.length + 1 + M.length)
    (hr : pass1.pass1Join L h cut (A ++ el k i c :: (M ++ D))
      (some ({ idx := A.length, danger := d }, c.length)) none = some r) :
    ∃ i', r.1 = A ++ (keep k i' c ++ D) := by
  unfold pass1.pass1Join at hr
  rw [h1, h2, show A ++ el k i c :: (M ++ D) = (A ++ [el k i c]) ++ (M ++ D) by simp,
    show A.length + 1 = (A ++ [el k i c]).length by simp, purge_mid] at hr
  simp only [Option.map_some, Option.some.injEq] at hr
  rw [← hr]
  simp only [List.append_assoc, List.singleton_append]
  cases hlen : c.length with
  | zero =>
    simp only [eraseIdx_mid]
    exact ⟨i, by simp [keep, hlen]⟩
  | succ m =>
    obtain ⟨i', hi'⟩ := setMark_mid h A D (el k i c) d
    exact ⟨i', by simp only [hi', keep, hlen]; simp⟩

/-- Joining, with a right edge only. -/
theorem join_right {L : Limits} {h : Nat} {A M D : Node V (h + 1)} {k : Nat} {i : Meta}
    {c : Node V h} {cut : Cut} {d : Bool} {r}
    (h1 : cut.first = A.length) (h2 : cut.last = A.length + M.length)
    (hr : pass1.pass1Join L h cut (A ++ (M ++ el k i c :: D)) none
      (some ({ idx := A.length + M.length, danger := d }, c.length)) = some r) :
    ∃ i', r.1 = A ++ (keep k i' c ++ D) := by
  unfold pass1.pass1Join at hr
  rw [h1, h2, purge_mid] at hr
  simp only [Option.map_some, Option.some.injEq] at hr
  rw [← hr]
  have hidx : A.length + M.length - (A.length + M.length - A.length) - 0 = A.length := by omega
  cases hlen : c.length with
  | zero =>
    simp only [hidx, eraseIdx_mid]
    exact ⟨i, by simp [keep, hlen]⟩
  | succ m =>
    obtain ⟨i', hi'⟩ := setMark_mid h A D (el k i c) d
    exact ⟨i', by simp only [hidx, hi', keep, hlen]; simp⟩

/-- Joining, with both edges. -/
theorem join_both {L : Limits} {h : Nat} {A M D : Node V (h + 1)} {k k2 : Nat} {i i2 : Meta}
    {c c2 : Node V h} {cut : Cut} {d d2 : Bool} {r}
    (h1 : cut.first = A.length + 1) (h2 : cut.last = A.length + 1 + M.length)
    (hr : pass1.pass1Join L h cut (A ++ el k i c :: (M ++ el k2 i2 c2 :: D))
      (some ({ idx := A.length, danger := d }, c.length))
      (some ({ idx := A.length + 1 + M.length, danger := d2 }, c2.length)) = some r) :
    ∃ i' i2', r.1 = A ++ (keep k i' c ++ (keep k2 i2' c2 ++ D)) := by
  unfold pass1.pass1Join at hr
  rw [h1, h2, show A ++ el k i c :: (M ++ el k2 i2 c2 :: D) =
      (A ++ [el k i c]) ++ (M ++ el k2 i2 c2 :: D) by simp,
    show A.length + 1 = (A ++ [el k i c]).length by simp, purge_mid] at hr
  simp only [Option.map_some, Option.some.injEq] at hr
  rw [← hr]
  simp only [List.append_assoc, List.singleton_append]
  have hx : (A ++ [el k i c]).length + M.length -
      ((A ++ [el k i c]).length + M.length - (A ++ [el k i c]).length) = A.length + 1 := by
    simp only [List.length_append, List.length_cons, List.length_nil]; omega
  cases hlen : c.length with
  | zero =>
    have hidx : A.length + 1 - 1 = A.length := by omega
    cases hlen2 : c2.length with
    | zero =>
      simp only [hx, hidx, eraseIdx_mid]
      exact ⟨i, i2, by simp [keep, hlen, hlen2]⟩
    | succ m2 =>
      obtain ⟨i', hi'⟩ := setMark_mid h A D (el k2 i2 c2) d2
      exact ⟨i, i', by simp only [hx, hidx, eraseIdx_mid, hi', keep, hlen, hlen2]; simp⟩
  | succ m =>
    obtain ⟨i', hi'⟩ := setMark_mid h A (el k2 i2 c2 :: D) (el k i c) d
    cases hlen2 : c2.length with
    | zero =>
      simp only [hx, hi', Nat.sub_zero, eraseIdx_next]
      exact ⟨i', i2, by simp [keep, hlen, hlen2]⟩
    | succ m2 =>
      obtain ⟨i2', hi2'⟩ := setMark_mid h (A ++ [el k i' c]) D (el k2 i2 c2) d2
      refine ⟨i', i2', ?_⟩
      have : setMark h (A ++ el k i' c :: el k2 i2 c2 :: D) (A.length + 1) d2 =
          A ++ el k i' c :: el k2 i2' c2 :: D := by
        simpa using hi2'
      simp only [hx, hi', Nat.sub_zero, this, keep, hlen, hlen2]
      simp

/-- Joining, with no edge. -/
theorem join_none {L : Limits} {h : Nat} {A M D : Node V (h + 1)} {cut : Cut} {r}
    (h1 : cut.first = A.length) (h2 : cut.last = A.length + M.length)
    (hr : pass1.pass1Join L h cut (A ++ (M ++ D)) none none = some r) : r.1 = A ++ D := by
  unfold pass1.pass1Join at hr
  rw [h1, h2, purge_mid] at hr
  simp only [Option.map_some, Option.some.injEq] at hr
  rw [← hr]

/-- A join purges a range that is not inverted. -/
theorem join_le {L : Limits} {h : Nat} {n : Node V (h + 1)} {cut : Cut} {l o r}
    (hr : pass1.pass1Join L h cut n l o = some r) : cut.first ≤ cut.last := by
  unfold pass1.pass1Join at hr
  cases hp : purge n cut.first cut.last with
  | none => rw [hp] at hr; simp at hr
  | some m =>
    unfold purge at hp
    split at hp
    · simp at hp
    · omega

theorem getCut_spec {cs : List (Nat × α)} {s e : Bnd Nat} {ub : Option Nat} {cut : Cut}
    (hg : getCut cs s e ub = some cut) : ∃ key a b, firstKey cs = some key ∧
      startBound cs key s = some a ∧ stopBound cs ub e = some b ∧ cutOf a b = some cut := by
  unfold getCut at hg
  cases hk : firstKey cs with
  | none => rw [hk] at hg; simp at hg
  | some key =>
    rw [hk] at hg
    simp only [Option.bind_some] at hg
    cases ha : startBound cs key s with
    | none => rw [ha] at hg; simp at hg
    | some a =>
      rw [ha] at hg
      simp only [Option.bind_some] at hg
      cases hb : stopBound cs ub e with
      | none => rw [hb] at hg; simp at hg
      | some b =>
        rw [hb] at hg
        simp only [Option.bind_some] at hg
        exact ⟨key, a, b, rfl, ha, rfl, hg⟩

/-- One edge of the cut. -/
theorem edge_spec {L : Limits} {txg h : Nat} {s e : Bnd Nat} {nk : Option Nat}
    {A B : Node V (h + 1)} {c : Nat × Sub V (h + 1)} {r : Node V (h + 1) × Option (Edge × Nat)}
    (ih : ∀ {lo ub} {n n' : Node V h} {d : Bool}, Chain (Bounded h) lo ub n → (h ≠ 0 → n ≠ []) →
      pass1 L txg s e h ub n = some (n', d) → Chain (Bounded h) lo ub n' ∧
        items h n' = (items h n).filter (fun x => !inRange s e x.1))
    (hb : Bounded (h + 1) c.1 nk c.2) (hbel : Below c.1 nk)
    (hr : ((xlockNc txg h (A ++ c :: B) A.length).bind fun x : Node V (h + 1) × Node V h =>
      (pass1 L txg s e h nk x.2).map fun y : Node V h × Bool =>
        (putKids h x.1 A.length y.1,
          some (({ idx := A.length, danger := y.2 } : Edge), y.1.length))) = some r) :
    ∃ k i c' d, r = (A ++ el k i c' :: B, some ({ idx := A.length, danger := d }, c'.length)) ∧
      c.1 ≤ k ∧ Below k nk ∧ Chain (Bounded h) k nk c' ∧
      items h c' = (items h (kid c)).filter (fun x => !inRange s e x.1) := by
  cases hx : xlockNc txg h (A ++ c :: B) A.length with
  | none => rw [hx] at hr; simp at hr
  | some q =>
    obtain ⟨k, i, rfl, hk, hkb, hkc⟩ := xlockNc_mid (hb.2 : Chain (Bounded h) c.1 nk (kid c)) hbel hx
    rw [hx] at hr
    simp only [Option.bind_some] at hr
    cases hp : pass1 L txg s e h nk (kid c) with
    | none => rw [hp] at hr; simp at hr
    | some y =>
      obtain ⟨c', d⟩ := y
      rw [hp] at hr
      simp only [Option.map_some, Option.some.injEq, putKids_mid] at hr
      have h1 := ih hkc (fun _ => hb.1) hp
      exact ⟨k, i, c', d, hr.symm, hk, hkb, h1.1, h1.2⟩

/-- If the first pass returns, the node is in order and exactly the range is gone. -/
theorem pass1_order (L : Limits) (txg : Nat) (s e : Bnd Nat) :
    ∀ (h : Nat) {lo ub} {n n' : Node V h} {d : Bool}, Chain (Bounded h) lo ub n →
      (h ≠ 0 → n ≠ []) → pass1 L txg s e h ub n = some (n', d) →
      Chain (Bounded h) lo ub n' ∧
        items h n' = (items h n).filter (fun x => !inRange s e x.1) := by
  intro h
  induction h with
  | zero =>
    intro lo ub n n' d hc _ hr
    simp only [pass1] at hr
    split at hr
    · simp at hr
    · simp only [Option.some.injEq, Prod.mk.injEq] at hr
      rw [items_zero, items_zero, ← hr.1]
      exact ⟨chain_filter _ hc, rfl⟩
  | succ h ih =>
    intro lo ub n n' d hc hn hr
    have hn := hn (by omega)
    simp only [pass1] at hr
    cases hg : getCut n s e ub with
    | none => rw [hg] at hr; simp at hr
    | some cut =>
      rw [hg] at hr
      simp only [Option.bind_some] at hr
      obtain ⟨key, a, b, hkey, ha, hb, hcut⟩ := getCut_spec hg
      have hstart := startBound_spec hc hkey ha
      have hstop := stopBound_spec hc hn hb
      cases a with
      | unb => exact absurd hstart id
      | incl i =>
        obtain ⟨A, B, hAB, rfl, hA, hB⟩ := hstart
        cases b with
        | unb => exact absurd hstop id
        | excl j =>
          -- no edge
          obtain ⟨C, D, hCD, rfl, hC, hD⟩ := hstop
          simp only [cutOf, Option.some.injEq] at hcut
          subst hcut
          simp only [Option.bind_some] at hr
          have hle : A.length ≤ C.length := join_le hr
          obtain ⟨M, rfl, rfl⟩ := append_split (hAB.symm.trans hCD) hle
          subst hAB
          have := join_none (by rfl) (by simp) hr
          simp only at this
          subst this
          refine ⟨chain_cut hc, ?_⟩
          rw [items_append, items_append, items_append, List.filter_append, List.filter_append,
            filter_before hA, filter_after hD, filter_within hB.left hC.right]
          rfl
        | incl j =>
          -- a right edge
          obtain ⟨C, c, D, hCD, rfl, hC, hD⟩ := hstop
          simp only [cutOf, Option.some.injEq] at hcut
          subst hcut
          subst hCD
          simp only [Option.bind_some, ubAfter_mid] at hr
          have hm := chain_mid.mp hc
          obtain ⟨q, hq, hr⟩ := Option.bind_eq_some_iff.mp hr
          obtain ⟨k, i, c', d', rfl, hk, hkb, hcc, hci⟩ :=
            edge_spec ih hm.2.2.2.1 (nextKey_below hc) hq
          have hle : A.length ≤ C.length := join_le hr
          obtain ⟨M, rfl, rfl⟩ := append_split hAB.symm hle
          rw [List.length_append, List.append_assoc] at hr
          have hj := join_right (by rfl) (by rfl) hr
          obtain ⟨i', hj⟩ := hj
          simp only at hj
          subst hj
          constructor
          · have := chain_keep (i := i') hc hk hkb hcc
            rw [List.append_assoc] at this
            exact chain_cut this
          · simp only [items_append, items_cons, items_keep, List.filter_append, itemsOf_succ,
              filter_before hA, filter_after hD, filter_within hB.left hC.right, hci,
              List.append_assoc, List.nil_append]
      | excl i =>
        obtain ⟨A, a, B, hAB, rfl, hA, hB⟩ := hstart
        cases b with
        | unb => exact absurd hstop id
        | excl j =>
          -- a left edge
          obtain ⟨C, D, hCD, rfl, hC, hD⟩ := hstop
          simp only [cutOf, Option.some.injEq] at hcut
          subst hcut
          subst hAB
          simp only [Option.bind_some, ubAfter_mid, reduceCtorEq, if_false] at hr
          have hm := chain_mid.mp hc
          obtain ⟨q, hq, hr⟩ := Option.bind_eq_some_iff.mp hr
          obtain ⟨k, i, c', d', rfl, hk, hkb, hcc, hci⟩ :=
            edge_spec ih hm.2.2.2.1 (nextKey_below hc) hq
          have hle : A.length + 1 ≤ C.length := join_le hr
          obtain ⟨M, rfl, rfl⟩ := append_split (A := A ++ [a]) (B := B)
            (by simpa using hCD) (by simpa using hle)
          rw [show (A ++ [a] ++ M).length = A.length + 1 + M.length by simp; omega] at hr
          have hj := join_left (by rfl) (by rfl) hr
          obtain ⟨i', hj⟩ := hj
          simp only at hj
          subst hj
          constructor
          · have := chain_keep (i := i') hc hk hkb hcc
            rw [← List.append_assoc] at this ⊢
            exact chain_cut this
          · have hC' : All (stopOk e) true M := hC.right
            simp only [items_append, items_cons, items_keep, List.filter_append, itemsOf_succ,
              filter_before hA, filter_after hD, filter_within hB.left hC', hci,
              List.nil_append]
        | incl j =>
          obtain ⟨C, c, D, hCD, rfl, hC, hD⟩ := hstop
          simp only [cutOf, Option.some.injEq] at hcut
          subst hcut
          subst hAB
          simp only [Option.some.injEq] at hr
          split at hr
          · -- both ends in the same child
            next heq =>
            obtain ⟨rfl, hB'⟩ := List.append_inj hCD heq.symm
            simp only [List.cons.injEq] at hB'
            obtain ⟨rfl, rfl⟩ := hB'
            have hm := chain_mid.mp hc
            simp only [xlock_mid, Option.bind_some, ubAfter_mid] at hr
            obtain ⟨q, hq, hr⟩ := Option.map_eq_some_iff.mp hr
            obtain ⟨c', d'⟩ := q
            have h1 := ih hm.2.2.2.1.2 (fun _ => hm.2.2.2.1.1) hq
            have hres : ∃ i, n' = A ++ (keep a.1 i c' ++ B) := by
              split at hr
              · next h0 =>
                simp only [eraseIdx_mid, Prod.mk.injEq] at hr
                exact ⟨inf a, by rw [← hr.1]; simp [keep, h0]⟩
              · next h0 =>
                obtain ⟨i, hi⟩ := setMark_mid h A B
                  (el a.1 (lockInfo txg a) c') d'
                simp only [putKids_mid, Prod.mk.injEq] at hr
                refine ⟨i, ?_⟩
                rw [← hr.1]
                simp only [keep, if_neg h0]
                exact hi
            obtain ⟨i, rfl⟩ := hres
            constructor
            · exact chain_keep hc (Nat.le_refl _) (nextKey_below hc) h1.1
            · simp only [items_append, items_cons, items_keep, List.filter_append, itemsOf_succ,
                filter_before hA, filter_after hD, h1.2]
          · -- two edges
            next hne =>
            simp only [ubAfter_mid] at hr
            have hm := chain_mid.mp hc
            obtain ⟨q, hq, hr⟩ := Option.bind_eq_some_iff.mp hr
            obtain ⟨k, i, c', d', rfl, hk, hkb, hcc, hci⟩ :=
              edge_spec ih hm.2.2.2.1 (nextKey_below hc) hq
            obtain ⟨q2, hq2, hr⟩ := Option.bind_eq_some_iff.mp hr
            have hle : A.length + 1 ≤ C.length := join_le hr
            obtain ⟨M, rfl, rfl⟩ := append_split (A := A ++ [a]) (B := B)
              (by simpa using hCD) (by simpa using hle)
            have hc2 : Chain (Bounded (h + 1)) lo ub ((A ++ [a] ++ M) ++ c :: D) := by
              simpa using hc
            have hm2 := chain_mid.mp hc2
            rw [show A ++ a :: (M ++ c :: D) = (A ++ [a] ++ M) ++ c :: D by simp,
              ubAfter_mid] at hq2
            obtain ⟨k2, i2, c2, d2, rfl, hk2, hkb2, hcc2, hci2⟩ :=
              edge_spec (A := A ++ el k i c' :: M) (B := D) (c := c) ih hm2.2.2.2.1
                (nextKey_below hc2) (by simpa using hq2)
            rw [show (A ++ [a] ++ M).length = A.length + 1 + M.length by simp; omega,
              show (A ++ el k i c' :: M).length = A.length + 1 + M.length by simp; omega,
              show A ++ el k i c' :: M ++ el k2 i2 c2 :: D =
                A ++ el k i c' :: (M ++ el k2 i2 c2 :: D) by simp] at hr
            have hj := join_both (by rfl) (by rfl) hr
            obtain ⟨i', i2', hj⟩ := hj
            simp only at hj
            subst hj
            constructor
            · have h3 := chain_keep (i := i') hc hk hkb hcc
              have h4 : Chain (Bounded (h + 1)) lo ub ((A ++ keep k i' c' ++ M) ++ c :: D) := by
                simpa using h3
              have h5 := chain_keep (i := i2') h4 hk2 hkb2 hcc2
              rw [List.append_assoc] at h5
              have := chain_cut h5
              simpa using this
            · have hC' : All (stopOk e) true M := hC.right
              simp only [items_append, items_cons, items_keep, List.filter_append, itemsOf_succ,
                filter_before hA, filter_after hD, filter_within hB.left hC', hci, hci2,
                List.nil_append]

/-! ## The second pass -/

/-- The same order and the same contents. -/
structure SameNode {h : Nat} (lo : Nat) (hi : Option Nat) (n n' : Node V h) : Prop where
  chain : Chain (Bounded h) lo hi n'
  items : items h n' = items h n
  ne : n' ≠ []

theorem SameNode.trans {h : Nat} {lo hi} {a b c : Node V h} (h1 : SameNode lo hi a b)
    (h2 : SameNode lo hi b c) : SameNode lo hi a c := ⟨h2.chain, h2.items.trans h1.items, h2.ne⟩

theorem mid_of_getElem? {l : List α} {i : Nat} {e : α} (h : l[i]? = some e) :
    ∃ pre post, l = pre ++ e :: post ∧ pre.length = i := by
  obtain ⟨hi, he⟩ := List.getElem?_eq_some_iff.mp h
  refine ⟨l.take i, l.drop (i + 1), ?_, by simp; omega⟩
  rw [← he, List.getElem_cons_drop, List.take_append_drop]

theorem xlock_some {txg h : Nat} {cs : Node V (h + 1)} {i : Nat} {r}
    (hx : xlock txg h cs i = some r) : ∃ pre e post, cs = pre ++ e :: post ∧ pre.length = i ∧
      r = (pre ++ el e.1 (lockInfo txg e) (kid e) :: post, kid e) := by
  cases hc : cs[i]? with
  | none => simp [xlock, hc] at hx
  | some e =>
    obtain ⟨pre, post, rfl, rfl⟩ := mid_of_getElem? hc
    rw [xlock_mid] at hx
    exact ⟨pre, e, post, rfl, rfl, (Option.some.inj hx).symm⟩

/-- Changing a child's metadata. -/
theorem info_mid {h : Nat} {lo hi} {pre post : Node V (h + 1)} {e : Nat × Sub V (h + 1)} {i : Meta}
    (hc : Chain (Bounded (h + 1)) lo hi (pre ++ e :: post)) :
    SameNode lo hi (pre ++ e :: post) (pre ++ el e.1 i (kid e) :: post) :=
  ⟨chain_mid.mpr (by have := chain_mid.mp hc; exact this),
    by simp only [items_mid, itemsOf_succ], by simp⟩

theorem putInfo_order {h : Nat} {lo hi} {n : Node V (h + 1)} {i : Nat} {f : Meta → Meta}
    (hc : Chain (Bounded (h + 1)) lo hi n) (hn : n ≠ []) : SameNode lo hi n (putInfo h n i f) := by
  cases he : n[i]? with
  | none => unfold putInfo; rw [he]; exact ⟨hc, rfl, hn⟩
  | some e =>
    obtain ⟨pre, post, rfl, rfl⟩ := mid_of_getElem? he
    rw [putInfo_mid]
    exact info_mid hc

theorem clearMarks_order {h : Nat} {lo hi} {n : Node V (h + 1)} {is : List Nat}
    (hc : Chain (Bounded (h + 1)) lo hi n) (hn : n ≠ []) : SameNode lo hi n (clearMarks h n is) := by
  induction is generalizing n with
  | nil => exact ⟨hc, rfl, hn⟩
  | cons i is ih =>
    have h1 := putInfo_order (i := i) (f := fun m => { m with mark := false }) hc hn
    exact h1.trans (ih h1.chain h1.ne)

/-- Fixing the left child keeps order and contents. -/
theorem fixLeft_order {L : Limits} (hL : L.Ok) {txg h : Nat} {left : Nat} {hasRight : Bool}
    {lo hi} : ∀ (fuel : Nat) {pre post : Node V (h + 1)} {e : Nat × Sub V (h + 1)} {mb mm : Nat}
      {stole : Bool} {n' : Node V (h + 1)} {child' : Node V h} {mb' mm' : Nat},
      Chain (Bounded (h + 1)) lo hi (pre ++ e :: post) → pre.length = left - mb →
      fixLeft L txg h left hasRight fuel (pre ++ e :: post) (kid e) mb mm stole =
        some (n', child', mb', mm') →
      ∃ pre' e' post', n' = pre' ++ e' :: post' ∧ child' = kid e' ∧ pre'.length = left - mb' ∧
        SameNode lo hi (pre ++ e :: post) n' := by
  intro fuel
  induction fuel with
  | zero => intro pre post e mb mm stole n' child' mb' mm' _ _ hr; simp [fixLeft] at hr
  | succ fuel ih =>
    intro pre post e mb mm stole n' child' mb' mm' hc hpre hr
    simp only [fixLeft] at hr
    split at hr
    · simp only [Option.some.injEq, Prod.mk.injEq] at hr
      obtain ⟨rfl, rfl, rfl, rfl⟩ := hr
      exact ⟨pre, e, post, rfl, rfl, hpre, hc, rfl, by simp⟩
    · split at hr
      · simp at hr
      · rw [← hpre] at hr
        obtain ⟨⟨n1, nmb, nma⟩, hf, hr⟩ := Option.bind_eq_some_iff.mp hr
        have hfo := (fixInt_cases hf).order hL hc
        simp only at hr hfo
        split at hr
        · simp at hr
        · obtain ⟨q, hx, hr⟩ := Option.bind_eq_some_iff.mp hr
          obtain ⟨pre1, e1, post1, rfl, hlen, rfl⟩ := xlock_some hx
          have h1 : SameNode lo hi (pre ++ e :: post) (pre1 ++ e1 :: post1) :=
            ⟨hfo.1, hfo.2.1, hfo.2.2⟩
          have h2 := info_mid (i := lockInfo txg e1) hfo.1
          obtain ⟨pre', e', post', a1, a2, a3, a4⟩ :=
            ih (e := el e1.1 (lockInfo txg e1) (kid e1)) h2.chain (by omega) hr
          exact ⟨pre', e', post', a1, a2, a3, (h1.trans h2).trans a4⟩

theorem kids_mid {h : Nat} {lo hi} {pre post : Node V (h + 1)} {e : Nat × Sub V (h + 1)} {i : Meta}
    {c : Node V h} (hc : Chain (Bounded (h + 1)) lo hi (pre ++ e :: post))
    (hs : SameNode e.1 (nextKey post hi) (kid e) c) :
    SameNode lo hi (pre ++ e :: post) (pre ++ el e.1 i c :: post) :=
  ⟨replace_mid (i0 := inf e) (n := kid e) hs.ne hc hs.chain,
    by simp only [items_mid, itemsOf_succ, hs.items], by simp⟩

/-- If the second pass returns, order and contents are unchanged. -/
theorem pass2R_order {L : Limits} (hL : L.Ok) (txg : Nat) :
    ∀ (h : Nat) {lo hi} {n n' : Node V h}, Chain (Bounded h) lo hi n → n ≠ [] →
      pass2R L txg h n = some n' → SameNode lo hi n n' := by
  intro h
  induction h with
  | zero =>
    intro lo hi n n' hc hn hr
    simp only [pass2R, Option.some.injEq] at hr
    subst hr
    exact ⟨hc, rfl, hn⟩
  | succ h ih =>
    intro lo hi n n' hc hn hr
    unfold pass2R at hr
    split at hr
    · simp only [Option.some.injEq] at hr
      subst hr
      exact ⟨hc, rfl, hn⟩
    · next left rest htf =>
      have h0 := clearMarks_order (is := toFix h n) hc hn
      generalize clearMarks h n (toFix h n) = n0 at h0 hr
      simp only at hr
      obtain ⟨q, hx, hr⟩ := Option.bind_eq_some_iff.mp hr
      obtain ⟨pre, e, post, rfl, hlen, rfl⟩ := xlock_some hx
      have h1 := h0.trans (info_mid (i := lockInfo txg e) h0.chain)
      simp only at hr
      obtain ⟨⟨n2, c2, mb, mm⟩, hf, hr⟩ := Option.bind_eq_some_iff.mp hr
      obtain ⟨pre', e', post', rfl, rfl, hlen', h2⟩ :=
        fixLeft_order (e := el e.1 (lockInfo txg e) (kid e)) hL _ h1.chain (by omega) hf
      have h2 := h1.trans h2
      simp only at hr
      obtain ⟨c3, hp, hr⟩ := Option.bind_eq_some_iff.mp hr
      have hm := chain_mid.mp h2.chain
      have h3 := ih hm.2.2.2.1.2 hm.2.2.2.1.1 hp
      rw [← hlen', putKids_mid] at hr
      have h4 := h2.trans (kids_mid (i := inf e') h2.chain h3)
      split at hr
      · simp only [Option.some.injEq] at hr
        subst hr
        exact h4
      · next r hr' =>
        split at hr
        · split at hr
          · simp at hr
          · obtain ⟨q2, hx2, hr⟩ := Option.bind_eq_some_iff.mp hr
            obtain ⟨pre5, e5, post5, heq5, hlen5, rfl⟩ := xlock_some hx2
            rw [heq5] at h4
            have h5 := h4.trans (info_mid (i := lockInfo txg e5) h4.chain)
            simp only at hr
            obtain ⟨⟨n6, c6, j6⟩, hfix, hr⟩ := Option.bind_eq_some_iff.mp hr
            obtain ⟨c7, hp7, hr⟩ := Option.map_eq_some_iff.mp hr
            have h6 : ∃ pre6 e6 post6, n6 = pre6 ++ e6 :: post6 ∧ c6 = kid e6 ∧ pre6.length = j6 ∧
                SameNode lo hi n n6 := by
              split at hfix
              · rw [← hlen5] at hfix
                obtain ⟨⟨n7, nmb, nma⟩, hf7, hfix⟩ := Option.bind_eq_some_iff.mp hfix
                have hfo := (fixInt_cases (a := el e5.1 (lockInfo txg e5) (kid e5)) hf7).order hL
                  h5.chain
                simp only at hfix hfo
                split at hfix
                · simp at hfix
                · obtain ⟨q8, hx8, hfix⟩ := Option.map_eq_some_iff.mp hfix
                  obtain ⟨pre8, e8, post8, rfl, hlen8, rfl⟩ := xlock_some hx8
                  simp only [Prod.mk.injEq] at hfix
                  obtain ⟨rfl, rfl, rfl⟩ := hfix
                  have h7 : SameNode lo hi n (pre8 ++ e8 :: post8) :=
                    h5.trans ⟨hfo.1, hfo.2.1, hfo.2.2⟩
                  exact ⟨pre8, _, post8, rfl, rfl, hlen8,
                    h7.trans (info_mid (i := lockInfo txg e8) h7.chain)⟩
              · simp only [Option.some.injEq, Prod.mk.injEq] at hfix
                obtain ⟨rfl, rfl, rfl⟩ := hfix
                exact ⟨pre5, _, post5, rfl, rfl, hlen5, h5⟩
            obtain ⟨pre6, e6, post6, rfl, rfl, rfl, h6⟩ := h6
            rw [putKids_mid] at hr
            subst hr
            have hm6 := chain_mid.mp h6.chain
            have h7 := ih hm6.2.2.2.1.2 hm6.2.2.2.1.1 hp7
            exact h6.trans (kids_mid (i := inf e6) h6.chain h7)
        · simp only [Option.some.injEq] at hr
          subst hr
          exact h4

/-! ## Merging the root down -/

theorem mergeDown_spec (txg : Nat) : ∀ (h : Nat) (info : Meta) (n : Node V h) {lo hi},
    Chain (Bounded h) lo hi n → (mergeDown txg h info n).Ordered ∧
      (mergeDown txg h info n).toMap = items h n
  | 0, info, n, lo, hi, hc => by
    refine ⟨⟨chain_wide (Nat.zero_le _) (fun _ _ => trivial) hc, fun h => absurd rfl h⟩, rfl⟩
  | h + 1, info, [], lo, hi, hc => by
    simp only [mergeDown]
    exact ⟨⟨trivial, fun h => absurd rfl h⟩, rfl⟩
  | h + 1, info, [(k, c)], lo, hi, hc => by
    have := mergeDown_spec txg h c.info c.kids hc.2.2.1.2
    simp only [mergeDown]
    refine ⟨this.1, this.2.trans ?_⟩
    simp [items_cons, items_nil, itemsOf_succ]
  | h + 1, info, a :: b :: es, lo, hi, hc => by
    simp only [mergeDown]
    exact ⟨⟨chain_wide (Nat.zero_le _) (fun _ _ => trivial) hc, by simp [Tree.xlockRoot]⟩, rfl⟩

theorem unmark_spec : ∀ (h : Nat) {lo hi} {n : Node V h}, Chain (Bounded h) lo hi n →
    Chain (Bounded h) lo hi (unmark h n) ∧ items h (unmark h n) = items h n ∧
      (unmark h n).length = n.length := by
  intro h
  induction h with
  | zero => intro lo hi n hc; exact ⟨hc, rfl, rfl⟩
  | succ h ih =>
    intro lo hi n hc
    refine ⟨?_, ?_, by simp [unmark]⟩
    · induction n generalizing lo with
      | nil => trivial
      | cons e es ihn =>
        have h1 := ih hc.2.2.1.2
        have h2 : nextKey (unmark (h + 1) es) hi = nextKey es hi := by cases es <;> rfl
        refine ⟨hc.1, hc.2.1, ⟨?_, ?_⟩, ihn hc.2.2.2⟩
        · intro h0
          have := congrArg List.length h0
          simp only [h1.2.2, List.length_nil] at this
          exact hc.2.2.1.1 (List.length_eq_zero_iff.mp this)
        · have := h1.1
          rw [← h2] at this
          exact this
    · induction n generalizing lo with
      | nil => rfl
      | cons e es ihn =>
        have h1 := ih hc.2.2.1.2
        have h2 := ihn hc.2.2.2
        simp only [unmark, List.map_cons] at h2 ⊢
        rw [items_cons, items_cons, h2]
        congr 1
        exact h1.2.1

end Verif.Tree
