import Verif.Tree.RangeDelete

/-!
# Range queries
-/

namespace Verif.Tree

variable {V : Type}

/-- What one `get_range` over the map `m` returns: the first few items of the range, and where to
go on; or all of them. -/
def RangeStep (m : OMap V) (s e : Bnd Nat) (v : OMap V) : Option (Bnd Nat) → Prop
  | none => v = m.filter (fun x => inRange s e x.1)
  | some s' => v ≠ [] ∧
      m.filter (fun x => inRange s e x.1) = v ++ m.filter (fun x => inRange s' e x.1) ∧
      (∀ x ∈ v, startOk s' x.1 = false) ∧ (∀ k, startOk s' k = true → startOk s k = true) ∧
      btreeRangePanics s' e = false

theorem startOk_mono {s : Bnd Nat} {a b : Nat} (h : startOk s a = true) (hab : a ≤ b) :
    startOk s b = true := by
  cases s <;> simp only [startOk, decide_eq_true_eq] at * <;> omega

theorem startOk_lt {s : Bnd Nat} {a b : Nat} (ha : startOk s a = false) (hb : startOk s b = true) :
    a < b := by
  cases s <;> simp [startOk] at * <;> omega

theorem stopOk_mono {e : Bnd Nat} {a b : Nat} (h : stopOk e b = true) (hab : a ≤ b) :
    stopOk e a = true := by
  cases e <;> simp only [stopOk, decide_eq_true_eq] at * <;> omega

theorem belowEnd_eq (e : Bnd Nat) (k : Nat) : belowEnd e k = stopOk e k := by cases e <;> rfl

theorem filter_none {m : OMap V} {p : Nat × V → Bool} (h : ∀ x ∈ m, p x = false) :
    m.filter p = [] := by
  rw [List.filter_eq_nil_iff]
  intro x hx; rw [h x hx]; simp

theorem filter_startOk {m : OMap V} {s e : Bnd Nat} (h : ∀ x ∈ m, startOk s x.1 = false) :
    m.filter (fun x => inRange s e x.1) = [] :=
  filter_none fun x hx => by rw [inRange_eq, h x hx]; rfl

theorem filter_stopOk {m : OMap V} {s e : Bnd Nat} (h : ∀ x ∈ m, stopOk e x.1 = false) :
    m.filter (fun x => inRange s e x.1) = [] :=
  filter_none fun x hx => by rw [inRange_eq, h x hx]; simp

/-- What is known of the node to the right of the present one, whose items are `I`, when `R`
follows them in the tree. -/
structure NextSome (s e : Bnd Nat) (I R : OMap V) (g : Guard V) (k : Nat) : Prop where
  chain : ∃ lo hi, Chain (Bounded g.h) lo hi g.node
  ne : g.node ≠ []
  first : firstKey g.node = some k
  pre : ∃ R', R = items g.h g.node ++ R'
  below : ∀ x ∈ I, x.1 < k
  above : ∀ x ∈ R, k ≤ x.1
  start : startOk s k = true
  stop : stopOk e k = true

def NextOk (s e : Bnd Nat) (I R : OMap V) : Option (Guard V) → Prop
  | some g => ∃ k, NextSome s e I R g k
  | none => (∀ x ∈ R, stopOk e x.1 = false) ∨ (∀ x ∈ I, startOk s x.1 = true)

/-- What one descent is to achieve, `X` being the items of the node and all that follow. -/
def StepOk (s e : Bnd Nat) (X : OMap V) : LeafStep V → Prop
  | .done v b => RangeStep X s e v b
  | .goto g => ∃ Y R', X = Y ++ (items g.h g.node ++ R') ∧
      (∀ x ∈ Y, inRange s e x.1 = false) ∧ (∃ lo hi, Chain (Bounded g.h) lo hi g.node) ∧
      g.node ≠ [] ∧ ∀ x ∈ items g.h g.node ++ R', startOk s x.1 = true

theorem StepOk.prefix {s e : Bnd Nat} {A X : OMap V} {st : LeafStep V}
    (hA : ∀ x ∈ A, startOk s x.1 = false) (h : StepOk s e X st) : StepOk s e (A ++ X) st := by
  cases st with
  | goto g =>
    obtain ⟨Y, R', rfl, h1, h2⟩ := h
    refine ⟨A ++ Y, R', by simp, ?_, h2⟩
    intro x hx
    rcases List.mem_append.mp hx with hx | hx
    · rw [inRange_eq, hA x hx]; rfl
    · exact h1 x hx
  | done v b =>
    cases b with
    | none =>
      show v = _
      rw [List.filter_append, filter_startOk hA, List.nil_append]
      exact h
    | some s' =>
      obtain ⟨h0, h1, h2, h3, h4⟩ := h
      refine ⟨h0, ?_, h2, h3, h4⟩
      rw [List.filter_append, filter_startOk hA, List.nil_append, List.filter_append,
        filter_startOk (m := A) (s := s'), List.nil_append]
      · exact h1
      · intro x hx
        have := hA x hx
        cases hh : startOk s' x.1 with
        | false => rfl
        | true => rw [h3 _ hh] at this; cases this

/-! ## The leaf -/

theorem lastKey_some {n : OMap V} {l : Nat} (hs : OMap.Sorted n) (h : OMap.lastKey n = some l) :
    (∃ v, (l, v) ∈ n) ∧ ∀ x ∈ n, x.1 ≤ l := by
  unfold OMap.lastKey at h
  rcases List.eq_nil_or_concat n with rfl | ⟨pre, x, rfl⟩
  · simp at h
  · rw [List.concat_eq_append] at *
    simp at h
    subst h
    refine ⟨⟨x.2, by simp⟩, ?_⟩
    intro y hy
    rcases List.mem_append.mp hy with hy | hy
    · have := (List.pairwise_append.mp hs).2.2 y hy x (by simp)
      exact Nat.le_of_lt this
    · simp at hy; subst hy; exact Nat.le_refl _

theorem lastKey_none {n : OMap V} (h : OMap.lastKey n = none) : n = [] := by
  unfold OMap.lastKey at h
  simpa using h

/-- Whether there may be more beyond the last key of the leaf. -/
def moreAfter (e : Bnd Nat) (l : Nat) : Bool :=
  match e with
  | .incl i => !decide (i ≤ l)
  | .excl i => !decide (i ≤ l)
  | .unb => true

theorem moreAfter_false {e : Bnd Nat} {l k : Nat} (h : moreAfter e l = false) (hk : l < k) :
    stopOk e k = false := by
  cases e <;> simp [moreAfter, stopOk] at * <;> omega

theorem moreAfter_true {e : Bnd Nat} {l : Nat} (h : moreAfter e l = true) :
    stopOk e l = true ∧ btreeRangePanics (.excl l) e = false := by
  cases e <;> simp [moreAfter, stopOk, btreeRangePanics] at * <;> omega

theorem leafRange_some {n : OMap V} {l : Nat} {s e : Bnd Nat} (hp : btreeRangePanics s e = false)
    (h : OMap.lastKey n = some l) :
    leafRange (V := V) n s e = some (n.filter (fun x => inRange s e x.1), moreAfter e l) := by
  have h' : OMap.lastKey (V := Sub V 0) n = some l := h
  unfold leafRange
  rw [h']
  simp only [hp]
  rfl

theorem leafStep_spec {s e : Bnd Nat} (hp : btreeRangePanics s e = false) {n R : OMap V}
    {next : Option (Guard V)} (hn : n ≠ [] ∨ (R = [] ∧ next = none))
    (hs : OMap.Sorted (n ++ R)) (hnext : NextOk s e n R next) :
    ∃ st, leafStep (V := V) n next s e = some st ∧ StepOk s e (n ++ R) st ∧
      ((∀ x ∈ n, startOk s x.1 = true) → ∃ v b, st = .done v b) := by
  cases hl : OMap.lastKey n with
  | none =>
    have h0 := lastKey_none hl
    subst h0
    rcases hn with hn | ⟨rfl, rfl⟩
    · exact absurd rfl hn
    · exact ⟨.done [] none, rfl, rfl, fun _ => ⟨_, _, rfl⟩⟩
  | some l =>
    have hsp := List.pairwise_append.mp hs
    have hl' := lastKey_some hsp.1 hl
    obtain ⟨⟨vl, hvl⟩, hmax⟩ := hl'
    have hR : ∀ x ∈ R, l < x.1 := fun x hx => hsp.2.2 _ hvl x hx
    have hlr := leafRange_some hp hl
    have hv : ∀ x ∈ n.filter (fun x => inRange s e x.1), x ∈ n := fun x hx =>
      (List.mem_filter.mp hx).1
    unfold leafStep
    rw [hlr]
    simp only [Option.bind_some]
    generalize hve : n.filter (fun x => inRange s e x.1) = v at hv
    -- nothing beyond the leaf
    have hdone : moreAfter e l = false → RangeStep (n ++ R) s e v none := by
      intro hm
      show v = _
      rw [List.filter_append, hve, filter_stopOk (m := R) fun x hx => moreAfter_false hm (hR x hx)]
      simp
    -- the leaf has nothing, although all of it is after the start
    have hfresh : v = [] → (∀ x ∈ n, startOk s x.1 = true) → moreAfter e l = false := by
      intro h0 hst
      rw [h0, List.filter_eq_nil_iff] at hve
      have := hve _ hvl
      cases hm : moreAfter e l with
      | false => rfl
      | true =>
        rw [inRange_eq, hst _ hvl, (moreAfter_true hm).1] at this
        simp at this
    cases next with
    | some g =>
      obtain ⟨k, hg⟩ := hnext
      simp only
      by_cases hv0 : v = []
      · subst hv0
        cases hm : moreAfter e l with
        | false =>
          refine ⟨.done [] none, by simp, hdone hm, fun _ => ⟨_, _, rfl⟩⟩
        | true =>
          refine ⟨.goto g, by simp, ?_, ?_⟩
          · obtain ⟨R', rfl⟩ := hg.pre
            refine ⟨n, R', rfl, ?_, hg.chain, hg.ne, fun x hx => startOk_mono hg.start (hg.above x hx)⟩
            intro x hx
            rw [List.filter_eq_nil_iff] at hve
            simpa using hve x hx
          · intro hst
            rw [hfresh rfl hst] at hm
            cases hm
      · have hv0' : v.isEmpty = false := by cases v <;> simp_all
        rw [hv0']
        cases hm : moreAfter e l with
        | false => exact ⟨.done v none, by simp, hdone hm, fun _ => ⟨_, _, rfl⟩⟩
        | true =>
          refine ⟨.done v (some (.incl k)), by simp [hg.first], ?_, fun _ => ⟨_, _, rfl⟩⟩
          refine ⟨hv0, ?_, ?_, ?_, ?_⟩
          · rw [List.filter_append, List.filter_append, hve,
              filter_startOk (m := n) (s := .incl k), List.nil_append]
            · congr 1
              apply List.filter_congr
              intro x hx
              have h1 := hg.above x hx
              rw [inRange_eq, inRange_eq, startOk_mono hg.start h1]
              simp [startOk, h1]
            · intro x hx
              have := hg.below x hx
              simp only [startOk, decide_eq_false_iff_not]; omega
          · intro x hx
            have := hg.below x (hv x hx)
            simp only [startOk, decide_eq_false_iff_not]; omega
          · intro k' hk'
            simp only [startOk, decide_eq_true_eq] at hk'
            exact startOk_mono hg.start hk'
          · have := hg.stop
            cases e <;> simp [btreeRangePanics, stopOk] at * <;> omega
    | none =>
      simp only
      by_cases hv0 : v = []
      · subst hv0
        refine ⟨.done [] none, by simp, ?_, fun _ => ⟨_, _, rfl⟩⟩
        rcases hnext with h | h
        · show [] = _
          rw [List.filter_append, hve, filter_stopOk h]
          rfl
        · exact hdone (hfresh rfl h)
      · have hv0' : v.isEmpty = false := by cases v <;> simp_all
        rw [hv0']
        cases hm : moreAfter e l with
        | false => exact ⟨.done v none, by simp, hdone hm, fun _ => ⟨_, _, rfl⟩⟩
        | true =>
          refine ⟨.done v (some (.excl l)), by simp [show OMap.lastKey (V := Sub V 0) n = some l from hl], ?_,
            fun _ => ⟨_, _, rfl⟩⟩
          have hex : ∃ x ∈ v, startOk s x.1 = true := by
            cases v with
            | nil => exact absurd rfl hv0
            | cons x xs =>
              have hx : x ∈ n.filter (fun x => inRange s e x.1) := by rw [hve]; simp
              have := (List.mem_filter.mp hx).2
              rw [inRange_eq] at this
              simp only [Bool.and_eq_true] at this
              exact ⟨x, by simp, this.1⟩
          obtain ⟨x0, hx0, hst0⟩ := hex
          have hx0l := hmax x0 (hv x0 hx0)
          refine ⟨hv0, ?_, ?_, ?_, (moreAfter_true hm).2⟩
          · rw [List.filter_append, List.filter_append, hve,
              filter_startOk (m := n) (s := .excl l), List.nil_append]
            · congr 1
              apply List.filter_congr
              intro x hx
              have h1 := hR x hx
              rw [inRange_eq, inRange_eq, startOk_mono hst0 (by omega)]
              simp [startOk, h1]
            · intro x hx
              have := hmax x hx
              simp only [startOk, decide_eq_false_iff_not]; omega
          · intro x hx
            have := hmax x (hv x hx)
            simp only [startOk, decide_eq_false_iff_not]; omega
          · intro k' hk'
            simp only [startOk, decide_eq_true_eq] at hk'
            exact startOk_mono hst0 (by omega)

/-! ## The descent -/

/-- The child that the start of the range leads to. -/
theorem start_child {h : Nat} {lo hi} {n : Node V (h + 1)} (s : Bnd Nat)
    (hc : Chain (Bounded (h + 1)) lo hi n) (hn : n ≠ []) :
    ∃ pre c post, n = pre ++ c :: post ∧
      startChild n s = pre.length ∧
      (∀ x ∈ items (h + 1) pre, startOk s x.1 = false) ∧ (∀ x ∈ post, startOk s x.1 = true) := by
  cases s with
  | unb =>
    cases n with
    | nil => exact absurd rfl hn
    | cons c post => exact ⟨[], c, post, rfl, rfl, by simp [items_nil], fun _ _ => rfl⟩
  | incl k =>
    obtain ⟨pre, c, post, rfl, hp, h1, h2⟩ := position_spec hc hn k
    have ha := items_around hc h1 h2
    refine ⟨pre, c, post, rfl, hp, fun x hx => ?_, fun x hx => ?_⟩
    · have := ha.1 x hx; simp only [startOk, decide_eq_false_iff_not]; omega
    · have := h2 x hx; simp only [startOk, decide_eq_true_eq]; omega
  | excl k =>
    obtain ⟨pre, c, post, rfl, hp, h1, h2⟩ := position_spec hc hn k
    have ha := items_around hc h1 h2
    refine ⟨pre, c, post, rfl, hp, fun x hx => ?_, fun x hx => ?_⟩
    · have := ha.1 x hx; simp only [startOk, decide_eq_false_iff_not]; omega
    · have := h2 x hx; simp only [startOk, decide_eq_true_eq]; omega

theorem descend_spec {s e : Bnd Nat} (hp : btreeRangePanics s e = false) :
    ∀ (h : Nat) {lo hi} {n : Node V h} {next : Option (Guard V)} {R : OMap V},
      Chain (Bounded h) lo hi n → (n ≠ [] ∨ (h = 0 ∧ R = [] ∧ next = none)) →
      OMap.Sorted (items h n ++ R) → NextOk s e (items h n) R next →
      ∃ st, descend s e h n next = some st ∧ StepOk s e (items h n ++ R) st ∧
        ((∀ x ∈ items h n, startOk s x.1 = true) → ∃ v b, st = .done v b) := by
  intro h
  induction h with
  | zero =>
    intro lo hi n next R hc hn hs hnext
    rw [items_zero] at *
    exact leafStep_spec hp (hn.imp id fun x => x.2) hs hnext
  | succ h ih =>
    intro lo hi n next R hc hn hs hnext
    have hn : n ≠ [] := by rcases hn with hn | hn <;> simp_all
    obtain ⟨pre, c, post, rfl, hpos, hpre, hpost⟩ := start_child s hc hn
    have hm := chain_mid.mp hc
    have hkid : Chain (Bounded h) c.1 (nextKey post hi) (kid c) := hm.2.2.2.1.2
    have hkne : kid c ≠ [] := hm.2.2.2.1.1
    rw [items_mid, itemsOf_succ, List.append_assoc] at hs
    have hs' : OMap.Sorted (items h (kid c) ++ (items (h + 1) post ++ R)) := by
      rw [← List.append_assoc]
      exact (List.pairwise_append.mp hs).2.1
    have hpR := List.pairwise_append.mp (List.pairwise_append.mp hs').2.1
    -- what comes next for the child
    have hnx : ∃ next', nextGuard e h (pre ++ c :: post) pre.length next = some next' ∧
        NextOk s e (items h (kid c)) (items (h + 1) post ++ R) next' := by
      cases post with
      | nil =>
        refine ⟨next, by simp [nextGuard], ?_⟩
        rw [items_nil, List.nil_append]
        cases next with
        | none =>
          rcases hnext with h1 | h1
          · exact Or.inl h1
          · refine Or.inr fun x hx => h1 x ?_
            rw [items_mid, itemsOf_succ]
            exact List.mem_append_right _ (List.mem_append_left _ hx)
        | some g =>
          obtain ⟨k, hg⟩ := hnext
          refine ⟨k, hg.chain, hg.ne, hg.first, hg.pre, fun x hx => hg.below x ?_, hg.above,
            hg.start, hg.stop⟩
          rw [items_mid, itemsOf_succ]
          exact List.mem_append_right _ (List.mem_append_left _ hx)
      | cons c' post' =>
        have hlen : pre.length < (pre ++ c :: c' :: post').length - 1 := by simp
        have hget : (pre ++ c :: c' :: post')[pre.length + 1]? = some c' := by simp
        unfold nextGuard
        rw [if_pos hlen, hget]
        simp only [belowEnd_eq]
        have hcs := hpost c' (by simp)
        have hch := hm.2.2.2.2
        have hkid' : Chain (Bounded h) c'.1 (nextKey post' hi) (kid c') := hch.2.2.1.2
        have hkne' : kid c' ≠ [] := hch.2.2.1.1
        have hitems : items (h + 1) (c' :: post') ++ R =
            items h (kid c') ++ (items (h + 1) post' ++ R) := by
          rw [items_cons, itemsOf_succ, List.append_assoc]
        -- the first key of the next node
        obtain ⟨k, hk⟩ : ∃ k, firstKey (kid c') = some k := by
          cases hkc : kid c' with
          | nil => exact absurd hkc hkne'
          | cons y ys => exact ⟨y.1, rfl⟩
        have hkc : c'.1 ≤ k := by
          cases hkc : kid c' with
          | nil => exact absurd hkc hkne'
          | cons y ys =>
            rw [hkc] at hk hkid'
            simp [firstKey] at hk
            subst hk
            exact hkid'.1
        have hkall : ∀ x ∈ items h (kid c'), k ≤ x.1 := by
          cases hkc : kid c' with
          | nil => exact absurd hkc hkne'
          | cons y ys =>
            rw [hkc] at hk hkid'
            simp [firstKey] at hk
            subst hk
            intro x hx
            exact (items_key (chain_raise hkid') hx).1
        have hkall' : ∀ x ∈ items (h + 1) (c' :: post') ++ R, k ≤ x.1 := by
          rw [hitems]
          intro x hx
          rcases List.mem_append.mp hx with hx | hx
          · exact hkall x hx
          · have hne := items_ne_nil h hkid' hkne'
            cases hi' : items h (kid c') with
            | nil => exact absurd hi' hne
            | cons y ys =>
              have h1 := hkall y (by rw [hi']; simp)
              have h3 := (List.pairwise_append.mp hs').2.1
              rw [hitems] at h3
              have h2 := (List.pairwise_append.mp h3).2.2 y (by rw [hi']; simp) x hx
              omega
        rw [hk]
        simp only [Option.map_some]
        cases hb1 : stopOk e c'.1 with
        | false =>
          refine ⟨none, by simp, Or.inl fun x hx => ?_⟩
          cases hst : stopOk e x.1 with
          | false => rfl
          | true =>
            have := hkall' x hx
            rw [stopOk_mono hst (by omega : c'.1 ≤ x.1)] at hb1
            cases hb1
        | true =>
          cases hb2 : stopOk e k with
          | false =>
            refine ⟨none, by simp, Or.inl fun x hx => ?_⟩
            cases hst : stopOk e x.1 with
            | false => rfl
            | true =>
              have := hkall' x hx
              rw [stopOk_mono hst this] at hb2
              cases hb2
          | true =>
            refine ⟨some { h := h, node := kid c' }, by simp, k, ⟨_, _, hkid'⟩, hkne', hk,
              ⟨_, hitems⟩, ?_, hkall', startOk_mono hcs hkc, hb2⟩
            intro x hx
            have : x.1 < c'.1 := (items_key hkid hx).2
            omega
    obtain ⟨next', hn1, hn2⟩ := hnx
    obtain ⟨st, h1, h2, h3⟩ := ih hkid (Or.inl hkne) hs' hn2
    refine ⟨st, ?_, ?_, ?_⟩
    · rw [← h1]
      simp only [descend]
      rw [hpos, getElem?_mid]
      simp only [Option.bind_some]
      rw [hn1]
      rfl
    · rw [items_mid, itemsOf_succ, List.append_assoc, List.append_assoc]
      exact StepOk.prefix hpre h2
    · intro hst
      apply h3
      intro x hx
      apply hst
      rw [items_mid, itemsOf_succ]
      exact List.mem_append_right _ (List.mem_append_left _ hx)

theorem getRange_spec {t : Tree V} (ht : t.Ordered) {s e : Bnd Nat}
    (hp : btreeRangePanics s e = false) :
    ∃ v b, t.getRange s e = some (v, b) ∧ RangeStep t.toMap s e v b := by
  have hsort := (items_bound t.h ht.1).2
  have hn : t.root ≠ [] ∨ (t.h = 0 ∧ ([] : OMap V) = [] ∧ (none : Option (Guard V)) = none) := by
    by_cases h0 : t.h = 0
    · exact Or.inr ⟨h0, rfl, rfl⟩
    · exact Or.inl (ht.2 h0)
  obtain ⟨st, h1, h2, -⟩ := descend_spec (R := []) hp t.h ht.1 hn (by simpa using hsort)
    (Or.inl (by simp))
  rw [List.append_nil] at h2
  unfold Tree.getRange
  simp only [getRangeR]
  rw [h1]
  simp only [Option.bind_some]
  cases st with
  | done v b => exact ⟨v, b, rfl, h2⟩
  | goto g =>
    obtain ⟨Y, R', hX, hY, ⟨lo, hi, hc⟩, hne, hst⟩ := h2
    unfold Tree.toMap
    rw [hX] at hsort ⊢
    have hs' : OMap.Sorted (items g.h g.node ++ R') := (List.pairwise_append.mp hsort).2.1
    have hst' : ∀ x ∈ items g.h g.node, startOk s x.1 = true :=
      fun x hx => hst x (List.mem_append_left _ hx)
    obtain ⟨st, h1, h2, h3⟩ := descend_spec hp g.h (next := none) hc (Or.inl hne) hs' (Or.inr hst')
    obtain ⟨v, b, rfl⟩ := h3 hst'
    refine ⟨v, b, ?_, ?_⟩
    · show (descend s e g.h g.node none).bind _ = _
      rw [h1]
      rfl
    cases b with
    | none =>
      show v = _
      rw [List.filter_append, filter_none hY]
      exact h2
    | some s' =>
      obtain ⟨a0, a1, a2, a3, a4⟩ := h2
      refine ⟨a0, ?_, a2, a3, a4⟩
      have hf : ∀ p : Nat × V → Bool, (∀ x ∈ Y, p x = false) →
          (Y ++ (items g.h g.node ++ R')).filter p = (items g.h g.node ++ R').filter p := by
        intro p hpY
        rw [List.filter_append, filter_none hpY, List.nil_append]
      rw [hf _ hY, hf]
      · exact a1
      · intro x hx
        have := hY x hx
        rw [inRange_eq] at this ⊢
        cases h5 : startOk s' x.1 with
        | false => rfl
        | true => rw [a3 _ h5] at this; exact this

end Verif.Tree
