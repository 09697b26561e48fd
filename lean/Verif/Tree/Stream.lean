import Verif.Tree.Ops

/-!
# Polling a range query while the tree changes
-/

namespace Verif.Tree

variable {V : Type}

/-- Poll a query once for every tree in the list: the tree as it is at that poll. -/
def Query.polls (q : Query V) : List (Tree V) → Option (List (Option (Nat × V)) × Query V)
  | [] => some ([], q)
  | t :: ts =>
    (q.poll t).bind fun (o, q) => (q.polls ts).map fun (os, q) => (o :: os, q)

/-- What the stream has yielded: the results up to the end of the stream. -/
def got (os : List (Option (Nat × V))) : OMap V := os.filterMap id

/-- The state of a query over the range from `s0`. -/
structure QInv (s0 : Bnd Nat) (q : Query V) : Prop where
  sorted : OMap.Sorted q.data
  range : ∀ x ∈ q.data, inRange s0 q.stop x.1 = true
  cursor : ∀ s, q.cursor = some s → btreeRangePanics s q.stop = false ∧
    (∀ k, startOk s k = true → startOk s0 k = true) ∧ ∀ x ∈ q.data, startOk s x.1 = false

/-- The keys that the query may still yield. -/
def Pending (q : Query V) (k : Nat) : Prop :=
  (∃ v, (k, v) ∈ q.data) ∨ ∃ s, q.cursor = some s ∧ startOk s k = true

theorem new_inv {s e : Bnd Nat} (hp : btreeRangePanics s e = false) :
    QInv s (Query.new s e : Query V) where
  sorted := OMap.sorted_nil
  range := by intro x hx; cases hx
  cursor := by
    intro s' h
    simp only [Query.new, Option.some.injEq] at h
    subst h
    exact ⟨hp, fun _ h => h, by intro x hx; cases hx⟩

/-- One poll. -/
structure PollOk (s0 : Bnd Nat) (q : Query V) (t : Tree V) (o : Option (Nat × V)) (q' : Query V) :
    Prop where
  inv : QInv s0 q'
  stop : q'.stop = q.stop
  /-- what is yielded comes from the data fetched before, or from the tree -/
  fetched : ∀ x, o = some x → (x ∈ q.data ∨ x ∈ t.toMap) ∧ inRange s0 q.stop x.1 = true ∧
    Pending q x.1
  /-- and so does what is kept for later -/
  kept : ∀ x ∈ q'.data, x ∈ q.data ∨ x ∈ t.toMap
  /-- later results have higher keys -/
  later : ∀ x, o = some x → ∀ k, Pending q' k → x.1 < k
  narrower : ∀ k, Pending q' k → Pending q k
  /-- nothing is skipped -/
  complete : ∀ k v, inRange s0 q.stop k = true →
    ((k, v) ∈ q.data ∨ (∃ s, q.cursor = some s ∧ startOk s k = true) ∧ (k, v) ∈ t.toMap) →
    o = some (k, v) ∨ (k, v) ∈ q'.data ∨ ∃ s, q'.cursor = some s ∧ startOk s k = true
  ended : o = none → q'.data = [] ∧ q'.cursor = none

theorem poll_ok {s0 : Bnd Nat} {q : Query V} (hq : QInv s0 q) {t : Tree V} (ht : t.Ordered) :
    ∃ o q', q.poll t = some (o, q') ∧ PollOk s0 q t o q' := by
  obtain ⟨cursor, data, stop⟩ := q
  cases data with
  | cons x xs =>
    refine ⟨some x, { cursor := cursor, data := xs, stop := stop }, rfl, ?_⟩
    have hs := List.pairwise_cons.mp hq.sorted
    have hsub : ∀ y ∈ xs, y ∈ x :: xs := fun y hy => List.mem_cons_of_mem _ hy
    refine
      { inv := ⟨hs.2, fun y hy => hq.range y (hsub y hy), fun s h => ?_⟩
        stop := rfl
        fetched := ?_
        kept := fun y hy => Or.inl (hsub y hy)
        later := ?_
        narrower := ?_
        complete := ?_
        ended := by intro h; cases h }
    · have := hq.cursor s h
      exact ⟨this.1, this.2.1, fun y hy => this.2.2 y (hsub y hy)⟩
    · intro y hy
      simp only [Option.some.injEq] at hy
      subst hy
      exact ⟨Or.inl (List.mem_cons_self ..), hq.range x (List.mem_cons_self ..),
        Or.inl ⟨x.2, List.mem_cons_self ..⟩⟩
    · intro y hy k hk
      simp only [Option.some.injEq] at hy
      subst hy
      rcases hk with ⟨v, hv⟩ | ⟨s, h1, h2⟩
      · exact hs.1 _ hv
      · exact startOk_lt ((hq.cursor s h1).2.2 x (List.mem_cons_self ..)) h2
    · intro k hk
      rcases hk with ⟨v, hv⟩ | h
      · exact Or.inl ⟨v, hsub _ hv⟩
      · exact Or.inr h
    · intro k v _ h
      rcases h with h | h
      · rcases List.mem_cons.mp h with rfl | h
        · exact Or.inl rfl
        · exact Or.inr (Or.inl h)
      · exact Or.inr (Or.inr h.1)
  | nil =>
    cases cursor with
    | none =>
      refine ⟨none, { cursor := none, data := [], stop := stop }, rfl, ?_⟩
      refine ⟨hq, rfl, by simp, by simp, by simp, fun k h => h, ?_, by simp⟩
      intro k v _ h
      rcases h with h | ⟨⟨s, h, _⟩, _⟩ <;> cases h
    | some s =>
      obtain ⟨hp, hst, -⟩ := hq.cursor s rfl
      obtain ⟨v, b, hg, hr⟩ := getRange_spec ht (s := s) (e := stop) hp
      -- the items fetched
      have hfil : ∀ x ∈ v, x ∈ t.toMap ∧ inRange s stop x.1 = true := by
        intro x hx
        have : x ∈ t.toMap.filter (fun x => inRange s stop x.1) := by
          cases b with
          | none => have hr : v = _ := hr; rw [← hr]; exact hx
          | some s' => rw [hr.2.1]; exact List.mem_append_left _ hx
        exact List.mem_filter.mp this
      have hin : ∀ x ∈ v, inRange s0 stop x.1 = true ∧ startOk s x.1 = true := by
        intro x hx
        have h1 := (hfil x hx).2
        rw [inRange_eq, Bool.and_eq_true] at h1
        rw [inRange_eq, hst _ h1.1, h1.2]
        exact ⟨rfl, h1.1⟩
      have hsort : OMap.Sorted v := by
        have := (sorted_toMap ht).filter (fun x => inRange s stop x.1)
        cases b with
        | none => have hr : v = _ := hr; rw [hr]; exact this
        | some s' => rw [hr.2.1] at this; exact (List.pairwise_append.mp this).1
      have hcomp : ∀ k w, inRange s0 stop k = true → startOk s k = true → (k, w) ∈ t.toMap →
          (k, w) ∈ v ∨ ∃ s', b = some s' ∧ startOk s' k = true := by
        intro k w hk hs hm
        have : (k, w) ∈ t.toMap.filter (fun x => inRange s stop x.1) := by
          refine List.mem_filter.mpr ⟨hm, ?_⟩
          rw [inRange_eq, Bool.and_eq_true] at hk
          show inRange s stop k = true
          rw [inRange_eq, hs, hk.2]; rfl
        cases b with
        | none => have hr : v = _ := hr; rw [hr]; exact Or.inl this
        | some s' =>
          rw [hr.2.1] at this
          rcases List.mem_append.mp this with h | h
          · exact Or.inl h
          · have h1 := (List.mem_filter.mp h).2
            rw [inRange_eq, Bool.and_eq_true] at h1
            exact Or.inr ⟨s', rfl, h1.1⟩
      have hcur : ∀ s', b = some s' → btreeRangePanics s' stop = false ∧
          (∀ k, startOk s' k = true → startOk s k = true) ∧ ∀ x ∈ v, startOk s' x.1 = false := by
        rintro s' rfl
        exact ⟨hr.2.2.2.2, hr.2.2.2.1, hr.2.2.1⟩
      cases v with
      | nil =>
        have hb := range_done hr rfl
        subst hb
        refine ⟨none, { cursor := none, data := [], stop := stop }, ?_, ?_⟩
        · simp [Query.poll, hg]
        · refine ⟨⟨OMap.sorted_nil, by simp, by simp⟩, rfl, by simp, by simp, by simp, ?_, ?_,
            by simp⟩
          · intro k hk
            rcases hk with ⟨v, hv⟩ | ⟨s, h, _⟩
            · cases hv
            · cases h
          · intro k w hk h
            rcases h with h | ⟨⟨s', h1, h2⟩, h3⟩
            · cases h
            · simp only [Option.some.injEq] at h1
              subst h1
              rcases hcomp k w hk h2 h3 with h | ⟨_, h, _⟩ <;> cases h
      | cons x xs =>
        have hs := List.pairwise_cons.mp hsort
        have hsub : ∀ y ∈ xs, y ∈ x :: xs := fun y hy => List.mem_cons_of_mem _ hy
        refine ⟨some x, { cursor := b, data := xs, stop := stop }, ?_, ?_⟩
        · simp [Query.poll, hg]
        · refine
            { inv := ⟨hs.2, fun y hy => (hin y (hsub y hy)).1, fun s' h => ?_⟩
              stop := rfl
              fetched := ?_
              kept := fun y hy => Or.inr (hfil y (hsub y hy)).1
              later := ?_
              narrower := ?_
              complete := ?_
              ended := by intro h; cases h }
          · have := hcur s' h
            exact ⟨this.1, fun k hk => hst k (this.2.1 k hk), fun y hy => this.2.2 y (hsub y hy)⟩
          · intro y hy
            simp only [Option.some.injEq] at hy
            subst hy
            have := hin x (List.mem_cons_self ..)
            exact ⟨Or.inr (hfil x (List.mem_cons_self ..)).1, this.1, Or.inr ⟨s, rfl, this.2⟩⟩
          · intro y hy k hk
            simp only [Option.some.injEq] at hy
            subst hy
            rcases hk with ⟨w, hw⟩ | ⟨s', h1, h2⟩
            · exact hs.1 _ hw
            · exact startOk_lt ((hcur s' h1).2.2 x (List.mem_cons_self ..)) h2
          · intro k hk
            rcases hk with ⟨w, hw⟩ | ⟨s', h1, h2⟩
            · exact Or.inr ⟨s, rfl, (hin _ (hsub _ hw)).2⟩
            · exact Or.inr ⟨s, rfl, (hcur s' h1).2.1 k h2⟩
          · intro k w hk h
            rcases h with h | ⟨⟨s', h1, h2⟩, h3⟩
            · cases h
            · simp only [Option.some.injEq] at h1
              subst h1
              rcases hcomp k w hk h2 h3 with h | h
              · rcases List.mem_cons.mp h with h | h
                · exact Or.inl (by rw [h])
                · exact Or.inr (Or.inl h)
              · exact Or.inr (Or.inr h)

/-- All polls. -/
theorem polls_ok {s0 : Bnd Nat} : ∀ (ts : List (Tree V)) {q : Query V}, QInv s0 q →
    (∀ t ∈ ts, t.Ordered) → ∃ os q', q.polls ts = some (os, q') ∧
      OMap.Sorted (got os) ∧
      (∀ x ∈ got os, Pending q x.1 ∧ inRange s0 q.stop x.1 = true ∧
        (x ∈ q.data ∨ ∃ t ∈ ts, x ∈ t.toMap)) ∧
      (∀ k v, inRange s0 q.stop k = true → none ∈ os →
        ((k, v) ∈ q.data ∨ (∃ s, q.cursor = some s ∧ startOk s k = true)) →
        (∀ t ∈ ts, (k, v) ∈ t.toMap) → (k, v) ∈ got os)
  | [], q, _, _ => ⟨[], q, rfl, OMap.sorted_nil, by simp [got], by simp⟩
  | t :: ts, q, hq, hts => by
    obtain ⟨o, q1, h1, hp⟩ := poll_ok hq (hts t (List.mem_cons_self ..))
    obtain ⟨os, q', h2, h3, h4, h5⟩ := polls_ok ts hp.inv
      (fun t ht => hts t (List.mem_cons_of_mem _ ht))
    refine ⟨o :: os, q', by simp [Query.polls, h1, h2], ?_, ?_, ?_⟩
    · cases o with
      | none => exact h3
      | some x =>
        refine List.pairwise_cons.mpr ⟨fun y hy => ?_, h3⟩
        exact hp.later x rfl y.1 (h4 y hy).1
    · have hrest : ∀ x ∈ got os, Pending q x.1 ∧ inRange s0 q.stop x.1 = true ∧
          (x ∈ q.data ∨ ∃ u ∈ t :: ts, x ∈ u.toMap) := by
        intro x hx
        obtain ⟨a, b, c⟩ := h4 x hx
        refine ⟨hp.narrower _ a, by rw [hp.stop] at b; exact b, ?_⟩
        rcases c with c | ⟨u, hu, c⟩
        · rcases hp.kept x c with c | c
          · exact Or.inl c
          · exact Or.inr ⟨t, List.mem_cons_self .., c⟩
        · exact Or.inr ⟨u, List.mem_cons_of_mem _ hu, c⟩
      cases o with
      | none => exact hrest
      | some x =>
        intro y hy
        rcases List.mem_cons.mp (show y ∈ x :: got os from hy) with rfl | hy
        · obtain ⟨a, b, c⟩ := hp.fetched _ rfl
          exact ⟨c, b, a.imp id fun h => ⟨t, List.mem_cons_self .., h⟩⟩
        · exact hrest y hy
    · intro k v hk hend hpend hall
      have hc := hp.complete k v hk (hpend.imp id fun h =>
        ⟨h, hall t (List.mem_cons_self ..)⟩)
      cases o with
      | some x =>
        rcases hc with h | h
        · simp only [Option.some.injEq] at h
          subst h
          exact List.mem_cons_self ..
        · have hend : none ∈ os := by simpa using hend
          exact List.mem_cons_of_mem _ (h5 k v (by rw [hp.stop]; exact hk) hend h
            (fun u hu => hall u (List.mem_cons_of_mem _ hu)))
      | none =>
        obtain ⟨a, b⟩ := hp.ended rfl
        rw [a, b] at hc
        rcases hc with h | h | ⟨_, h, _⟩ <;> cases h

/-- A key that is there all the time is not skipped, even if its value changes. -/
theorem polls_key {s0 : Bnd Nat} : ∀ (ts : List (Tree V)) {q q' : Query V} {os}, QInv s0 q →
    (∀ t ∈ ts, t.Ordered) → q.polls ts = some (os, q') → none ∈ os →
    ∀ k, inRange s0 q.stop k = true → Pending q k → (∀ t ∈ ts, ∃ v, (k, v) ∈ t.toMap) →
    ∃ v, (k, v) ∈ got os
  | [], q, q', os, _, _, hr, hend => by
    simp only [Query.polls, Option.some.injEq, Prod.mk.injEq] at hr
    rw [← hr.1] at hend
    cases hend
  | t :: ts, q, q', os, hq, hts, hr, hend => by
    intro k hk hpend hall
    obtain ⟨o, q1, h1, hp⟩ := poll_ok hq (hts t (List.mem_cons_self ..))
    simp only [Query.polls, h1, Option.bind_some] at hr
    obtain ⟨⟨os1, q2⟩, h2, h3⟩ := Option.map_eq_some_iff.mp hr
    simp only [Prod.mk.injEq] at h3
    obtain ⟨rfl, rfl⟩ := h3
    have hc : (∃ v, o = some (k, v)) ∨ Pending q1 k := by
      rcases hpend with ⟨v, hv⟩ | ⟨s, a, b⟩
      · rcases hp.complete k v hk (Or.inl hv) with h | h | h
        · exact Or.inl ⟨v, h⟩
        · exact Or.inr (Or.inl ⟨v, h⟩)
        · exact Or.inr (Or.inr h)
      · obtain ⟨v, hv⟩ := hall t (List.mem_cons_self ..)
        rcases hp.complete k v hk (Or.inr ⟨⟨s, a, b⟩, hv⟩) with h | h | h
        · exact Or.inl ⟨v, h⟩
        · exact Or.inr (Or.inl ⟨v, h⟩)
        · exact Or.inr (Or.inr h)
    cases o with
    | none =>
      obtain ⟨a, b⟩ := hp.ended rfl
      rcases hc with ⟨_, h⟩ | ⟨_, h⟩ | ⟨_, h, _⟩
      · cases h
      · rw [a] at h; cases h
      · rw [b] at h; cases h
    | some x =>
      rcases hc with ⟨v, h⟩ | h
      · simp only [Option.some.injEq] at h
        subst h
        exact ⟨v, List.mem_cons_self ..⟩
      · have hend : none ∈ os1 := by simpa using hend
        obtain ⟨v, hv⟩ := polls_key ts hp.inv (fun u hu => hts u (List.mem_cons_of_mem _ hu)) h2 hend
          k (by rw [hp.stop]; exact hk) h (fun u hu => hall u (List.mem_cons_of_mem _ hu))
        exact ⟨v, List.mem_cons_of_mem _ hv⟩

/-! ## A tree that does not change -/

/-- Poll until the end of the stream, at most `fuel` times. -/
def Query.collect : Nat → Query V → Tree V → Option (OMap V)
  | 0, _, _ => none
  | fuel + 1, q, t =>
    (q.poll t).bind fun (o, q) =>
      match o with
      | none => some []
      | some x => (q.collect fuel t).map (x :: ·)

/-- `mod.rs:1448-1463` `range`, its sanity check. -/
def rangeSane (s e : Bnd Nat) : Bool :=
  match s, e with
  | .incl s, .incl e => decide (s ≤ e)
  | .incl s, .excl e => decide (s ≤ e)
  | .excl s, .incl e => decide (s < e)
  | .excl s, .excl e => decide (s < e)
  | _, _ => true

theorem rangeSane_spec {s e : Bnd Nat} (h : rangeSane s e = true) :
    btreeRangePanics s e = false := by
  cases s <;> cases e <;> simp [rangeSane, btreeRangePanics] at * <;> omega

/-- The whole stream of `range` over a tree that does not change.  (The fuel is more than
enough; `collect` does not look at it otherwise.) -/
def Tree.range (t : Tree V) (s e : Bnd Nat) : Option (OMap V) :=
  if rangeSane s e then (Query.new s e).collect (t.toMap.length + 1) t else none

/-- What is left to be yielded. -/
def rest (q : Query V) (m : OMap V) : OMap V :=
  q.data ++ match q.cursor with
    | none => []
    | some s => m.filter (fun x => inRange s q.stop x.1)

theorem poll_rest {s0 : Bnd Nat} {q : Query V} (hq : QInv s0 q) {t : Tree V} (ht : t.Ordered) :
    (rest q t.toMap = [] ∧ ∃ q', q.poll t = some (none, q')) ∨
    ∃ x q', q.poll t = some (some x, q') ∧ rest q t.toMap = x :: rest q' t.toMap ∧ QInv s0 q' := by
  obtain ⟨o, q1, h1, hp⟩ := poll_ok hq ht
  obtain ⟨cursor, data, stop⟩ := q
  cases data with
  | cons x xs =>
    refine Or.inr ⟨x, { cursor := cursor, data := xs, stop := stop }, rfl, rfl, ?_⟩
    simp only [Query.poll, Option.some.injEq, Prod.mk.injEq] at h1
    rw [h1.2]
    exact hp.inv
  | nil =>
    cases cursor with
    | none => exact Or.inl ⟨rfl, _, rfl⟩
    | some s =>
      obtain ⟨hpp, -, -⟩ := hq.cursor s rfl
      obtain ⟨v, b, hg, hr⟩ := getRange_spec ht (s := s) (e := stop) hpp
      have hall : t.toMap.filter (fun x => inRange s stop x.1) =
          v ++ (match b with
            | none => []
            | some s => t.toMap.filter (fun x => inRange s stop x.1)) := by
        cases b with
        | none => have hr : v = _ := hr; rw [← hr, List.append_nil]
        | some s' => exact hr.2.1
      cases v with
      | nil =>
        have hb := range_done hr rfl
        subst hb
        refine Or.inl ⟨?_, { cursor := none, data := [], stop := stop }, by simp [Query.poll, hg]⟩
        show t.toMap.filter _ = []
        rw [hall]; rfl
      | cons x xs =>
        have hpoll : Query.poll { cursor := some s, data := [], stop := stop } t =
            some (some x, { cursor := b, data := xs, stop := stop }) := by simp [Query.poll, hg]
        rw [hpoll] at h1
        simp only [Option.some.injEq, Prod.mk.injEq] at h1
        refine Or.inr ⟨x, { cursor := b, data := xs, stop := stop }, hpoll, ?_, ?_⟩
        · show t.toMap.filter _ = x :: (xs ++ _)
          rw [hall]
          cases b <;> rfl
        · rw [h1.2]; exact hp.inv

theorem collect_spec {s0 : Bnd Nat} {t : Tree V} (ht : t.Ordered) : ∀ (fuel : Nat) {q : Query V},
    QInv s0 q → (rest q t.toMap).length < fuel → q.collect fuel t = some (rest q t.toMap)
  | 0, _, _, h => absurd h (Nat.not_lt_zero _)
  | fuel + 1, q, hq, h => by
    rcases poll_rest hq ht with ⟨h1, q', h2⟩ | ⟨x, q', h1, h2, h3⟩
    · simp [Query.collect, h2, h1]
    · rw [h2, List.length_cons] at h
      have := collect_spec ht fuel h3 (by omega)
      simp [Query.collect, h1, this, h2]

theorem range_spec {t : Tree V} (ht : t.Ordered) {s e : Bnd Nat} (hs : rangeSane s e = true) :
    t.range s e = some (t.toMap.filter (fun x => inRange s e x.1)) := by
  unfold Tree.range
  rw [if_pos hs]
  have hr : rest (Query.new s e) t.toMap = t.toMap.filter (fun x => inRange s e x.1) := rfl
  rw [← hr]
  refine collect_spec ht _ (new_inv (rangeSane_spec hs)) ?_
  rw [hr]
  have := List.length_filter_le (fun x : Nat × V => inRange s e x.1) t.toMap
  omega

/-! ## Histories of the model -/

/-- One call of the model; `none` is a panic. -/
def step (L : Limits) (seq : Bool) (t : Tree V) : Op V → Option (Tree V × Res V)
  | .insert txg k v => (t.insert L seq txg k v).map fun p => (p.1, .value p.2)
  | .remove txg k => (t.remove L txg k).map fun p => (p.1, .value p.2)
  | .rangeDelete txg s e => (t.rangeDelete L txg s e).map fun t => (t, .unit)
  | .get k => (t.get k).map fun o => (t, .value o)
  | .lastKey => t.lastKey.map fun o => (t, .key o)
  | .range s e => (t.range s e).map fun l => (t, .list l)
  | .flush txg next => some (t.flush txg next, .unit)

def run (L : Limits) (seq : Bool) (t : Tree V) : List (Op V) → Option (Tree V × List (Res V))
  | [] => some (t, [])
  | op :: ops =>
    (step L seq t op).bind fun p => (run L seq p.1 ops).map fun q => (q.1, p.2 :: q.2)

theorem step_order {L : Limits} (hL : L.Ok) {seq : Bool} {t t' : Tree V} (ht : t.Ordered)
    {op : Op V} {r : Res V} (hr : step L seq t op = some (t', r)) :
    t'.Ordered ∧ t'.toMap = (specStep t.toMap op).1 ∧ r = (specStep t.toMap op).2 := by
  cases op with
  | insert txg k v =>
    obtain ⟨⟨t1, o⟩, h1, h2⟩ := Option.map_eq_some_iff.mp hr
    simp only [Prod.mk.injEq] at h2
    obtain ⟨rfl, rfl⟩ := h2
    obtain ⟨a, b, rfl⟩ := insert_order hL ht h1
    exact ⟨a, b, rfl⟩
  | remove txg k =>
    obtain ⟨⟨t1, o⟩, h1, h2⟩ := Option.map_eq_some_iff.mp hr
    simp only [Prod.mk.injEq] at h2
    obtain ⟨rfl, rfl⟩ := h2
    obtain ⟨a, b, rfl⟩ := remove_order hL ht h1
    exact ⟨a, b, rfl⟩
  | rangeDelete txg s e =>
    obtain ⟨t1, h1, h2⟩ := Option.map_eq_some_iff.mp hr
    simp only [Prod.mk.injEq] at h2
    obtain ⟨rfl, rfl⟩ := h2
    obtain ⟨a, b⟩ := rangeDelete_order hL ht h1
    exact ⟨a, b, rfl⟩
  | get k =>
    simp only [step, Tree.get, getR_spec t.h k ht.1 ht.2, Option.map_some, Option.some.injEq,
      Prod.mk.injEq] at hr
    obtain ⟨rfl, rfl⟩ := hr
    exact ⟨ht, rfl, rfl⟩
  | lastKey =>
    simp only [step, Tree.lastKey, lastKeyR_spec t.h ht.1 ht.2, Option.map_some, Option.some.injEq,
      Prod.mk.injEq] at hr
    obtain ⟨rfl, rfl⟩ := hr
    exact ⟨ht, rfl, rfl⟩
  | range s e =>
    by_cases hs : rangeSane s e = true
    · simp only [step, range_spec ht hs, Option.map_some, Option.some.injEq, Prod.mk.injEq] at hr
      obtain ⟨rfl, rfl⟩ := hr
      exact ⟨ht, rfl, rfl⟩
    · simp [step, Tree.range, hs] at hr
  | flush txg next =>
    simp only [step, Option.some.injEq, Prod.mk.injEq] at hr
    obtain ⟨rfl, rfl⟩ := hr
    have := flush_order (txg := txg) (next := next) ht
    exact ⟨this.1, this.2, rfl⟩

theorem run_order {L : Limits} (hL : L.Ok) {seq : Bool} : ∀ (ops : List (Op V)) {t t' : Tree V}
    {rs : List (Res V)}, t.Ordered → run L seq t ops = some (t', rs) →
    t'.Ordered ∧ t'.toMap = (specRun t.toMap ops).1 ∧ rs = (specRun t.toMap ops).2
  | [], t, t', rs, ht, hr => by
    simp only [run, Option.some.injEq, Prod.mk.injEq] at hr
    obtain ⟨rfl, rfl⟩ := hr
    exact ⟨ht, rfl, rfl⟩
  | op :: ops, t, t', rs, ht, hr => by
    obtain ⟨⟨t1, r⟩, h1, h2⟩ := Option.bind_eq_some_iff.mp hr
    obtain ⟨⟨t2, rs2⟩, h3, h4⟩ := Option.map_eq_some_iff.mp h2
    simp only [Prod.mk.injEq] at h4
    obtain ⟨rfl, rfl⟩ := h4
    obtain ⟨a, b, c⟩ := step_order hL ht h1
    obtain ⟨d, e, f⟩ := run_order hL ops a h3
    simp only [specRun]
    rw [← b, ← c]
    exact ⟨d, e, by rw [f]⟩

/-- Calls that `run_filled` covers. -/
def Op.plain : Op V → Bool
  | .rangeDelete _ _ _ => false
  | .range s e => rangeSane s e
  | _ => true

theorem step_filled {L : Limits} (hL : L.Ok) (seq : Bool) {t : Tree V} (ht : t.Ordered)
    (hf : t.Filled L) {op : Op V} (hop : op.plain = true) :
    ∃ t' r, step L seq t op = some (t', r) ∧ t'.Filled L := by
  have hz : ∀ e ∈ t.root, SizedSub L.min L t.h e.2 := fun e he => (filled_iff L _ _).mp (hf.2 e he)
  cases op with
  | insert txg k v =>
    obtain ⟨t', old, h1, h2, h3⟩ := insert_sized hL (fun _ => Nat.le_refl _) seq txg ht hf.1 hz k v
    exact ⟨t', .value old, by simp [step, h1], h2, fun e he => (filled_iff L _ _).mpr (h3 e he)⟩
  | remove txg k =>
    obtain ⟨t', old, h1, h2⟩ := remove_filled hL txg ht hf k
    exact ⟨t', .value old, by simp [step, h1], h2⟩
  | rangeDelete txg s e => simp [Op.plain] at hop
  | get k => exact ⟨t, _, by simp only [step, Tree.get, getR_spec t.h k ht.1 ht.2]; rfl, hf⟩
  | lastKey => exact ⟨t, _, by simp only [step, Tree.lastKey, lastKeyR_spec t.h ht.1 ht.2]; rfl, hf⟩
  | range s e => exact ⟨t, _, by simp only [step, range_spec ht hop]; rfl, hf⟩
  | flush txg next =>
    have := flush_sized (txg := txg) (next := next) hf.1 hz
    exact ⟨_, _, rfl, this.1, fun e he => (filled_iff L _ _).mpr (this.2 e he)⟩

theorem run_filled {L : Limits} (hL : L.Ok) (seq : Bool) : ∀ (ops : List (Op V)) {t : Tree V},
    t.Ordered → t.Filled L → (∀ op ∈ ops, op.plain = true) →
    ∃ t' rs, run L seq t ops = some (t', rs) ∧ t'.Filled L
  | [], t, _, hf, _ => ⟨t, [], rfl, hf⟩
  | op :: ops, t, ht, hf, hop => by
    obtain ⟨t1, r, h1, h2⟩ := step_filled hL seq ht hf (hop op (List.mem_cons_self ..))
    obtain ⟨t2, rs, h3, h4⟩ := run_filled hL seq ops (step_order hL ht h1).1 h2
      (fun o ho => hop o (List.mem_cons_of_mem _ ho))
    exact ⟨t2, r :: rs, by simp [run, h1, h3], h4⟩

end Verif.Tree
