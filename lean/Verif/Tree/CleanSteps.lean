import Verif.Tree.CleanLemmas

/-!
# Zone cleaning, step by step
-/

namespace Verif.Tree

variable {V : Type} {P Q : Nat → Nat → Addr → Prop}

/-! ## Other operations -/

theorem mergeDown_addr {txg : Nat} : ∀ (h : Nat) (info : Meta) (n : Node V h),
    (mergeDown txg h info n).info.addr = none
  | 0, _, _ => rfl
  | _ + 1, _, [] => by simp only [mergeDown]; rfl
  | h + 1, _, [(k, c)] => by simp only [mergeDown]; exact mergeDown_addr h c.info c.kids
  | h + 1, _, a :: b :: es => by simp only [mergeDown]; rfl

theorem mergeRoot_addr {txg : Nat} (t : Tree V) : (t.mergeRoot txg).info.addr = none := by
  obtain ⟨h, info, n⟩ := t
  match h, n with
  | 0, _ => rfl
  | _ + 1, [] => rfl
  | h + 1, [(k, c)] => rfl
  | h + 1, a :: b :: es => rfl

/-- Where the nodes on disk are after an operation: where they were, or where a flush has just
put them. -/
theorem step_spans {L : Limits} {seq : Bool} {T : Nat} {t t' : Tree V} {op : Op V} {r : Res V}
    (hT : T ≤ op.time T)
    (hP : ∀ txg next, op = .flush txg next → ∀ e k pba, next ≤ pba → pba < t.flushEnd txg next →
      P e k { pba, txg })
    (ht : Spans P t.h 0 (T + 1) t.root) (hr : step L seq t op = some (t', r)) :
    Spans P t'.h 0 (op.time T + 1) t'.root ∧
      ∀ a, t'.info.addr = some a → (t'.info.addr = t.info.addr ∧ t'.h = t.h) ∨
        ∃ txg next, op = .flush txg next ∧ a.txg = txg ∧ next ≤ a.pba ∧
          a.pba < t.flushEnd txg next := by
  cases op with
  | insert txg k v =>
    obtain ⟨⟨t1, o⟩, h1, h2⟩ := Option.map_eq_some_iff.mp hr
    simp only [Prod.mk.injEq] at h2
    obtain ⟨rfl, rfl⟩ := h2
    refine ⟨insert_spans hT ht h1, ?_⟩
    have : t1.info.addr = none := by
      unfold Tree.insert at h1
      simp only at h1
      have hx : (t.xlockRoot txg).info.addr = none := rfl
      generalize t.xlockRoot txg = t at *
      by_cases hsp : shouldSplit L t.h t.root k = true
      · rw [if_pos hsp] at h1
        obtain ⟨⟨l, k', r⟩, -, h1⟩ := Option.bind_eq_some_iff.mp h1
        obtain ⟨⟨m, o⟩, -, h1⟩ := Option.map_eq_some_iff.mp h1
        simp only [Prod.mk.injEq] at h1
        rw [← h1.1]; exact hx
      · rw [if_neg hsp] at h1
        obtain ⟨⟨m, o⟩, -, h1⟩ := Option.map_eq_some_iff.mp h1
        simp only [Prod.mk.injEq] at h1
        rw [← h1.1]
        show (if t.h = 0 then _ else t.info).addr = none
        split <;> exact hx
    intro a ha; rw [this] at ha; cases ha
  | remove txg k =>
    obtain ⟨⟨t1, o⟩, h1, h2⟩ := Option.map_eq_some_iff.mp hr
    simp only [Prod.mk.injEq] at h2
    obtain ⟨rfl, rfl⟩ := h2
    refine ⟨remove_spans hT ht h1, ?_⟩
    have : t1.info.addr = none := by
      unfold Tree.remove at h1
      simp only at h1
      obtain ⟨⟨n, o⟩, -, h3⟩ := Option.map_eq_some_iff.mp h1
      simp only [Prod.mk.injEq] at h3
      rw [← h3.1]; exact mergeRoot_addr t
    intro a ha; rw [this] at ha; cases ha
  | rangeDelete txg s e =>
    obtain ⟨t1, h1, h2⟩ := Option.map_eq_some_iff.mp hr
    simp only [Prod.mk.injEq] at h2
    obtain ⟨rfl, rfl⟩ := h2
    refine ⟨rangeDelete_spans hT ht h1, ?_⟩
    unfold Tree.rangeDelete at h1
    split at h1
    · simp only [Option.some.injEq] at h1
      subst h1
      exact fun _ _ => Or.inl ⟨rfl, rfl⟩
    · simp only at h1
      obtain ⟨⟨n, d⟩, -, h1⟩ := Option.bind_eq_some_iff.mp h1
      obtain ⟨n2, -, h1⟩ := Option.map_eq_some_iff.mp h1
      intro a ha; rw [← h1, mergeDown_addr] at ha; cases ha
  | get k =>
    obtain ⟨o, -, h2⟩ := Option.map_eq_some_iff.mp hr
    simp only [Prod.mk.injEq] at h2
    obtain ⟨rfl, rfl⟩ := h2
    exact ⟨ht, fun _ _ => Or.inl ⟨rfl, rfl⟩⟩
  | lastKey =>
    obtain ⟨o, -, h2⟩ := Option.map_eq_some_iff.mp hr
    simp only [Prod.mk.injEq] at h2
    obtain ⟨rfl, rfl⟩ := h2
    exact ⟨ht, fun _ _ => Or.inl ⟨rfl, rfl⟩⟩
  | range s e =>
    obtain ⟨o, -, h2⟩ := Option.map_eq_some_iff.mp hr
    simp only [Prod.mk.injEq] at h2
    obtain ⟨rfl, rfl⟩ := h2
    exact ⟨ht, fun _ _ => Or.inl ⟨rfl, rfl⟩⟩
  | flush txg next =>
    simp only [step, Option.some.injEq, Prod.mk.injEq] at hr
    obtain ⟨rfl, rfl⟩ := hr
    refine ⟨flush_spans hT (fun e k pba => hP txg next rfl e k pba) ht, ?_⟩
    unfold Tree.flush
    split
    · exact fun _ _ => Or.inl ⟨rfl, rfl⟩
    · intro a ha
      simp only [Option.some.injEq] at ha
      refine Or.inr ⟨txg, next, rfl, ?_, ?_, ?_⟩
      · rw [← ha]
      · rw [← ha]; exact flushR_next t.h next t.root
      · rw [← ha]; exact Nat.lt_succ_self _

/-! ## Rewriting -/

theorem rewrite_spec {txg pba e key : Nat} {t : Tree V} (ht : t.Ordered) (he : e ≤ t.h) :
    ∃ t', t.rewrite txg pba e key = some t' := by
  unfold Tree.rewrite
  split
  · split <;> exact ⟨_, rfl⟩
  · simp only [Tree.xlockRoot]
    obtain ⟨n', h1, -⟩ := rewriteR_spec (txg := txg) (pba := pba) (e := e) (key := key) t.h
      (by omega) ht.1 (ht.2 (by omega))
    rw [h1]
    exact ⟨_, rfl⟩

theorem rewriteR_lt {txg pba e key : Nat} : ∀ (h : Nat) {n n' : Node V h},
    rewriteR txg pba e key h n = some n' → e < h
  | 0, _, _, h => by simp [rewriteR] at h
  | h + 1, n, n', hr => by
    unfold rewriteR at hr
    simp only at hr
    split at hr
    · omega
    · obtain ⟨⟨n1, c⟩, -, hr⟩ := Option.bind_eq_some_iff.mp hr
      obtain ⟨c', hrec, -⟩ := Option.map_eq_some_iff.mp hr
      have := rewriteR_lt h hrec
      omega

/-- What rewriting a node does to the tree. -/
structure Rewritten (txg pba e key : Nat) (t t' : Tree V) : Prop where
  ordered : t'.Ordered
  toMap : t'.toMap = t.toMap
  height : t'.h = t.h
  level : e ≤ t.h
  moved : ∀ a, Has t'.h t'.root e key a → a = { pba, txg }
  root : ∀ a, t'.info.addr = some a → (t'.info.addr = t.info.addr ∧ e ≠ t.h) ∨ a = { pba, txg }

theorem rewrite_of {txg pba e key : Nat} {t t' : Tree V} (ht : t.Ordered)
    (hr : t.rewrite txg pba e key = some t') : Rewritten txg pba e key t t' := by
  unfold Tree.rewrite at hr
  split at hr
  · next heq =>
    have hno : ∀ a, ¬Has t.h t.root e key a := fun a ha => by have := has_lt t.h ha; omega
    split at hr
    · next hm =>
      simp only [Option.some.injEq] at hr
      subst hr
      exact ⟨ht, rfl, rfl, by omega, fun a ha => absurd ha (hno a),
        fun a ha => by rw [hm] at ha; cases ha⟩
    · simp only [Option.some.injEq] at hr
      subst hr
      refine ⟨ht, rfl, rfl, by omega, fun a ha => absurd ha (hno a), fun a ha => Or.inr ?_⟩
      simp only [Option.some.injEq] at ha
      exact ha.symm
  · next hne =>
    simp only [Tree.xlockRoot] at hr
    obtain ⟨n, hn, hr⟩ := Option.map_eq_some_iff.mp hr
    have hlt := rewriteR_lt t.h hn
    obtain ⟨n', h1, h2, h3, h4, h5⟩ := rewriteR_spec (txg := txg) (pba := pba) (e := e)
      (key := key) t.h hlt ht.1 (ht.2 (by omega))
    rw [h1, Option.some.injEq] at hn
    subst hn
    subst hr
    refine ⟨⟨h2, fun _ => h3⟩, h4, rfl, by omega, h5, fun a ha => ?_⟩
    cases ha

theorem rewrite_spans {T txg pba e key : Nat} {t t' : Tree V} (hT : T ≤ txg)
    (hP : ∀ l k, P l k { pba, txg }) (ht : Spans P t.h 0 (T + 1) t.root)
    (hr : t.rewrite txg pba e key = some t') : Spans P t'.h 0 (txg + 1) t'.root := by
  have ht : Spans P t.h 0 (txg + 1) t.root := spans_mono (Nat.le_refl _) (by omega) ht
  unfold Tree.rewrite at hr
  split at hr
  · split at hr
    · simp only [Option.some.injEq] at hr; subst hr; exact ht
    · simp only [Option.some.injEq] at hr; subst hr; exact ht
  · simp only [Tree.xlockRoot] at hr
    obtain ⟨n, hn, hr⟩ := Option.map_eq_some_iff.mp hr
    subst hr
    exact rewriteR_spans hP t.h (Nat.zero_le _) ht hn

/-! ## The state of a cleaning -/

/-- Any property. -/
abbrev Any : Nat → Nat → Addr → Prop := fun _ _ _ => True

/-- The trees that can be. -/
structure Good (T : Nat) (t : Tree V) : Prop where
  ordered : t.Ordered
  spans : Spans Any t.h 0 (T + 1) t.root

/-- `t'` has no new nodes in the zone. -/
structure Fewer (z : Zone) (t t' : Tree V) : Prop where
  has : ∀ e k a, Has t'.h t'.root e k a → z.holds a = true → Has t.h t.root e k a
  root : ∀ a, t'.info.addr = some a → z.holds a = true → t.info.addr = some a ∧ t'.h = t.h

theorem step_good {L : Limits} (hL : L.Ok) {seq : Bool} {T : Nat} {t t' : Tree V} {op : Op V}
    {r : Res V} (ht : Good T t) (hT : T ≤ op.time T) (hr : step L seq t op = some (t', r)) :
    Good (op.time T) t' :=
  ⟨(step_order hL ht.ordered hr).1,
    (step_spans hT (fun _ _ _ _ _ _ _ _ => trivial) ht.spans hr).1⟩

theorem rewrite_good {T txg pba e key : Nat} {t t' : Tree V} (ht : Good T t) (hT : T ≤ txg)
    (hr : t.rewrite txg pba e key = some t') : Good txg t' :=
  ⟨(rewrite_of ht.ordered hr).ordered, rewrite_spans hT (fun _ _ => trivial) ht.spans hr⟩

theorem reached_good {L : Limits} (hL : L.Ok) {seq : Bool} {T : Nat} {t : Tree V}
    (h : Reached L seq T t) : Good T t := by
  induction h with
  | empty => exact ⟨empty_ordered, fun _ he => absurd he List.not_mem_nil⟩
  | op _ hT hr ih => exact step_good hL ih hT hr
  | rewrite _ hT hr ih => exact rewrite_good ih hT hr

theorem step_fewer {L : Limits} {seq : Bool} {T : Nat} {t t' : Tree V} {op : Op V}
    {r : Res V} {z : Zone} (ht : Good T t) (hT : T ≤ op.time T) (ha : (Ev.op op).avoids z t)
    (hr : step L seq t op = some (t', r)) : Fewer z t t' := by
  have hs : Spans (fun e k a => z.holds a = true → Has t.h t.root e k a) t.h 0 (T + 1) t.root :=
    spans_of_has t.h ht.spans fun e k a h _ => h
  obtain ⟨h1, h2⟩ := step_spans hT (by
    rintro txg next rfl e k pba p1 p2 h
    rw [ha pba p1 p2] at h; cases h) hs hr
  constructor
  · exact fun e k a h hz => (spans_has _ h1 h).1 hz
  · intro a h hz
    rcases h2 a h with ⟨h3, h4⟩ | ⟨txg, next, rfl, rfl, p1, p2⟩
    · exact ⟨by rw [← h3]; exact h, h4⟩
    · have := ha a.pba p1 p2
      rw [hz] at this; cases this

theorem rewrite_fewer {T txg pba e key : Nat} {t t' : Tree V} {z : Zone} (ht : Good T t)
    (hT : T ≤ txg) (hz : z.holds { pba, txg } = false) (hr : t.rewrite txg pba e key = some t') :
    Fewer z t t' := by
  have hs : Spans (fun e k a => z.holds a = true → Has t.h t.root e k a) t.h 0 (T + 1) t.root :=
    spans_of_has t.h ht.spans fun e k a h _ => h
  have h1 := rewrite_spans hT (fun l k h => by rw [hz] at h; cases h) hs hr
  have R := rewrite_of ht.ordered hr
  constructor
  · exact fun e' k a h hd => (spans_has _ h1 h).1 hd
  · intro a h hd
    rcases R.root a h with ⟨h2, -⟩ | rfl
    · exact ⟨by rw [← h2]; exact h, R.height⟩
    · rw [hz] at hd; cases hd

/-- How far a cleaning has come. -/
structure Cleaning (z : Zone) (T : Nat) (t : Tree V) (j : Job) : Prop where
  good : Good T t
  zone : j.zone = z
  recorded : Recorded z t.h t.root
  above : ∀ e k a, Has t.h t.root e k a → z.holds a = true → e < j.levels
  aboveRoot : ∀ a, t.info.addr = some a → z.holds a = true → t.h < j.levels
  below : ∀ e k a, Has t.h t.root e k a → z.holds a = true → j.level ≤ e
  belowRoot : ∀ a, t.info.addr = some a → z.holds a = true → j.level ≤ t.h
  look : ∀ c found, j.phase = .look c found →
    ∀ k a, Has t.h t.root j.level k a → z.holds a = true → k ∈ found ∨ c ≤ k
  rewrite : ∀ todo, j.phase = .rewrite todo →
    ∀ k a, Has t.h t.root j.level k a → z.holds a = true → k ∈ todo
  rewriteRoot : ∀ todo, j.phase = .rewrite todo →
    ∀ a, t.info.addr = some a → z.holds a = true → j.level = t.h → todo ≠ []

theorem cleaning_fewer {z : Zone} {T T' : Nat} {t t' : Tree V} {j : Job} (h : Cleaning z T t j)
    (hg : Good T' t') (hf : Fewer z t t') : Cleaning z T' t' j where
  good := hg
  zone := h.zone
  recorded e k a h1 hz := h.recorded e k a (hf.has e k a h1 hz) hz
  above e k a h1 hz := h.above e k a (hf.has e k a h1 hz) hz
  aboveRoot a h1 hz := by
    obtain ⟨h2, h3⟩ := hf.root a h1 hz
    rw [h3]; exact h.aboveRoot a h2 hz
  below e k a h1 hz := h.below e k a (hf.has e k a h1 hz) hz
  belowRoot a h1 hz := by
    obtain ⟨h2, h3⟩ := hf.root a h1 hz
    rw [h3]; exact h.belowRoot a h2 hz
  look c found hp k a h1 hz := h.look c found hp k a (hf.has _ k a h1 hz) hz
  rewrite todo hp k a h1 hz := h.rewrite todo hp k a (hf.has _ k a h1 hz) hz
  rewriteRoot todo hp a h1 hz hl := by
    obtain ⟨h2, h3⟩ := hf.root a h1 hz
    exact h.rewriteRoot todo hp a h2 hz (by rw [hl, h3])

theorem start_cleaning {z : Zone} {T : Nat} {t : Tree V} (hg : Good T t) (hz : z.Recorded t) :
    Cleaning z T t (Job.start z t) where
  good := hg
  zone := rfl
  recorded e k a h1 hd := hz a (mem_addrs.mpr (Or.inr ⟨e, k, h1⟩)) hd
  above e k a h1 _ := Nat.lt_succ_of_lt (has_lt _ h1)
  aboveRoot _ _ _ := Nat.lt_succ_self _
  below _ _ _ _ _ := Nat.zero_le _
  belowRoot _ _ _ := Nat.zero_le _
  look c found hp k a _ _ := by
    simp only [Job.start, Phase.look.injEq] at hp
    rw [← hp.1]; exact Or.inr (Nat.zero_le _)
  rewrite todo hp := by cases hp
  rewriteRoot todo hp := by cases hp

/-- One search: nothing is missed. -/
theorem dirty_spec {z : Zone} {T : Nat} {t : Tree V} {e key : Nat} (hg : Good T t)
    (hz : Recorded z t.h t.root) {ks : List Nat} {nk : Option Nat}
    (hr : t.dirty z e key = some (ks, nk)) :
    (∀ k a, key ≤ k → Has t.h t.root e k a → z.holds a = true →
      k ∈ ks ∨ ∃ m, nk = some m ∧ m ≤ k) ∧
    (∀ a, t.info.addr = some a → z.holds a = true → e = t.h → ks ≠ []) ∧
    (e ≤ t.h → ∀ m, nk = some m → key < m ∧ m ∈ keysBelow t.h t.root) := by
  unfold Tree.dirty at hr
  split at hr
  · next heq =>
    simp only [Option.some.injEq, Prod.mk.injEq] at hr
    obtain ⟨rfl, rfl⟩ := hr
    refine ⟨fun k a _ h => by have := has_lt _ h; omega, ?_, fun _ m hm => by cases hm⟩
    intro a ha hd _
    have : z.dirty t.info = true := by unfold Zone.dirty; rw [ha]; exact hd
    rw [this]; simp
  · next hne =>
    refine ⟨?_, fun _ _ _ h => absurd h.symm hne, ?_⟩
    · intro k a hk h hd
      have hlt := has_lt _ h
      obtain ⟨ks', nk', h1, S⟩ := dirtyR_spec (z := z) (e := e) (key := key) t.h hlt hg.ordered.1
        (hg.ordered.2 (by omega)) hg.spans hz (by simp)
      rw [h1, Option.some.injEq, Prod.mk.injEq] at hr
      rw [← hr.1, ← hr.2]
      exact S.complete k a hk h hd
    · intro hle m hm
      obtain ⟨ks', nk', h1, S⟩ := dirtyR_spec (z := z) (e := e) (key := key) t.h (by omega)
        hg.ordered.1 (hg.ordered.2 (by omega)) hg.spans hz (by simp)
      rw [h1, Option.some.injEq, Prod.mk.injEq] at hr
      rw [← hr.2] at hm
      refine ⟨S.progress m hm, ?_⟩
      rcases S.key m hm with h2 | h2
      · exact h2
      · cases h2

theorem dirty_total {z : Zone} {T : Nat} {t : Tree V} {e key : Nat} (hg : Good T t)
    (hz : Recorded z t.h t.root) (he : e ≤ t.h) : ∃ r, t.dirty z e key = some r := by
  unfold Tree.dirty
  split
  · exact ⟨_, rfl⟩
  · obtain ⟨ks', nk', h1, -⟩ := dirtyR_spec (z := z) (e := e) (key := key) t.h (by omega)
      hg.ordered.1 (hg.ordered.2 (by omega)) hg.spans hz (by simp)
    exact ⟨_, h1⟩

theorem mem_eraseIdx_of {α} {l : List α} {i : Nat} {x y : α} (hi : l[i]? = some y) (hx : x ∈ l)
    (hne : x ≠ y) : x ∈ l.eraseIdx i := by
  obtain ⟨j, hj⟩ := List.getElem?_of_mem hx
  rw [List.mem_eraseIdx_iff_getElem?]
  refine ⟨j, ?_, hj⟩
  rintro rfl
  rw [hj, Option.some.injEq] at hi
  exact hne hi

theorem evStep_cleaning {L : Limits} (hL : L.Ok) {seq : Bool} {z : Zone} {T : Nat} {t t' : Tree V}
    {j j' : Job} {e : Ev V} {r : Option (Res V)} (h : Cleaning z T t j) (hT : T ≤ e.time T)
    (ha : e.avoids z t) (hr : evStep L seq (t, j) e = some ((t', j'), r)) :
    Cleaning z (e.time T) t' j' ∧
      (t'.toMap, r.toList) = specRun t.toMap (others [e]) := by
  cases e with
  | op op =>
    obtain ⟨⟨t1, r1⟩, h1, h2⟩ := Option.map_eq_some_iff.mp hr
    simp only [Prod.mk.injEq] at h2
    obtain ⟨⟨rfl, rfl⟩, rfl⟩ := h2
    refine ⟨cleaning_fewer h (step_good hL h.good hT h1) (step_fewer h.good hT ha h1), ?_⟩
    obtain ⟨-, h2, h3⟩ := step_order hL h.good.ordered h1
    simp [others, specRun, h2, h3]
  | look =>
    have hstay : Cleaning z T t j ∧ (t.toMap, (none : Option (Res V)).toList) =
      specRun t.toMap (others [Ev.look]) := ⟨h, rfl⟩
    unfold evStep at hr
    simp only at hr
    split at hr
    · simp only [Option.some.injEq, Prod.mk.injEq] at hr
      obtain ⟨⟨rfl, rfl⟩, rfl⟩ := hr
      exact hstay
    · split at hr
      · next c found hph =>
        obtain ⟨⟨ks, nk⟩, h1, h2⟩ := Option.map_eq_some_iff.mp hr
        rw [h.zone] at h1
        obtain ⟨d1, d2, -⟩ := dirty_spec h.good h.recorded h1
        simp only at h2
        cases nk with
        | some m =>
          simp only [Prod.mk.injEq] at h2
          obtain ⟨⟨rfl, rfl⟩, rfl⟩ := h2
          refine ⟨{ h with look := ?_, rewrite := ?_, rewriteRoot := ?_ }, rfl⟩
          · intro c' f' hp k a h3 hz
            simp only [Phase.look.injEq] at hp
            obtain ⟨rfl, rfl⟩ := hp
            rcases h.look c found hph k a h3 hz with h4 | h4
            · exact Or.inl (List.mem_append_left _ h4)
            · rcases d1 k a h4 h3 hz with h5 | ⟨m', h5, h6⟩
              · exact Or.inl (List.mem_append_right _ h5)
              · simp only [Option.some.injEq] at h5
                subst h5
                exact Or.inr h6
          · intro todo hp; cases hp
          · intro todo hp; cases hp
        | none =>
          simp only [Prod.mk.injEq] at h2
          obtain ⟨⟨rfl, rfl⟩, rfl⟩ := h2
          refine ⟨{ h with look := ?_, rewrite := ?_, rewriteRoot := ?_ }, rfl⟩
          · intro c' f' hp; cases hp
          · intro todo hp k a h3 hz
            simp only [Phase.rewrite.injEq] at hp
            subst hp
            rcases h.look c found hph k a h3 hz with h4 | h4
            · exact List.mem_append_left _ h4
            · rcases d1 k a h4 h3 hz with h5 | ⟨m', h5, -⟩
              · exact List.mem_append_right _ h5
              · cases h5
          · intro todo hp a h3 hz hl
            simp only [Phase.rewrite.injEq] at hp
            subst hp
            have := d2 a h3 hz hl
            simp [this]
      · simp only [Option.some.injEq, Prod.mk.injEq] at hr
        obtain ⟨⟨rfl, rfl⟩, rfl⟩ := hr
        exact hstay
  | rewrite i txg pba =>
    have hstay : Cleaning z txg t j ∧ (t.toMap, (none : Option (Res V)).toList) =
        specRun t.toMap (others [(Ev.rewrite i txg pba : Ev V)]) :=
      ⟨{ h with good :=
        ⟨h.good.ordered, spans_mono (Nat.le_refl _) (Nat.succ_le_succ hT) h.good.spans⟩ }, rfl⟩
    unfold evStep at hr
    simp only at hr
    split at hr
    · simp only [Option.some.injEq, Prod.mk.injEq] at hr
      obtain ⟨⟨rfl, rfl⟩, rfl⟩ := hr
      exact hstay
    · next todo hph =>
      split at hr
      · simp only [Option.some.injEq, Prod.mk.injEq] at hr
        obtain ⟨⟨rfl, rfl⟩, rfl⟩ := hr
        exact hstay
      · next key hkey =>
        obtain ⟨t1, h1, h2⟩ := Option.map_eq_some_iff.mp hr
        simp only [Prod.mk.injEq] at h2
        obtain ⟨⟨rfl, rfl⟩, rfl⟩ := h2
        have R := rewrite_of h.good.ordered h1
        have hf := rewrite_fewer h.good hT ha h1
        have hc := cleaning_fewer h (rewrite_good h.good hT h1) hf
        refine ⟨{ hc with look := ?_, rewrite := ?_, rewriteRoot := ?_ }, by rw [R.toMap]; rfl⟩
        · intro c' f' hp; cases hp
        · intro todo' hp k a h3 hz
          simp only [Phase.rewrite.injEq] at hp
          subst hp
          refine mem_eraseIdx_of hkey (hc.rewrite todo hph k a h3 hz) ?_
          rintro rfl
          have : a = { pba, txg } := R.moved a h3
          rw [this] at hz
          have ha : z.holds { pba, txg } = false := ha
          rw [hz] at ha; cases ha
        · intro todo' hp a h3 hz hl
          exfalso
          rcases R.root a h3 with ⟨-, h4⟩ | h4
          · exact h4 (by rw [← R.height]; exact hl)
          · rw [h4] at hz
            have ha : z.holds { pba, txg } = false := ha
            rw [hz] at ha; cases ha
  | advance =>
    unfold evStep at hr
    simp only at hr
    split at hr
    · next hph =>
      simp only [Option.some.injEq, Prod.mk.injEq] at hr
      obtain ⟨⟨rfl, rfl⟩, rfl⟩ := hr
      refine ⟨{ h with
        below := ?_
        belowRoot := ?_
        look := ?_
        rewrite := ?_
        rewriteRoot := ?_ }, rfl⟩
      · intro e k a h1 hz
        have h2 := h.below e k a h1 hz
        rcases Nat.lt_or_ge j.level e with h3 | h3
        · exact h3
        · obtain rfl : e = j.level := by omega
          cases h.rewrite [] hph k a h1 hz
      · intro a h1 hz
        have h2 := h.belowRoot a h1 hz
        rcases Nat.lt_or_ge j.level t.h with h3 | h3
        · exact h3
        · exact absurd rfl (h.rewriteRoot [] hph a h1 hz (by omega))
      · intro c f hp k a _ _
        simp only [Phase.look.injEq] at hp
        rw [← hp.1]; exact Or.inr (Nat.zero_le _)
      · intro todo hp; cases hp
      · intro todo hp; cases hp
    · simp only [Option.some.injEq, Prod.mk.injEq] at hr
      obtain ⟨⟨rfl, rfl⟩, rfl⟩ := hr
      exact ⟨h, rfl⟩

theorem specRun_append (m : OMap V) : ∀ (a b : List (Op V)),
    specRun m (a ++ b) =
      ((specRun (specRun m a).1 b).1, (specRun m a).2 ++ (specRun (specRun m a).1 b).2)
  | [], b => by simp [specRun]
  | o :: a, b => by
    simp only [List.cons_append, specRun]
    rw [specRun_append _ a b]

theorem others_cons (e : Ev V) (es : List (Ev V)) : others (e :: es) = others [e] ++ others es := by
  cases e <;> rfl

/-- The transaction after a history. -/
def timeAfter (T : Nat) : List (Ev V) → Nat
  | [] => T
  | e :: es => timeAfter (e.time T) es

theorem evRun_cleaning {L : Limits} (hL : L.Ok) {seq : Bool} {z : Zone} :
    ∀ (es : List (Ev V)) {T : Nat} {t t' : Tree V} {j j' : Job} {rs : List (Res V)},
      Cleaning z T t j → Orderly L seq z T (t, j) es →
      evRun L seq (t, j) es = some ((t', j'), rs) →
      Cleaning z (timeAfter T es) t' j' ∧ (t'.toMap, rs) = specRun t.toMap (others es)
  | [], _, _, _, _, _, _, h, _, hr => by
    simp only [evRun, Option.some.injEq, Prod.mk.injEq] at hr
    obtain ⟨⟨rfl, rfl⟩, rfl⟩ := hr
    exact ⟨h, rfl⟩
  | e :: es, T, t, t', j, j', rs, h, ho, hr => by
    obtain ⟨h1, h2, h3⟩ := ho
    simp only [evRun] at hr
    obtain ⟨⟨⟨t1, j1⟩, r⟩, hs, hr⟩ := Option.bind_eq_some_iff.mp hr
    obtain ⟨⟨⟨t2, j2⟩, rs'⟩, hs', hr⟩ := Option.map_eq_some_iff.mp hr
    simp only [Prod.mk.injEq] at hr
    obtain ⟨⟨rfl, rfl⟩, rfl⟩ := hr
    obtain ⟨c1, m1⟩ := evStep_cleaning hL h h1 h2 hs
    obtain ⟨c2, m2⟩ := evRun_cleaning hL es c1 (h3 _ _ hs) hs'
    refine ⟨c2, ?_⟩
    rw [others_cons, specRun_append, ← m1]
    simp only
    rw [← m2]

theorem cleaning_done {z : Zone} {T : Nat} {t : Tree V} {j : Job} (h : Cleaning z T t j)
    (hd : j.done = true) : ∀ a ∈ t.addrs, z.holds a = false := by
  intro a ha
  have hd : j.levels ≤ j.level := of_decide_eq_true hd
  cases hz : z.holds a with
  | false => rfl
  | true =>
    rcases mem_addrs.mp ha with h1 | ⟨e, k, h1⟩
    · have h2 := h.belowRoot a h1 hz
      have h3 := h.aboveRoot a h1 hz
      omega
    · have h2 := h.below e k a h1 hz
      have h3 := h.above e k a h1 hz
      omega

/-! ## A cleaner left alone -/

/-- The cleaner gets done. -/
def Finishes (S : Strategy V) (L : Limits) (seq : Bool) (txg : Nat) (z : Zone) (m : OMap V)
    (s : Tree V × Job) : Prop :=
  ∃ n t j, S.run L seq txg n s = some (t, j) ∧ j.done = true ∧ Cleaning z txg t j ∧ t.toMap = m

theorem finishes_of {S : Strategy V} {L : Limits} {seq : Bool} {txg : Nat} {z : Zone} {m : OMap V}
    {s s' : Tree V × Job} {r : Option (Res V)}
    (hs : evStep L seq s (S.next txg s) = some (s', r)) (h : Finishes S L seq txg z m s') :
    Finishes S L seq txg z m s := by
  obtain ⟨n, t, j, h1, h2⟩ := h
  refine ⟨n + 1, t, j, ?_, h2⟩
  rw [Strategy.run, hs, Option.bind_some]
  exact h1

theorem exists_bound (l : List Nat) : ∃ B, ∀ m ∈ l, m ≤ B := by
  induction l with
  | nil => exact ⟨0, by simp⟩
  | cons x l ih =>
    obtain ⟨B, hB⟩ := ih
    refine ⟨x + B, fun m hm => ?_⟩
    rcases List.mem_cons.mp hm with rfl | hm
    · omega
    · have := hB m hm; omega

theorem finish {S : Strategy V} {L : Limits} (hL : L.Ok) {seq : Bool} {txg : Nat} {z : Zone}
    {m : OMap V} (hS : ∀ s, z.holds { pba := S.alloc s, txg } = false) :
    ∀ (left : Nat) {t : Tree V} {j : Job}, Cleaning z txg t j → t.toMap = m → j.levels ≤ t.h + 1 →
      j.levels - j.level = left →
      Finishes S L seq txg z m (t, j) := by
  intro left
  induction left using Nat.strongRecOn with
  | _ left ihl =>
  -- the rewriting phase
  have hrw : ∀ (n : Nat) {t : Tree V} {j : Job} {todo : List Nat}, Cleaning z txg t j →
      t.toMap = m → j.levels ≤ t.h + 1 → j.levels - j.level = left → j.done = false →
      j.phase = .rewrite todo → todo.length = n → Finishes S L seq txg z m (t, j) := by
    intro n
    induction n with
    | zero =>
      intro t j todo hc hm hh hl hd hp hn
      obtain rfl := List.eq_nil_of_length_eq_zero hn
      have hlt : j.level < j.levels := by
        have : ¬(j.levels ≤ j.level) := of_decide_eq_false hd
        omega
      have hs : evStep L seq (t, j) (S.next txg (t, j)) =
          some ((t, { j with level := j.level + 1, phase := .look 0 [] }), none) := by
        simp only [Strategy.next, hp, evStep]
      refine finishes_of hs ?_
      have hev : evStep L seq (t, j) Ev.advance =
        some ((t, { j with level := j.level + 1, phase := .look 0 [] }), none) := by
        simp only [hp, evStep]
      have hc' := (evStep_cleaning (e := Ev.advance) hL hc (Nat.le_refl _) trivial hev).1
      exact ihl (j.levels - (j.level + 1)) (by omega) hc' hm hh rfl
    | succ n ihn =>
      intro t j todo hc hm hh hl hd hp hn
      obtain ⟨k, ks, rfl⟩ : ∃ k ks, todo = k :: ks := by
        cases todo with
        | nil => cases hn
        | cons k ks => exact ⟨k, ks, rfl⟩
      have hlt : j.level < j.levels := by
        have : ¬(j.levels ≤ j.level) := of_decide_eq_false hd
        omega
      have hi : S.pick (t, j) % (k :: ks).length < (k :: ks).length :=
        Nat.mod_lt _ (by simp)
      have hnx : S.next txg (t, j) =
          .rewrite (S.pick (t, j) % (k :: ks).length) txg (S.alloc (t, j)) := by
        simp only [Strategy.next, hp]
      generalize S.pick (t, j) % (k :: ks).length = i at hi hnx
      obtain ⟨t1, h1⟩ := rewrite_spec (txg := txg) (pba := S.alloc (t, j))
        (key := (k :: ks)[i]) hc.good.ordered (show j.level ≤ t.h by omega)
      have hs : evStep L seq (t, j) (.rewrite i txg (S.alloc (t, j))) =
          some ((t1, { j with phase := .rewrite ((k :: ks).eraseIdx i) }), none) := by
        simp only [hp, evStep, List.getElem?_eq_getElem hi, h1, Option.map_some]
      have R := rewrite_of hc.good.ordered h1
      rw [← hnx] at hs
      refine finishes_of hs ?_
      rw [hnx] at hs
      have hc' := (evStep_cleaning (e := Ev.rewrite i txg (S.alloc (t, j))) hL hc (Nat.le_refl _) (hS _) hs).1
      exact ihn hc' (by rw [R.toMap, hm]) (by rw [R.height]; exact hh) hl hd rfl
        (by rw [List.length_eraseIdx_of_lt hi]; omega)
  intro t j hc hm hh hl
  cases hd : j.done with
  | true => exact ⟨0, t, j, rfl, hd, hc, hm⟩
  | false =>
    have hlt : j.level < j.levels := by
      have : ¬(j.levels ≤ j.level) := of_decide_eq_false hd
      omega
    cases hp : j.phase with
    | rewrite todo => exact hrw _ hc hm hh hl hd hp rfl
    | look c found =>
      obtain ⟨B, hB⟩ := exists_bound (keysBelow t.h t.root)
      have : ∀ (n : Nat) {j : Job} {c : Nat} {found : List Nat}, Cleaning z txg t j →
          j.levels ≤ t.h + 1 → j.levels - j.level = left → j.done = false →
          j.phase = .look c found → B + 1 - c ≤ n → Finishes S L seq txg z m (t, j) := by
        intro n
        induction n with
        | zero =>
          intro j c found hc hh hl hd hp hn
          have hlt : j.level < j.levels := by
            have : ¬(j.levels ≤ j.level) := of_decide_eq_false hd
            omega
          have hnx : S.next txg (t, j) = .look := by simp only [Strategy.next, hp]
          obtain ⟨⟨ks, nk⟩, h1⟩ := dirty_total (z := z) (key := c) hc.good hc.recorded
            (show j.level ≤ t.h by omega)
          obtain ⟨-, -, d3⟩ := dirty_spec hc.good hc.recorded h1
          have hnk : nk = none := by
            cases nk with
            | none => rfl
            | some k =>
              obtain ⟨h2, h3⟩ := d3 (by omega) k rfl
              have := hB k h3
              omega
          subst hnk
          have hs : evStep L seq (t, j) .look =
              some ((t, { j with phase := .rewrite (found ++ ks) }), none) := by
            simp only [evStep, hd, hp, hc.zone, h1, Option.map_some, Bool.false_eq_true, if_false]
          have hc' := (evStep_cleaning (e := Ev.look) hL hc (Nat.le_refl _) trivial hs).1
          rw [← hnx] at hs
          exact finishes_of hs (hrw _ hc' hm hh hl hd rfl rfl)
        | succ n ihn =>
          intro j c found hc hh hl hd hp hn
          have hlt : j.level < j.levels := by
            have : ¬(j.levels ≤ j.level) := of_decide_eq_false hd
            omega
          have hnx : S.next txg (t, j) = .look := by simp only [Strategy.next, hp]
          obtain ⟨⟨ks, nk⟩, h1⟩ := dirty_total (z := z) (key := c) hc.good hc.recorded
            (show j.level ≤ t.h by omega)
          obtain ⟨-, -, d3⟩ := dirty_spec hc.good hc.recorded h1
          cases nk with
          | none =>
            have hs : evStep L seq (t, j) .look =
                some ((t, { j with phase := .rewrite (found ++ ks) }), none) := by
              simp only [evStep, hd, hp, hc.zone, h1, Option.map_some, Bool.false_eq_true, if_false]
            have hc' := (evStep_cleaning (e := Ev.look) hL hc (Nat.le_refl _) trivial hs).1
            rw [← hnx] at hs
            exact finishes_of hs (hrw _ hc' hm hh hl hd rfl rfl)
          | some k =>
            obtain ⟨h2, h3⟩ := d3 (by omega) k rfl
            have hs : evStep L seq (t, j) .look =
                some ((t, { j with phase := .look k (found ++ ks) }), none) := by
              simp only [evStep, hd, hp, hc.zone, h1, Option.map_some, Bool.false_eq_true, if_false]
            have hc' := (evStep_cleaning (e := Ev.look) hL hc (Nat.le_refl _) trivial hs).1
            rw [← hnx] at hs
            exact finishes_of hs (ihn hc' hh hl hd rfl (by omega))
      exact this _ hc hh hl hd hp (Nat.le_refl _)

end Verif.Tree
