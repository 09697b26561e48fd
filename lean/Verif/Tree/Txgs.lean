import Verif.Tree.History
import Verif.Tree.CleanSpec

/-!
# The transaction ranges recorded in the tree

Every element of an interior node records the range of transactions in which the nodes below it
were written.  Zone cleaning relies on these ranges to find the nodes of a zone.  Here: they are
right after any history.
-/

namespace Verif.Tree

variable {V : Type}

/-- The recorded transactions of every node from here down are in order: a node was written in
one of those recorded for it, and those of its children are among its own; and all are among
`lo..hi`.  And the address of every node on disk has the property `P`, which may depend on the
level of the node and its key. -/
def Within (P : Nat → Nat → Addr → Prop) : (h : Nat) → (lo hi : Nat) → Nat × Sub V h → Prop
  | 0, _, _, _ => True
  | h + 1, lo, hi, (k, c) =>
    lo ≤ c.info.start ∧ c.info.start < c.info.stop ∧ c.info.stop ≤ hi ∧
      (∀ a, c.info.addr = some a → (c.info.start ≤ a.txg ∧ a.txg < c.info.stop) ∧ P h k a) ∧
      ∀ e ∈ c.kids, Within P h c.info.start c.info.stop e

/-- The same for a node. -/
abbrev Spans (P : Nat → Nat → Addr → Prop) (h lo hi : Nat) (n : Node V h) : Prop :=
  ∀ e ∈ n, Within P h lo hi e

variable {P : Nat → Nat → Addr → Prop}

theorem within_mono : ∀ (h : Nat) {lo lo' hi hi' : Nat} {c : Nat × Sub V h}, lo' ≤ lo → hi ≤ hi' →
    Within P h lo hi c → Within P h lo' hi' c
  | 0, _, _, _, _, _, _, _, _ => trivial
  | _ + 1, _, _, _, _, _, h1, h2, hw =>
    ⟨Nat.le_trans h1 hw.1, hw.2.1, Nat.le_trans hw.2.2.1 h2, hw.2.2.2⟩

theorem spans_mono {h lo lo' hi hi' : Nat} {n : Node V h} (h1 : lo' ≤ lo) (h2 : hi ≤ hi')
    (hn : Spans P h lo hi n) : Spans P h lo' hi' n := fun e he => within_mono h h1 h2 (hn e he)

theorem spans_sub {h lo hi : Nat} {n m : Node V h} (hn : Spans P h lo hi n) (hm : ∀ e ∈ m, e ∈ n) :
    Spans P h lo hi m := fun e he => hn e (hm e he)

theorem spans_append {h lo hi : Nat} {a b : Node V h} :
    Spans P h lo hi (a ++ b) ↔ Spans P h lo hi a ∧ Spans P h lo hi b := List.forall_mem_append

theorem spans_cons {h lo hi : Nat} {e : Nat × Sub V h} {n : Node V h} :
    Spans P h lo hi (e :: n) ↔ Within P h lo hi e ∧ Spans P h lo hi n := List.forall_mem_cons

theorem spans_nil {h lo hi : Nat} : Spans P h lo hi ([] : Node V h) := fun _ h => absurd h List.not_mem_nil

theorem foldl_min {h : Nat} (es : Node V (h + 1)) : ∀ (a : Nat),
    es.foldl (fun a e => Nat.min a e.2.info.start) a ≤ a ∧
      (∀ e ∈ es, es.foldl (fun a e => Nat.min a e.2.info.start) a ≤ e.2.info.start) ∧
      ∀ lo, lo ≤ a → (∀ e ∈ es, lo ≤ e.2.info.start) →
        lo ≤ es.foldl (fun a e => Nat.min a e.2.info.start) a := by
  induction es with
  | nil => intro a; exact ⟨Nat.le_refl _, fun _ h => absurd h List.not_mem_nil, fun _ h _ => h⟩
  | cons e es ih =>
    intro a
    obtain ⟨h1, h2, h3⟩ := ih (Nat.min a e.2.info.start)
    have ha : Nat.min a e.2.info.start ≤ a := Nat.min_le_left ..
    have hb : Nat.min a e.2.info.start ≤ e.2.info.start := Nat.min_le_right ..
    refine ⟨Nat.le_trans h1 ha, ?_, ?_⟩
    · intro x hx
      rcases List.mem_cons.mp hx with rfl | hx
      · exact Nat.le_trans h1 hb
      · exact h2 x hx
    · intro lo hl hall
      exact h3 lo (Nat.le_min.mpr ⟨hl, hall e (List.mem_cons_self ..)⟩)
        (fun x hx => hall x (List.mem_cons_of_mem _ hx))

theorem startTxg_spec {txg : Nat} : ∀ (h : Nat) {lo : Nat} {n : Node V h},
    Spans P h lo (txg + 1) n → lo ≤ txg →
    lo ≤ startTxg txg h n ∧ startTxg txg h n ≤ txg ∧ Spans P h (startTxg txg h n) (txg + 1) n
  | 0, _, _, _, hlo => ⟨hlo, Nat.le_refl _, fun _ _ => trivial⟩
  | _ + 1, _, [], _, hlo => ⟨hlo, Nat.le_refl _, spans_nil⟩
  | h + 1, lo, e :: es, hn, _ => by
    obtain ⟨h1, h2, h3⟩ := foldl_min es e.2.info.start
    have he := hn e (List.mem_cons_self ..)
    have hst : startTxg txg (h + 1) (e :: es) =
      es.foldl (fun a e => Nat.min a e.2.info.start) e.2.info.start := rfl
    rw [hst]
    refine ⟨h3 lo he.1 (fun x hx => (hn x (List.mem_cons_of_mem _ hx)).1), ?_, ?_⟩
    · have h4 := he.2.1
      have h5 := he.2.2.1
      omega
    · intro x hx
      have hw := hn x hx
      rcases List.mem_cons.mp hx with rfl | hx
      · exact ⟨h1, hw.2⟩
      · exact ⟨h2 x hx, hw.2⟩

/-- A node in memory that has been changed in the current transaction. -/
structure Open (txg lo : Nat) (i : Meta) : Prop where
  lo : lo ≤ i.start
  now : i.start ≤ txg
  stop : i.stop = txg + 1
  mem : i.addr = none

theorem within_el {txg lo h : Nat} {k : Nat} {i : Meta} {n : Node V h} (ho : Open txg lo i)
    (hn : Spans P h i.start (txg + 1) n) : Within P (h + 1) lo (txg + 1) (el k i n) :=
  ⟨ho.lo, (by have := ho.now; have := ho.stop; show i.start < i.stop; omega),
    (by have := ho.stop; show i.stop ≤ txg + 1; omega),
    (fun a h => by have h : i.addr = some a := h; rw [ho.mem] at h; cases h),
    (by show Spans P h i.start i.stop n; rw [ho.stop]; exact hn)⟩

theorem lockInfo_open {txg lo h k' : Nat} {e : Nat × Sub V (h + 1)} (_hlo : lo ≤ txg)
    (he : Within P (h + 1) lo (txg + 1) (k', e.2)) :
    Open txg lo (lockInfo txg e) ∧ Spans P h (lockInfo txg e).start (txg + 1) (kid e) := by
  obtain ⟨h1, h2, h3, h4, h5⟩ := he
  have h5 : Spans P h e.2.info.start (txg + 1) (kid e) := spans_mono (Nat.le_refl _) h3 h5
  unfold lockInfo
  split
  · next hm =>
    exact ⟨⟨h1, by show e.2.info.start ≤ txg; omega, rfl, hm⟩, h5⟩
  · have := startTxg_spec h h5 (by omega)
    exact ⟨⟨Nat.le_trans h1 this.1, this.2.1, rfl, rfl⟩, this.2.2⟩

theorem open_start {txg lo h : Nat} {i : Meta} {n : Node V h} (ho : Open txg lo i)
    (hlo : lo ≤ txg) (hn : Spans P h lo (txg + 1) n) :
    Open txg lo { i with start := startTxg txg h n } ∧
      Spans P h (startTxg txg h n) (txg + 1) n := by
  have := startTxg_spec h hn hlo
  exact ⟨⟨this.1, this.2.1, ho.stop, ho.mem⟩, this.2.2⟩

theorem spans_mid {h lo hi : Nat} {pre post : Node V h} {e : Nat × Sub V h} :
    Spans P h lo hi (pre ++ e :: post) ↔
      Spans P h lo hi pre ∧ Within P h lo hi e ∧ Spans P h lo hi post := by
  rw [spans_append, spans_cons]

/-- The children of an element, seen from above. -/
theorem kids_lo {txg lo h : Nat} {i : Meta} {n : Node V h} (ho : Open txg lo i)
    (hn : Spans P h i.start (txg + 1) n) : Spans P h lo (txg + 1) n :=
  spans_mono ho.lo (Nat.le_refl _) hn

/-! ## Insertion -/

theorem split_mem {L : Limits} {seq : Bool} {h : Nat} {n l r : Node V h} {k : Nat}
    (hs : split L seq h n = some (l, k, r)) : (∀ e ∈ l, e ∈ n) ∧ ∀ e ∈ r, e ∈ n := by
  unfold split at hs
  split at hs
  · cases hs
  · obtain ⟨k', -, h2⟩ := Option.map_eq_some_iff.mp hs
    simp only [Prod.mk.injEq] at h2
    obtain ⟨rfl, rfl, rfl⟩ := h2
    exact ⟨fun e he => List.mem_of_mem_take he, fun e he => List.mem_of_mem_drop he⟩

theorem insertInt_spans {L : Limits} {seq : Bool} {txg : Nat} :
    ∀ (h fuel : Nat) {lo : Nat} {n n' : Node V h} {k : Nat} {v : V} {old : Option V}, lo ≤ txg →
      Spans P h lo (txg + 1) n → insertInt L seq txg h fuel n k v = some (n', old) →
      Spans P h lo (txg + 1) n' := by
  intro h
  induction h with
  | zero => intro _ _ _ _ _ _ _ _ _ _ _ _; trivial
  | succ h ihh =>
    intro fuel
    induction fuel with
    | zero => intro lo n n' k v old _ _ hr; simp [insertInt] at hr
    | succ fuel ihf =>
      intro lo n n' k v old hlo hn hr
      unfold insertInt at hr
      simp only at hr
      obtain ⟨e, he, hr⟩ := Option.bind_eq_some_iff.mp hr
      obtain ⟨pre, post, rfl, hp⟩ := mid_of_getElem? he
      rw [← hp] at hr
      have hput : (if k < e.1 then putKey h (pre ++ e :: post) pre.length k else pre ++ e :: post) =
          pre ++ el (if k < e.1 then k else e.1) (inf e) (kid e) :: post := by
        split
        · rw [putKey_mid]
        · rfl
      rw [hput] at hr
      generalize (if k < e.1 then k else e.1) = k0 at hr
      simp only [xlock_mid, Option.bind_some] at hr
      rw [spans_mid] at hn
      obtain ⟨hpre, hwe, hpost⟩ := hn
      have hl := lockInfo_open (k' := e.1) (e := el k0 (inf e) (kid e)) hlo hwe
      generalize lockInfo txg (el k0 (inf e) (kid e)) = i0 at hl hr
      obtain ⟨ho, hk⟩ := hl
      have hk' := kids_lo ho hk
      split at hr
      · obtain ⟨⟨l, k', r⟩, hs, hr⟩ := Option.bind_eq_some_iff.mp hr
        obtain ⟨hl, hrr⟩ := split_mem hs
        simp only [putKids_mid, putInfo_mid, insertIdx_mid] at hr
        refine ihf hlo ?_ hr
        obtain ⟨a1, a2, a3⟩ := startTxg_spec h (spans_sub hk' hl) hlo
        obtain ⟨b1, b2, b3⟩ := startTxg_spec h (spans_sub hk' hrr) hlo
        rw [spans_mid, spans_cons]
        exact ⟨hpre, within_el ⟨a1, a2, rfl, ho.mem⟩ a3, within_el ⟨b1, b2, rfl, rfl⟩ b3, hpost⟩
      · obtain ⟨⟨m, o⟩, hrec, hr⟩ := Option.map_eq_some_iff.mp hr
        simp only [Prod.mk.injEq] at hr
        obtain ⟨hr, -⟩ := hr
        have hm := ihh 2 ho.now hk hrec
        rw [← hr]
        split
        · next h0 =>
          subst h0
          rw [putInfo_mid, putKids_mid, spans_mid]
          exact ⟨hpre, within_el ⟨hlo, Nat.le_refl _, rfl, ho.mem⟩ (fun _ _ => trivial), hpost⟩
        · rw [putKids_mid, spans_mid]
          exact ⟨hpre, within_el ho hm, hpost⟩

theorem insert_spans {L : Limits} {seq : Bool} {T txg : Nat} (hT : T ≤ txg) {t t' : Tree V}
    (ht : Spans P t.h 0 (T + 1) t.root) {k : Nat} {v : V} {old : Option V}
    (hr : t.insert L seq txg k v = some (t', old)) : Spans P t'.h 0 (txg + 1) t'.root := by
  have ht : Spans P t.h 0 (txg + 1) t.root := spans_mono (Nat.le_refl _) (by omega) ht
  unfold Tree.insert at hr
  simp only at hr
  replace ht : Spans P (t.xlockRoot txg).h 0 (txg + 1) (t.xlockRoot txg).root := ht
  generalize t.xlockRoot txg = t at *
  by_cases hsp : shouldSplit L t.h t.root k = true
  · rw [if_pos hsp] at hr
    obtain ⟨⟨l, k', r⟩, hs, hr⟩ := Option.bind_eq_some_iff.mp hr
    obtain ⟨hl, hrr⟩ := split_mem hs
    obtain ⟨⟨m, o⟩, hrec, hr⟩ := Option.map_eq_some_iff.mp hr
    simp only [Prod.mk.injEq] at hr
    obtain ⟨rfl, -⟩ := hr
    refine insertInt_spans (t.h + 1) 2 (Nat.zero_le _) ?_ hrec
    obtain ⟨a1, a2, a3⟩ := startTxg_spec t.h (spans_sub ht hl) (Nat.zero_le txg)
    obtain ⟨b1, b2, b3⟩ := startTxg_spec t.h (spans_sub ht hrr) (Nat.zero_le txg)
    rw [spans_cons, spans_cons]
    exact ⟨within_el ⟨a1, a2, rfl, rfl⟩ a3, within_el ⟨b1, b2, rfl, rfl⟩ b3, spans_nil⟩
  · rw [if_neg hsp] at hr
    obtain ⟨⟨m, o⟩, hrec, hr⟩ := Option.map_eq_some_iff.mp hr
    simp only [Prod.mk.injEq] at hr
    obtain ⟨rfl, -⟩ := hr
    exact insertInt_spans t.h 2 (Nat.zero_le _) ht hrec

/-! ## Removal -/

theorem takeLow_mem {α} {a b a' b' : List (Nat × α)} (h : takeLowKeys a b = some (a', b')) :
    (∀ e ∈ a', e ∈ a ∨ e ∈ b) ∧ ∀ e ∈ b', e ∈ b := by
  obtain ⟨n, -, -, rfl, rfl⟩ := takeLowKeys_spec h
  refine ⟨fun e he => ?_, fun e he => List.mem_of_mem_drop he⟩
  rcases List.mem_append.mp he with he | he
  · exact Or.inl he
  · exact Or.inr (List.mem_of_mem_take he)

theorem takeHigh_mem {α} {a b a' b' : List (Nat × α)} (h : takeHighKeys a b = some (a', b')) :
    (∀ e ∈ a', e ∈ a ∨ e ∈ b) ∧ ∀ e ∈ b', e ∈ b := by
  obtain ⟨n, -, -, rfl, rfl⟩ := takeHighKeys_spec h
  refine ⟨fun e he => ?_, fun e he => List.mem_of_mem_take he⟩
  rcases List.mem_append.mp he with he | he
  · exact Or.inr (List.mem_of_mem_drop he)
  · exact Or.inl he

theorem spans_or {h lo hi : Nat} {a b m : Node V h} (ha : Spans P h lo hi a) (hb : Spans P h lo hi b)
    (hm : ∀ e ∈ m, e ∈ a ∨ e ∈ b) : Spans P h lo hi m :=
  fun e he => (hm e he).elim (ha e) (hb e)

theorem fixInt_spans {L : Limits} {txg h lo : Nat} {pre post : Node V (h + 1)}
    {a : Nat × Sub V (h + 1)} {n' : Node V (h + 1)} {b f : Nat} (hlo : lo ≤ txg)
    (hn : Spans P (h + 1) lo (txg + 1) (pre ++ a :: post)) (hi : Open txg lo (inf a))
    (hr : fixInt L txg h (pre ++ a :: post) pre.length (kid a) = some (n', b, f)) :
    Spans P (h + 1) lo (txg + 1) n' := by
  rw [spans_mid] at hn
  obtain ⟨hpre, hwa, hpost⟩ := hn
  have hka : Spans P h lo (txg + 1) (kid a) := by
    have := hwa.2.2.2.2
    rw [show a.2.info.stop = txg + 1 from hi.stop] at this
    exact kids_lo hi this
  cases post with
  | cons s post =>
    rw [spans_cons] at hpost
    obtain ⟨hws, hpost⟩ := hpost
    obtain ⟨hos, hks⟩ := lockInfo_open hlo hws
    have hks := kids_lo hos hks
    unfold fixInt at hr
    rw [if_neg (by simp only [List.length_append, List.length_cons]; omega),
      if_pos (by simp only [List.length_append, List.length_cons]; omega)] at hr
    simp only [xlock_next, Option.bind_some] at hr
    split at hr
    · simp only [merge, putKids_mid, putInfo_mid, eraseIdx_next, Option.some.injEq,
        Prod.mk.injEq] at hr
      rw [← hr.1, spans_mid]
      obtain ⟨o, k⟩ := open_start hi hlo (spans_append.mpr ⟨hka, hks⟩)
      exact ⟨hpre, within_el o k, hpost⟩
    · obtain ⟨⟨c', s'⟩, ht, hr⟩ := Option.bind_eq_some_iff.mp hr
      obtain ⟨h1, h2⟩ := takeLow_mem ht
      obtain ⟨k, -, hr⟩ := Option.map_eq_some_iff.mp hr
      simp only [putKids_mid, putKids_next, putKey_next, putInfo_next, putInfo_mid,
        Prod.mk.injEq] at hr
      rw [← hr.1, spans_mid, spans_cons]
      obtain ⟨o1, k1⟩ := open_start hi hlo (spans_or hka hks h1)
      obtain ⟨o2, k2⟩ := open_start hos hlo (spans_sub hks h2)
      exact ⟨hpre, within_el o1 k1, within_el o2 k2, hpost⟩
  | nil =>
    rcases List.eq_nil_or_concat pre with rfl | ⟨pre, s, rfl⟩
    · simp [fixInt] at hr
    · rw [List.concat_eq_append] at *
      rw [spans_append, spans_cons] at hpre
      obtain ⟨hpre, hws, -⟩ := hpre
      obtain ⟨hos, hks⟩ := lockInfo_open hlo hws
      have hks := kids_lo hos hks
      have hr : fixInt L txg h (pre ++ [s, a]) (pre.length + 1) (kid a) = some (n', b, f) := by
        simpa using hr
      unfold fixInt at hr
      rw [if_neg (by simp), if_neg (by simp)] at hr
      simp only [Nat.add_sub_cancel, xlock_mid, Option.bind_some] at hr
      split at hr
      · simp only [merge, putKids_mid, putInfo_mid, eraseIdx_next, Option.some.injEq,
          Prod.mk.injEq] at hr
        rw [← hr.1, spans_mid]
        obtain ⟨o, k⟩ := open_start hos hlo (spans_append.mpr ⟨hks, hka⟩)
        exact ⟨hpre, within_el o k, spans_nil⟩
      · obtain ⟨⟨c', s'⟩, ht, hr⟩ := Option.bind_eq_some_iff.mp hr
        obtain ⟨h1, h2⟩ := takeHigh_mem ht
        obtain ⟨k, -, hr⟩ := Option.map_eq_some_iff.mp hr
        simp only [putKids_mid, putKids_next, putKey_next, putInfo_next, putInfo_mid,
          Prod.mk.injEq] at hr
        rw [← hr.1, spans_mid, spans_cons]
        obtain ⟨o1, k1⟩ := open_start hi hlo (spans_or hka hks h1)
        obtain ⟨o2, k2⟩ := open_start hos hlo (spans_sub hks h2)
        exact ⟨hpre, within_el o2 k2, within_el o1 k1, spans_nil⟩

/-- Locking a child. -/
theorem xlock_spans {txg h lo : Nat} {n n' : Node V (h + 1)} {c : Node V h} {i : Nat}
    (hlo : lo ≤ txg) (hn : Spans P (h + 1) lo (txg + 1) n) (hx : xlock txg h n i = some (n', c)) :
    ∃ pre k m post, pre.length = i ∧ n' = pre ++ el k m c :: post ∧ Open txg lo m ∧
      Spans P h m.start (txg + 1) c ∧ Spans P (h + 1) lo (txg + 1) n' ∧
      ∀ c', Spans P h m.start (txg + 1) c' → Spans P (h + 1) lo (txg + 1) (putKids h n' i c') := by
  obtain ⟨pre, e, post, rfl, rfl, h1⟩ := xlock_some hx
  simp only [Prod.mk.injEq] at h1
  obtain ⟨rfl, rfl⟩ := h1
  rw [spans_mid] at hn
  obtain ⟨ho, hk⟩ := lockInfo_open hlo hn.2.1
  refine ⟨pre, e.1, lockInfo txg e, post, rfl, rfl, ho, hk, ?_, ?_⟩
  · rw [spans_mid]; exact ⟨hn.1, within_el ho hk, hn.2.2⟩
  · intro c' hc'
    rw [putKids_mid, spans_mid]
    exact ⟨hn.1, within_el ho hc', hn.2.2⟩

/-- Only the keys matter for the position of a key. -/
theorem position_keys {α β} : ∀ {a : List (Nat × α)} {b : List (Nat × β)} {k : Nat},
    a.map (·.1) = b.map (·.1) → position a k = position b k := by
  have : ∀ {a : List (Nat × α)} {b : List (Nat × β)} {k : Nat}, a.map (·.1) = b.map (·.1) →
      (a.takeWhile (fun e => e.1 ≤ k)).length = (b.takeWhile (fun e => e.1 ≤ k)).length := by
    intro a
    induction a with
    | nil => intro b k h; cases b with
      | nil => rfl
      | cons => simp at h
    | cons x a ih =>
      intro b k h
      cases b with
      | nil => simp at h
      | cons y b =>
        simp only [List.map_cons, List.cons.injEq] at h
        simp only [List.takeWhile_cons, h.1]
        split
        · simp [ih h.2]
        · rfl
  intro a b k h
  unfold position
  rw [this h]

theorem position_xlock {txg h : Nat} {n n' : Node V (h + 1)} {c : Node V h} {i : Nat} (k : Nat)
    (hx : xlock txg h n i = some (n', c)) : position n' k = position n k := by
  obtain ⟨pre, e, post, rfl, rfl, h1⟩ := xlock_some hx
  simp only [Prod.mk.injEq] at h1
  rw [h1.1]
  apply position_keys
  simp [el]

theorem removeR_spans {L : Limits} {txg : Nat} :
    ∀ (h : Nat) {lo : Nat} {n n' : Node V h} {k : Nat} {old : Option V}, lo ≤ txg →
      Spans P h lo (txg + 1) n → removeR L txg h n k = some (n', old) → Spans P h lo (txg + 1) n' := by
  intro h
  induction h with
  | zero => intro _ _ _ _ _ _ _ _ _ _; trivial
  | succ h ih =>
    intro lo n n' k old hlo hn hr
    simp only [removeR] at hr
    obtain ⟨⟨n1, c⟩, hx, hr⟩ := Option.bind_eq_some_iff.mp hr
    obtain ⟨pre, k0, m, post, hlen, rfl, ho, hk, hn1, hput⟩ := xlock_spans hlo hn hx
    simp only at hr
    have hpos := position_xlock k hx
    split at hr
    · obtain ⟨⟨n2, b, f⟩, hf, hr⟩ := Option.bind_eq_some_iff.mp hr
      rw [hpos, ← hlen] at hf
      have hn2 := fixInt_spans (a := el k0 m c) hlo hn1 ho hf
      obtain ⟨⟨n3, c3⟩, hx3, hr⟩ := Option.bind_eq_some_iff.mp hr
      obtain ⟨-, -, m3, -, -, -, ho3, hk3, -, hput3⟩ := xlock_spans hlo hn2 hx3
      obtain ⟨⟨c4, o⟩, hrec, hr⟩ := Option.map_eq_some_iff.mp hr
      simp only [Prod.mk.injEq] at hr
      rw [← hr.1]
      exact hput3 _ (ih ho3.now hk3 hrec)
    · obtain ⟨⟨c4, o⟩, hrec, hr⟩ := Option.map_eq_some_iff.mp hr
      simp only [Prod.mk.injEq] at hr
      rw [← hr.1, hpos]
      exact hput _ (ih ho.now hk hrec)

theorem mergeRoot_spans {T txg : Nat} {t : Tree V} (ht : Spans P t.h 0 (T + 1) t.root) :
    Spans P (t.mergeRoot txg).h 0 (T + 1) (t.mergeRoot txg).root := by
  obtain ⟨h, info, n⟩ := t
  match h, n, ht with
  | 0, _, ht => exact ht
  | _ + 1, [], _ => exact spans_nil
  | h + 1, [(k, c)], ht =>
    have := ht (k, c) (by simp)
    exact spans_mono (Nat.zero_le _) this.2.2.1 this.2.2.2.2
  | h + 1, a :: b :: es, ht => exact ht

theorem remove_spans {L : Limits} {T txg : Nat} (hT : T ≤ txg) {t t' : Tree V}
    (ht : Spans P t.h 0 (T + 1) t.root) {k : Nat} {old : Option V}
    (hr : t.remove L txg k = some (t', old)) : Spans P t'.h 0 (txg + 1) t'.root := by
  have h1 := mergeRoot_spans (txg := txg) ht
  unfold Tree.remove at hr
  simp only at hr
  obtain ⟨⟨n, o⟩, h2, h3⟩ := Option.map_eq_some_iff.mp hr
  simp only [Prod.mk.injEq] at h3
  obtain ⟨rfl, -⟩ := h3
  exact removeR_spans _ (Nat.zero_le _) (spans_mono (Nat.le_refl _) (by omega) h1) h2

/-! ## Range deletion -/

theorem xlockNc_spans {txg h lo : Nat} {n n' : Node V (h + 1)} {c : Node V h} {i : Nat}
    (hlo : lo ≤ txg) (hn : Spans P (h + 1) lo (txg + 1) n) (hx : xlockNc txg h n i = some (n', c)) :
    ∃ s, lo ≤ s ∧ s ≤ txg ∧ Spans P h s (txg + 1) c ∧
      ∀ c', Spans P h s (txg + 1) c' → Spans P (h + 1) lo (txg + 1) (putKids h n' i c') := by
  unfold xlockNc at hx
  obtain ⟨e, he, hx⟩ := Option.bind_eq_some_iff.mp hx
  obtain ⟨pre, post, rfl, rfl⟩ := mid_of_getElem? he
  obtain ⟨k0, c0⟩ := e
  simp only at hx
  rw [spans_mid] at hn
  obtain ⟨hpre, hwe, hpost⟩ := hn
  obtain ⟨h1, h2, h3, h4, h5⟩ := hwe
  have h5 : Spans P h c0.info.start (txg + 1) (c0.kids) := spans_mono (Nat.le_refl _) h3 h5
  split at hx
  · next hm =>
    simp only [Option.some.injEq, Prod.mk.injEq] at hx
    obtain ⟨rfl, rfl⟩ := hx
    rw [set_mid]
    by_cases h0 : h = 0
    · subst h0
      refine ⟨txg, hlo, Nat.le_refl _, fun _ _ => trivial, fun c' _ => ?_⟩
      rw [putKids_mid, spans_mid]
      exact ⟨hpre, within_el ⟨hlo, Nat.le_refl _, rfl, hm⟩ (fun _ _ => trivial), hpost⟩
    · refine ⟨c0.info.start, h1, by omega, h5, fun c' hc' => ?_⟩
      rw [putKids_mid, spans_mid]
      refine ⟨hpre, within_el ?_ ?_, hpost⟩
      · simp only [if_neg h0]
        exact ⟨h1, by show c0.info.start ≤ txg; omega, rfl, hm⟩
      · simp only [if_neg h0]; exact hc'
  · obtain ⟨k, -, hx⟩ := Option.map_eq_some_iff.mp hx
    simp only [Prod.mk.injEq] at hx
    obtain ⟨rfl, rfl⟩ := hx
    rw [set_mid]
    obtain ⟨a1, a2, a3⟩ := startTxg_spec h h5 (by omega)
    refine ⟨_, Nat.le_trans h1 a1, a2, a3, fun c' hc' => ?_⟩
    rw [putKids_mid, spans_mid]
    exact ⟨hpre, within_el ⟨Nat.le_trans h1 a1, a2, rfl, rfl⟩ hc', hpost⟩

theorem putMark_spans {h lo hi : Nat} {n : Node V (h + 1)} {i : Nat} {d : Bool}
    (hn : Spans P (h + 1) lo hi n) :
    Spans P (h + 1) lo hi (putInfo h n i fun m => { m with mark := d }) := by
  unfold putInfo
  split
  · exact hn
  · next k c hc =>
    obtain ⟨pre, post, rfl, rfl⟩ := mid_of_getElem? hc
    rw [set_mid]
    rw [spans_mid] at hn ⊢
    exact ⟨hn.1, hn.2.1, hn.2.2⟩

theorem setMark_spans {h lo hi : Nat} {n : Node V (h + 1)} {i : Nat} {d : Bool}
    (hn : Spans P (h + 1) lo hi n) : Spans P (h + 1) lo hi (setMark h n i d) := by
  unfold setMark
  split
  · exact putMark_spans hn
  · exact hn

theorem eraseIdx_spans {h lo hi : Nat} {n : Node V h} {i : Nat} (hn : Spans P h lo hi n) :
    Spans P h lo hi (n.eraseIdx i) := spans_sub hn fun _ he => List.mem_of_mem_eraseIdx he

theorem join_spans {L : Limits} {h lo hi : Nat} {cut : Cut} {n n' : Node V (h + 1)}
    {l r : Option (Edge × Nat)} {d : Bool} (hn : Spans P (h + 1) lo hi n)
    (hr : pass1.pass1Join L h cut n l r = some (n', d)) : Spans P (h + 1) lo hi n' := by
  unfold pass1.pass1Join at hr
  obtain ⟨n0, hp, hr⟩ := Option.map_eq_some_iff.mp hr
  have h0 : Spans P (h + 1) lo hi n0 := by
    unfold purge at hp
    split at hp
    · cases hp
    · simp only [Option.some.injEq] at hp
      subst hp
      exact spans_append.mpr ⟨spans_sub hn fun _ he => List.mem_of_mem_take he,
        spans_sub hn fun _ he => List.mem_of_mem_drop he⟩
  simp only [Prod.mk.injEq] at hr
  rw [← hr.1]
  have h1 : Spans P (h + 1) lo hi (match l with
      | none => (n0, 0)
      | some (ed, 0) => (n0.eraseIdx ed.idx, 1)
      | some (ed, _ + 1) => (setMark h n0 ed.idx ed.danger, 0)).1 := by
    split
    · exact h0
    · exact eraseIdx_spans h0
    · exact setMark_spans h0
  split
  · exact h1
  · exact eraseIdx_spans h1
  · exact setMark_spans h1

theorem pass1_spans {L : Limits} {txg : Nat} {s e : Bnd Nat} :
    ∀ (h : Nat) {ub : Option Nat} {lo : Nat} {n n' : Node V h} {d : Bool}, lo ≤ txg →
      Spans P h lo (txg + 1) n → pass1 L txg s e h ub n = some (n', d) →
      Spans P h lo (txg + 1) n' := by
  intro h
  induction h with
  | zero => intro _ _ _ _ _ _ _ _ _ _; trivial
  | succ h ih =>
    intro ub lo n n' d hlo hn hr
    have edge : ∀ {n0 n1 : Node V (h + 1)} {i : Nat} {x : Option (Edge × Nat)},
        Spans P (h + 1) lo (txg + 1) n0 →
        ((xlockNc txg h n0 i).bind fun x : Node V (h + 1) × Node V h =>
          (pass1 L txg s e h (ubAfter n ub i) x.2).map
            fun y : Node V h × Bool => (putKids h x.1 i y.1,
              some (({ idx := i, danger := y.2 } : Edge), y.1.length))) = some (n1, x) →
        Spans P (h + 1) lo (txg + 1) n1 := by
      intro n0 n1 i x h0 hr
      obtain ⟨⟨n2, c⟩, hx, hr⟩ := Option.bind_eq_some_iff.mp hr
      obtain ⟨st, -, hst, hc, hput⟩ := xlockNc_spans hlo h0 hx
      obtain ⟨⟨c', d'⟩, hrec, hr⟩ := Option.map_eq_some_iff.mp hr
      simp only [Prod.mk.injEq] at hr
      rw [← hr.1]
      exact hput _ (ih hst hc hrec)
    simp only [pass1] at hr
    obtain ⟨cut, -, hr⟩ := Option.bind_eq_some_iff.mp hr
    cases hl : cut.left with
    | none =>
      rw [hl] at hr
      simp only [Option.bind_some] at hr
      obtain ⟨⟨n2, r⟩, h2, hr⟩ := Option.bind_eq_some_iff.mp hr
      have hn2 : Spans P (h + 1) lo (txg + 1) n2 := by
        cases hrr : cut.right with
        | none =>
          rw [hrr] at h2
          simp only [Option.some.injEq, Prod.mk.injEq] at h2
          rw [← h2.1]; exact hn
        | some j => rw [hrr] at h2; exact edge hn h2
      exact join_spans hn2 hr
    | some i =>
      rw [hl] at hr
      simp only at hr
      split at hr
      · obtain ⟨⟨n1, c⟩, hx, hr⟩ := Option.bind_eq_some_iff.mp hr
        obtain ⟨-, -, m, -, -, -, ho, hk, hn1, hput⟩ := xlock_spans hlo hn hx
        obtain ⟨⟨c', d'⟩, hrec, hr⟩ := Option.map_eq_some_iff.mp hr
        simp only at hr
        split at hr
        · simp only [Prod.mk.injEq] at hr
          rw [← hr.1]
          exact eraseIdx_spans hn1
        · simp only [Prod.mk.injEq] at hr
          rw [← hr.1]
          exact setMark_spans (hput _ (ih ho.now hk hrec))
      · obtain ⟨⟨n1, l⟩, h1, hr⟩ := Option.bind_eq_some_iff.mp hr
        have hn1 := edge hn h1
        obtain ⟨⟨n2, r⟩, h2, hr⟩ := Option.bind_eq_some_iff.mp hr
        have hn2 : Spans P (h + 1) lo (txg + 1) n2 := by
          cases hrr : cut.right with
          | none =>
            rw [hrr] at h2
            simp only [Option.some.injEq, Prod.mk.injEq] at h2
            rw [← h2.1]; exact hn1
          | some j => rw [hrr] at h2; exact edge hn1 h2
        exact join_spans hn2 hr

theorem fixLeft_spans {L : Limits} {txg h left : Nat} {hasRight : Bool} {lo : Nat} (hlo : lo ≤ txg) :
    ∀ (fuel : Nat) {n n' : Node V (h + 1)} {c c' : Node V h} {mb mm mb' mm' : Nat} {stole : Bool}
      {pre post : Node V (h + 1)} {k : Nat} {m : Meta}, mb ≤ left → pre.length = left - mb →
      n = pre ++ el k m c :: post → Open txg lo m → Spans P (h + 1) lo (txg + 1) n →
      fixLeft L txg h left hasRight fuel n c mb mm stole = some (n', c', mb', mm') →
      ∃ pre' k' m' post', pre'.length = left - mb' ∧ n' = pre' ++ el k' m' c' :: post' ∧
        Open txg lo m' ∧ Spans P (h + 1) lo (txg + 1) n' := by
  intro fuel
  induction fuel with
  | zero => intro n n' c c' mb mm mb' mm' stole pre post k m _ _ _ _ _ hr; simp [fixLeft] at hr
  | succ fuel ih =>
    intro n n' c c' mb mm mb' mm' stole pre post k m hle hlen hn ho hs hr
    simp only [fixLeft] at hr
    split at hr
    · simp only [Option.some.injEq, Prod.mk.injEq] at hr
      obtain ⟨rfl, rfl, rfl, rfl⟩ := hr
      exact ⟨pre, k, m, post, hlen, hn, ho, hs⟩
    · split at hr
      · cases hr
      · obtain ⟨⟨n1, b, f⟩, hf, hr⟩ := Option.bind_eq_some_iff.mp hr
        simp only at hr
        split at hr
        · cases hr
        · next hnb =>
          obtain ⟨⟨n2, c2⟩, hx, hr⟩ := Option.bind_eq_some_iff.mp hr
          subst hn
          rw [← hlen] at hf
          have hn1 := fixInt_spans (a := el k m c) hlo hs ho hf
          obtain ⟨pre2, k2, m2, post2, hlen2, rfl, ho2, -, hn2, -⟩ := xlock_spans hlo hn1 hx
          exact ih (by omega) (by omega) rfl ho2 hn2 hr

theorem clearMarks_spans {h lo hi : Nat} : ∀ (is : List Nat) {n : Node V (h + 1)},
    Spans P (h + 1) lo hi n → Spans P (h + 1) lo hi (clearMarks h n is)
  | [], _, hn => hn
  | i :: is, n, hn => by
    have : clearMarks h n (i :: is) =
      clearMarks h (putInfo h n i fun m => { m with mark := false }) is := rfl
    rw [this]
    exact clearMarks_spans is (putMark_spans hn)

theorem pass2R_spans {L : Limits} {txg : Nat} : ∀ (h : Nat) {lo : Nat} {n n' : Node V h}, lo ≤ txg →
    Spans P h lo (txg + 1) n → pass2R L txg h n = some n' → Spans P h lo (txg + 1) n' := by
  intro h
  induction h with
  | zero => intro _ _ _ _ _ _ _ _; trivial
  | succ h ih =>
    intro lo n n' hlo hn hr
    unfold pass2R at hr
    split at hr
    · simp only [Option.some.injEq] at hr; rw [← hr]; exact hn
    · next left rest hfix =>
      simp only at hr
      have hn0 := clearMarks_spans (toFix h n) hn
      generalize clearMarks h n (toFix h n) = n0 at hn0 hr
      obtain ⟨⟨n1, c⟩, hx, hr⟩ := Option.bind_eq_some_iff.mp hr
      obtain ⟨pre, k, m, post, hlen, rfl, ho, hk, hn1, -⟩ := xlock_spans hlo hn0 hx
      obtain ⟨⟨n2, c2, mb, mm⟩, hf, hr⟩ := Option.bind_eq_some_iff.mp hr
      obtain ⟨pre2, k2, m2, post2, hlen2, rfl, ho2, hn2⟩ :=
        fixLeft_spans hlo _ (Nat.zero_le _) (by omega) rfl ho hn1 hf
      obtain ⟨c3, hrec, hr⟩ := Option.bind_eq_some_iff.mp hr
      have hn3 : Spans P (h + 1) lo (txg + 1)
          (putKids h (pre2 ++ el k2 m2 c2 :: post2) (left - mb) c3) := by
        rw [← hlen2, putKids_mid, spans_mid]
        rw [spans_mid] at hn2
        have hc2 := hn2.2.1.2.2.2.2
        rw [show (el k2 m2 c2).2.info.stop = txg + 1 from ho2.stop] at hc2
        exact ⟨hn2.1, within_el ho2 (ih ho2.now hc2 hrec), hn2.2.2⟩
      simp only at hr
      generalize putKids h (pre2 ++ el k2 m2 c2 :: post2) (left - mb) c3 = n3 at hn3 hr
      split at hr
      · simp only [Option.some.injEq] at hr; rw [← hr]; exact hn3
      · split at hr
        · split at hr
          · cases hr
          · obtain ⟨⟨n4, c4⟩, hx4, hr⟩ := Option.bind_eq_some_iff.mp hr
            obtain ⟨pre4, k4, m4, post4, hlen4, rfl, ho4, hk4, hn4, hput4⟩ :=
              xlock_spans hlo hn3 hx4
            obtain ⟨⟨n5, c5, j5⟩, h5, hr⟩ := Option.bind_eq_some_iff.mp hr
            have : ∃ s, s ≤ txg ∧ Spans P h s (txg + 1) c5 ∧
                ∀ c', Spans P h s (txg + 1) c' → Spans P (h + 1) lo (txg + 1) (putKids h n5 j5 c') := by
              simp only at h5
              split at h5
              · obtain ⟨⟨n6, b6, f6⟩, hf6, h5⟩ := Option.bind_eq_some_iff.mp h5
                simp only at h5
                split at h5
                · cases h5
                · rw [← hlen4] at hf6
                  have hn6 := fixInt_spans (a := el k4 m4 c4) hlo hn4 ho4 hf6
                  obtain ⟨⟨n7, c7⟩, hx7, h5⟩ := Option.map_eq_some_iff.mp h5
                  simp only [Prod.mk.injEq] at h5
                  obtain ⟨rfl, rfl, rfl⟩ := h5
                  obtain ⟨-, -, m7, -, -, -, ho7, hk7, -, hput7⟩ := xlock_spans hlo hn6 hx7
                  exact ⟨m7.start, ho7.now, hk7, hput7⟩
              · simp only [Option.some.injEq, Prod.mk.injEq] at h5
                obtain ⟨rfl, rfl, rfl⟩ := h5
                exact ⟨m4.start, ho4.now, hk4, hput4⟩
            obtain ⟨st, hst, hk5, hput5⟩ := this
            obtain ⟨c6, hrec6, hr⟩ := Option.map_eq_some_iff.mp hr
            rw [← hr]
            exact hput5 _ (ih hst hk5 hrec6)
        · simp only [Option.some.injEq] at hr; rw [← hr]; exact hn3

theorem unmark_spans : ∀ (h : Nat) {lo hi : Nat} {n : Node V h}, Spans P h lo hi n →
    Spans P h lo hi (unmark h n) := by
  intro h
  induction h with
  | zero => intro _ _ _ hn; exact hn
  | succ h ih =>
    intro lo hi n hn x hx
    simp only [unmark, List.mem_map] at hx
    obtain ⟨e, he, rfl⟩ := hx
    have := hn e he
    exact ⟨this.1, this.2.1, this.2.2.1, this.2.2.2.1, ih this.2.2.2.2⟩

theorem mergeDown_spans {txg hi : Nat} : ∀ (h : Nat) (info : Meta) {n : Node V h},
    Spans P h 0 hi n → Spans P (mergeDown txg h info n).h 0 hi (mergeDown txg h info n).root
  | 0, _, _, hn => hn
  | _ + 1, _, [], _ => by simp only [mergeDown]; exact spans_nil
  | h + 1, _, [(k, c)], hn => by
    simp only [mergeDown]
    have := hn (k, c) (by simp)
    exact mergeDown_spans h c.info (spans_mono (Nat.zero_le _) this.2.2.1 this.2.2.2.2)
  | h + 1, _, a :: b :: es, hn => by simp only [mergeDown]; exact hn

theorem rangeDelete_spans {L : Limits} {T txg : Nat} (hT : T ≤ txg) {t t' : Tree V}
    (ht : Spans P t.h 0 (T + 1) t.root) {s e : Bnd Nat}
    (hr : t.rangeDelete L txg s e = some t') : Spans P t'.h 0 (txg + 1) t'.root := by
  have ht : Spans P t.h 0 (txg + 1) t.root := spans_mono (Nat.le_refl _) (by omega) ht
  unfold Tree.rangeDelete at hr
  split at hr
  · simp only [Option.some.injEq] at hr; rw [← hr]; exact ht
  · simp only [Tree.xlockRoot] at hr
    obtain ⟨⟨n, d⟩, h1, hr⟩ := Option.bind_eq_some_iff.mp hr
    have hn := pass1_spans t.h (Nat.zero_le _) (unmark_spans t.h ht) h1
    obtain ⟨n2, h2, hr⟩ := Option.map_eq_some_iff.mp hr
    rw [← hr]
    exact mergeDown_spans _ _ (pass2R_spans _ (Nat.zero_le _) (mergeDown_spans _ _ hn) h2)

/-! ## Flushing -/

theorem flushR_next {txg : Nat} : ∀ (h : Nat) (next : Nat) (n : Node V h),
    next ≤ (flushR txg h next n).1
  | 0, _, _ => by unfold flushR; exact Nat.le_refl _
  | _ + 1, _, [] => by unfold flushR; exact Nat.le_refl _
  | h + 1, next, (k, c) :: cs => by
    unfold flushR
    split
    · exact flushR_next (h + 1) next cs
    · have h1 := flushR_next (txg := txg) h next c.kids
      have h2 := flushR_next (txg := txg) (h + 1) ((flushR txg h next c.kids).1 + 1) cs
      show next ≤ (flushR txg (h + 1) ((flushR txg h next c.kids).1 + 1) cs).1
      omega

theorem flushR_spans {txg : Nat} : ∀ (h : Nat) {lo : Nat} (next : Nat) {n : Node V h}, lo ≤ txg →
    (∀ e k pba, next ≤ pba → pba < (flushR txg h next n).1 → P e k { pba, txg }) →
    Spans P h lo (txg + 1) n → Spans P h lo (txg + 1) (flushR txg h next n).2 := by
  intro h
  induction h with
  | zero => intro _ _ _ _ _ _ _ _; trivial
  | succ h ih =>
    intro lo next n hlo hP hn
    induction n generalizing next with
    | nil => simp only [flushR]; exact spans_nil
    | cons e es ihn =>
      rw [spans_cons] at hn
      obtain ⟨k, c⟩ := e
      unfold flushR at hP ⊢
      split
      · next ha =>
        simp only [ha] at hP
        rw [spans_cons]
        exact ⟨hn.1, ihn _ hP hn.2⟩
      · next ha =>
        simp only [ha] at hP
        obtain ⟨h1, h2, h3, h4, h5⟩ := hn.1
        have h5 : Spans P h c.info.start (txg + 1) c.kids := spans_mono (Nat.le_refl _) h3 h5
        have f1 := flushR_next (txg := txg) h next c.kids
        have f2 := flushR_next (txg := txg) (h + 1) ((flushR txg h next c.kids).1 + 1) es
        have h6 := ih next (by omega) (fun e k pba p1 p2 => hP e k pba p1 (by omega)) h5
        obtain ⟨a1, a2, a3⟩ := startTxg_spec h h6 (by omega)
        rw [spans_cons]
        refine ⟨⟨Nat.le_trans h1 a1, Nat.lt_succ_of_le a2, Nat.le_refl _, ?_, a3⟩,
          ihn _ (fun e k pba p1 p2 => hP e k pba (by omega) p2) hn.2⟩
        intro a ha
        simp only [Option.some.injEq] at ha
        rw [← ha]
        exact ⟨⟨a2, Nat.lt_succ_self _⟩, hP _ _ _ f1 (by omega)⟩

theorem flush_spans {T txg next : Nat} (hT : T ≤ txg) {t : Tree V}
    (hP : ∀ e k pba, next ≤ pba → pba < t.flushEnd txg next → P e k { pba, txg })
    (ht : Spans P t.h 0 (T + 1) t.root) :
    Spans P (t.flush txg next).h 0 (txg + 1) (t.flush txg next).root := by
  have ht : Spans P t.h 0 (txg + 1) t.root := spans_mono (Nat.le_refl _) (by omega) ht
  unfold Tree.flush
  split
  · exact ht
  · exact flushR_spans t.h next (Nat.zero_le _)
      (fun e k pba p1 p2 => hP e k pba p1 (Nat.lt_succ_of_lt p2)) ht

end Verif.Tree
