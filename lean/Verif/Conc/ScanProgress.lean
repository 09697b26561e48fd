import Verif.Conc.ScanHeight

/-!
# Range queries and other tasks do not block each other forever

A task may wait for the lock of a child.  Of all nodes where a task works, take a lowest one: below
it nobody works, and nobody has a `next_guard`, as a query is never above its `next_guard`.  So
nothing that the task wants is locked.
-/

namespace Verif.Conc

open Verif
open Verif.Tree (Limits position firstKey Bnd startChild nextKey belowEnd btreeRangePanics leafRange)

variable {V : Type}

/-- Some node, with its height, has a lock like this. -/
def Ex (P : Nat → Lock V → Prop) : (h : Nat) → Sub V h → Prop
  | 0, _ => False
  | h + 1, c => P h c.lock ∨ ∃ e ∈ c.kids, Ex P h e.2

theorem Ex.mono {P Q : Nat → Lock V → Prop} : ∀ {h : Nat} {c : Sub V h}, Ex P h c →
    (∀ j l, j < h → P j l → Q j l) → Ex Q h c
  | 0, _, hx, _ => hx
  | h + 1, _, hx, hpq => by
    rcases hx with hx | ⟨e, he, hx⟩
    · exact Or.inl (hpq h _ (by omega) hx)
    · exact Or.inr ⟨e, he, hx.mono fun j l hj => hpq j l (by omega)⟩

/-- A lock whose holder is at work at the node itself. -/
def Active : Lock V → Prop
  | .excl (.held _) => False
  | .excl _ => True
  | .shared rs => ∃ r ∈ rs, ∀ id s e k, r ≠ .guard id s e k

/-- A lock that keeps others away, but not one that the task at the parent has. -/
def Alien (l : Lock V) : Prop := l ≠ .free ∧ NotHeld l

theorem Active.alien {l : Lock V} (ha : Active l) : Alien l := by
  cases l with
  | excl w =>
    cases w with
    | held => exact ha.elim
    | _ => exact ⟨by simp [Lock.free], trivial⟩
  | shared rs =>
    obtain ⟨r, hr, _⟩ := ha
    refine ⟨?_, trivial⟩
    rintro h
    cases h
    cases hr

theorem step_ex {ok : Read → Bool} {L : Limits} {seq : Bool} {h : Nat} {n n' : Node V h} {l : Lbl V}
    (hs : StepOf ok L seq h n l n') : Ex (fun _ l => Alien l) (h + 1) n := by
  induction hs with
  | @deeper h lock pre post key c c' l _ ih => exact Or.inr ⟨(key, c), by simp, ih⟩
  | readLeaf _ => exact Or.inl ⟨by simp [Lock.free], trivial⟩
  | readDown _ _ => exact Or.inl ⟨by simp [Lock.free], trivial⟩
  | _ => exact Or.inl ⟨by simp [Lock.free], trivial⟩

/-! ## One node -/

/-- A task at or below this node can go on. -/
def Go (L : Limits) (seq : Bool) (h : Nat) (n : Node V h) : Prop :=
  (∃ l n', StepOf Read.plain L seq h n l n') ∨ ∃ l n', (∀ id, l ≠ .turn id) ∧ ScanStep h n l n'

theorem leaf_total (n : OMap V) {s e : Bnd Nat} (hp : btreeRangePanics s e = false) :
    ∃ v more, leafRange (V := V) n s e = some (v, more) ∧ (OMap.lastKey n = none → v = []) := by
  unfold leafRange
  cases hl : OMap.lastKey n with
  | none =>
    rw [show OMap.lastKey (V := Tree.Sub V 0) n = none from hl]
    exact ⟨_, _, rfl, fun _ => rfl⟩
  | some k =>
    rw [show OMap.lastKey (V := Tree.Sub V 0) n = some k from hl]
    simp only [hp, Bool.false_eq_true, if_false]
    exact ⟨_, _, rfl, by simp⟩

theorem answer_total (n : OMap V) (next : Option Nat) {s e : Bnd Nat}
    (hp : btreeRangePanics s e = false) : ∃ a, answer n next s e = some a := by
  obtain ⟨v, more, h1, h2⟩ := leaf_total n hp
  unfold answer
  rw [h1, Option.bind_some]
  simp only
  cases next with
  | none =>
    simp only
    by_cases hv : v.isEmpty = true
    · rw [if_pos hv]; exact ⟨_, rfl⟩
    · rw [if_neg hv]
      cases hl : OMap.lastKey n with
      | none => rw [h2 hl] at hv; exact absurd rfl hv
      | some k => cases more <;> exact ⟨_, rfl⟩
  | some k' =>
    simp only
    cases v.isEmpty <;> cases more <;> exact ⟨_, rfl⟩

theorem go_leaf {L : Limits} {seq : Bool} {C : Copies V} {rs : List Read} {kids : Kids V 0}
    (hall : AllOk C 1 (⟨.shared rs, kids⟩ : Node V 0)) (ha : Active (.shared rs : Lock V)) :
    Go L seq 0 (⟨.shared rs, kids⟩ : Node V 0) := by
  obtain ⟨r, hr, hng⟩ := ha
  have hro := hall.1 rs rfl r hr
  obtain ⟨pre, post, rfl⟩ := List.append_of_mem hr
  cases r with
  | get id k => exact Or.inl ⟨_, _, .readLeaf rfl⟩
  | lastKey id => exact Or.inl ⟨_, _, .readLeaf rfl⟩
  | guard id s e k => exact absurd rfl (hng id s e k)
  | scan id s e next =>
    obtain ⟨M, A, R, _, _, hp, _⟩ := hro
    obtain ⟨a, ha⟩ := answer_total kids next hp
    cases a with
    | ret v b => exact Or.inr ⟨_, _, by simp, .leafRet ha⟩
    | goto =>
      cases next with
      | some k => exact Or.inr ⟨_, _, by simp, .leafGoto ha⟩
      | none =>
        exfalso
        unfold answer at ha
        simp only [Option.bind_eq_some_iff] at ha
        obtain ⟨⟨v, more⟩, _, ha⟩ := ha
        simp only at ha
        split at ha
        · simp at ha
        · split at ha
          · simp at ha
          · simp at ha

theorem go_inner {L : Limits} (hL : L.Ok) {seq : Bool} {h lo a : Nat} {hi : Option Nat} {rs : List Read}
    {kids : Kids V (h + 1)} (hn : NodeOk L a (h + 1) lo hi (⟨.shared rs, kids⟩ : Node V (h + 1)))
    (hpos : 1 ≤ kids.length) (ha : Active (.shared rs : Lock V))
    (hfree : ∀ e ∈ kids, NotHeld e.2.lock → e.2.lock = .free) :
    Go L seq (h + 1) (⟨.shared rs, kids⟩ : Node V (h + 1)) := by
  have hnone := notHeld_of hn.held (by simp)
  have hpl : ∀ k, position kids k < kids.length := by
    intro k
    obtain ⟨pre, e, post, h1, h2, _, _⟩ := Tree.position_spec hn.chain
      (show kids ≠ [] by rintro rfl; simp at hpos) k
    simp only at h1 h2
    rw [h2, h1]; simp
  have hall : ∀ i, i < kids.length → ∃ key m, kids[i]? = some (key, fresh m) := by
    intro i hi
    have he : kids[i]? = some kids[i] := List.getElem?_eq_getElem hi
    generalize kids[i] = e at he
    obtain ⟨key, cl, m⟩ := e
    have hm := List.mem_of_getElem? he
    have := hfree _ hm (hnone _ hm)
    simp only at this
    subst this
    exact ⟨key, m, he⟩
  obtain ⟨r, hr, hng⟩ := ha
  obtain ⟨pre, post, rfl⟩ := List.append_of_mem hr
  cases r with
  | get id k =>
    obtain ⟨key, m, he⟩ := hall _ (hpl k)
    exact Or.inl ⟨_, _, .readDown rfl he⟩
  | lastKey id =>
    obtain ⟨key, m, he⟩ := hall (kids.length - 1) (by omega)
    exact Or.inl ⟨_, _, .readDown rfl he⟩
  | guard id s e k => exact absurd rfl (hng id s e k)
  | scan id s e next =>
    have hst : startChild kids s < kids.length := by
      cases s with
      | incl k => exact hpl k
      | excl k => exact hpl k
      | unb => exact hpos
    obtain ⟨key, m, he⟩ := hall _ hst
    by_cases hlast : startChild kids s < kids.length - 1
    · obtain ⟨key', m', he'⟩ := hall (startChild kids s + 1) (by omega)
      cases hb : belowEnd e key' with
      | false => exact Or.inr ⟨_, _, by simp, .downAlone he' hb he⟩
      | true =>
        have hm' : m' ≠ [] := by
          obtain ⟨pre', post', hk, _⟩ := split_at he'
          have hc := hn.chain
          simp only at hc
          rw [hk] at hc
          obtain ⟨_, _, _, h4, _⟩ := chain_mid (L := L) (h := h + 1).mp hc
          have h5 := (subOk_iff.mp h4).size
          have := hL.min_pos h
          rintro rfl
          simp [fresh] at h5
          omega
        obtain ⟨x, xs, rfl⟩ := List.exists_cons_of_ne_nil hm'
        cases hb2 : belowEnd e x.1 with
        | false => exact Or.inr ⟨_, _, by simp, .downBeyond he' hb rfl hb2 he⟩
        | true => exact Or.inr ⟨_, _, by simp, .downNext he' hb rfl hb2 he⟩
    · exact Or.inr ⟨_, _, by simp, .downLast hlast he⟩

theorem go_here {L : Limits} (hL : L.Ok) (seq : Bool) {C : Copies V} {h lo a : Nat} {hi : Option Nat}
    {n : Node V h} (ha : h ≠ 0 → 1 ≤ a) (hn : NodeOk L a h lo hi n) (hall : AllOk C (h + 1) n)
    (hact : Active n.lock) (hbelow : ∀ e ∈ n.kids, ¬ Ex (fun _ l => Alien l) h e.2) :
    Go L seq h n := by
  obtain ⟨lk, kids⟩ := n
  cases lk with
  | shared rs =>
    cases h with
    | zero => exact go_leaf hall hact
    | succ h =>
      refine go_inner hL hn (Nat.le_trans (ha (by omega)) hn.size) hact fun e he hne => ?_
      exact Classical.byContradiction fun hf => hbelow e he (Or.inl ⟨hf, hne⟩)
  | excl w =>
    have hal := hact.alien
    obtain ⟨l, n', hs⟩ := progress hL seq h (⟨.excl w, kids⟩ : Node V h) ha hn (Or.inl hal.1) hal.2
    refine Or.inl ⟨l, n', ?_⟩
    cases hs with
    | deeper hs => exact absurd (step_ex hs) (hbelow _ (List.mem_append_right _ List.mem_cons_self))
    | removeLeaf => exact .removeLeaf
    | insertSplit h1 h2 h3 => exact .insertSplit h1 h2 h3
    | insertDown h1 h2 => exact .insertDown h1 h2
    | insertLeaf h1 h2 => exact .insertLeaf h1 h2
    | removeFix h1 h2 => exact .removeFix h1 h2
    | fixPair h1 h2 => exact .fixPair h1 h2
    | removeDown h1 h2 => exact .removeDown h1 h2
    | fixedDown h1 => exact .fixedDown h1
    | visitDown h1 => exact .visitDown h1
    | visitDone => exact .visitDone

/-! ## A lowest node where somebody works -/

theorem go_at {L : Limits} (hL : L.Ok) (seq : Bool) {C : Copies V} (H : Nat) : ∀ (h : Nat) {lo a : Nat}
    {hi : Option Nat} (n : Node V h), (h ≠ 0 → 1 ≤ a) → NodeOk L a h lo hi n → AllOk C (h + 1) n →
    Ex (fun j l => j = H ∧ Active l) (h + 1) n → ¬ Ex (fun j l => j < H ∧ Alien l) (h + 1) n →
    Go L seq h n := by
  intro h
  induction h with
  | zero =>
    intro lo a hi n ha hn hall hx hno
    rcases hx with ⟨_, hx⟩ | ⟨e, _, hx⟩
    · exact go_here hL seq ha hn hall hx fun e _ he => he
    · exact hx.elim
  | succ h ih =>
    intro lo a hi n ha hn hall hx hno
    rcases hx with ⟨rfl, hx⟩ | ⟨⟨key, c⟩, he, hx⟩
    · refine go_here hL seq ha hn hall hx fun e he hee => hno (Or.inr ⟨e, he, ?_⟩)
      exact hee.mono fun j l hj hl => ⟨hj, hl⟩
    · have hc := hall.2 _ he
      have hno' : ¬ Ex (fun j l => j < H ∧ Alien l) (h + 1) c := fun h' => hno (Or.inr ⟨_, he, h'⟩)
      obtain ⟨lk, kids⟩ := n
      obtain ⟨pre, post, rfl⟩ := List.append_of_mem he
      obtain ⟨h1, h2, h3, h4, h5⟩ := chain_mid (L := L) (h := h + 1).mp hn.chain
      rcases ih c (fun _ => hL.min_pos h) (subOk_iff.mp h4) hc hx hno' with
        ⟨l, c', hs⟩ | ⟨l, c', hl, hs⟩
      · exact Or.inl ⟨_, _, .deeper hs⟩
      · exact Or.inr ⟨_, _, hl, .deeper hs⟩

theorem least {P : Nat → Prop} : ∀ n, P n → ∃ m, P m ∧ ∀ k, k < m → ¬ P k := by
  intro n
  induction n using Nat.strongRecOn with
  | ind n ih =>
    intro hn
    by_cases h : ∃ k, k < n ∧ P k
    · obtain ⟨k, hk, hp⟩ := h
      exact ih k hk hp
    · exact ⟨n, hn, fun k hk hp => h ⟨k, hk, hp⟩⟩

theorem sum_pos : ∀ {α : Type} {g : α → Nat} {l : List α}, 0 < (l.map g).sum → ∃ x ∈ l, 0 < g x
  | _, _, [], h => absurd h (Nat.lt_irrefl 0)
  | _, g, x :: l, h => by
    by_cases hx : 0 < g x
    · exact ⟨x, by simp, hx⟩
    · rw [List.map_cons, List.sum_cons] at h
      obtain ⟨y, hy, hgy⟩ := sum_pos (l := l) (g := g) (by omega)
      exact ⟨y, by simp [hy], hgy⟩

theorem le_sum {α : Type} {g : α → Nat} {l : List α} {x : α} (hx : x ∈ l) : g x ≤ (l.map g).sum := by
  obtain ⟨pre, post, rfl⟩ := List.append_of_mem hx
  simp only [List.map_append, List.map_cons, List.sum_append, List.sum_cons]
  omega

/-- The readers that are counted are there. -/
theorem ex_of_cnt {t : Nat} {r : Read} : ∀ (h : Nat) (e : Nat × Sub V h), 0 < Lv.cntOf (Lv.W t r) h e →
    Ex (fun j l => j ≤ t ∧ ∃ rs, l = .shared rs ∧ r ∈ rs) h e.2
  | 0, _, h => absurd h (Nat.lt_irrefl 0)
  | h + 1, e, hc => by
    have hc : 0 < cntL (Lv.W t r h) e.2.lock + (e.2.kids.map (Lv.cntOf (Lv.W t r) h)).sum := hc
    by_cases h1 : 0 < cntL (Lv.W t r h) e.2.lock
    · left
      cases hl : e.2.lock with
      | excl w => rw [hl] at h1; exact absurd h1 (Nat.lt_irrefl 0)
      | shared rs =>
        rw [hl] at h1
        obtain ⟨x, hx, hw⟩ := sum_pos h1
        have : h ≤ t ∧ x = r := Classical.byContradiction fun hn => by
          rw [show Lv.W t r h x = 0 from if_neg hn] at hw
          exact absurd hw (Nat.lt_irrefl 0)
        exact ⟨this.1, rs, rfl, this.2 ▸ hx⟩
    · obtain ⟨x, hx, hw⟩ := sum_pos (l := e.2.kids) (g := Lv.cntOf (Lv.W t r) h) (by omega)
      exact Or.inr ⟨x, hx, ex_of_cnt h x hw⟩

theorem cnt_of_ex {t : Nat} {r : Read} : ∀ (h : Nat) (e : Nat × Sub V h),
    Ex (fun j l => j ≤ t ∧ ∃ rs, l = .shared rs ∧ r ∈ rs) h e.2 → 0 < Lv.cntOf (Lv.W t r) h e
  | 0, _, h => h.elim
  | h + 1, e, hx => by
    show 0 < cntL (Lv.W t r h) e.2.lock + (e.2.kids.map (Lv.cntOf (Lv.W t r) h)).sum
    rcases hx with ⟨hj, rs, hl, hr⟩ | ⟨x, hx, hx'⟩
    · rw [hl]
      have h1 : Lv.W t r h r ≤ cntL (Lv.W t r h) (.shared rs : Lock V) := le_sum hr
      rw [Lv.W_self r hj] at h1
      omega
    · have h1 := cnt_of_ex h x hx'
      have h2 : Lv.cntOf (Lv.W t r) h x ≤ (e.2.kids.map (Lv.cntOf (Lv.W t r) h)).sum := le_sum hx
      omega

/-- An alien lock that nobody uses at its node belongs to a query that is not above. -/
theorem alien_active {h : Nat} {n : Node V h} (hp : Lv.Paired n) {H : Nat}
    (hx : Ex (fun j l => j < H ∧ Alien l) (h + 1) n) :
    Ex (fun j l => j < H ∧ Active l) (h + 1) n := by
  by_cases hact : Ex (fun j l => j < H ∧ Active l) (h + 1) n
  · exact hact
  · have hg : ∃ t id s e k, t < H ∧
        Ex (fun j l => j ≤ t ∧ ∃ rs, l = .shared rs ∧ .guard id s e k ∈ rs) (h + 1) n := by
      have gen : ∀ (h : Nat) (c : Sub V h), ¬ Ex (fun j l => j < H ∧ Active l) h c →
          Ex (fun j l => j < H ∧ Alien l) h c → ∃ t id s e k, t < H ∧
            Ex (fun j l => j ≤ t ∧ ∃ rs, l = .shared rs ∧ .guard id s e k ∈ rs) h c := by
        intro h
        induction h with
        | zero => exact fun _ _ hx => hx.elim
        | succ h ih =>
          intro c hna hx
          rcases hx with ⟨hj, hal⟩ | ⟨x, hx, hx'⟩
          · have hna' : ¬ Active c.lock := fun ha => hna (Or.inl ⟨hj, ha⟩)
            cases hl : c.lock with
            | excl w =>
              rw [hl] at hal hna'
              cases w with
              | held => exact hal.2.elim
              | _ => exact absurd trivial hna'
            | shared rs =>
              rw [hl] at hal hna'
              cases rs with
              | nil => exact absurd rfl hal.1
              | cons r rs =>
                have : ∃ id s e k, r = .guard id s e k := Classical.byContradiction fun hn =>
                  hna' ⟨r, by simp, fun id s e k he => hn ⟨id, s, e, k, he⟩⟩
                obtain ⟨id, s, e, k, rfl⟩ := this
                exact ⟨h, id, s, e, k, hj, Or.inl ⟨Nat.le_refl _, _, hl, by simp⟩⟩
          · obtain ⟨t, id, s, e, k, ht, h'⟩ := ih x.2 (fun h' => hna (Or.inr ⟨x, hx, h'⟩)) hx'
            exact ⟨t, id, s, e, k, ht, Or.inr ⟨x, hx, h'⟩⟩
      exact gen (h + 1) n hact hx
    obtain ⟨t, id, s, e, k, ht, hgx⟩ := hg
    have h1 : 0 < Lv.cntN (Lv.W t (.guard id s e k)) n := cnt_of_ex (h + 1) (0, n) hgx
    have h2 := hp t id s e k
    have h3 := ex_of_cnt (t := t) (r := .scan id s e (some k)) (h + 1) (0, n)
      (show 0 < Lv.cntN (Lv.W t (.scan id s e (some k))) n by omega)
    refine h3.mono fun j l _ hl => ?_
    obtain ⟨hj, rs, rfl, hr⟩ := hl
    exact ⟨by omega, _, hr, by simp⟩

/-- If somebody works in the tree, then somebody there can go on. -/
theorem go_tree {L : Limits} (hL : L.Ok) (seq : Bool) {C : Copies V} {h lo a : Nat} {hi : Option Nat}
    {n : Node V h} (ha : h ≠ 0 → 1 ≤ a) (hn : NodeOk L a h lo hi n) (hall : AllOk C (h + 1) n)
    (hp : Lv.Paired n) (hx : Ex (fun _ l => Alien l) (h + 1) n) : Go L seq h n := by
  have h1 : Ex (fun j l => j < h + 1 ∧ Active l) (h + 1) n :=
    alien_active hp (hx.mono fun j l hj hl => ⟨hj, hl⟩)
  have h2 : Ex (fun j l => j < h + 1 ∧ Active l) (h + 1) n := h1
  obtain ⟨H, hH, hmin⟩ := least (P := fun H => Ex (fun j l => j < H ∧ Active l) (h + 1) n) (h + 1) h2
  cases H with
  | zero =>
    exfalso
    have : ∀ (h : Nat) (c : Sub V h), ¬ Ex (fun j l => j < 0 ∧ Active l) h c := by
      intro h
      induction h with
      | zero => exact fun _ h => h
      | succ h ih =>
        rintro c (⟨h', _⟩ | ⟨e, _, h'⟩)
        · omega
        · exact ih _ h'
    exact this _ _ hH
  | succ H =>
    have hno : ¬ Ex (fun j l => j < H ∧ Active l) (h + 1) n := hmin H (by omega)
    have gen : ∀ (h : Nat) (c : Sub V h), Ex (fun j l => j < H + 1 ∧ Active l) h c →
        ¬ Ex (fun j l => j < H ∧ Active l) h c → Ex (fun j l => j = H ∧ Active l) h c := by
      intro h
      induction h with
      | zero => exact fun _ h _ => h
      | succ h ih =>
        rintro c (⟨hj, hl⟩ | ⟨e, he, h'⟩) hno
        · have : ¬ h < H := fun hlt => hno (Or.inl ⟨hlt, hl⟩)
          exact Or.inl ⟨by omega, hl⟩
        · exact Or.inr ⟨e, he, ih _ h' fun hh => hno (Or.inr ⟨e, he, hh⟩)⟩
    exact go_at hL seq H h n ha hn hall (gen _ _ hH hno) fun hal => hno (alien_active hp hal)

end Verif.Conc
