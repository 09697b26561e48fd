import Verif.Conc.ScanProgress

/-!
# C85: nobody waits forever
-/

namespace Verif.Conc

open Verif
open Verif.Tree (Limits Bnd startChild)

variable {V : Type}

/-! ## The root pointer -/

/-- At the root pointer a query has no `next_guard` yet. -/
def TopReads (l : Lock V) : Prop :=
  ∀ rs, l = .shared rs → ∀ r ∈ rs, r.plain = true ∨ ∃ id s e, r = .scan id s e none

theorem topReads_excl (w : Work V) : TopReads (.excl w) := fun _ h => by cases h

theorem topReads_free : TopReads (.free : Lock V) := by
  intro rs h r hr
  cases h
  cases hr

theorem topReads_cons {r : Read} {rs : List Read} (h : TopReads (.shared rs : Lock V))
    (hr : r.plain = true ∨ ∃ id s e, r = .scan id s e none) : TopReads (.shared (r :: rs) : Lock V) := by
  intro _ he x hx
  cases he
  rcases List.mem_cons.mp hx with rfl | hx
  · exact hr
  · exact h rs rfl x hx

theorem topReads_sub {pre post : List Read} {r : Read}
    (h : TopReads (.shared (pre ++ r :: post) : Lock V)) : TopReads (.shared (pre ++ post) : Lock V) := by
  intro _ he x hx
  cases he
  refine h _ rfl x ?_
  rcases List.mem_append.mp hx with hx | hx <;> simp [hx]

theorem topReads_step {L : Limits} {seq : Bool} {s s' : XSys V} {es : List (XEvent V)}
    (hst : XStep L seq s es s') (ht : TopReads s.sys.top) : TopReads s'.sys.top := by
  cases hst with
  | base hst =>
    cases hst with
    | call => exact ht
    | inside => exact ht
    | @enterShared pre post id op r rs t hr =>
      refine topReads_cons ht (Or.inl ?_)
      cases op <;> cases hr <;> rfl
    | readDown hr => exact topReads_sub ht
    | enterExcl => exact topReads_excl _
    | insertSplit => exact topReads_free
    | insertDown => exact topReads_free
    | insertLeaf => exact topReads_free
    | removeMerge => exact topReads_excl _
    | removeEmpty => first | exact topReads_excl _ | exact topReads_free
    | removeDown => exact topReads_free
    | fixedDown => exact topReads_free
    | visitDown => exact topReads_free
    | visitDone => exact topReads_free
  | scan => exact topReads_cons ht (Or.inr ⟨_, _, _, rfl⟩)
  | root => exact topReads_sub ht
  | down => exact ht
  | release => exact ht
  | swap => exact ht
  | goto => exact ht
  | ret => exact ht

/-! ## Dropping what is not there -/

theorem drop_id (id : Nat) : ∀ (h : Nat) (c : Sub V h), hasGuard id h c = false →
    mapReads (dropGuard id) h c = c
  | 0, _, _ => rfl
  | h + 1, ⟨lk, kids⟩, hg => by
    simp only [hasGuard, Bool.or_eq_false_iff, List.any_eq_false, Bool.not_eq_true] at hg
    have h1 : lk.mapReads (dropGuard id) = lk := by
      cases lk with
      | excl w => rfl
      | shared rs =>
        have := hg.1
        simp only [bne_eq_false_iff_eq] at this
        exact congrArg Lock.shared this
    have h2 : (kids.map fun e => (e.1, mapReads (dropGuard id) h e.2)) = kids := by
      conv => rhs; rw [← List.map_id kids]
      refine List.map_congr_left fun e he => ?_
      rw [drop_id id h e.2 (hg.2 e he)]
      rfl
    show (⟨lk.mapReads (dropGuard id), kids.map fun e => (e.1, mapReads (dropGuard id) h e.2)⟩ :
      Node V h) = _
    rw [h1, h2]

theorem swap_turn {h id : Nat} {n n' : Node V h} {l : ScanLbl V} (hs : ScanStep h n l n') :
    l = .swap id → ScanStep h n (.turn id) n := by
  have key : ∀ {h id : Nat} {s : Bnd Nat} {cs : Kids V (h + 1)} {e : Nat × Sub V (h + 1)},
      cs[startChild cs s + 1]? = some e → startChild cs s < cs.length - 1 := by
    intro h id s cs e he
    have := (List.getElem?_eq_some_iff.mp he).1
    omega
  induction hs with
  | deeper _ ih => exact fun h => .deeper (ih h)
  | downAlone h1 _ _ => intro h; cases h; exact .turn (key (id := 0) h1)
  | downBeyond h1 _ _ _ _ => intro h; cases h; exact .turn (key (id := 0) h1)
  | downNext h1 _ _ _ _ => intro h; cases h; exact .turn (key (id := 0) h1)
  | leafRet => intro h; cases h
  | leafGoto => intro h; cases h
  | downLast => intro h; cases h
  | turn => intro h; cases h

/-! ## Progress -/

theorem idle_of {L : Limits} : ∀ (h : Nat) {lo a : Nat} {hi : Option Nat} (n : Node V h),
    NodeOk L a h lo hi n → NotHeld n.lock → ¬ Ex (fun _ l => Alien l) (h + 1) n → ¬ busy (h + 1) n := by
  intro h
  induction h with
  | zero =>
    intro lo a hi n hn hnh hx hb
    rcases hb with hb | ⟨e, _, hb⟩
    · exact hx (Or.inl ⟨hb, hnh⟩)
    · exact hb
  | succ h ih =>
    intro lo a hi n hn hnh hx hb
    rcases hb with hb | ⟨⟨key, c⟩, he, hb⟩
    · exact hx (Or.inl ⟨hb, hnh⟩)
    · have hf : n.lock = .free := Classical.byContradiction fun hf => hx (Or.inl ⟨hf, hnh⟩)
      have hk := notHeld_of hn.held (by rw [hf]; simp [Lock.free]) _ he
      have hx' : ¬ Ex (fun _ l => Alien l) (h + 1) c := fun h' => hx (Or.inr ⟨_, he, h'⟩)
      obtain ⟨lk, kids⟩ := n
      obtain ⟨pre, post, rfl⟩ := List.append_of_mem he
      obtain ⟨h1, h2, h3, h4, h5⟩ := chain_mid (L := L) (h := h + 1).mp hn.chain
      exact ih c (subOk_iff.mp h4) hk hx' hb

theorem noCall_ret (l : Lbl V) : XNoCall ((retOf l).map XEvent.base) := by
  cases l <;> simp [XNoCall, retOf]

/-- As long as someone holds a lock, someone who does can go on. -/
theorem xsys_progress {L : Limits} (hL : L.Ok) (seq : Bool) {C : Copies V} {s : XSys V}
    (hi : XInv L C s) (hp : Lv.Paired s.sys.tree.node) (ht : TopReads s.sys.top) (hb : s.sys.Busy) :
    ∃ es s', XStep L seq s es s' ∧ XNoCall es ∧ s'.sys.calls = s.sys.calls := by
  obtain ⟨⟨calls, top, h, n⟩, used⟩ := s
  have hnil : XNoCall ([] : List (XEvent V)) := by simp [XNoCall]
  by_cases hx : Ex (fun _ l => Alien l) (h + 1) n
  · rcases go_tree hL seq (fun hh => rootMin_pos hL hh) hi.inv.node hi.all hp hx with
      ⟨l, n', hs⟩ | ⟨l, n', hl, hs⟩
    · exact ⟨_, _, .base (.inside hs), noCall_ret l, rfl⟩
    · cases l with
      | down id => exact ⟨_, _, .down hs, hnil, rfl⟩
      | turn id => exact absurd rfl (hl id)
      | swap id =>
        by_cases hg : hasGuard id (h + 1) n = true
        · exact ⟨_, _, .release (swap_turn hs rfl) hg, hnil, rfl⟩
        · have := drop_id id (h + 1) n (by simpa using hg)
          refine ⟨_, _, .swap (id := id) (n' := n') ?_, hnil, rfl⟩
          rw [this]
          exact hs
      | goto id s e k => exact ⟨_, _, .goto hs, hnil, rfl⟩
      | ret id v b => exact ⟨_, _, .ret hs, by simp [XNoCall], rfl⟩
  · have hbn : ¬ busy (h + 1) n := idle_of h n hi.inv.node hi.inv.notHeld hx
    have htop : top ≠ .free := by
      rcases hb with hb | hb
      · exact hb
      · exact absurd hb hbn
    obtain ⟨lk, n⟩ := n
    have hfree : lk = .free := Classical.byContradiction fun hf => hbn (Or.inl hf)
    subst hfree
    have hto := hi.inv.top
    have hbase : ∀ {s' : Sys V},
        SysStepOf Read.plain L seq ⟨calls, top, ⟨h, ⟨.free, n⟩⟩⟩ [] s' → s'.calls = calls →
        ∃ es s', XStep L seq (⟨⟨calls, top, ⟨h, ⟨.free, n⟩⟩⟩, used⟩ : XSys V) es s' ∧ XNoCall es ∧
          s'.sys.calls = calls := fun {s'} h1 h2 => ⟨_, ⟨s', used⟩, .base h1, hnil, h2⟩
    cases top with
    | shared rs =>
      cases rs with
      | nil => exact absurd rfl htop
      | cons r rs =>
        rcases ht _ rfl r (by simp) with hr | ⟨id, s, e, rfl⟩
        · exact hbase (.readDown (pre := []) hr) rfl
        · exact ⟨_, _, .root (pre := []), hnil, rfl⟩
    | excl w =>
      have hall : ∀ {es : List (Event V)} {s' : Sys V},
          SysStepOf Read.plain L seq ⟨calls, .excl w, ⟨h, ⟨.free, n⟩⟩⟩ es s' → s'.calls = calls →
          (∀ id op, Event.call id op ∉ es) →
          ∃ es s', XStep L seq (⟨⟨calls, .excl w, ⟨h, ⟨.free, n⟩⟩⟩, used⟩ : XSys V) es s' ∧
            XNoCall es ∧ s'.sys.calls = calls :=
        fun {es s'} h1 h2 h3 => ⟨_, ⟨s', used⟩, .base h1, ⟨by simpa using h3, by simp⟩, h2⟩
      cases w with
      | insert id k v =>
        cases hss : shouldSplit L h n k with
        | true =>
          obtain ⟨l, x, r, hsp, _, _, _⟩ := split_spec hL seq (shouldSplit_full hss)
          exact hall (.insertSplit hss hsp) rfl (by simp)
        | false =>
          cases h with
          | zero => exact hall (.insertLeaf hss) rfl (by simp)
          | succ h => exact hall (.insertDown hss) rfl (by simp)
      | remove id k =>
        cases h with
        | zero => exact hall (.removeDown (Or.inl rfl)) rfl (by simp)
        | succ h =>
          match n with
          | [] => exact hall .removeEmpty rfl (by simp)
          | [(key, c)] => exact hall .removeMerge rfl (by simp)
          | _ :: _ :: _ => exact hall (.removeDown (Or.inr (by simp))) rfl (by simp)
      | fix id k i => exact hto.elim
      | fixed id k => exact hall .fixedDown rfl (by simp)
      | visit id => exact hall .visitDone rfl (by simp)
      | held id => exact hto.elim

/-! ## The theorems -/

/-- What every state that can be reached satisfies. -/
structure Sound (L : Limits) (s : XSys V) : Prop where
  inv : ∃ a : XAtomic V, XInv L a.copies s ∧ Sim s.sys a.atom
  cap : CapN L s.sys.tree.h s.sys.tree.node
  paired : Lv.Paired s.sys.tree.node
  top : TopReads s.sys.top

theorem Sound.step {L : Limits} (hL : L.Ok) {seq : Bool} {s s' : XSys V} {es : List (XEvent V)}
    (hs : Sound L s) (hst : XStep L seq s es s') : Sound L s' := by
  obtain ⟨a, h1, _⟩ := id hs.inv
  exact ⟨xstep_inv hL hst hs.inv, (xsys_cap hL hst h1.inv hs.cap).1, Lv.paired_step hst h1.inv hs.paired,
    topReads_step hst hs.top⟩

theorem Sound.empty (L : Limits) : Sound L (XSys.empty : XSys V) :=
  ⟨⟨⟨⟨[], [], []⟩, fun _ => none⟩, xinv_empty L, sim_empty⟩, cap_empty L,
    fun _ _ _ _ _ => Nat.zero_le _, topReads_free⟩

theorem sound_run {L : Limits} (hL : L.Ok) {seq : Bool} {s s' : XSys V} {es : List (XEvent V)}
    (hr : XRun L seq s es s') (hs : Sound L s) : Sound L s' := by
  induction hr with
  | nil => exact hs
  | cons hst _ ih => exact ih (hs.step hL hst)

theorem sound_finish {L : Limits} (hL : L.Ok) {seq : Bool} {n : Nat} {s s' : XSys V}
    (hf : XFinish L seq n s s') (hs : Sound L s) : Sound L s' := by
  induction hf with
  | nil => exact hs
  | cons hst _ _ ih => exact ih (hs.step hL hst)

/-- A call that waits before the root pointer can go on when nobody is in the tree. -/
theorem enter {L : Limits} {seq : Bool} {c : Nat × Op V} {cs : List (Nat × Op V)} {t : Tree V}
    {used : List Nat} : ∃ s', XStep L seq (⟨⟨c :: cs, .free, t⟩, used⟩ : XSys V) [] s' := by
  obtain ⟨id, op⟩ := c
  have h : ∀ {s' : Sys V}, SysStepOf Read.plain L seq ⟨[] ++ (id, op) :: cs, .free, t⟩ [] s' →
      ∃ s', XStep L seq (⟨⟨(id, op) :: cs, .free, t⟩, used⟩ : XSys V) [] s' :=
    fun {s'} h1 => ⟨⟨s', used⟩, .base h1⟩
  cases op with
  | insert k v => exact h (.enterExcl (w := .insert id k v) rfl)
  | remove k => exact h (.enterExcl (w := .remove id k) rfl)
  | visit => exact h (.enterExcl (w := .visit id) rfl)
  | get k => exact h (.enterShared (r := .get id k) rfl)
  | lastKey => exact h (.enterShared (r := .lastKey id) rfl)

/-- In a state that can be reached, if anything remains to be done, by a range query or by another
task, then some task can go on without a new call.  If some task holds a lock, then a task that is in
the tree can: a task never has to wait for one that has not started.

Missing of the full property: schedules in which a query holds one of the two locks it waits for
(`try_join`, `mod.rs` 1239); the model takes both in one step. -/
theorem C85_no_deadlock_partial {L : Limits} (hL : L.Ok) {seq : Bool} {s : XSys V} {es : List (XEvent V)}
    (hr : XRun L seq XSys.empty es s) :
    (s.sys.Busy → ∃ es' s', XStep L seq s es' s' ∧ XNoCall es' ∧ s'.sys.calls = s.sys.calls) ∧
    (s.sys.calls ≠ [] → ∃ es' s', XStep L seq s es' s' ∧ XNoCall es') := by
  have hs := sound_run hL hr (Sound.empty L)
  obtain ⟨a, hi, _⟩ := hs.inv
  have h1 := fun hb => xsys_progress hL seq hi hs.paired hs.top hb
  refine ⟨h1, fun hc => ?_⟩
  by_cases hb : s.sys.Busy
  · obtain ⟨es', s', h2, h3, _⟩ := h1 hb
    exact ⟨es', s', h2, h3⟩
  · obtain ⟨⟨calls, top, t⟩, used⟩ := s
    simp only [Sys.Busy, not_or, Classical.not_not] at hb
    obtain ⟨rfl, _⟩ := hb
    cases calls with
    | nil => exact absurd rfl hc
    | cons c cs =>
      obtain ⟨s', h2⟩ := enter (L := L) (seq := seq) (c := c) (cs := cs) (t := t) (used := used)
      exact ⟨_, s', h2, by simp [XNoCall]⟩

/-- Once no new calls are made, the tree comes to rest: there is a bound on the number of steps that
can follow, in any order of the tasks, and when no step is possible any more, then no call waits and
nobody holds a lock, neither a range query nor another task.

Missing of the full property: schedules in which a query holds one of the two locks it waits for
(`try_join`, `mod.rs` 1239); the model takes both in one step. -/
theorem C85_comes_to_rest_partial {L : Limits} (hL : L.Ok) {seq : Bool} {s : XSys V} {es : List (XEvent V)}
    (hr : XRun L seq XSys.empty es s) :
    (∃ bound, ∀ n s', XFinish L seq n s s' → n ≤ bound) ∧
    (∀ n s', XFinish L seq n s s' → (∀ s'', ¬ XFinish L seq 1 s' s'') →
      s'.sys.calls = [] ∧ ¬ s'.sys.Busy) := by
  refine ⟨C85_steps_bounded hL hr, fun n s' hf hstop => ?_⟩
  have hs := sound_finish hL hf (sound_run hL hr (Sound.empty L))
  obtain ⟨a, hi, _⟩ := hs.inv
  have hnb : ¬ s'.sys.Busy := by
    intro hb
    obtain ⟨es', s'', h1, h2, _⟩ := xsys_progress hL seq hi hs.paired hs.top hb
    exact hstop s'' (.cons h1 h2 (.nil _))
  refine ⟨?_, hnb⟩
  obtain ⟨⟨calls, top, t⟩, used⟩ := s'
  simp only [Sys.Busy, not_or, Classical.not_not] at hnb
  obtain ⟨rfl, _⟩ := hnb
  cases calls with
  | nil => rfl
  | cons c cs =>
    obtain ⟨s'', h2⟩ := enter (L := L) (seq := seq) (c := c) (cs := cs) (t := t) (used := used)
    exact absurd (.cons h2 (by simp [XNoCall]) (.nil _)) (hstop s'')

/-- They apply to a query that has just begun: it can make a step, and three bring it to its end. -/
example : ∃ (es : List (XEvent Nat)) (s s' : XSys Nat), XRun demoL false XSys.empty es s ∧
    s.sys.Busy ∧ (∃ es' s1, XStep demoL false s es' s1 ∧ XNoCall es' ∧ s1.sys.calls = s.sys.calls) ∧
    XFinish demoL false 3 s s' := by
  obtain ⟨es, s, s', hr, hf, hb⟩ := finish_demo
  exact ⟨es, s, s', hr, hb, (C85_no_deadlock_partial demoL_ok hr).1 hb, hf⟩

end Verif.Conc
