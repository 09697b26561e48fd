import Verif.Conc.Steps

/-!
# The whole system: invariant, simulation by the atomic map, and progress
-/

namespace Verif.Conc

open Verif
open Verif.Tree (Limits position firstKey Chain Below nextKey)

variable {V : Type}

def Sys.abs (s : Sys V) : OMap V := s.top.apply (absN s.tree.node)

def Sys.dec (s : Sys V) : List (Nat × Res V) :=
  s.top.results (absN s.tree.node) ++ decN s.tree.node

theorem rootMin_pos {L : Limits} (hL : L.Ok) {h : Nat} {top : Lock V} (hh : h ≠ 0) :
    1 ≤ rootMin L h top := by
  unfold rootMin
  split
  · exact absurd rfl hh
  · exact hL.min_pos _
  · exact Nat.le_refl _

theorem rootMin_le {L : Limits} (hL : L.Ok) {h : Nat} {top : Lock V} :
    rootMin L h top ≤ L.min h := by
  unfold rootMin
  split
  · exact Nat.zero_le _
  · exact Nat.le_refl _
  · exact hL.min_pos _

theorem rootMin_least {L : Limits} (hL : L.Ok) {h : Nat} {top : Lock V} :
    rootMin L h (.free : Lock V) ≤ rootMin L h top := by
  cases h with
  | zero => exact Nat.zero_le _
  | succ h => exact rootMin_pos hL (by omega)

structure Sim (s : Sys V) (a : Atomic V) : Prop where
  map : a.map = s.abs
  calls : a.calls = s.calls
  done : a.done.Perm s.dec

theorem ARun.append {a b c : Atomic V} {es es' : List (Event V)} (h1 : ARun a es b)
    (h2 : ARun b es' c) : ARun a (es ++ es') c := by
  induction h1 with
  | nil => exact h2
  | cons h1 _ ih => rw [List.append_assoc]; exact .cons h1 (ih h2)

theorem ARun.one {a b : Atomic V} {es : List (Event V)} (h : AStep a es b) : ARun a es b := by
  have := ARun.cons h (.nil b)
  rwa [List.append_nil] at this

/-- A step that returns what was decided, or nothing. -/
theorem sim_ret {s s' : Sys V} {a : Atomic V} {l : Lbl V} (hs : Sim s a) (habs : s'.abs = s.abs)
    (hc : s'.calls = s.calls) (hd : s.dec.Perm (l.toList ++ s'.dec)) :
    ∃ a', ARun a (retOf l) a' ∧ Sim s' a' := by
  obtain ⟨m, cs, ds⟩ := a
  cases l with
  | none =>
    exact ⟨_, .nil _, ⟨hs.map.trans habs.symm, hs.calls.trans hc.symm, hs.done.trans hd⟩⟩
  | some r =>
    obtain ⟨id, r⟩ := r
    have hp : ds.Perm ((id, r) :: s'.dec) := hs.done.trans hd
    have hm : (id, r) ∈ ds := hp.mem_iff.mpr (List.mem_cons_self ..)
    obtain ⟨pre, post, rfl⟩ := List.append_of_mem hm
    refine ⟨⟨m, cs, pre ++ post⟩, .one (.ret ..), ⟨hs.map.trans habs.symm,
      hs.calls.trans hc.symm, ?_⟩⟩
    exact (List.perm_cons _).mp (List.perm_middle.symm.trans hp)

/-- A call that gets its first lock takes effect. -/
theorem sim_enter {t : Tree V} {top top' : Lock V} {a : Atomic V} {pre post : List (Nat × Op V)}
    {id : Nat} {op : Op V} (hs : Sim ⟨pre ++ (id, op) :: post, top, t⟩ a)
    (habs : Lock.apply (absN t.node) top' = (specStep (Lock.apply (absN t.node) top) op).1)
    (hres : Lock.results (absN t.node) top' =
      (id, (specStep (Lock.apply (absN t.node) top) op).2) :: Lock.results (absN t.node) top) :
    ∃ a', ARun a [] a' ∧ Sim ⟨pre ++ post, top', t⟩ a' := by
  obtain ⟨m, cs, ds⟩ := a
  have hm : m = Lock.apply (absN t.node) top := hs.map
  have hc : cs = pre ++ (id, op) :: post := hs.calls
  subst hm hc
  refine ⟨_, .one (.effect ..), ⟨habs.symm, rfl, ?_⟩⟩
  show (_ :: ds).Perm (Lock.results (absN t.node) top' ++ decN t.node)
  rw [hres]
  exact (List.perm_cons _).mpr hs.done

/-- Only the lock of the root pointer changes hands with that of the free root node. -/
theorem root_down {L : Limits} (hL : L.Ok) {calls : List (Nat × Op V)} {top lk : Lock V} {h : Nat}
    {n : Kids V h} (hi : Inv L ⟨calls, top, ⟨h, fresh n⟩⟩)
    (hlk : LockOk L (rootMin L h (.free : Lock V)) h 0 none n lk) (hnh : NotHeld lk) :
    Inv L ⟨calls, .free, ⟨h, ⟨lk, n⟩⟩⟩ :=
  ⟨trivial, hnh, ⟨Nat.le_trans (rootMin_least hL) hi.node.size, hlk,
    heldOk_of ((quiet_fresh n).notHeld hi.node), hi.node.chain⟩⟩

theorem sys_step {L : Limits} (hL : L.Ok) {seq : Bool} {s s' : Sys V} {es : List (Event V)}
    (hst : SysStep L seq s es s') (hi : Inv L s) :
    Inv L s' ∧ ∀ a, Sim s a → ∃ a', ARun a es a' ∧ Sim s' a' := by
  cases hst with
  | call id op =>
    refine ⟨⟨hi.top, hi.notHeld, hi.node⟩, fun a hs => ?_⟩
    obtain ⟨m, cs, ds⟩ := a
    exact ⟨_, .one (.call ..), ⟨hs.map, congrArg ((id, op) :: ·) hs.calls, hs.done⟩⟩
  | @enterExcl pre post id op w t hw =>
    cases op with
    | insert k v =>
      cases hw
      exact ⟨⟨trivial, hi.notHeld, hi.node.less (by cases t.h <;> exact Nat.le_refl _)⟩, fun a hs => sim_enter hs rfl rfl⟩
    | remove k =>
      cases hw
      exact ⟨⟨trivial, hi.notHeld, hi.node.less (by cases t.h <;> exact Nat.le_refl _)⟩, fun a hs => sim_enter hs rfl rfl⟩
    | visit =>
      cases hw
      exact ⟨⟨trivial, hi.notHeld, hi.node.less (by cases t.h <;> exact Nat.le_refl _)⟩, fun a hs => sim_enter hs rfl rfl⟩
    | get k => cases hw
    | lastKey => cases hw
  | @enterShared pre post id op r rs t hr =>
    have hnode : NodeOk L (rootMin L t.h (.shared (r :: rs) : Lock V)) t.h 0 none t.node :=
      hi.node.less (by cases t.h <;> exact Nat.le_refl _)
    cases op with
    | get k => cases hr; exact ⟨⟨trivial, hi.notHeld, hnode⟩, fun a hs => sim_enter hs rfl rfl⟩
    | lastKey => cases hr; exact ⟨⟨trivial, hi.notHeld, hnode⟩, fun a hs => sim_enter hs rfl rfl⟩
    | insert k v => cases hr
    | remove k => cases hr
    | visit => cases hr
  | @inside calls top h n n' l hst =>
    have hso := step_ok hL hst (fun hh => rootMin_pos hL hh) hi.node
    refine ⟨⟨hi.top, step_notHeld hst hi.notHeld, hso.ok⟩, fun a hs => ?_⟩
    refine sim_ret hs ?_ rfl ?_
    · show Lock.apply (absN n') top = Lock.apply (absN n) top
      rw [hso.abs]
    · show (Lock.results (absN n) top ++ decN n).Perm
        (l.toList ++ (Lock.results (absN n') top ++ decN n'))
      rw [hso.abs]
      refine (List.Perm.append_left _ hso.dec).trans ?_
      rw [← List.append_assoc, ← List.append_assoc]
      exact List.Perm.append_right _ List.perm_append_comm
  | @insertSplit calls id k v h n left right k' hss hsp =>
    obtain ⟨l, x, r, hsp', hnl, hl, hr⟩ := split_spec hL seq (shouldSplit_full hss)
    rw [hsp'] at hsp
    simp only [Option.some.injEq, Prod.mk.injEq] at hsp
    obtain ⟨rfl, rfl, rfl⟩ := hsp
    subst hnl
    have hmx : L.min h ≤ (l ++ x :: r).length := by simp only [List.length_append]; omega
    have hch : Chain (SubOk L (h + 1)) 0 none ([] ++ (0, fresh (l ++ x :: r)) :: []) :=
      ⟨Nat.le_refl _, trivial, subOk_iff.mpr
        (fresh_ok hmx ((quiet_fresh _).notHeld hi.node) hi.node.chain), trivial⟩
    have hsm := split_mid hL hl hr hch
    refine ⟨⟨trivial, trivial, ⟨?_, ⟨Nat.succ_ne_zero h, Nat.zero_le _, trivial⟩, heldOk_of ?_, hsm.1⟩⟩,
      fun a hs => ?_⟩
    · show 1 ≤ 2
      omega
    · intro e he
      simp only [List.mem_cons, List.not_mem_nil, or_false] at he
      rcases he with rfl | rfl <;> trivial
    · have h1 : absK (h + 1) [(0, fresh l), (x.1, fresh (x :: r))] = absN (fresh (l ++ x :: r)) := by
        refine (hsm.2.1).trans ?_
        rw [List.nil_append, absK_cons]
        simp [absK]
      have h2 : decK (h + 1) [(0, fresh l), (x.1, fresh (x :: r))] = decN (fresh (l ++ x :: r)) := by
        refine (hsm.2.2).trans ?_
        rw [List.nil_append, decK_cons]
        simp [decK]
      refine sim_ret (l := none) hs ?_ rfl ?_
      · show OMap.insert (absK (h + 1) [(0, fresh l), (x.1, fresh (x :: r))]) k v =
          OMap.insert (absN (fresh (l ++ x :: r))) k v
        rw [h1]
      · show (Lock.results _ _ ++ decN (fresh (l ++ x :: r))).Perm
          ([(id, Res.value (OMap.get (absK (h + 1) [(0, fresh l), (x.1, fresh (x :: r))]) k))] ++
            decK (h + 1) [(0, fresh l), (x.1, fresh (x :: r))])
        rw [h1, h2]
        exact List.Perm.refl _
  | @insertDown calls id k v h n hss =>
    refine ⟨root_down hL hi ⟨by omega, Nat.zero_le _, trivial⟩ trivial, fun a hs => ?_⟩
    exact sim_ret (l := none) hs rfl rfl (by
      show (Lock.results _ _ ++ decN (fresh n)).Perm (decN (⟨.excl (.insert id k v), n⟩ : Node V (h + 1)))
      rw [fresh_dec n (.excl _)])
  | @insertLeaf calls id k v n hss =>
    have hc : Chain (SubOk (V := V) L 0) 0 none (OMap.insert n k v) := by
      have hw := within_absK 0 hi.node.chain
      rw [absK_zero] at hw
      have hs := hw.2.insert k v
      suffices h : ∀ (m : OMap V) (lo : Nat), OMap.Sorted m → (∀ x ∈ m, lo ≤ x.1) →
          Chain (SubOk (V := V) L 0) lo none m from h _ 0 hs (by simp)
      intro m
      induction m with
      | nil => intro _ _ _; trivial
      | cons e es ih =>
        intro lo hs hlo
        refine ⟨hlo e (List.mem_cons_self ..), trivial, trivial, ih _ hs.tail ?_⟩
        intro x hx
        have : e.1 < x.1 := List.rel_of_pairwise_cons hs hx
        omega
    refine ⟨⟨trivial, trivial, fresh_ok (Nat.zero_le _) (fun _ _ => trivial) hc⟩, fun a hs => ?_⟩
    refine sim_ret (l := some (id, .value (OMap.get n k))) hs ?_ rfl ?_
    · show absN (fresh (OMap.insert n k v)) = OMap.insert (absN (fresh n)) k v
      simp only [absN, fresh, Lock.apply, absK_zero]
    · show (Lock.results (absN (fresh n)) _ ++ decN (fresh n)).Perm
        ([(id, .value (OMap.get n k))] ++ decN (fresh (OMap.insert n k v)))
      simp [absN, decN, fresh, Lock.apply, Lock.results, absK_zero, decK_zero]
  | @removeMerge calls id k h key c =>
    obtain ⟨h1, h2, h3, _⟩ := hi.node.chain
    have h3 : NodeOk L (L.min h) h key none c := subOk_iff.mp h3
    refine ⟨⟨trivial, ?_, (h3.wide (Nat.zero_le _) (fun _ h => h)).less (rootMin_le hL)⟩,
      fun a hs => ?_⟩
    · exact (quiet_fresh _).notHeld hi.node (key, c) (List.mem_cons_self ..)
    · have ha : absN (fresh [(key, c)] : Node V (h + 1)) = absN c := by
        show absK (h + 1) [(key, c)] = _
        rw [absK_cons]; simp [absK]
      have hd : decN (fresh [(key, c)] : Node V (h + 1)) = decN c := by
        show [] ++ decK (h + 1) [(key, c)] = _
        rw [decK_cons]; simp [decK]
      refine sim_ret (l := none) hs ?_ rfl ?_
      · show OMap.remove (absN c) k = OMap.remove (absN (fresh [(key, c)] : Node V (h + 1))) k
        rw [ha]
      · show ([(id, Res.value (OMap.get (absN (fresh [(key, c)] : Node V (h + 1))) k))] ++
          decN (fresh [(key, c)] : Node V (h + 1))).Perm
          ([(id, Res.value (OMap.get (absN c) k))] ++ decN c)
        rw [ha, hd]
  | @removeEmpty calls id k h =>
    have := hi.node.size
    have hp := rootMin_pos hL (h := h + 1) (top := (.excl (.remove id k) : Lock V)) (by omega)
    simp only [fresh, List.length_nil] at this
    omega
  | @removeDown calls id k h n hlen =>
    refine ⟨root_down hL hi ?_ trivial, fun a hs => ?_⟩
    · cases h with
      | zero => exact Or.inl rfl
      | succ h =>
        refine Or.inr ?_
        have : 2 ≤ n.length := by omega
        show 1 < n.length
        omega
    · exact sim_ret (l := none) hs rfl rfl (by
        show (Lock.results _ _ ++ decN (fresh n)).Perm (decN (⟨.excl (.remove id k), n⟩ : Node V h))
        rw [fresh_dec n (.excl _)])
  | @fixedDown calls id k h n =>
    refine ⟨root_down hL hi ?_ trivial, fun a hs => ?_⟩
    · cases h with
      | zero => exact Or.inl rfl
      | succ h =>
        refine Or.inr ?_
        have h1 : L.min (h + 1) ≤ n.length := hi.node.size
        have h2 := hL.int_two
        show 1 < n.length
        have h3 : L.min (h + 1) = L.minInt := rfl
        omega
    · exact sim_ret (l := none) hs rfl rfl (by
        show (Lock.results _ _ ++ decN (fresh n)).Perm (decN (⟨.excl (.remove id k), n⟩ : Node V h))
        rw [fresh_dec n (.excl _)]
        exact List.Perm.refl _)
  | @readDown calls r pre post rs h n _ =>
    have hk := notHeld_of hi.node.held (by simp)
    refine ⟨⟨trivial, trivial, ⟨?_, trivial, heldOk_of hk, hi.node.chain⟩⟩, fun a hs => ?_⟩
    · have := hi.node.size
      cases h with
      | zero => exact Nat.zero_le _
      | succ h => exact this
    · refine sim_ret (l := none) hs rfl rfl ?_
      show ((pre ++ r :: post).filterMap _ ++ decN _).Perm ((pre ++ post).filterMap _ ++ decN _)
      rw [filterMap_mid, List.filterMap_append]
      have hd : decN (⟨.shared (r :: rs), n⟩ : Node V h) =
          (r.result (absN (⟨.shared rs, n⟩ : Node V h))).toList ++
            decN (⟨.shared rs, n⟩ : Node V h) := by
        simp only [decN, Lock.results, filterMap_front, List.append_assoc]
        rfl
      rw [hd, List.append_assoc, List.append_assoc, List.append_assoc]
      exact List.Perm.append_left _ (perm_front _ _ _).symm
  | @visitDown calls id h n =>
    refine ⟨root_down hL hi trivial trivial, fun a hs => ?_⟩
    exact sim_ret (l := none) hs rfl rfl (by
      show (Lock.results _ _ ++ decN (fresh n)).Perm (decN (⟨.excl (.visit id), n⟩ : Node V (h + 1)))
      rw [fresh_dec n (.excl _)])
  | @visitDone calls id t =>
    refine ⟨⟨trivial, hi.notHeld, hi.node.less (rootMin_least hL)⟩, fun a hs => ?_⟩
    exact sim_ret (l := some (id, .unit)) hs rfl rfl (List.Perm.refl _)

theorem inv_empty (L : Limits) : Inv L (Sys.empty : Sys V) :=
  ⟨trivial, trivial, fresh_ok (Nat.zero_le _) (fun _ h => absurd h List.not_mem_nil) trivial⟩

theorem sim_empty : Sim (Sys.empty : Sys V) ⟨[], [], []⟩ := ⟨rfl, rfl, List.Perm.refl _⟩

theorem run_ok {L : Limits} (hL : L.Ok) {seq : Bool} {s s' : Sys V} {es : List (Event V)}
    (hr : Run L seq s es s') (hi : Inv L s) :
    Inv L s' ∧ ∀ a, Sim s a → ∃ a', ARun a es a' ∧ Sim s' a' := by
  induction hr with
  | nil s => exact ⟨hi, fun a hs => ⟨a, .nil _, hs⟩⟩
  | cons hst _ ih =>
    have h1 := sys_step hL hst hi
    have h2 := ih h1.1
    refine ⟨h2.1, fun a hs => ?_⟩
    obtain ⟨a1, r1, s1⟩ := h1.2 a hs
    obtain ⟨a2, r2, s2⟩ := h2.2 a1 s1
    exact ⟨a2, r1.append r2, s2⟩

/-! ## Nothing in progress -/

theorem idle_node : ∀ (h : Nat) (e : Nat × Sub V h), ¬ busy h e.2 →
    absOf h e = storedOf h e ∧ decOf h e = []
  | 0, _, _ => ⟨rfl, rfl⟩
  | h + 1, e, hb => by
    simp only [busy, not_or, not_exists, not_and, Classical.not_not] at hb
    have hk : absK h e.2.kids = e.2.kids.flatMap (storedOf h) := by
      unfold absK
      refine congrArg List.flatten (List.map_congr_left fun x hx => ?_)
      exact (idle_node h x (hb.2 x hx)).1
    have hd : decK h e.2.kids = [] := by
      unfold decK
      rw [List.flatMap_eq_nil_iff]
      exact fun x hx => (idle_node h x (hb.2 x hx)).2
    constructor
    · show Lock.apply (absK h e.2.kids) e.2.lock = _
      rw [hb.1, hk]; rfl
    · show Lock.results (absK h e.2.kids) e.2.lock ++ decK h e.2.kids = []
      rw [hb.1, hd]; rfl

theorem idle_sys {s : Sys V} (hb : ¬ s.Busy) : s.abs = s.stored ∧ s.dec = [] := by
  simp only [Sys.Busy, not_or, Classical.not_not] at hb
  have h := idle_node (s.tree.h + 1) (0, s.tree.node) hb.2
  have h1 : absN s.tree.node = s.stored := h.1
  have h2 : decN s.tree.node = [] := h.2
  unfold Sys.abs Sys.dec
  rw [hb.1, h1, h2]
  exact ⟨rfl, rfl⟩

/-! ## Progress -/

theorem progress {L : Limits} (hL : L.Ok) (seq : Bool) : ∀ (h : Nat) {a lo : Nat}
    {hi : Option Nat} (n : Node V h), (h ≠ 0 → 1 ≤ a) → NodeOk L a h lo hi n →
      busy (h + 1) n → NotHeld n.lock → ∃ l n', Step L seq h n l n' := by
  intro h
  induction h with
  | zero =>
    intro a lo hi n ha hn hb hnh
    obtain ⟨lk, kids⟩ := n
    have hl := hn.lock
    rcases hb with hb | ⟨e, _, hb⟩
    · cases lk with
      | shared rs =>
        cases rs with
        | nil => exact absurd rfl hb
        | cons r rs => exact ⟨_, _, .readLeaf (pre := []) (r := r) rfl⟩
      | excl w =>
        cases w with
        | insert id k v => exact absurd rfl hl.1
        | remove id k => exact ⟨_, _, .removeLeaf⟩
        | fix id k i =>
          obtain ⟨_, _, _, _, _, h4, _⟩ := hl
          simp [lockOf] at h4
        | fixed id k =>
          obtain ⟨_, _, _, _, h4⟩ := hl
          simp [lenOf] at h4
        | visit id => exact ⟨_, _, .visitDone⟩
        | held id => exact hnh.elim
    · exact hb.elim
  | succ h ih =>
    intro a lo hi n ha hn hb hnh
    obtain ⟨lk, kids⟩ := n
    by_cases hkid : ∃ e ∈ kids, busy (h + 1) e.2 ∧ NotHeld e.2.lock
    · obtain ⟨⟨key, c⟩, he, hbc, hnc⟩ := hkid
      obtain ⟨pre, post, rfl⟩ := List.append_of_mem he
      obtain ⟨h1, h2, h3, h4, h5⟩ := chain_mid (L := L) (h := h + 1).mp hn.chain
      obtain ⟨l, c', hs⟩ := ih c (fun _ => hL.min_pos h) (subOk_iff.mp h4) hbc hnc
      exact ⟨_, _, .deeper hs⟩
    · have hfree : ∀ e ∈ kids, NotHeld e.2.lock → e.2.lock = .free := by
        intro e he hne
        apply Classical.byContradiction
        intro hf
        exact hkid ⟨e, he, Or.inl hf, hne⟩
      have hget : ∀ i, i < kids.length → ∃ e, kids[i]? = some e :=
        fun i hi => ⟨kids[i], List.getElem?_eq_getElem hi⟩
      have hpos : 1 ≤ kids.length := Nat.le_trans (ha (by omega)) hn.size
      have hpl : ∀ k, position kids k < kids.length := by
        intro k
        obtain ⟨pre, e, post, h1, h2, _, _⟩ := Tree.position_spec hn.chain
          (show kids ≠ [] by rintro rfl; simp at hpos) k
        simp only at h1 h2
        rw [h2, h1]; simp
      by_cases hfix : ∃ id k i, lk = .excl (.fix id k i)
      · obtain ⟨id, k, i, rfl⟩ := hfix
        obtain ⟨hlen, hik, ck, c, hc1, hc2, hc3⟩ := hn.lock
        simp only at hlen hik hc1
        subst hik
        have hlen2 : 2 ≤ kids.length := by have := ha (by omega); omega
        obtain ⟨cs', hf⟩ := fixPair_total hL hn.chain hc1 hc3 hlen2
        have hpk := hpl k
        have hsl : sibling kids (position kids k) < kids.length ∧
            sibling kids (position kids k) ≠ position kids k := by
          unfold sibling; split <;> omega
        obtain ⟨⟨sk, sl, sn⟩, hs⟩ := hget _ hsl.1
        have hsf : sl = .free := by
          refine hfree (sk, ⟨sl, sn⟩) (List.mem_of_getElem? hs) ?_
          cases sl with
          | shared rs => trivial
          | excl w =>
            cases w with
            | held id' =>
              obtain ⟨_, hg⟩ := hn.held _ _ _ id' hs rfl
              simp only [Lock.excl.injEq, Work.fix.injEq] at hg
              exact absurd hg.2.2.symm hsl.2
            | _ => trivial
        subst hsf
        exact ⟨_, _, .fixPair hs hf⟩
      · have hnone := notHeld_of hn.held (fun id k j hl => hfix ⟨id, k, j, hl⟩)
        have hall : ∀ i, i < kids.length → ∃ key m, kids[i]? = some (key, fresh m) := by
          intro i hi
          obtain ⟨⟨key, cl, m⟩, he⟩ := hget i hi
          have hm := List.mem_of_getElem? he
          have := hfree _ hm (hnone _ hm)
          simp only at this
          subst this
          exact ⟨key, m, he⟩
        have hlk : lk ≠ .free := by
          rcases hb with hb | ⟨e, he, hb⟩
          · exact hb
          · intro _
            exact hkid ⟨e, he, hb, hnone e he⟩
        cases lk with
        | shared rs =>
          cases rs with
          | nil => exact absurd rfl hlk
          | cons r rs =>
            have : r.child kids < kids.length := by
              cases r with
              | get id k => exact hpl k
              | lastKey id => show kids.length - 1 < _; omega
              | scan id s e nk =>
                cases s with
                | incl k => exact hpl k
                | excl k => exact hpl k
                | unb => exact hpos
              | guard id s e nk => exact hpos
            obtain ⟨key, m, he⟩ := hall _ this
            exact ⟨_, _, .readDown (pre := []) rfl he⟩
        | excl w =>
          cases w with
          | insert id k v =>
            obtain ⟨key, m, he⟩ := hall _ (hpl k)
            cases hss : shouldSplit L h m k with
            | true =>
              obtain ⟨l, x, r, hsp, _, _, _⟩ := split_spec hL seq (shouldSplit_full hss)
              exact ⟨_, _, .insertSplit he hss hsp⟩
            | false =>
              cases h with
              | zero => exact ⟨_, _, .insertLeaf he hss⟩
              | succ h => exact ⟨_, _, .insertDown he hss⟩
          | remove id k =>
            obtain ⟨key, m, he⟩ := hall _ (hpl k)
            cases hdg : inDanger L h m with
            | true => exact ⟨_, _, .removeFix he hdg⟩
            | false => exact ⟨_, _, .removeDown he hdg⟩
          | fix id k i => exact absurd ⟨id, k, i, rfl⟩ hfix
          | fixed id k =>
            obtain ⟨key, m, he⟩ := hall _ (hpl k)
            exact ⟨_, _, .fixedDown he⟩
          | visit id => exact ⟨_, _, .visitDone⟩
          | held id => exact hnh.elim

/-- As long as someone holds a lock, someone who does can go on. -/
theorem sys_progress {L : Limits} (hL : L.Ok) (seq : Bool) {s : Sys V} (hi : Inv L s)
    (hb : s.Busy) : ∃ es s', SysStep L seq s es s' ∧ s'.calls = s.calls ∧
      ∀ id op, Event.call id op ∉ es := by
  obtain ⟨calls, top, h, n⟩ := s
  have hret : ∀ (l : Lbl V) id op, Event.call id op ∉ retOf l := by
    intro l id op
    cases l <;> simp [retOf]
  by_cases hbn : busy (h + 1) n
  · obtain ⟨l, n', hs⟩ := progress hL seq h n (fun hh => rootMin_pos hL hh) hi.node hbn hi.notHeld
    exact ⟨_, _, .inside hs, rfl, hret l⟩
  · have htop : top ≠ .free := by
      rcases hb with hb | hb
      · exact hb
      · exact absurd hb hbn
    obtain ⟨lk, n⟩ := n
    have hfree : lk = .free := Classical.byContradiction fun hf => hbn (Or.inl hf)
    subst hfree
    have ht := hi.top
    cases top with
    | shared rs =>
      cases rs with
      | nil => exact absurd rfl htop
      | cons r rs => exact ⟨_, _, .readDown (pre := []) rfl, rfl, by simp⟩
    | excl w =>
      cases w with
      | insert id k v =>
        cases hss : shouldSplit L h n k with
        | true =>
          obtain ⟨l, x, r, hsp, _, _, _⟩ := split_spec hL seq (shouldSplit_full hss)
          exact ⟨_, _, .insertSplit hss hsp, rfl, by simp⟩
        | false =>
          cases h with
          | zero => exact ⟨_, _, .insertLeaf hss, rfl, by simp⟩
          | succ h => exact ⟨_, _, .insertDown hss, rfl, by simp⟩
      | remove id k =>
        cases h with
        | zero => exact ⟨_, _, .removeDown (Or.inl rfl), rfl, by simp⟩
        | succ h =>
          match n with
          | [] => exact ⟨_, _, .removeEmpty, rfl, by simp⟩
          | [(key, c)] => exact ⟨_, _, .removeMerge, rfl, by simp⟩
          | _ :: _ :: _ => exact ⟨_, _, .removeDown (Or.inr (by simp)), rfl, by simp⟩
      | fix id k i => exact ht.elim
      | fixed id k => exact ⟨_, _, .fixedDown, rfl, by simp⟩
      | visit id => exact ⟨_, _, .visitDone, rfl, by simp⟩
      | held id => exact ht.elim

end Verif.Conc
