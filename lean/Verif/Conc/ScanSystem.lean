import Verif.Conc.ScanDown

/-!
# The system with range queries, simulated by the atomic map with copies
-/

namespace Verif.Conc

open Verif
open Verif.Tree (Limits position firstKey Chain Below nextKey Bnd inRange startOk stopOk
  btreeRangePanics)

variable {V : Type}

structure XInv (L : Limits) (C : Copies V) (s : XSys V) : Prop where
  inv : Inv L s.sys
  top : LockReads C (absN s.sys.tree.node) s.sys.top
  all : AllOk C (s.sys.tree.h + 1) s.sys.tree.node
  used : ∀ id, id ∈ s.used ↔ C id ≠ none

theorem XARun.append {a b c : XAtomic V} {es es' : List (XEvent V)} (h1 : XARun a es b)
    (h2 : XARun b es' c) : XARun a (es ++ es') c := by
  induction h1 with
  | nil => exact h2
  | cons h1 _ ih => rw [List.append_assoc]; exact .cons h1 (ih h2)

theorem XARun.one {a b : XAtomic V} {es : List (XEvent V)} (h : XAStep a es b) : XARun a es b := by
  have := XARun.cons h (.nil b)
  rwa [List.append_nil] at this

theorem ARun.lift {a a' : Atomic V} {es : List (Event V)} (h : ARun a es a') (C : Copies V) :
    XARun ⟨a, C⟩ (es.map .base) ⟨a', C⟩ := by
  induction h with
  | nil => exact .nil _
  | cons h1 _ ih => rw [List.map_append]; exact .cons (.base C h1) ih

/-- The other tasks do not disturb the queries. -/
theorem base_reads {L : Limits} (hL : L.Ok) {seq : Bool} {C : Copies V} {s s' : Sys V}
    {es : List (Event V)} (hst : SysStepOf Read.plain L seq s es s') (hi : Inv L s)
    (ht : LockReads C (absN s.tree.node) s.top) (ha : AllOk C (s.tree.h + 1) s.tree.node) :
    LockReads C (absN s'.tree.node) s'.top ∧ AllOk C (s'.tree.h + 1) s'.tree.node := by
  cases hst with
  | call id op => exact ⟨ht, ha⟩
  | enterExcl _ => exact ⟨lockReads_excl _, ha⟩
  | @enterShared pre post id op r rs t hr =>
    refine ⟨lockReads_cons ht (plain_ok ?_), ha⟩
    cases op <;> cases hr <;> rfl
  | @inside calls top h n n' l hst =>
    have hso := step_ok hL hst.any (fun hh => rootMin_pos hL hh) hi.node
    refine ⟨?_, all_step hL hst (fun hh => rootMin_pos hL hh) hi.node ha⟩
    show LockReads C (absN n') top
    rw [hso.abs]
    exact ht
  | @insertSplit calls id k v h n left right k' hss hsp =>
    obtain ⟨l, x, r, hsp', hnl, hl, hr⟩ := split_spec hL seq (shouldSplit_full hss)
    rw [hsp'] at hsp
    simp only [Option.some.injEq, Prod.mk.injEq] at hsp
    obtain ⟨rfl, rfl, rfl⟩ := hsp
    subst hnl
    refine ⟨lockReads_free, all_excl (h := h + 1) fun e he => ?_⟩
    simp only [List.mem_cons, List.not_mem_nil, or_false] at he
    rcases he with rfl | rfl
    · exact all_fresh fun y hy => ha.2 y (List.mem_append.mpr (Or.inl hy))
    · exact all_fresh fun y hy => ha.2 y (List.mem_append.mpr (Or.inr hy))
  | insertDown _ => exact ⟨lockReads_free, all_excl ha.2⟩
  | insertLeaf _ => exact ⟨lockReads_free, all_fresh fun _ _ => trivial⟩
  | @removeMerge calls id k h key c =>
    exact ⟨lockReads_excl _, ha.2 (key, c) (List.mem_cons_self ..)⟩
  | removeEmpty => exact ⟨lockReads_excl _, all_fresh fun _ h => absurd h List.not_mem_nil⟩
  | removeDown _ => exact ⟨lockReads_free, all_excl ha.2⟩
  | fixedDown => exact ⟨lockReads_free, all_excl ha.2⟩
  | readDown hr =>
    exact ⟨lockReads_sub ht (by simp; grind), ⟨lockReads_cons ha.1 (plain_ok hr), ha.2⟩⟩
  | visitDown => exact ⟨lockReads_free, all_excl ha.2⟩
  | visitDone => exact ⟨lockReads_free, ha⟩

/-- The rest of the system after a node of the tree changed and nobody noticed. -/
theorem sim_same {L : Limits} {C : Copies V} {calls : List (Nat × Op V)} {top : Lock V} {h : Nat}
    {n n' : Node V h} {used : List Nat} {a : Atomic V}
    (hi : XInv L C ⟨⟨calls, top, ⟨h, n⟩⟩, used⟩) (hs : Sim ⟨calls, top, ⟨h, n⟩⟩ a)
    (hok : NodeOk L (rootMin L h top) h 0 none n') (hnh : NotHeld n'.lock)
    (habs : absN n' = absN n) (hdec : decN n' = decN n) (hall : AllOk C (h + 1) n') :
    XInv L C ⟨⟨calls, top, ⟨h, n'⟩⟩, used⟩ ∧ Sim ⟨calls, top, ⟨h, n'⟩⟩ a := by
  refine ⟨⟨⟨hi.inv.top, hnh, hok⟩, ?_, hall, hi.used⟩, ⟨?_, hs.calls, ?_⟩⟩
  · show LockReads C (absN n') top
    rw [habs]
    exact hi.top
  · refine hs.map.trans ?_
    show Lock.apply (absN n) top = Lock.apply (absN n') top
    rw [habs]
  · refine hs.done.trans ?_
    show (Lock.results (absN n) top ++ decN n).Perm (Lock.results (absN n') top ++ decN n')
    rw [habs, hdec]

theorem notHeld_map {f : List Read → List Read} {h : Nat} {n : Node V h} (hn : NotHeld n.lock) :
    NotHeld (mapReads f (h + 1) n : Node V h).lock := by
  show NotHeld (n.lock.mapReads f)
  cases hl : n.lock with
  | shared rs => trivial
  | excl w => rw [hl] at hn; exact hn

theorem xsys_step {L : Limits} (hL : L.Ok) {seq : Bool} {s s' : XSys V} {es : List (XEvent V)}
    (hst : XStep L seq s es s') {a : XAtomic V} (hi : XInv L a.copies s) (hs : Sim s.sys a.atom) :
    ∃ a', XARun a es a' ∧ XInv L a'.copies s' ∧ Sim s'.sys a'.atom := by
  obtain ⟨a, C⟩ := a
  simp only at hi hs
  cases hst with
  | @base s s' used es hst =>
    have h1 := sys_step hL hst.any hi.inv
    have h2 := base_reads hL hst hi.inv hi.top hi.all
    obtain ⟨a', r, hs'⟩ := h1.2 a hs
    exact ⟨⟨a', C⟩, r.lift C, ⟨h1.1, h2.1, h2.2, hi.used⟩, hs'⟩
  | @scan calls rs t used id s e hid hp =>
    have hnone : C id = none := by
      cases hc : C id with
      | none => rfl
      | some x => exact absurd ((hi.used id).mpr (by simp [hc])) hid
    refine ⟨⟨a, fun i => if i = id then some (s, e, a.map) else C i⟩, .one (.scan a C id s e hnone),
      ?_, ⟨hs.map, hs.calls, hs.done⟩⟩
    have hx : ∀ i x, C i = some x → (if i = id then some (s, e, a.map) else C i) = some x := by
      intro i x hix
      split
      · next h => subst h; rw [hnone] at hix; cases hix
      · exact hix
    have hnode : NodeOk L (rootMin L t.h (.shared (.scan id s e none :: rs) : Lock V)) t.h 0 none
        t.node := hi.inv.node.less (by cases t.h <;> exact Nat.le_refl _)
    have hm : a.map = absN t.node := hs.map
    refine ⟨⟨trivial, hi.inv.notHeld, hnode⟩, ?_, all_ext hx _ hi.all, ?_⟩
    · refine lockReads_cons (fun rs' he r hr => readOk_ext hx (hi.top rs' he r hr)) ?_
      refine ⟨a.map, [], [], by simp, ?_, hp, by simp [hm], by simp, Or.inl (by simp)⟩
      rw [hm]
      exact hi.inv.node.within.2
    · intro i
      by_cases hii : i = id
      · simp [hii]
      · simpa [hii] using hi.used i
  | @root calls pre post rs used id s e h n =>
    have hk := notHeld_of hi.inv.node.held (by simp)
    refine ⟨⟨a, C⟩, .nil _, ⟨⟨trivial, trivial, ⟨?_, trivial, heldOk_of hk, hi.inv.node.chain⟩⟩, ?_, ?_,
      hi.used⟩, ⟨hs.map, hs.calls, ?_⟩⟩
    · have := hi.inv.node.size
      cases h with
      | zero => exact Nat.zero_le _
      | succ h => exact this
    · exact lockReads_sub hi.top (by simp; grind)
    · exact ⟨lockReads_cons hi.all.1 (hi.top _ rfl _ (by simp)), hi.all.2⟩
    · refine hs.done.trans ?_
      show ((pre ++ Read.scan id s e none :: post).filterMap _ ++ decN _).Perm
        ((pre ++ post).filterMap _ ++ decN _)
      rw [dec_scan rfl, List.filterMap_append, List.filterMap_append, List.filterMap_cons]
      exact List.Perm.refl _
  | @down calls top h id n n' used hst =>
    have hso := scan_step hL hst hi.inv.node hi.all
    exact ⟨⟨a, C⟩, .nil _, sim_same hi hs hso.ok (scan_notHeld hst hi.inv.notHeld) hso.abs hso.dec
      hso.all⟩
  | @release calls top h id n n' used hst _ =>
    have hso := scan_step hL hst hi.inv.node hi.all
    exact ⟨⟨a, C⟩, .nil _, sim_same hi hs (nodeOk_map (goodMap_drop id) hso.ok)
      (notHeld_map (scan_notHeld hst hi.inv.notHeld)) ((absN_map n').trans hso.abs)
      ((decN_map (goodMap_drop id) n').trans hso.dec) (all_drop id _ hso.all)⟩
  | @swap calls top h id n n' used hst =>
    have hso := scan_step hL hst (nodeOk_map (goodMap_drop id) hi.inv.node) (all_drop id _ hi.all)
    exact ⟨⟨a, C⟩, .nil _, sim_same hi hs hso.ok (scan_notHeld hst (notHeld_map hi.inv.notHeld))
      (hso.abs.trans (absN_map n)) (hso.dec.trans (decN_map (goodMap_drop id) n)) hso.all⟩
  | @goto calls top h id key s e n n' used hst =>
    have hso := scan_step hL hst hi.inv.node hi.all
    obtain ⟨M, hC, hM⟩ := hso.lbl
    exact ⟨⟨a, C⟩, .nil _, sim_same hi hs (nodeOk_map (goodMap_wake id s e key) hso.ok)
      (notHeld_map (scan_notHeld hst hi.inv.notHeld)) ((absN_map n').trans hso.abs)
      ((decN_map (goodMap_wake id s e key) n').trans hso.dec) (all_wake hC hM _ hso.all)⟩
  | @ret calls top h id v b n n' used hst =>
    have hso := scan_step hL hst hi.inv.node hi.all
    obtain ⟨s, e, M, hC, hP⟩ := hso.lbl
    exact ⟨⟨a, C⟩, .one (.chunk a C id s e M v b hC hP),
      sim_same hi hs (nodeOk_map (goodMap_drop id) hso.ok)
      (notHeld_map (scan_notHeld hst hi.inv.notHeld)) ((absN_map n').trans hso.abs)
      ((decN_map (goodMap_drop id) n').trans hso.dec) (all_drop id _ hso.all)⟩

theorem xinv_empty (L : Limits) : XInv L (fun _ => none) (XSys.empty : XSys V) :=
  ⟨inv_empty L, lockReads_free, all_fresh fun _ h => absurd h List.not_mem_nil,
    fun id => ⟨fun h => absurd h List.not_mem_nil, fun h => absurd rfl h⟩⟩

theorem xrun_ok {L : Limits} (hL : L.Ok) {seq : Bool} {s s' : XSys V} {es : List (XEvent V)}
    (hr : XRun L seq s es s') : ∀ {a : XAtomic V}, XInv L a.copies s → Sim s.sys a.atom →
      ∃ a', XARun a es a' ∧ XInv L a'.copies s' ∧ Sim s'.sys a'.atom := by
  induction hr with
  | nil s => exact fun hi hs => ⟨_, .nil _, hi, hs⟩
  | cons hst _ ih =>
    intro a hi hs
    obtain ⟨a1, r1, i1, s1⟩ := xsys_step hL hst hi hs
    obtain ⟨a2, r2, i2, s2⟩ := ih i1 s1
    exact ⟨a2, r1.append r2, i2, s2⟩

end Verif.Conc
