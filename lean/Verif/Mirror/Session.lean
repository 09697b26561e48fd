import Verif.Mirror.Lemmas

/-!
# Mirrors: histories of sessions

A pool is imported, synced some number of times, and exported or lost, again and again,
each time with whatever devices happen to be there.  This file models what that does to the
labels of a mirror's devices and to which device holds which version of the data.
-/

namespace Verif.Mirror

/-- A device between and during sessions: the transaction group and list of children in
its newest label (`vdev_block.rs:1100-1114`, `mirror.rs:825-846`), if it has one, and how
many of the pool's syncs its contents reflect.  `ver` is a history variable; the code has
no such thing. -/
structure Dev where
  lab : Option (Nat × List Nat)
  ver : Nat

/-- All devices, the number of syncs so far, and the current session: its mirror, the
transaction group of its next sync, and the number of its syncs. -/
structure World where
  dev : Nat → Dev
  ver : Nat
  m : Mirror
  txg : Nat
  nsync : Nat

/-- The uuids of a mirror's children. -/
def uuids (m : Mirror) : List Nat := m.map Child.uuid

/-- The uuids of the children in a given state. -/
def inState (m : Mirror) (s : St) : List Nat := uuids (m.filter fun c => decide (c.st = s))

/-- The devices among `avail` that have a label, as `Mirror::open` sees them.  All devices
have the same geometry. -/
def leaves (w : World) (avail : List Nat) : List Leaf :=
  avail.filterMap fun u => (w.dev u).lab.map fun p => ⟨u, 0, 0, p.1, p.2⟩

/-- A pool just created (`mirror.rs:382-395`) on the devices `us` and synced once, in
transaction group 0 (`idml.rs:248-260`, `database.rs:721-769`). -/
def createdPool (us : List Nat) : World where
  dev u := if u ∈ us then ⟨some (0, us), 1⟩ else ⟨none, 0⟩
  ver := 1
  m := us.map fun u => ⟨u, .present, 0, 0⟩
  txg := 1
  nsync := 0

/-- A sync: `database.rs:721-769` writes everything that changed and then the labels, with
the current transaction group, to the present children (`mirror.rs:263-270`);
`idml.rs:472-486` (`advance_transaction`) then increments the transaction group. -/
def World.sync (w : World) : World where
  dev u := if u ∈ inState w.m .present then ⟨some (w.txg, uuids w.m), w.ver + 1⟩ else w.dev u
  ver := w.ver + 1
  m := w.m
  txg := w.txg + 1
  nsync := w.nsync + 1

/-- Faulting a child: `mirror.rs:416-424`. -/
def World.fault (w : World) (u : Nat) : World :=
  { w with m := ((Mirror.fault w.m u).toOption).getD w.m }

/-- Returning a faulted child to service: `mirror.rs:742-750`. -/
def World.rebuild (w : World) (u : Nat) : World :=
  { w with m := ((Mirror.rebuild w.m u).toOption).getD w.m }

/-- The end of a rebuild: `ddml.rs:120-139` (`MirrorRepairTask::finalize`) and
`mirror.rs:758-764`.  Assumed here: the repair has brought the contents of the rebuilding
children up to date.  Labels written while a repair is under way are not modelled. -/
def World.restore (w : World) (m' : Mirror) : World :=
  { w with
    dev := fun u => if u ∈ inState w.m .rebuilding then { w.dev u with ver := w.ver } else w.dev u
    m := m' }

/-- Attaching a new device: `mirror.rs:350-369`. -/
def World.attach (w : World) (u : Nat) (m' : Mirror) : World :=
  { w with dev := fun v => if v = u then ⟨none, 0⟩ else w.dev v, m := m' }

/-- The session ends, by export or by a crash between syncs, and the pool is imported from
the devices `avail`: `mirror.rs:498-533`; the transaction group is the one in the label
(`idml.rs:353`).  The device whose label was used is returned too. -/
def World.reopen (w : World) (avail : List Nat) : Option (World × Nat) :=
  match openMirror (leaves w avail) with
  | some (.ok (m', l)) => some ({ w with m := m', txg := l.txg, nsync := 0 }, l.uuid)
  | _ => none

/-- Histories in which device `a` is never missing and never faulted, and no session ends
after exactly one sync. -/
inductive Hist (a : Nat) : World → Prop
  | created (us : List Nat) (ha : a ∈ us) : Hist a (createdPool us)
  | sync {w : World} (h : Hist a w) : Hist a w.sync
  | fault {w : World} (h : Hist a w) (u : Nat) (hu : u ≠ a) : Hist a (w.fault u)
  | rebuild {w : World} (h : Hist a w) (u : Nat) : Hist a (w.rebuild u)
  | restore {w : World} (h : Hist a w) {m' : Mirror} (hr : Mirror.restore w.m = some m') :
      Hist a (w.restore m')
  | attach {w : World} (h : Hist a w) {u : Nat} {m' : Mirror}
      (hl : (w.dev u).lab = none) (hu : u ∉ uuids w.m)
      (hr : Mirror.attach w.m u 0 0 = some (.ok m')) : Hist a (w.attach u m')
  | reopen {w w' : World} (h : Hist a w) {avail : List Nat} {l : Nat} (ha : a ∈ avail)
      (hn : w.nsync ≠ 1) (hr : w.reopen avail = some (w', l)) : Hist a w'

/-! ### The invariant -/

structure WInv (a : Nat) (w : World) (ta : Nat) : Prop where
  lab : ∃ cs, (w.dev a).lab = some (ta, cs)
  cur : (w.dev a).ver = w.ver
  le : ∀ u t cs, (w.dev u).lab = some (t, cs) → t ≤ ta
  eq : ∀ u cs, (w.dev u).lab = some (ta, cs) → (w.dev u).ver = w.ver ∨ w.nsync = 1
  mem : ∀ u t cs, (w.dev u).lab = some (t, cs) → a ∈ cs
  inM : a ∈ uuids w.m
  pres : ∀ c ∈ w.m, c.uuid = a → c.st = .present
  ok : ∀ c ∈ w.m, c.st = .present → (w.dev c.uuid).ver = w.ver
  txg : ta ≤ w.txg
  txg' : w.nsync ≠ 0 → ta < w.txg

theorem mem_inState {m : Mirror} {s : St} {u : Nat} :
    u ∈ inState m s ↔ ∃ c ∈ m, c.uuid = u ∧ c.st = s := by
  unfold inState uuids
  simp only [List.mem_map, List.mem_filter, decide_eq_true_eq]
  constructor
  · rintro ⟨c, ⟨h1, h2⟩, h3⟩; exact ⟨c, h1, h3, h2⟩
  · rintro ⟨c, h1, h2, h3⟩; exact ⟨c, ⟨h1, h3⟩, h2⟩

theorem updFirst_mem {f : Child → Child} {u : Nat} {m m' : Mirror} (h : updFirst f u m = some m')
    {c' : Child} (hc : c' ∈ m') : c' ∈ m ∨ ∃ c ∈ m, c.uuid = u ∧ c' = f c := by
  obtain ⟨i, hi⟩ := List.getElem?_of_mem hc
  rcases updFirst_at h i with h1 | ⟨c, h1, h2, h3⟩
  · exact Or.inl (List.mem_of_getElem? (h1.symm.trans hi))
  · rw [hi] at h3
    exact Or.inr ⟨c, List.mem_of_getElem? h1, h2, by simpa using h3⟩

theorem updFirst_uuids {f : Child → Child} (hf : ∀ c, (f c).uuid = c.uuid) {u : Nat} {m m' : Mirror}
    (h : updFirst f u m = some m') : uuids m' = uuids m := by
  induction m generalizing m' with
  | nil => simp [updFirst] at h
  | cons c m ih =>
    unfold updFirst at h
    split at h
    · simp only [Option.some.injEq] at h
      subst h
      simp [uuids, hf]
    · obtain ⟨m1, h1, rfl⟩ := Option.map_eq_some_iff.mp h
      have := ih h1
      simp only [uuids, List.map_cons] at this ⊢
      rw [this]

theorem foldl_max (ls : List Leaf) (x : Nat) :
    x ≤ ls.foldl (fun a l => max a l.txg) x ∧
    (∀ l ∈ ls, l.txg ≤ ls.foldl (fun a l => max a l.txg) x) ∧
    ∀ y, x ≤ y → (∀ l ∈ ls, l.txg ≤ y) → ls.foldl (fun a l => max a l.txg) x ≤ y := by
  induction ls generalizing x with
  | nil => exact ⟨Nat.le_refl _, by simp, fun y h _ => h⟩
  | cons l ls ih =>
    obtain ⟨h1, h2, h3⟩ := ih (max x l.txg)
    simp only [List.foldl_cons]
    refine ⟨by omega, ?_, ?_⟩
    · intro l' hl
      rcases List.mem_cons.mp hl with rfl | hl
      · omega
      · exact h2 l' hl
    · intro y hy hl
      refine h3 y ?_ fun l' hl' => hl l' (List.mem_cons_of_mem _ hl')
      have := hl l List.mem_cons_self
      omega

theorem mem_leaves {w : World} {avail : List Nat} {l : Leaf} (h : l ∈ leaves w avail) :
    l.uuid ∈ avail ∧ (w.dev l.uuid).lab = some (l.txg, l.children) := by
  unfold leaves at h
  obtain ⟨u, hu, h⟩ := List.mem_filterMap.mp h
  obtain ⟨p, hp, rfl⟩ := Option.map_eq_some_iff.mp h
  exact ⟨hu, hp⟩

theorem new_ok {cs m : List Child} (h : new cs = some (.ok m)) : m = cs := by
  unfold new at h
  split at h
  · simp at h
  · simp only at h
    split at h
    · split at h
      · simp at h
      · split at h
        · simpa using h.symm
        · simp at h
    · simp at h

theorem openMirror_ok {ls : List Leaf} {m : Mirror} {l : Leaf}
    (h : openMirror ls = some (.ok (m, l))) :
    l ∈ ls ∧ l.txg = highestTxg ls ∧ m = l.children.map (openChild ls) := by
  unfold openMirror at h
  split at h
  · simp at h
  · rename_i l' hl
    split at h
    · simp at h
    · simp at h
    · rename_i m' hm
      simp only [Option.some.injEq, Except.ok.injEq, Prod.mk.injEq] at h
      obtain ⟨rfl, rfl⟩ := h
      unfold labelLeaf at hl
      exact ⟨List.mem_of_find?_eq_some hl, by simpa using List.find?_some hl, new_ok hm⟩

theorem openChild_uuid (ls : List Leaf) (u : Nat) : (openChild ls u).uuid = u := by
  unfold openChild
  split
  · split <;> rfl
  · rfl

theorem openChild_present {ls : List Leaf} {u : Nat} (h : (openChild ls u).st = .present) :
    ∃ l ∈ ls, l.uuid = u ∧ l.txg = highestTxg ls := by
  unfold openChild at h
  split at h
  · rename_i l hl
    split at h
    · rename_i ht
      exact ⟨l, List.mem_of_find?_eq_some hl, by simpa using List.find?_some hl, ht⟩
    · simp at h
  · simp at h

theorem openChild_of_all {ls : List Leaf} {u : Nat} (h1 : ∃ l ∈ ls, l.uuid = u)
    (h2 : ∀ l ∈ ls, l.uuid = u → l.txg = highestTxg ls) : (openChild ls u).st = .present := by
  unfold openChild
  split
  · rename_i l hl
    rw [if_pos (h2 l (List.mem_of_find?_eq_some hl) (by simpa using List.find?_some hl))]
  · rename_i hl
    obtain ⟨l, hm, hu⟩ := h1
    have := List.find?_eq_none.mp hl l hm
    simp [hu] at this

theorem WInv.reopen_facts {a : Nat} {w w' : World} {ta : Nat} (hi : WInv a w ta)
    {avail : List Nat} {l : Nat} (ha : a ∈ avail) (hr : w.reopen avail = some (w', l)) :
    (∃ cs, (w.dev l).lab = some (ta, cs) ∧ a ∈ cs ∧
      w' = { w with m := cs.map (openChild (leaves w avail)), txg := ta, nsync := 0 }) ∧
    highestTxg (leaves w avail) = ta := by
  unfold World.reopen at hr
  split at hr
  · rename_i m' lf ho
    simp only [Option.some.injEq, Prod.mk.injEq] at hr
    obtain ⟨rfl, rfl⟩ := hr
    obtain ⟨h1, h2, rfl⟩ := openMirror_ok ho
    have hh : highestTxg (leaves w avail) = ta := by
      obtain ⟨cs, hla⟩ := hi.lab
      obtain ⟨-, f2, f3⟩ := foldl_max (leaves w avail) 0
      apply Nat.le_antisymm
      · refine f3 ta (Nat.zero_le _) fun lf' hlf => ?_
        exact hi.le _ _ _ (mem_leaves hlf).2
      · refine f2 ⟨a, 0, 0, ta, cs⟩ ?_
        unfold leaves
        exact List.mem_filterMap.mpr ⟨a, ha, by rw [hla]; rfl⟩
    obtain ⟨-, hl⟩ := mem_leaves h1
    rw [h2, hh] at hl
    refine ⟨⟨lf.children, hl, hi.mem _ _ _ hl, ?_⟩, hh⟩
    rw [h2, hh]
  · simp at hr

theorem WInv.upd {a : Nat} {w : World} {ta : Nat} (hi : WInv a w ta) {f : Child → Child}
    {u : Nat} (hfu : ∀ c, (f c).uuid = c.uuid)
    (ha : ∀ c, c.uuid = u → c.uuid = a → c.st = .present → (f c).st = .present)
    (hp : ∀ c, (f c).st = .present → c.st = .present)
    {m' : Mirror} (h : updFirst f u w.m = some m') : WInv a { w with m := m' } ta where
  lab := hi.lab
  cur := hi.cur
  le := hi.le
  eq := hi.eq
  mem := hi.mem
  inM := by
    show a ∈ uuids m'
    rw [updFirst_uuids hfu h]; exact hi.inM
  pres := by
    intro c' hc' hca
    rcases updFirst_mem h hc' with hm | ⟨c, hm, hu, rfl⟩
    · exact hi.pres c' hm hca
    · rw [hfu] at hca
      exact ha c hu hca (hi.pres c hm hca)
  ok := by
    intro c' hc' hs
    rcases updFirst_mem h hc' with hm | ⟨c, hm, hu, rfl⟩
    · exact hi.ok c' hm hs
    · rw [hfu]; exact hi.ok c hm (hp c hs)
  txg := hi.txg
  txg' := hi.txg'

theorem fault_uuid (c : Child) : c.fault.uuid = c.uuid := by unfold Child.fault; split <;> rfl
theorem rebuild_uuid (c : Child) : c.rebuild.uuid = c.uuid := by unfold Child.rebuild; split <;> rfl

theorem fault_not_present (c : Child) : c.fault.st ≠ .present := by
  unfold Child.fault; split <;> simp

theorem rebuild_present {c : Child} : c.rebuild.st = .present ↔ c.st = .present := by
  unfold Child.rebuild; split <;> simp_all

theorem Hist.inv {a : Nat} {w : World} (h : Hist a w) : ∃ ta, WInv a w ta := by
  induction h with
  | created us ha =>
    refine ⟨0, ?_⟩
    have hd : ∀ u, ((createdPool us).dev u) = if u ∈ us then ⟨some (0, us), 1⟩ else ⟨none, 0⟩ := fun _ => rfl
    have hlab : ∀ u t cs, ((createdPool us).dev u).lab = some (t, cs) → u ∈ us ∧ t = 0 ∧ cs = us := by
      intro u t cs h
      rw [hd] at h
      split at h
      · rename_i hu
        simp only [Option.some.injEq, Prod.mk.injEq] at h
        exact ⟨hu, h.1.symm, h.2.symm⟩
      · simp at h
    have hmem : ∀ c ∈ (createdPool us).m, c.uuid ∈ us ∧ c.st = .present := by
      intro c hc
      obtain ⟨u, hu, rfl⟩ := List.mem_map.mp hc
      exact ⟨hu, rfl⟩
    constructor
    · exact ⟨us, by rw [hd, if_pos ha]⟩
    · rw [hd, if_pos ha]; rfl
    · intro u t cs h; have := (hlab u t cs h).2.1; omega
    · intro u cs h; left; rw [hd, if_pos (hlab u _ cs h).1]; rfl
    · intro u t cs h; rw [(hlab u t cs h).2.2]; exact ha
    · show a ∈ uuids (us.map fun u => (⟨u, .present, 0, 0⟩ : Child))
      simp [uuids, ha]
    · intro c hc _; exact (hmem c hc).2
    · intro c hc _; rw [hd, if_pos (hmem c hc).1]; rfl
    · exact Nat.zero_le _
    · intro h; exact absurd rfl h
  | @sync w h ih =>
    obtain ⟨ta, hi⟩ := ih
    refine ⟨w.txg, ?_⟩
    have hd : ∀ u, w.sync.dev u = if u ∈ inState w.m .present then ⟨some (w.txg, uuids w.m), w.ver + 1⟩
        else w.dev u := fun _ => rfl
    have hap : a ∈ inState w.m .present := by
      rw [mem_inState]
      obtain ⟨c, hc, hca⟩ := List.mem_map.mp hi.inM
      exact ⟨c, hc, hca, hi.pres c hc hca⟩
    constructor
    · exact ⟨uuids w.m, by rw [hd, if_pos hap]⟩
    · rw [hd, if_pos hap]; rfl
    · intro u t cs h
      rw [hd] at h
      split at h
      · simp only [Option.some.injEq, Prod.mk.injEq] at h; omega
      · have := hi.le u t cs h; have := hi.txg; omega
    · intro u cs h
      rw [hd] at h ⊢
      split at h
      · rename_i hu
        left; rw [if_pos hu]; rfl
      · right
        have h1 := hi.le u _ cs h
        have h2 := hi.txg'
        show w.nsync + 1 = 1
        have h3 : ¬w.nsync ≠ 0 := fun h0 => by have := h2 h0; omega
        omega
    · intro u t cs h
      rw [hd] at h
      split at h
      · simp only [Option.some.injEq, Prod.mk.injEq] at h
        rw [← h.2]; exact hi.inM
      · exact hi.mem u t cs h
    · exact hi.inM
    · exact hi.pres
    · intro c hc hs
      have hp : c.uuid ∈ inState w.m .present := mem_inState.mpr ⟨c, hc, rfl, hs⟩
      rw [hd, if_pos hp]
      rfl
    · show w.txg ≤ w.txg + 1; omega
    · intro _; show w.txg < w.txg + 1; omega
  | @fault w h u hu ih =>
    obtain ⟨ta, hi⟩ := ih
    refine ⟨ta, ?_⟩
    unfold World.fault Mirror.fault
    split
    · rename_i m' hm
      exact hi.upd fault_uuid (fun c h1 h2 _ => absurd (h1.symm.trans h2) hu)
        (fun c hc => absurd hc (fault_not_present c)) hm
    · exact hi
  | @rebuild w h u ih =>
    obtain ⟨ta, hi⟩ := ih
    refine ⟨ta, ?_⟩
    unfold World.rebuild Mirror.rebuild
    split
    · rename_i m' hm
      exact hi.upd rebuild_uuid (fun c _ _ hp => rebuild_present.mpr hp)
        (fun c hc => rebuild_present.mp hc) hm
    · exact hi
  | @restore w h m' hr ih =>
    obtain ⟨ta, hi⟩ := ih
    refine ⟨ta, ?_⟩
    have hd : ∀ u, (w.restore m').dev u = if u ∈ inState w.m .rebuilding then
        { w.dev u with ver := w.ver } else w.dev u := fun _ => rfl
    have hlab : ∀ u, ((w.restore m').dev u).lab = (w.dev u).lab := by
      intro u; rw [hd]; split <;> rfl
    have hmem : ∀ c' ∈ m', ∃ c ∈ w.m, c' = if c.isRebuilding then { c with st := .present } else c := by
      intro c' hc'
      obtain ⟨i, hi'⟩ := List.getElem?_of_mem hc'
      rw [restore_at hr i] at hi'
      obtain ⟨c, hc, he⟩ := Option.map_eq_some_iff.mp hi'
      exact ⟨c, List.mem_of_getElem? hc, he.symm⟩
    have hver : ∀ u, (w.dev u).ver = w.ver → ((w.restore m').dev u).ver = w.ver := by
      intro u hu; rw [hd]; split
      · rfl
      · exact hu
    constructor
    · rw [hlab]; exact hi.lab
    · exact hver a hi.cur
    · intro u t cs h; rw [hlab] at h; exact hi.le u t cs h
    · intro u cs h
      rw [hlab] at h
      rcases hi.eq u cs h with h1 | h1
      · exact Or.inl (hver u h1)
      · exact Or.inr h1
    · intro u t cs h; rw [hlab] at h; exact hi.mem u t cs h
    · obtain ⟨c, hc, hca⟩ := List.mem_map.mp hi.inM
      obtain ⟨i, hi'⟩ := List.getElem?_of_mem hc
      have := restore_at hr i
      rw [hi'] at this
      simp only [Option.map_some] at this
      refine List.mem_map.mpr ⟨_, List.mem_of_getElem? this, ?_⟩
      split
      · exact hca
      · exact hca
    · intro c' hc' hca
      obtain ⟨c, hc, rfl⟩ := hmem c' hc'
      split
      · rfl
      · rename_i hr'
        rw [if_neg hr'] at hca
        exact hi.pres c hc hca
    · intro c' hc' hs
      obtain ⟨c, hc, rfl⟩ := hmem c' hc'
      by_cases hr' : c.isRebuilding
      · rw [if_pos hr']
        rw [hd, if_pos]
        · rfl
        · exact mem_inState.mpr ⟨c, hc, rfl, by simpa [Child.isRebuilding] using hr'⟩
      · rw [if_neg hr'] at hs ⊢
        exact hver _ (hi.ok c hc hs)
    · exact hi.txg
    · exact hi.txg'
  | @attach w h u m' hl hu hr ih =>
    obtain ⟨ta, hi⟩ := ih
    refine ⟨ta, ?_⟩
    have hd : ∀ v, (w.attach u m').dev v = if v = u then ⟨none, 0⟩ else w.dev v := fun _ => rfl
    have hau : a ≠ u := by
      rintro rfl
      obtain ⟨cs, hcs⟩ := hi.lab
      rw [hl] at hcs
      cases hcs
    have hlab : ∀ v t cs, ((w.attach u m').dev v).lab = some (t, cs) →
        v ≠ u ∧ (w.dev v).lab = some (t, cs) := by
      intro v t cs h
      rw [hd] at h
      split at h
      · simp at h
      · rename_i hv
        exact ⟨hv, h⟩
    have hmem : ∀ c' ∈ m', c' ∈ w.m ∨ c'.st = .rebuilding ∧ c'.uuid = u := by
      intro c' hc'
      obtain ⟨i, hi'⟩ := List.getElem?_of_mem hc'
      rcases attach_at hr i with h1 | ⟨-, h1⟩
      · exact Or.inl (List.mem_of_getElem? (h1.symm.trans hi'))
      · rw [hi'] at h1
        simp only [Option.some.injEq] at h1
        subst h1
        exact Or.inr ⟨rfl, rfl⟩
    constructor
    · rw [hd, if_neg hau]; exact hi.lab
    · rw [hd, if_neg hau]; exact hi.cur
    · intro v t cs h; exact hi.le v t cs (hlab v t cs h).2
    · intro v cs h
      obtain ⟨h1, h2⟩ := hlab v _ cs h
      rw [hd, if_neg h1]
      exact hi.eq v cs h2
    · intro v t cs h; exact hi.mem v t cs (hlab v t cs h).2
    · obtain ⟨c, hc, hca⟩ := List.mem_map.mp hi.inM
      obtain ⟨i, hi'⟩ := List.getElem?_of_mem hc
      rcases attach_at hr i with h1 | ⟨h1, -⟩
      · exact List.mem_map.mpr ⟨c, List.mem_of_getElem? (h1.trans hi'), hca⟩
      · have := (List.getElem?_eq_some_iff.mp hi').1
        omega
    · intro c' hc' hca
      rcases hmem c' hc' with h1 | ⟨-, h1⟩
      · exact hi.pres c' h1 hca
      · exact absurd (hca.symm.trans h1) hau
    · intro c' hc' hs
      rcases hmem c' hc' with h1 | ⟨h1, -⟩
      · rw [hd, if_neg]
        · exact hi.ok c' h1 hs
        · intro he
          exact hu (he ▸ List.mem_map.mpr ⟨c', h1, rfl⟩)
      · rw [h1] at hs; cases hs
    · exact hi.txg
    · exact hi.txg'
  | @reopen w w' h avail l ha hn hr ih =>
    obtain ⟨ta, hi⟩ := ih
    refine ⟨ta, ?_⟩
    obtain ⟨⟨cs, hl, hcs, rfl⟩, hh⟩ := hi.reopen_facts ha hr
    constructor
    · exact hi.lab
    · exact hi.cur
    · exact hi.le
    · intro u cs' h
      rcases hi.eq u cs' h with h1 | h1
      · exact Or.inl h1
      · exact absurd h1 hn
    · exact hi.mem
    · show a ∈ uuids (cs.map (openChild (leaves w avail)))
      refine List.mem_map.mpr ⟨_, List.mem_map.mpr ⟨a, hcs, rfl⟩, openChild_uuid _ _⟩
    · intro c hc hca
      obtain ⟨u, hu, rfl⟩ := List.mem_map.mp hc
      rw [openChild_uuid] at hca
      subst hca
      obtain ⟨cs', hla⟩ := hi.lab
      apply openChild_of_all
      · refine ⟨⟨u, 0, 0, ta, cs'⟩, ?_, rfl⟩
        exact List.mem_filterMap.mpr ⟨u, ha, by rw [hla]; rfl⟩
      · intro lf hlf hu'
        rw [hh]
        have := (mem_leaves hlf).2
        rw [hu', hla] at this
        simp only [Option.some.injEq, Prod.mk.injEq] at this
        exact this.1.symm
    · intro c hc hs
      obtain ⟨u, hu, rfl⟩ := List.mem_map.mp hc
      obtain ⟨lf, hlf, hlu, ht⟩ := openChild_present hs
      rw [openChild_uuid]
      have := (mem_leaves hlf).2
      rw [hlu, ht, hh] at this
      rcases hi.eq u _ this with h1 | h1
      · exact h1
      · exact absurd h1 hn
    · exact Nat.le_refl _
    · intro h; exact absurd rfl h

end Verif.Mirror
