import Verif.Cluster.Lemmas

/-! # Each call preserves the invariant, and does not panic -/

namespace Verif.Cluster

open Verif

/-- The spacemap blocks of `f'` that are not dirty are as in `f`, where they were not
dirty either. -/
structure Tracked (f f' : FSM) : Prop where
  total : f'.total = f.total
  clean : ∀ i, f'.dirty[i]? = some false → f.dirty[i]? = some false ∧
    ∀ z, z / ZPL = i → f'.zoneOnDisk z = f.zoneOnDisk z

theorem Tracked.refl (f : FSM) : Tracked f f := ⟨rfl, fun _ h => ⟨h, fun _ _ => rfl⟩⟩

theorem Tracked.trans {f f' f'' : FSM} (h : Tracked f f') (h' : Tracked f' f'') : Tracked f f'' := by
  refine ⟨h'.total.trans h.total, fun i hi => ?_⟩
  obtain ⟨h1, h2⟩ := h'.clean i hi
  obtain ⟨h3, h4⟩ := h.clean i h1
  exact ⟨h3, fun z hz => (h2 z hz).trans (h4 z hz)⟩

theorem FSM.Upd.tracked {f f' : FSM} {z : Nat} {st : ZState} (u : FSM.Upd f f' z st) : Tracked f f' := by
  refine ⟨u.total, fun i hi => ?_⟩
  rw [u.dirty] at hi
  by_cases h : z / ZPL = i
  · rw [h] at hi
    by_cases hl : i < f.dirty.length
    · rw [List.getElem?_set_self hl] at hi; cases hi
    · rw [List.getElem?_eq_none (by rw [List.length_set]; omega)] at hi; cases hi
  · rw [List.getElem?_set_ne h] at hi
    exact ⟨hi, fun z' hz' => u.disk z' (fun e => h (e ▸ hz'))⟩

theorem FSM.Upd.last {f f' : FSM} {z : Nat} {st : ZState} (u : FSM.Upd f f' z st) (hst : st ≠ .empty)
    (h : f.LastOk) : f'.LastOk := by
  unfold FSM.LastOk at *
  right
  rw [u.view, u.len]
  by_cases hz : max f.zones.length (z + 1) - 1 = z
  · rw [if_pos hz]; exact hst
  · rw [if_neg hz]
    rcases h with h | h
    · omega
    · rw [Nat.max_eq_left (by omega)]; exact h

/-- The invariant. -/
structure Good (g : Geo) (n : Nat) (s : Hist) : Prop where
  wf : s.c.fsm.WF
  last : s.c.fsm.LastOk
  total : s.c.fsm.total = n
  inv : AInv g n s.c.fsm.view s.c.allocatedSpace s.recs
  dead : ∀ z, s.c.fsm.view z = .dead → (s.c.fsm.zoneOnDisk z).txgStart = 0

theorem good_upd {g : Geo} {n : Nat} {s : Hist} (G : Good g n s) {f' : FSM} {z : Nat} {st : ZState} {a : Nat}
    {recs : List Rec} (u : FSM.Upd s.c.fsm f' z st) (hst : st ≠ .empty)
    (I : AInv g n (updV s.c.fsm.view z st) a recs)
    (hd : st = .dead → (f'.zoneOnDisk z).txgStart = 0 := by intro h; cases h) : Good g n ⟨⟨a, f'⟩, recs⟩ := by
  refine ⟨u.wf, u.last hst G.last, u.total.trans G.total, by simp only; rw [u.view_eq]; exact I, ?_⟩
  intro z' h
  simp only at h ⊢
  rw [u.view] at h
  by_cases e : z' = z
  · rw [if_pos e] at h
    rw [e]; exact hd h
  · rw [if_neg e] at h
    rw [u.disk z' e]
    exact G.dead z' h

theorem new_wf (n : Nat) : (FSM.new n).WF :=
  ⟨List.Pairwise.nil, List.Pairwise.nil, (fun _ h => by cases h), (fun _ h => by cases h), (fun _ h => by cases h),
    Nat.zero_le _, by simp [FSM.new]⟩

theorem good_init (g : Geo) (n : Nat) : Good g n (Hist.init n) := by
  have hv : ∀ z, (FSM.new n).view z = .empty := fun z => FSM.view_ge (Nat.zero_le _)
  refine ⟨new_wf n, Or.inl rfl, rfl, ⟨?_, ?_, ?_, ?_, List.Pairwise.nil, ?_⟩, ?_⟩
  · exact fun z _ => hv z
  · intro z z' zn zn' oz oz' h
    rw [show (Hist.init n).c.fsm.view z = .empty from hv z] at h
    cases h
  · intro z _
    rw [show (Hist.init n).c.fsm.view z = .empty from hv z]
    exact fun r hr => by cases hr
  · intro r hr; cases hr
  · show 0 = _
    have : ((List.range n).map (fun z => ((Hist.init n).c.fsm.view z).alloc)).sum
        = ((List.range n).map (fun _ => 0)).sum :=
      sum_congr (fun z _ => by rw [show (Hist.init n).c.fsm.view z = .empty from hv z]; rfl)
    rw [this]
    clear this
    induction n with
    | zero => rfl
    | succ n ih => rw [List.range_succ, List.map_append, List.sum_append, ← ih (fun z => FSM.view_ge (Nat.zero_le _))]; rfl
  · intro z h
    rw [show (Hist.init n).c.fsm.view z = .empty from hv z] at h
    cases h

/-- At most one zone is open. -/
theorem opn_shape {g : Geo} {n : Nat} {s : Hist} (G : Good g n s) :
    (s.c.fsm.opn = [] ∧ ∀ z zn oz, s.c.fsm.view z ≠ .opn zn oz) ∨
    ∃ z zn oz, s.c.fsm.opn = [(z, oz)] ∧ s.c.fsm.zones[z]? = some zn ∧ s.c.fsm.view z = .opn zn oz := by
  cases h : s.c.fsm.opn with
  | nil =>
    left
    refine ⟨rfl, ?_⟩
    intro z zn oz hv
    have := (FSM.view_open hv).2.1
    rw [h] at this
    cases this
  | cons e rest =>
    right
    obtain ⟨z, oz⟩ := e
    have hm : ∀ e ∈ s.c.fsm.opn, s.c.fsm.opn.get e.1 = some e.2 := fun e he => OMap.get_of_mem G.wf.sortedO he
    have h1 := hm (z, oz) (by rw [h]; exact List.mem_cons_self ..)
    obtain ⟨zn, hz, hv⟩ := FSM.view_of_open G.wf h1
    cases rest with
    | nil => exact ⟨z, zn, oz, rfl, hz, hv⟩
    | cons e' rest =>
      exfalso
      obtain ⟨z', oz'⟩ := e'
      have h2 := hm (z', oz') (by rw [h]; simp)
      obtain ⟨zn', -, hv'⟩ := FSM.view_of_open G.wf h2
      have he := G.inv.uniq _ _ _ _ _ _ hv hv'
      have hs := G.wf.sortedO
      rw [h] at hs
      have := (List.pairwise_cons.mp hs).1 (z', oz') (List.mem_cons_self ..)
      simp only at this
      omega

theorem opn_inv {g : Geo} {n : Nat} {s : Hist} (G : Good g n s) {z : Nat} {zn : Zone} {oz : OpenZone}
    (h : s.c.fsm.view z = .opn zn oz) : ZInv g s.recs z (.opn zn oz) := by
  have := G.inv.zone z (G.inv.lt (by rw [h]; simp))
  rwa [h] at this

/-! ## Writing -/

theorem dirty_good {g : Geo} {n : Nat} {s : Hist} (G : Good g n s) (z : Nat) :
    Good g n ⟨⟨s.c.allocatedSpace, s.c.fsm.dirtyZone z⟩, s.recs⟩ ∧ Tracked s.c.fsm (s.c.fsm.dirtyZone z) := by
  have hwf := G.wf
  refine ⟨⟨⟨hwf.sortedE, hwf.sortedO, hwf.emptyLt, hwf.openLt, hwf.disj, hwf.len, ?_⟩, G.last, G.total, G.inv, G.dead⟩, rfl, ?_⟩
  · simp only [FSM.dirtyZone, List.length_set]; exact hwf.dirty
  · intro i hi
    refine ⟨?_, fun _ _ => rfl⟩
    simp only [FSM.dirtyZone] at hi
    by_cases h : z / ZPL = i
    · rw [h] at hi
      by_cases hl : i < s.c.fsm.dirty.length
      · rw [List.getElem?_set_self hl] at hi; cases hi
      · rw [List.getElem?_eq_none (by rw [List.length_set]; omega)] at hi; cases hi
    · rw [List.getElem?_set_ne h] at hi; exact hi

/-- The part of `write` that runs when no open zone has enough space. -/
theorem write_tail {g : Geo} {n : Nat} (geo : GeoOk g n) {s : Hist} (G : Good g n s) {space txg : Nat}
    (hpos : 0 < space) (htxg : txg ≤ TXG_MAX) (hno : ∀ z zn oz, s.c.fsm.view z ≠ .opn zn oz)
    {x : Option (Cluster × Option (Nat × Nat))}
    (hx : x = match s.c.fsm.findEmpty with
        | none => some (s.c, none)
        | some z =>
          match s.c.fsm.openZone z (g.limits z).1 (g.limits z).2 space txg with
          | none => none
          | some (fsm, none) => some (⟨s.c.allocatedSpace, fsm⟩, none)
          | some (_, some none) => none
          | some (fsm, some (some oza)) => some (⟨s.c.allocatedSpace + space, fsm⟩, some oza)) :
    (∃ c, x = some (c, none) ∧ Good g n ⟨c, s.recs⟩ ∧ Tracked s.c.fsm c.fsm ∧
      (∀ z, z < n → s.c.fsm.view z = .empty → ∃ z, z < n ∧ (g.limits z).2 - (g.limits z).1 < space) ∧
      (∀ z, c.fsm.view z = s.c.fsm.view z)) ∨
    (∃ c z lba, x = some (c, some (z, lba)) ∧ g.lba2zone lba = some z ∧
      Good g n ⟨c, s.recs ++ [⟨lba, space, true⟩]⟩ ∧ Tracked s.c.fsm c.fsm ∧
      s.c.fsm.view z = .empty ∧ (∀ z', z' ≠ z → c.fsm.view z' = s.c.fsm.view z') ∧
      (∃ zn oz, c.fsm.view z = .opn zn oz ∧ zn.txgStart = txg)) := by
  cases hf : s.c.fsm.findEmpty with
  | none =>
    left
    rw [hf] at hx
    exact ⟨_, hx, G, Tracked.refl _, fun z hz he => absurd he (FSM.findEmpty_none hf z (by rw [G.total]; exact hz)),
      fun _ => rfl⟩
  | some z =>
    rw [hf] at hx
    simp only at hx
    obtain ⟨he, hz⟩ := FSM.findEmpty_some G.wf hf
    rw [G.total] at hz
    have hs := geo.size z hz
    by_cases hsp : (g.limits z).2 - (g.limits z).1 < space
    · left
      rw [FSM.openZone_nospace htxg (by omega) he (FSM.open_none G.wf he) hsp] at hx
      exact ⟨_, hx, (dirty_good G z).1, (dirty_good G z).2, fun _ _ _ => ⟨z, hz, hsp⟩, fun _ => rfl⟩
    · right
      obtain ⟨f', h1, h2⟩ := FSM.openZone_spec (lbas := space) G.wf htxg (by rw [G.total]; exact hz) (Nat.le_of_lt hs.1) he (by omega)
      rw [if_pos hpos] at h1
      rw [h1] at hx
      have := G.inv.open geo hz he hno htxg hpos (by omega)
      exact ⟨_, z, _, hx, this.2, good_upd G h2 (by simp) this.1, h2.tracked, he,
        (fun z' hne => by simp only; rw [h2.view, if_neg hne]), ⟨_, _, by simp only; rw [h2.view, if_pos rfl], rfl⟩⟩

/-- The state of a zone after a write in another zone: it may have been closed. -/
def Kept (txg : Nat) (st st' : ZState) : Prop :=
  st' = st ∨ ∃ zn oz zn', st = .opn zn oz ∧ st' = .closed zn' ∧ zn'.txgEnd = txg + 1 ∧
    zn'.txgStart = zn.txgStart

/-- What `write` does.  Either it allocates at the write pointer of the open zone or
at the start of an empty zone, or it fails with `ENOSPC`. -/
theorem write_spec {g : Geo} {n : Nat} (geo : GeoOk g n) {s : Hist} (G : Good g n s) {space txg : Nat}
    (hpos : 0 < space) (htxg : txg ≤ TXG_MAX) :
    (∃ c, s.c.write g space txg = some (c, none) ∧ Good g n ⟨c, s.recs⟩ ∧ Tracked s.c.fsm c.fsm ∧
      (∀ z, z < n → s.c.fsm.view z = .empty → ∃ z, z < n ∧ (g.limits z).2 - (g.limits z).1 < space) ∧
      (∀ z, Kept txg (s.c.fsm.view z) (c.fsm.view z))) ∨
    (∃ c z lba, s.c.write g space txg = some (c, some (z, lba)) ∧ g.lba2zone lba = some z ∧
      Good g n ⟨c, s.recs ++ [⟨lba, space, true⟩]⟩ ∧ Tracked s.c.fsm c.fsm ∧
      ((∃ zn oz, s.c.fsm.view z = .opn zn oz) ∨ s.c.fsm.view z = .empty) ∧
      (∀ z', z' ≠ z → Kept txg (s.c.fsm.view z') (c.fsm.view z')) ∧
      (∃ zn oz, c.fsm.view z = .opn zn oz ∧
        ((∃ zn' oz', s.c.fsm.view z = .opn zn' oz' ∧ zn.txgStart = zn'.txgStart) ∨
          s.c.fsm.view z = .empty ∧ zn.txgStart = txg))) := by
  rcases opn_shape G with ⟨ho, hno⟩ | ⟨z, zn, oz, ho, hz, hv⟩
  · -- no zone is open
    have ht : s.c.fsm.tryAllocate space = some (s.c.fsm, none, []) := by
      unfold FSM.tryAllocate
      rw [ho]; rfl
    rcases write_tail geo G hpos htxg hno (x := s.c.write g space txg) (by
      unfold Cluster.write; simp only [ht, Cluster.closeZones]; rfl) with ⟨c, h1, h2, h3, h4, h5⟩ | ⟨c, z, lba, h1, h2, h3, h4, h5, h6, h7⟩
    · exact Or.inl ⟨c, h1, h2, h3, h4, fun z => Or.inl (h5 z)⟩
    · exact Or.inr ⟨c, z, lba, h1, h2, h3, h4, Or.inr h5, fun z' hne => Or.inl (h6 z' hne),
        h7.imp fun _ h => h.imp fun _ h => ⟨h.1, Or.inr ⟨h5, h.2⟩⟩⟩
  · obtain ⟨z1, z2, z3, z4, z5, z6, z7⟩ := opn_inv G hv
    by_cases hfit : zn.total - oz.allocated < space
    · -- the open zone is closed
      have ht : s.c.fsm.tryAllocate space = some (s.c.fsm, none, [z]) := by
        unfold FSM.tryAllocate
        rw [ho]
        simp only [FSM.searchOpen, hz, if_pos z4, if_pos hfit]
        rfl
      obtain ⟨f1, hf1, u1⟩ := FSM.finishZone_spec (txg := txg) G.wf hv z4
      have G1 : Good g n ⟨⟨s.c.allocatedSpace + (zn.total - oz.allocated), f1⟩, s.recs⟩ :=
        good_upd G u1 (by simp) (G.inv.finish hv)
      have hno : ∀ z' zn' oz', f1.view z' ≠ .opn zn' oz' := by
        intro z' zn' oz' h'
        rw [u1.view] at h'
        split at h'
        · cases h'
        · rename_i hne
          exact hne (G.inv.uniq _ _ _ _ _ _ h' hv)
      have hk : ∀ z', Kept txg (s.c.fsm.view z') (f1.view z') := by
        intro z'
        rw [u1.view]
        by_cases e : z' = z
        · right
          subst e
          rw [if_pos rfl]
          exact ⟨_, _, _, hv, rfl, rfl, rfl⟩
        · left; rw [if_neg e]
      rcases write_tail geo G1 hpos htxg hno (x := s.c.write g space txg) (by
        unfold Cluster.write; simp only [ht, Cluster.closeZones, hf1]; rfl) with ⟨c, h1, h2, h3, h4, h5⟩ | ⟨c, z', lba, h1, h2, h3, h4, h5, h6, h7⟩
      · refine Or.inl ⟨c, h1, h2, u1.tracked.trans h3, ?_, fun z => by rw [h5]; exact hk z⟩
        intro z' hz' he
        apply h4 z' hz'
        simp only
        rw [u1.view, if_neg (fun e => by rw [e, hv] at he; cases he)]
        exact he
      · have h5' : s.c.fsm.view z' = .empty := by
          simp only at h5
          rw [u1.view] at h5
          split at h5
          · cases h5
          · exact h5
        exact Or.inr ⟨c, z', lba, h1, h2, h3, u1.tracked.trans h4, Or.inr h5',
          (fun z'' hne => by rw [h6 z'' hne]; exact hk z''),
          h7.imp fun _ h => h.imp fun _ h => ⟨h.1, Or.inr ⟨h5', h.2⟩⟩⟩
    · -- it has enough space
      have ht : s.c.fsm.tryAllocate space = some ({ s.c.fsm.dirtyZone z with
          opn := s.c.fsm.opn.insert z { oz with allocated := oz.allocated + space } }, some (z, oz.writePointer), []) := by
        unfold FSM.tryAllocate
        rw [ho]
        simp only [FSM.searchOpen, hz, if_pos z4, if_neg hfit]
      have u := FSM.bump_upd (space := space) G.wf hv
      have hI := G.inv.bump geo hv hpos (by omega)
      right
      refine ⟨_, z, oz.writePointer, ?_, hI.2, good_upd G u (by simp) hI.1, u.tracked, Or.inl ⟨zn, oz, hv⟩, ?_, ⟨_, _, by simp only; rw [u.view, if_pos rfl], Or.inl ⟨zn, oz, hv, rfl⟩⟩⟩
      · unfold Cluster.write
        simp only [ht, Cluster.closeZones]
      · intro z' hne
        left
        simp only
        rw [u.view, if_neg hne]

/-! ## Freeing -/

theorem free_spec {g : Geo} {n : Nat} (geo : GeoOk g n) {s : Hist} (G : Good g n s) {i : Nat} {r : Rec}
    (hr : s.recs[i]? = some r) (hl : r.live = true) :
    ∃ c z, s.c.free g r.lba r.len = some c ∧ g.lba2zone r.lba = some z ∧
      Good g n ⟨c, s.recs.set i { r with live := false }⟩ ∧ Tracked s.c.fsm c.fsm ∧
      (∀ z', z' ≠ z → c.fsm.view z' = s.c.fsm.view z') ∧
      ((∃ zn zn' oz, s.c.fsm.view z = .opn zn oz ∧ c.fsm.view z = .opn zn' oz ∧ zn'.txgStart = zn.txgStart) ∨
       (∃ zn, s.c.fsm.view z = .closed zn ∧
        ((∃ zn', c.fsm.view z = .closed zn' ∧ 0 < liveIn g (s.recs.set i { r with live := false }) z ∧ zn'.txgEnd = zn.txgEnd ∧
          zn'.txgStart = zn.txgStart) ∨
         (c.fsm.view z = .dead ∧ liveIn g (s.recs.set i { r with live := false }) z = 0)))) := by
  have hmem := List.mem_of_getElem? hr
  obtain ⟨hpos, z, hz, -⟩ := G.inv.recOk r hmem
  have hzn := (in_zone geo hz).1
  have hZ := G.inv.zone z hzn
  unfold Cluster.free
  simp only [hz]
  cases hv : s.c.fsm.view z with
  | empty => rw [hv] at hZ; exact absurd hz (hZ r hmem)
  | dead => rw [hv] at hZ; have := hZ r hmem hz; rw [hl] at this; cases this
  | opn zn oz =>
    rw [hv] at hZ
    obtain ⟨-, -, -, h4, -⟩ := hZ
    obtain ⟨hle, I'⟩ := G.inv.free_open hr hl hz hv
    obtain ⟨f', hf, u⟩ := FSM.free_open G.wf hv h4 hle
    have hnc : f'.isClosed z = false := by
      cases hc : f'.isClosed z with
      | false => rfl
      | true =>
        obtain ⟨zn', h'⟩ := (FSM.isClosed_view z).mp hc
        rw [u.view, if_pos rfl] at h'; cases h'
    simp only [hf, hnc, Bool.false_and, Bool.false_eq_true, if_false]
    refine ⟨_, z, rfl, rfl, good_upd G u (by simp) I', u.tracked, fun z' hne => by simp only; rw [u.view, if_neg hne], ?_⟩
    left
    exact ⟨zn, { zn with freed := zn.freed + r.len }, oz, hv, by simp only; rw [u.view, if_pos rfl], rfl⟩
  | closed zn =>
    obtain ⟨hle, I'⟩ := G.inv.free_closed hr hl hz hv
    obtain ⟨f', hf, u⟩ := FSM.free_closed G.wf hv hle
    have G' : Good g n ⟨⟨s.c.allocatedSpace, f'⟩, s.recs.set i { r with live := false }⟩ :=
      good_upd G u (by simp) I'
    have hv' : f'.view z = .closed { zn with freed := zn.freed + r.len } := by rw [u.view, if_pos rfl]
    have hc : f'.isClosed z = true := (FSM.isClosed_view z).mpr ⟨_, hv'⟩
    have hiu : f'.inUse z = zn.total - (zn.freed + r.len) := by rw [FSM.inUse_view, hv']; rfl
    have hZ' := G'.inv.zone z hzn
    simp only [hv'] at hZ'
    obtain ⟨-, hsum, -⟩ := hZ'
    simp only [hf, hc, Bool.true_and, hiu, decide_eq_true_eq]
    by_cases h0 : zn.total - (zn.freed + r.len) = 0
    · rw [if_pos h0]
      obtain ⟨f'', hk, u2, hdk⟩ := FSM.killZone_spec u.wf hv'
      obtain ⟨hk1, hk2⟩ := G'.inv.kill hv' h0
      unfold Cluster.killZone
      simp only [hk]
      simp only at hk1
      rw [if_pos hk1]
      refine ⟨_, z, rfl, rfl, good_upd G' u2 (by simp) hk2 (fun _ => by rw [hdk]), u.tracked.trans u2.tracked, ?_, ?_⟩
      · intro z' hne
        simp only
        rw [u2.view, if_neg hne, u.view, if_neg hne]
      · right
        refine ⟨zn, hv, Or.inr ⟨by simp only; rw [u2.view, if_pos rfl], ?_⟩⟩
        simp only at hsum
        omega
    · rw [if_neg h0]
      refine ⟨_, z, rfl, rfl, G', u.tracked, fun z' hne => by simp only; rw [u.view, if_neg hne], ?_⟩
      right
      refine ⟨zn, hv, Or.inl ⟨_, hv', ?_, rfl, rfl⟩⟩
      simp only at hsum
      omega

/-! ## Flushing and ending a transaction -/

theorem clean_good {g : Geo} {n : Nat} {s : Hist} (G : Good g n s) :
    Good g n ⟨⟨s.c.allocatedSpace, s.c.fsm.clearDirty⟩, s.recs⟩ := by
  have hwf := G.wf
  refine ⟨⟨hwf.sortedE, hwf.sortedO, hwf.emptyLt, hwf.openLt, hwf.disj, hwf.len, ?_⟩, G.last, G.total, G.inv, G.dead⟩
  simp only [FSM.clearDirty, List.length_map]; exact hwf.dirty

/-- The state of a zone after a flush. -/
def Wasted (st st' : ZState) : Prop :=
  st' = st ∨ ∃ zn oz zn' oz', st = .opn zn oz ∧ st' = .opn zn' oz' ∧ zn'.txgStart = zn.txgStart

theorem flush_spec {g : Geo} {n : Nat} {H : Nat → List ZoneOnDisk → Nat} {s : Hist} (G : Good g n s)
    {gap : Nat → Nat} (hgap : (Op.flush gap).Legal s) :
    ∃ c, s.c.wasteGaps gap (s.c.fsm.opn.map (·.1)) = some c ∧
      s.c.flush H gap = some (⟨c.allocatedSpace, c.fsm.clearDirty⟩, c.fsm.serialize H) ∧
      Good g n ⟨c, s.recs⟩ ∧ Good g n ⟨⟨c.allocatedSpace, c.fsm.clearDirty⟩, s.recs⟩ ∧
      Tracked s.c.fsm c.fsm ∧ (∀ z, Wasted (s.c.fsm.view z) (c.fsm.view z)) := by
  suffices h : ∃ c, s.c.wasteGaps gap (s.c.fsm.opn.map (·.1)) = some c ∧ Good g n ⟨c, s.recs⟩ ∧
      Tracked s.c.fsm c.fsm ∧ (∀ z, Wasted (s.c.fsm.view z) (c.fsm.view z)) by
    obtain ⟨c, h1, h2, h3, h4⟩ := h
    exact ⟨c, h1, by unfold Cluster.flush; rw [h1]; rfl, h2, clean_good h2, h3, h4⟩
  rcases opn_shape G with ⟨ho, -⟩ | ⟨z, zn, oz, ho, hz, hv⟩
  · rw [ho]
    exact ⟨s.c, rfl, G, Tracked.refl _, fun _ => Or.inl rfl⟩
  · have hle := hgap z zn oz hz (FSM.view_open hv).2.1
    obtain ⟨f', hf, u⟩ := FSM.wasteSpace_spec G.wf hv hle
    rw [ho]
    refine ⟨⟨s.c.allocatedSpace + gap z, f'⟩, ?_, good_upd G u (by simp) (G.inv.waste hv hle), u.tracked, ?_⟩
    · simp only [List.map_cons, List.map_nil, Cluster.wasteGaps, hf]
    · intro z'
      simp only
      rw [u.view]
      by_cases e : z' = z
      · right
        subst e
        rw [if_pos rfl]
        exact ⟨_, _, _, _, hv, rfl, rfl⟩
      · left; rw [if_neg e]

theorem advance_spec {g : Geo} {n : Nat} {s : Hist} (G : Good g n s) :
    Good g n ⟨s.c.advance.1, s.recs.filter (fun x => decide (∀ z ∈ s.c.advance.2, g.lba2zone x.lba ≠ some z))⟩ ∧
      Tracked s.c.fsm s.c.advance.1.fsm ∧
      (∀ z, z ∈ s.c.advance.2 ↔ s.c.fsm.view z = .dead) ∧
      (∀ z, s.c.advance.1.fsm.view z = if s.c.fsm.view z = .dead then .empty else s.c.fsm.view z) := by
  obtain ⟨h1, h2, h3, h4, h5, h6, h7⟩ := FSM.reap_spec G.wf G.last
  have hI := G.inv.reap s.c.fsm.reap.2 h5
  refine ⟨⟨h1, h2, h3.trans G.total, ?_, ?_⟩, ⟨h3, ?_⟩, h5, h4⟩
  · unfold Cluster.advance
    simp only
    rw [show s.c.fsm.reap.1.view = fun z => if s.c.fsm.view z = .dead then .empty else s.c.fsm.view z from funext h4]
    exact hI
  · intro z h
    have h' : s.c.fsm.reap.1.view z = .dead := h
    rw [h4] at h'
    split at h'
    · cases h'
    · exact absurd h' (by assumption)
  · intro i hi
    obtain ⟨k1, k2⟩ := h6 i hi
    exact ⟨k1, fun z hz => h7 z (fun hd => k2 z hd hz)⟩

end Verif.Cluster
