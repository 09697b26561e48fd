import Verif.Cluster.Steps

/-! # Loading the spacemap that was written -/

namespace Verif.Cluster

open Verif

namespace FSM

theorem Upd.self {f f' : FSM} {z : Nat} {st : ZState} (u : Upd f f' z st) : f'.view z = st := by
  rw [u.view, if_pos rfl]

/-- Setting the counters of a zone whose block is already dirty. -/
theorem setZone_upd {f f0 : FSM} {z : Nat} {zn zn' : Zone} (wf : WF f) (hd : f.dirty = f0.dirty.set (z / ZPL) true)
    (hz : f.zones[z]? = some zn) :
    Upd f (f.setZone z zn') z ((f.setZone z zn').view z) ∧ (f.setZone z zn').zones[z]? = some zn' := by
  have hlt : z < f.zones.length := (List.getElem?_eq_some_iff.mp hz).1
  exact upd_of (f' := f.setZone z zn') wf hlt rfl wf.sortedE wf.sortedO (fun _ _ => rfl) (fun _ _ => rfl)
    (fun h => wf.disj z h) rfl (by simp only [setZone]; rw [hd, List.set_set])

/-- What has been restored after zones `0..k`. -/
structure Restored (orig f : FSM) (k : Nat) : Prop where
  wf : WF f
  last : LastOk f
  total : f.total = orig.total
  view : ∀ z, f.view z = if z < k then orig.view z else .empty
  disk : ∀ z, z < k → f.zoneOnDisk z = orig.zoneOnDisk z

theorem Restored.next {orig f f' : FSM} {k : Nat} (R : Restored orig f k) (wf : WF f') (last : LastOk f')
    (total : f'.total = f.total) (hk : f'.view k = orig.view k) (hne : ∀ z, z ≠ k → f'.view z = f.view z)
    (hd : ∀ z, z ≠ k → f'.zoneOnDisk z = f.zoneOnDisk z)
    (hdk : f'.zoneOnDisk k = orig.zoneOnDisk k) : Restored orig f' (k + 1) := by
  refine ⟨wf, last, total.trans R.total, ?_, ?_⟩
  · intro z
    by_cases hz : z = k
    · rw [hz, hk, if_pos (by omega)]
    · rw [hne z hz, R.view]
      by_cases h : z < k
      · rw [if_pos h, if_pos (by omega)]
      · rw [if_neg h, if_neg (by omega)]
  · intro z h
    by_cases hz : z = k
    · rw [hz]; exact hdk
    · rw [hd z hz]; exact R.disk z (by omega)

theorem zoneOnDisk_dead {f : FSM} {z : Nat} (h : f.view z = .dead) :
    ∃ zn, f.zones[z]? = some zn ∧ f.zoneOnDisk z = ⟨0, 0, zn.txgStart, zn.txgEnd⟩ ∧ 0 < zn.txgEnd := by
  obtain ⟨zn, hz, -, hpos⟩ := view_dead h
  have hd := (isDead_view f z).mpr h
  have he : f.isEmpty z = false := by
    have := isEmpty_view f z
    rw [h] at this
    simpa using this
  refine ⟨zn, hz, ?_, hpos⟩
  unfold zoneOnDisk
  simp only [hd, he, hz]
  rfl

theorem not_de {f : FSM} {z : Nat} (h1 : f.view z ≠ .dead) (h2 : f.view z ≠ .empty) :
    f.isDead z = false ∧ f.isEmpty z = false := by
  constructor
  · cases hc : f.isDead z with
    | false => rfl
    | true => exact absurd ((isDead_view f z).mp hc) h1
  · cases hc : f.isEmpty z with
    | false => rfl
    | true => exact absurd ((isEmpty_view f z).mp hc) h2

theorem zoneOnDisk_open {f : FSM} {z : Nat} {zn : Zone} {oz : OpenZone} (h : f.view z = .opn zn oz) :
    f.zoneOnDisk z = ⟨oz.allocated, zn.freed, zn.txgStart, zn.txgEnd⟩ := by
  obtain ⟨hz, ho, -⟩ := view_open h
  obtain ⟨hd, he⟩ := not_de (f := f) (z := z) (by rw [h]; simp) (by rw [h]; simp)
  unfold zoneOnDisk
  simp only [hd, he, hz, ho]
  rfl

theorem zoneOnDisk_closed {f : FSM} {z : Nat} {zn : Zone} (h : f.view z = .closed zn) :
    f.zoneOnDisk z = ⟨CLOSED, zn.freed, zn.txgStart, zn.txgEnd⟩ := by
  obtain ⟨hz, ho, -⟩ := view_closed h
  obtain ⟨hd, he⟩ := not_de (f := f) (z := z) (by rw [h]; simp) (by rw [h]; simp)
  unfold zoneOnDisk
  simp only [hd, he, hz, ho]
  rfl

end FSM

open FSM in
theorem restoreZone_spec {g : Geo} {n : Nat} (geo : GeoOk g n) {s : Hist} (G : Good g n s) {f : FSM} {k : Nat}
    (R : Restored s.c.fsm f k) (hk : k < n) :
    ∃ f', f.restoreZone (g.limits k) k (s.c.fsm.zoneOnDisk k) = some f' ∧ Restored s.c.fsm f' (k + 1) := by
  have hZ := G.inv.zone k hk
  have hs := geo.size k hk
  have hfk : f.view k = .empty := by rw [R.view, if_neg (by omega)]
  have htot : k < f.total := by rw [R.total, G.total]; exact hk
  cases hv : s.c.fsm.view k with
  | empty =>
    refine ⟨f, by rw [zoneOnDisk_empty hv]; rfl,
      R.next R.wf R.last rfl (by rw [hfk, hv]) (fun _ _ => rfl) (fun _ _ => rfl) ?_⟩
    rw [zoneOnDisk_empty hv, zoneOnDisk_empty hfk]
  | dead =>
    obtain ⟨zn, -, hzod, hpos⟩ := zoneOnDisk_dead hv
    have hd0 := G.dead k hv
    rw [hzod] at hd0
    rw [hzod]
    simp only at hd0
    obtain ⟨f1, h1, u1⟩ := openZone_spec (lbas := 0) (txg := zn.txgStart) R.wf (by rw [hd0]; unfold TXG_MAX; omega)
      htot (Nat.le_of_lt hs.1) hfk (by omega)
    have hv1 := u1.self
    obtain ⟨f2, h2, u2⟩ := finishZone_spec (txg := zn.txgEnd - 1) u1.wf hv1 (by simp)
    have hv2 := u2.self
    obtain ⟨f3, h3, u3, h3d⟩ := killZone_spec u2.wf hv2
    have hv3 : f3.view k = .dead := by rw [u3.view, if_pos rfl]
    obtain ⟨zn3, hz3, he3, -⟩ := view_dead hv3
    obtain ⟨u4, hz4⟩ := setZone_upd (zn' := { zn3 with freed := 0, txgStart := zn.txgStart, txgEnd := zn.txgEnd })
      u3.wf u3.dirty hz3
    have hv4 : (f3.setZone k { zn3 with freed := 0, txgStart := zn.txgStart, txgEnd := zn.txgEnd }).view k = .dead := by
      unfold view
      rw [hz4]
      simp only [setZone, he3, hpos, if_true]
    rw [hv4] at u4
    refine ⟨_, ?_, R.next u4.wf
      (u4.last (by simp) (u3.last (by simp) (u2.last (by simp) (u1.last (by simp) R.last))))
      (by rw [u4.total, u3.total, u2.total, u1.total])
      (by rw [hv4, hv]) ?_ ?_ ?_⟩
    · unfold restoreZone
      rw [if_pos hpos]
      simp only [h1, h2, h3, hz3, Option.bind_eq_bind, Option.bind_some, Option.map_some]
      rw [if_neg (by unfold CLOSED; omega), if_neg (by omega)]
    · intro z hne
      rw [u4.view, if_neg hne, u3.view, if_neg hne, u2.view, if_neg hne, u1.view, if_neg hne]
    · intro z hne
      rw [u4.disk z hne, u3.disk z hne, u2.disk z hne, u1.disk z hne]
    · obtain ⟨zn', hz', hzod', -⟩ := zoneOnDisk_dead hv4
      rw [hzod', hzod]
      rw [hz4] at hz'
      cases hz'
      rfl
  | closed zn =>
    rw [hv] at hZ
    obtain ⟨c1, c2, c3, c4⟩ := hZ
    rw [zoneOnDisk_closed hv]
    obtain ⟨f1, h1, u1⟩ := openZone_spec (lbas := 0) (txg := zn.txgStart) R.wf c3
      htot (Nat.le_of_lt hs.1) hfk (by omega)
    have hv1 := u1.self
    obtain ⟨f2, h2, u2⟩ := finishZone_spec (txg := zn.txgEnd - 1) u1.wf hv1 (by simp)
    have hv2 := u2.self
    obtain ⟨hz2, ho2, he2⟩ := view_closed hv2
    obtain ⟨u4, hz4⟩ := setZone_upd (zn' := zn) u2.wf u2.dirty hz2
    have hv4 : (f2.setZone k zn).view k = .closed zn := by
      unfold view
      rw [hz4]
      simp only [setZone, he2, ho2]
      rfl
    rw [hv4] at u4
    refine ⟨f2.setZone k zn, ?_, R.next u4.wf (u4.last (by simp) (u2.last (by simp) (u1.last (by simp) R.last)))
      (by rw [u4.total, u2.total, u1.total])
      (by rw [hv4, hv]) ?_ ?_ ?_⟩
    · unfold restoreZone
      rw [if_pos c4]
      simp only [h1, h2, hz2, Option.bind_eq_bind, Option.bind_some, Option.map_some, if_true]
      rw [← c1]
    · intro z hne
      rw [u4.view, if_neg hne, u2.view, if_neg hne, u1.view, if_neg hne]
    · intro z hne
      rw [u4.disk z hne, u2.disk z hne, u1.disk z hne]
    · rw [zoneOnDisk_closed hv4, zoneOnDisk_closed hv]
  | opn zn oz =>
    rw [hv] at hZ
    obtain ⟨o1, o2, o3, o4, o5, o6, o7, o8⟩ := hZ
    rw [zoneOnDisk_open hv]
    obtain ⟨f1, h1, u1⟩ := openZone_spec (lbas := 0) (txg := zn.txgStart) R.wf o7
      htot (Nat.le_of_lt hs.1) hfk (by omega)
    have hv1 := u1.self
    obtain ⟨hz1, ho1, he1⟩ := view_open hv1
    -- it is the only open zone
    have hopn : f1.opn = [(k, ⟨(g.limits k).1, 0⟩)] := by
      have honly : ∀ z' oz', f1.opn.get z' = some oz' → z' = k := by
        intro z' oz' h
        obtain ⟨zn', -, hv'⟩ := view_of_open u1.wf h
        rw [u1.view] at hv'
        by_cases e : z' = k
        · exact e
        · rw [if_neg e, R.view] at hv'
          split at hv'
          · exact G.inv.uniq _ _ _ _ _ _ hv' hv
          · cases hv'
      apply OMap.ext u1.wf.sortedO (by simp [OMap.Sorted])
      intro z'
      cases h : f1.opn.get z' with
      | some oz' =>
        have := honly z' oz' h
        subst this
        rw [ho1] at h
        cases h
        simp [OMap.get]
      | none =>
        have : z' ≠ k := by intro e; rw [e, ho1] at h; cases h
        simp [OMap.get, Ne.symm this]
    have ht : f1.tryAllocate oz.allocated = some ({ f1.dirtyZone k with
        opn := f1.opn.insert k ⟨(g.limits k).1, 0 + oz.allocated⟩ }, some (k, (g.limits k).1), []) := by
      unfold tryAllocate
      rw [hopn]
      simp only [searchOpen, hz1]
      rw [if_pos (by simp), if_neg (by omega)]
      simp only [OpenZone.writePointer, Nat.add_zero]
    have u2 := bump_upd (space := oz.allocated) u1.wf hv1
    have hv2 := u2.self
    have hd2 := u2.dirty
    generalize hf2 : ({ f1.dirtyZone k with
        opn := f1.opn.insert k ⟨(g.limits k).1, 0 + oz.allocated⟩ } : FSM) = f2 at *
    obtain ⟨hz2, ho2, he2⟩ := view_open hv2
    obtain ⟨u4, hz4⟩ := setZone_upd (zn' := zn) u2.wf u2.dirty hz2
    have hv4 : (f2.setZone k zn).view k = .opn zn oz := by
      unfold view
      rw [hz4]
      simp only [setZone, he2, ho2]
      rw [Nat.zero_add, ← o1]
      rfl
    rw [hv4] at u4
    refine ⟨f2.setZone k zn, ?_, R.next u4.wf (u4.last (by simp) (u2.last (by simp) (u1.last (by simp) R.last)))
      (by rw [u4.total, u2.total, u1.total])
      (by rw [hv4, hv]) ?_ ?_ ?_⟩
    · unfold restoreZone
      have hend : 0 < zn.txgEnd := by rw [o8]; unfold TXG_MAX; omega
      have hnc : oz.allocated ≠ CLOSED := by omega
      rw [if_pos hend]
      simp only [h1, ht, Option.bind_eq_bind, Option.bind_some]
      rw [if_neg hnc, if_pos o3]
      simp only [if_true, Option.bind_some, hz2]
      rw [← o2]
    · intro z hne
      rw [u4.view, if_neg hne, u2.view, if_neg hne, u1.view, if_neg hne]
    · intro z hne
      rw [u4.disk z hne, u2.disk z hne, u1.disk z hne]
    · rw [zoneOnDisk_open hv4, zoneOnDisk_open hv]

theorem restoreZones_spec {g : Geo} {n : Nat} (geo : GeoOk g n) {s : Hist} (G : Good g n s) (m : Nat) :
    ∀ (f : FSM) (k : Nat), FSM.Restored s.c.fsm f k → k + m = n →
    ∃ f', FSM.restoreZones g.limits f k ((List.range' k m).map s.c.fsm.zoneOnDisk) = some f' ∧
      FSM.Restored s.c.fsm f' n := by
  induction m with
  | zero =>
    intro f k R h
    have : k = n := by omega
    subst this
    exact ⟨f, rfl, R⟩
  | succ m ih =>
    intro f k R h
    obtain ⟨f1, h1, R1⟩ := restoreZone_spec geo G R (by omega)
    obtain ⟨f2, h2, R2⟩ := ih f1 (k + 1) R1 (by omega)
    refine ⟨f2, ?_, R2⟩
    rw [List.range'_succ, List.map_cons]
    simp only [FSM.restoreZones, h1, Option.bind_some]
    exact h2

/-- The blocks' checksums match and their contents are the zones. -/
theorem checkBlocks_spec (H : Nat → List ZoneOnDisk → Nat) (B : Nat → List ZoneOnDisk) (m : Nat) :
    ∀ i, FSM.checkBlocks H i ((List.range' i m).map (fun i => mkBlock H i (B i)))
      = some ((List.range' i m).flatMap B) := by
  induction m with
  | zero => intro i; rfl
  | succ m ih =>
    intro i
    rw [List.range'_succ, List.map_cons, List.flatMap_cons]
    have : (mkBlock H i (B i)).check H i = some (B i) := by
      unfold SpacemapBlock.check mkBlock
      simp only [if_true]
    simp only [FSM.checkBlocks, this, ih, Option.bind_eq_bind, Option.bind_some]

theorem blocks_concat (f : FSM) (m : Nat) :
    (List.range m).flatMap f.blockZones = (List.range (min (m * ZPL) f.total)).map f.zoneOnDisk := by
  induction m with
  | zero => simp
  | succ m ih =>
    rw [List.range_succ, List.flatMap_append, ih]
    simp only [List.flatMap_cons, List.flatMap_nil, List.append_nil]
    unfold FSM.blockZones
    by_cases h : m * ZPL ≤ f.total
    · rw [Nat.min_eq_left h]
      have hm : min ((m + 1) * ZPL) f.total = m * ZPL + (min ((m + 1) * ZPL) f.total - m * ZPL) := by
        have : m * ZPL ≤ (m + 1) * ZPL := Nat.mul_le_mul_right _ (by omega)
        omega
      rw [hm, List.range_add, List.map_append, List.map_map]
      rw [Nat.add_sub_cancel_left]
      rfl
    · have : m * ZPL ≤ (m + 1) * ZPL := Nat.mul_le_mul_right _ (by omega)
      rw [Nat.min_eq_right (by omega), Nat.min_eq_right (by omega), show f.total - m * ZPL = 0 from by omega]
      simp

theorem spacemapSpace_enough (n : Nat) : n ≤ spacemapSpace n * ZPL := by
  unfold spacemapSpace ZPL
  omega

/-- The whole map, written and read again. -/
theorem reload_fsm {g : Geo} {n : Nat} (geo : GeoOk g n) (H : Nat → List ZoneOnDisk → Nat) {s : Hist}
    (G : Good g n s) :
    ∃ f, FSM.deserialize H g.limits n (s.c.fsm.allBlocks H) = .ok f ∧ f.WF ∧ f.LastOk ∧
      f.total = n ∧ (∀ z, f.view z = s.c.fsm.view z) ∧
      (∀ z, f.zoneOnDisk z = s.c.fsm.zoneOnDisk z) ∧
      (∀ i : Nat, f.dirty[i]? ≠ some true) := by
  have hc : FSM.checkBlocks H 0 (s.c.fsm.allBlocks H) = some ((List.range' 0 n).map s.c.fsm.zoneOnDisk) := by
    unfold FSM.allBlocks
    rw [List.range_eq_range', checkBlocks_spec H s.c.fsm.blockZones, ← List.range_eq_range', blocks_concat, G.total,
      Nat.min_eq_right (spacemapSpace_enough n), List.range_eq_range']
  have R0 : FSM.Restored s.c.fsm (FSM.new n) 0 := by
    refine ⟨new_wf n, Or.inl rfl, G.total.symm, ?_, ?_⟩
    · intro z
      rw [if_neg (by omega)]
      exact FSM.view_ge (Nat.zero_le _)
    · intro z h
      omega
  obtain ⟨f, hf, R⟩ := restoreZones_spec geo G n _ 0 R0 (by omega)
  refine ⟨f.clearDirty, ?_, ?_, R.last, R.total.trans G.total, ?_, ?_, ?_⟩
  · unfold FSM.deserialize
    rw [hc]
    simp only [hf]
    rw [if_pos (by simp)]
  · have hwf := R.wf
    refine ⟨hwf.sortedE, hwf.sortedO, hwf.emptyLt, hwf.openLt, hwf.disj, hwf.len, ?_⟩
    simp only [FSM.clearDirty, List.length_map]; exact hwf.dirty
  · intro z
    have := R.view z
    by_cases hz : z < n
    · rw [if_pos hz] at this
      exact this
    · rw [if_neg hz] at this
      exact this.trans (G.inv.out z (by omega)).symm
  · intro z
    by_cases hz : z < n
    · exact R.disk z hz
    · have := R.view z
      rw [if_neg hz] at this
      rw [FSM.zoneOnDisk_empty (G.inv.out z (by omega))]
      exact FSM.zoneOnDisk_empty (f := f.clearDirty) this
  · intro i h
    simp only [FSM.clearDirty, List.getElem?_map] at h
    cases hd : f.dirty[i]? with
    | none => rw [hd] at h; cases h
    | some b => rw [hd] at h; cases h

theorem reload_spec {g : Geo} {n : Nat} (geo : GeoOk g n) (H : Nat → List ZoneOnDisk → Nat) {s : Hist}
    (G : Good g n s) :
    ∃ f c, FSM.deserialize H g.limits n (s.c.fsm.allBlocks H) = .ok f ∧ Cluster.ofFSM f = some c ∧ c.fsm = f ∧
      c.allocatedSpace = s.c.allocatedSpace ∧
      Good g n ⟨c, s.recs⟩ ∧ (∀ z, f.view z = s.c.fsm.view z) ∧
      (∀ z, f.zoneOnDisk z = s.c.fsm.zoneOnDisk z) ∧ (∀ i : Nat, f.dirty[i]? ≠ some true) := by
  obtain ⟨f, h1, wf, last, ht, hv, hd, hdirty⟩ := reload_fsm geo H G
  have hveq : f.view = s.c.fsm.view := funext hv
  have hat : f.allocatedTotal = some s.c.allocatedSpace := by
    rw [FSM.allocatedTotal_view wf, G.inv.alloc, hveq]
    congr 1
    refine (FSM.sum_extend (fun z => (s.c.fsm.view z).alloc) _ _ (by rw [← ht]; exact wf.len) ?_).symm
    intro z hz
    rw [← hv z, FSM.view_ge hz]
    rfl
  refine ⟨f, ⟨s.c.allocatedSpace, f⟩, h1, ?_, rfl, rfl, ⟨wf, last, ht, ?_, ?_⟩, hv, hd, hdirty⟩
  · unfold Cluster.ofFSM
    rw [hat]; rfl
  · simp only
    rw [hveq]
    exact G.inv
  · intro z h
    simp only at h ⊢
    rw [hd z]
    exact G.dead z (by rw [← hv z]; exact h)

end Verif.Cluster
