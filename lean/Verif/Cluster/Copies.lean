import Verif.Cluster.Run

/-!
# The two copies of the spacemap on disk

A transaction is synced by flushing twice, to copy 0 and then to copy 1
(`Database::sync_transaction_priv`, database.rs:721-769); no other call reaches the
cluster between the two, because the transaction lock is held.  The cluster is
opened from copy 0 (`FreeSpaceMap::open`, cluster.rs:495-509).
-/

namespace Verif.Cluster

open Verif

/-- A cluster, its log, and the blocks of the copies on disk: `d idx i` is block `i`
of copy `idx`. -/
structure DHist where
  h : Hist
  d : Nat → Nat → Option SpacemapBlock

/-- The blocks are written to copy `idx` (`write_spacemap`). -/
def writeBlocks (d : Nat → Nat → Option SpacemapBlock) (idx : Nat) :
    List (Nat × SpacemapBlock) → Nat → Nat → Option SpacemapBlock
  | [] => d
  | (i, b) :: rest => writeBlocks (fun c j => if c = idx ∧ j = i then some b else d c j) idx rest

/-- `flush(idx)`. -/
def DHist.flush (H : Nat → List ZoneOnDisk → Nat) (s : DHist) (idx : Nat) (gap : Nat → Nat) : Option DHist :=
  (s.h.c.flush H gap).map (fun r => ⟨⟨r.1, s.h.recs⟩, writeBlocks s.d idx r.2⟩)

/-- Sync a transaction: the vdev pads each open zone before the first flush, and has
nothing left to pad before the second. -/
def DHist.sync (H : Nat → List ZoneOnDisk → Nat) (s : DHist) (gap : Nat → Nat) : Option DHist :=
  (s.flush H 0 gap).bind (fun s => s.flush H 1 (fun _ => 0))

/-- Opening the cluster from copy 0. -/
def DHist.reopen (g : Geo) (H : Nat → List ZoneOnDisk → Nat) (s : DHist) : Option DHist :=
  match (List.range (spacemapSpace s.h.c.fsm.total)).mapM (s.d 0) with
  | none => none
  | some bs =>
    match FSM.deserialize H g.limits s.h.c.fsm.total bs with
    | .ok f => (Cluster.ofFSM f).map (fun c => ⟨⟨c, s.h.recs⟩, s.d⟩)
    | _ => none

/-- The calls, with syncs, and restarts that follow a sync. -/
inductive DOp where
  | op (o : Op)
  | sync (gap : Nat → Nat)
  | restart (gap : Nat → Nat)

/-- A call other than a flush or a restart is legal as before. -/
def DOp.Legal (s : DHist) : DOp → Prop
  | .op o => o.Legal s.h ∧ (∀ gap, o ≠ .flush gap) ∧ o ≠ .reload
  | .sync gap => (Op.flush gap).Legal s.h
  | .restart gap => (Op.flush gap).Legal s.h

def dstep (g : Geo) (H : Nat → List ZoneOnDisk → Nat) (s : DHist) : DOp → Option DHist
  | .op o => (step g H s.h o).map (⟨·, s.d⟩)
  | .sync gap => s.sync H gap
  | .restart gap => (s.sync H gap).bind (DHist.reopen g H)

/-- A sequence of legal calls. -/
inductive DRun (g : Geo) (H : Nat → List ZoneOnDisk → Nat) : DHist → List DOp → DHist → Prop where
  | nil (s : DHist) : DRun g H s [] s
  | cons {s s' s'' : DHist} {op : DOp} {ops : List DOp} : op.Legal s → dstep g H s op = some s' →
      DRun g H s' ops s'' → DRun g H s (op :: ops) s''

/-- A new cluster on disks with unknown contents. -/
def DHist.init (n : Nat) (d : Nat → Nat → Option SpacemapBlock) : DHist := ⟨Hist.init n, d⟩

/-! ## Proofs -/

variable {g : Geo} {n : Nat} {H : Nat → List ZoneOnDisk → Nat}

theorem writeBlocks_other (d : Nat → Nat → Option SpacemapBlock) (idx c : Nat) (bs : List (Nat × SpacemapBlock))
    (h : c ≠ idx) : writeBlocks d idx bs c = d c := by
  induction bs generalizing d with
  | nil => rfl
  | cons b bs ih =>
    unfold writeBlocks
    rw [ih]
    funext j
    rw [if_neg (fun hc => h hc.1)]

theorem writeBlocks_get (d : Nat → Nat → Option SpacemapBlock) (idx : Nat) (B : Nat → SpacemapBlock) (l : List Nat)
    (j : Nat) : writeBlocks d idx (l.map (fun i => (i, B i))) idx j = if j ∈ l then some (B j) else d idx j := by
  induction l generalizing d with
  | nil => simp [writeBlocks]
  | cons a l ih =>
    simp only [List.map_cons, writeBlocks]
    rw [ih]
    by_cases hl : j ∈ l
    · rw [if_pos hl, if_pos (List.mem_cons_of_mem _ hl)]
    · rw [if_neg hl]
      by_cases ha : j = a
      · subst ha
        rw [if_pos ⟨rfl, rfl⟩, if_pos (List.mem_cons_self ..)]
      · rw [if_neg (fun h => ha h.2), if_neg (by simp [ha, hl])]

/-- Block `i` of copy 0 is what would be written now. -/
def Current (H : Nat → List ZoneOnDisk → Nat) (f : FSM) (d : Nat → Nat → Option SpacemapBlock) (i : Nat) : Prop :=
  d 0 i = some (mkBlock H i (f.blockZones i))

structure DGood (g : Geo) (H : Nat → List ZoneOnDisk → Nat) (n : Nat) (s : DHist) : Prop where
  good : Good g n s.h
  cur : ∀ i, s.h.c.fsm.dirty[i]? = some false → Current H s.h.c.fsm s.d i

theorem blockZones_congr {f f' : FSM} {i : Nat} (ht : f'.total = f.total)
    (h : ∀ z, z / ZPL = i → f'.zoneOnDisk z = f.zoneOnDisk z) : f'.blockZones i = f.blockZones i := by
  unfold FSM.blockZones
  rw [ht]
  apply List.map_congr_left
  intro j hj
  apply h
  have := List.mem_range.mp hj
  have : j < ZPL := by
    have h1 : (i + 1) * ZPL = i * ZPL + ZPL := by rw [Nat.add_mul]; omega
    omega
  rw [Nat.mul_comm, Nat.mul_add_div (by unfold ZPL; omega), Nat.div_eq_of_lt this]
  omega

theorem Tracked.current {f f' : FSM} {d : Nat → Nat → Option SpacemapBlock} (T : Tracked f f')
    (h : ∀ i, f.dirty[i]? = some false → Current H f d i) :
    ∀ i, f'.dirty[i]? = some false → Current H f' d i := by
  intro i hi
  obtain ⟨h1, h2⟩ := T.clean i hi
  unfold Current
  rw [blockZones_congr T.total h2]
  exact h i h1

theorem step_tracked (geo : GeoOk g n) {s s' : Hist} (G : Good g n s) {op : Op} (hl : op.Legal s)
    (hnf : ∀ gap, op ≠ .flush gap) (hnr : op ≠ .reload)
    (hs : step g H s op = some s') : Tracked s.c.fsm s'.c.fsm := by
  cases op with
  | write space txg =>
    unfold step at hs
    rcases write_spec geo G hl.1 hl.2 with ⟨c, h, -, hT, -⟩ | ⟨c, z', lba, h, -, -, hT, -⟩
    · simp only [h] at hs
      cases hs
      exact hT
    · simp only [h] at hs
      cases hs
      exact hT
  | free i =>
    obtain ⟨r, hr, hlive⟩ := hl
    obtain ⟨c, z', h, hz', -, hT, -⟩ := free_spec geo G hr hlive
    unfold step at hs
    simp only [hr, h, Option.map_some] at hs
    cases hs
    exact hT
  | flush gap => exact absurd rfl (hnf gap)
  | advance =>
    cases hs
    exact (advance_spec (g := g) G).2.1
  | reload => exact absurd rfl hnr

/-- After a flush to copy 0, all of it is current. -/
theorem flush0_spec {s : DHist} (G : DGood g H n s) {gap : Nat → Nat} (hl : (Op.flush gap).Legal s.h) :
    ∃ s', s.flush H 0 gap = some s' ∧ Good g n s'.h ∧ s'.h.recs = s.h.recs ∧ (∀ i : Nat, s'.h.c.fsm.dirty[i]? ≠ some true) ∧
      (∀ i, i < spacemapSpace n → Current H s'.h.c.fsm s'.d i) ∧
      (∀ i : Nat, s'.h.c.fsm.dirty[i]? = some false → i < spacemapSpace n) := by
  obtain ⟨c, -, h, hG, hG2, hT, -⟩ := flush_spec (H := H) G.good hl
  refine ⟨⟨⟨⟨c.allocatedSpace, c.fsm.clearDirty⟩, s.h.recs⟩, writeBlocks s.d 0 (c.fsm.serialize H)⟩, ?_, hG2, rfl, ?_, ?_, ?_⟩
  · unfold DHist.flush
    rw [h]; rfl
  · intro i hi
    simp only [FSM.clearDirty, List.getElem?_map] at hi
    cases hd : c.fsm.dirty[i]? with
    | none => rw [hd] at hi; cases hi
    | some b => rw [hd] at hi; cases hi
  · intro i hi
    unfold Current
    simp only
    have hlen : c.fsm.dirty.length = spacemapSpace n := by
      have := hG.wf.dirty
      rw [hG.total] at this
      exact this
    have : (c.fsm.clearDirty).blockZones i = c.fsm.blockZones i := rfl
    rw [this]
    unfold FSM.serialize
    rw [writeBlocks_get]
    by_cases hm : i ∈ (List.range c.fsm.dirty.length).filter (fun i => c.fsm.dirty[i]? = some true)
    · rw [if_pos hm]
    · rw [if_neg hm]
      have hlt : i < c.fsm.dirty.length := by omega
      have hf : c.fsm.dirty[i]? = some false := by
        rw [List.mem_filter] at hm
        rw [List.getElem?_eq_getElem hlt]
        cases hb : c.fsm.dirty[i] with
        | false => rfl
        | true =>
          exact absurd ⟨List.mem_range.mpr hlt, by simp [List.getElem?_eq_getElem hlt, hb]⟩ hm
      exact hT.current G.cur i hf
  · intro i hi
    simp only [FSM.clearDirty, List.getElem?_map, Option.map_eq_some_iff] at hi
    obtain ⟨b, hb, -⟩ := hi
    have := (List.getElem?_eq_some_iff.mp hb).1
    have h2 := hG.wf.dirty
    rw [hG.total] at h2
    simp only at h2
    omega

/-- Padding with nothing changes nothing. -/
theorem waste_zero {s : Hist} (G : Good g n s) {c : Cluster}
    (h : s.c.wasteGaps (fun _ => 0) (s.c.fsm.opn.map (·.1)) = some c) (z : Nat) :
    c.fsm.zoneOnDisk z = s.c.fsm.zoneOnDisk z := by
  rcases opn_shape G with ⟨ho, -⟩ | ⟨z', zn, oz, ho, hz, hv⟩
  · rw [ho] at h
    cases h
    rfl
  · obtain ⟨-, -, -, h4, -⟩ := opn_inv G hv
    obtain ⟨f', hf, u⟩ := FSM.wasteSpace_spec (space := 0) G.wf hv (by omega)
    rw [ho] at h
    simp only [List.map_cons, List.map_nil, Cluster.wasteGaps, hf] at h
    cases h
    by_cases e : z = z'
    · subst e
      rw [FSM.zoneOnDisk_open u.self, FSM.zoneOnDisk_open hv]
      rfl
    · exact u.disk z e

theorem sync_spec {s : DHist} (G : DGood g H n s) {gap : Nat → Nat} (hl : (Op.flush gap).Legal s.h) :
    ∃ s', s.sync H gap = some s' ∧ DGood g H n s' ∧ s'.h.recs = s.h.recs ∧
      (∀ i, i < spacemapSpace n → Current H s'.h.c.fsm s'.d i) := by
  obtain ⟨s1, h1, G1, hr1, hclean, hcur, hlt⟩ := flush0_spec G hl
  have D1 : DGood g H n s1 := ⟨G1, fun i hi => hcur i (hlt i hi)⟩
  -- nothing to pad
  have hleg : (Op.flush (fun _ => 0)).Legal s1.h := by
    intro z zn oz hz ho
    obtain ⟨zn', hz', hv⟩ := FSM.view_of_open G1.wf ho
    rw [hz] at hz'
    cases hz'
    obtain ⟨-, -, -, h4, -⟩ := opn_inv G1 hv
    simpa using h4
  obtain ⟨c, hw, h, hG, hG2, hT, -⟩ := flush_spec (H := H) G1 hleg
  refine ⟨⟨⟨⟨c.allocatedSpace, c.fsm.clearDirty⟩, s1.h.recs⟩, writeBlocks s1.d 1 (c.fsm.serialize H)⟩, ?_, ?_, hr1, ?_⟩
  · unfold DHist.sync
    rw [h1, Option.bind_some]
    unfold DHist.flush
    rw [h]; rfl
  all_goals
    have key : ∀ i, i < spacemapSpace n → Current H c.fsm.clearDirty (writeBlocks s1.d 1 (c.fsm.serialize H)) i := by
      intro i hi
      unfold Current
      rw [writeBlocks_other _ _ _ _ (by omega)]
      have : (c.fsm.clearDirty).blockZones i = s1.h.c.fsm.blockZones i := by
        exact blockZones_congr (f := s1.h.c.fsm) (f' := c.fsm) hT.total (fun z _ => waste_zero G1 hw z)
      rw [this]
      exact hcur i hi
  · refine ⟨hG2, fun i hi => key i ?_⟩
    simp only [FSM.clearDirty, List.getElem?_map, Option.map_eq_some_iff] at hi
    obtain ⟨b, hb, -⟩ := hi
    have := (List.getElem?_eq_some_iff.mp hb).1
    have h2 := hG.wf.dirty
    rw [hG.total] at h2
    simp only at h2
    omega
  · exact key

/-- Opening the cluster again after a sync. -/
theorem reopen_spec (geo : GeoOk g n) {s : DHist} (G : DGood g H n s)
    (hcur : ∀ i, i < spacemapSpace n → Current H s.h.c.fsm s.d i) :
    ∃ s', s.reopen g H = some s' ∧ DGood g H n s' ∧ s'.h.recs = s.h.recs ∧ s'.d = s.d ∧
      s'.h.c.allocatedSpace = s.h.c.allocatedSpace ∧
      (∀ z, s'.h.c.fsm.view z = s.h.c.fsm.view z) := by
  obtain ⟨f, c, h1, h2, hc, ha, hG, hv, hd, -⟩ := reload_spec geo H G.good
  have hm : (List.range (spacemapSpace s.h.c.fsm.total)).mapM (s.d 0) = some (s.h.c.fsm.allBlocks H) := by
    unfold FSM.allBlocks
    apply FSM.mapM_eq
    intro i hi
    exact hcur i (by rw [← G.good.total]; exact List.mem_range.mp hi)
  refine ⟨⟨⟨c, s.h.recs⟩, s.d⟩, ?_, ⟨hG, ?_⟩, rfl, rfl, ha, ?_⟩
  · unfold DHist.reopen
    rw [hm]
    simp only [G.good.total, h1, h2, Option.map_some]
  · intro i hi
    have hlt : i < spacemapSpace n := by
      have := (List.getElem?_eq_some_iff.mp hi).1
      have h2 := hG.wf.dirty
      rw [hG.total] at h2
      simp only at h2 this
      omega
    have := hcur i hlt
    unfold Current at *
    simp only
    rw [this, blockZones_congr (f := s.h.c.fsm) (f' := c.fsm) (hG.total.trans G.good.total.symm)
      (fun z _ => by rw [hc]; exact hd z)]
  · intro z
    simp only
    rw [hc, hv]

theorem dgood_init (d : Nat → Nat → Option SpacemapBlock) : DGood g H n (DHist.init n d) := by
  refine ⟨good_init g n, ?_⟩
  intro i hi
  exfalso
  simp only [DHist.init, Hist.init, Cluster.create, FSM.new, List.getElem?_replicate] at hi
  split at hi <;> cases hi

theorem dgood_step (geo : GeoOk g n) {s s' : DHist} (G : DGood g H n s) {op : DOp} (hl : op.Legal s)
    (hs : dstep g H s op = some s') : DGood g H n s' := by
  cases op with
  | op o =>
    obtain ⟨hl, hnf, hnr⟩ := hl
    unfold dstep at hs
    simp only [Option.map_eq_some_iff] at hs
    obtain ⟨h', hst, rfl⟩ := hs
    obtain ⟨h2, he, hG⟩ := good_step (H := H) geo G.good hl
    rw [hst] at he
    cases he
    exact ⟨hG, (step_tracked geo G.good hl hnf hnr hst).current G.cur⟩
  | sync gap =>
    obtain ⟨s1, h1, G1, -⟩ := sync_spec G hl
    unfold dstep at hs
    simp only [h1] at hs
    cases hs
    exact G1
  | restart gap =>
    obtain ⟨s1, h1, G1, -, hcur⟩ := sync_spec G hl
    obtain ⟨s2, h2, G2, -⟩ := reopen_spec geo G1 hcur
    unfold dstep at hs
    simp only [h1, Option.bind_some, h2] at hs
    cases hs
    exact G2

theorem dgood_run (geo : GeoOk g n) {s s' : DHist} {ops : List DOp} (R : DRun g H s ops s') (G : DGood g H n s) :
    DGood g H n s' := by
  induction R with
  | nil => exact G
  | cons hl hs _ ih => exact ih (dgood_step geo G hl hs)

end Verif.Cluster
