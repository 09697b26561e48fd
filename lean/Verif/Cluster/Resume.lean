import Verif.Cluster.Rebuild
import Verif.Cluster.Dated

/-!
# C83: the label of a mirror child that is being rebuilt

What `Rebuild.lean` leaves out of `Cluster::repair_mirror`, `order_zones_for_repair` and
`repair_mirror_step` (cluster.rs:1069-1209): the transaction that is written to the label of the
child, from which the rebuild starts again if it is interrupted.
-/

namespace Verif.Cluster

open Verif

/-- `fsm.zones[z].txgs.start`; zones out of range are dealt with where this is used. -/
def FSM.startOf (f : FSM) (z : Nat) : Nat := ((f.zones[z]?).getD Zone.default).txgStart

/-- `fsm.zones[z].txgs.end` -/
def FSM.endOf (f : FSM) (z : Nat) : Nat := ((f.zones[z]?).getD Zone.default).txgEnd

/-- The lowest first transaction of an open zone, cluster.rs:1121-1123. -/
def FSM.minOpen (f : FSM) : Option Nat := (f.opn.map fun e => f.startOf e.1).min?

/-- `RepairMirrorTask`, cluster.rs:818-842, but for the index of the mirror. -/
structure LTask where
  initial : Nat
  minOpen : Option Nat
  zones : List Nat
  nextTxg : Nat
  deriving DecidableEq, Repr

/-- `repair_mirror`, cluster.rs:1069-1088. -/
def FSM.startRepair (f : FSM) (s : Nat) : LTask :=
  let t := f.repairMirror s
  ⟨s, f.minOpen, t.zones, t.nextTxg⟩

/-- `want_txg`, cluster.rs:1150-1158: `rest` is what is left of the list.  The outer `none` is an
index out of range. -/
def FSM.wantTxg (f : FSM) (z : Nat) (rest : List Nat) : Option (Option Nat) :=
  match rest with
  | nz :: _ =>
    if nz < f.zones.length then
      some (if f.startOf z < f.startOf nz then some (f.startOf nz - 1) else none)
    else none
  | [] => some (some (f.endOf z - 1))

/-- `sync_txg`, cluster.rs:1159-1173. -/
def LTask.syncTxg (t : LTask) (want : Option Nat) : Option Nat :=
  let sync := match want, t.minOpen with
    | some x, some y => if x < y then some x else none
    | some x, none => some x
    | none, _ => none
  match sync with
  | some x => if x ≤ t.initial then none else some x
  | none => none

/-- What a step did to the child: the zone it copied and the transaction it wrote to the label. -/
structure Did where
  zone : Option Nat
  label : Option Nat
  deriving DecidableEq, Repr

/-- `repair_mirror_step`, cluster.rs:1134-1209, without I/O errors; `none` is a panic.  The flag
says whether there may be more to do. -/
def FSM.labelStep (f : FSM) (t : LTask) (openToo : Bool) : Option (LTask × Bool × Did) :=
  match t.zones with
  | z :: zs =>
    if f.isDead z || f.isEmpty z then some ({ t with zones := zs }, true, ⟨none, none⟩)
    else (f.wantTxg z zs).map fun want =>
      ({ t with zones := zs }, true,
        ⟨if f.writePointer z = some 0 then none else some z, t.syncTxg want⟩)
  | [] =>
    let r := f.orderZones t.nextTxg openToo
    some ({ t with
        zones := r.1
        nextTxg := match r.2 with
          | some m => m + 1
          | none => t.nextTxg
        minOpen := f.minOpen }, !r.1.isEmpty, ⟨none, none⟩)

/-! ## Histories -/

/-- A rebuild.  All but `h` and `t` is ghost state: `now` is the latest transaction of a write,
`disk` the free-space map as it was last written to the disks that are in service, `label` the
transaction on the child's label, `need` the zones with data that the child missed when the
rebuild started or that was written since, and `done` the zones that were copied since. -/
structure LB where
  h : Hist
  t : LTask
  now : Nat
  disk : FSM
  label : Nat
  need : List Nat
  done : List Nat

/-- The start of a rebuild of a child whose label has transaction `s`. -/
def LB.start (h : Hist) (now : Nat) (disk : FSM) (s : Nat) : LB :=
  ⟨h, h.c.fsm.startRepair s, now, disk, s, h.c.fsm.contains s, []⟩

/-- One call of `repair_mirror_step`. -/
def LB.repair (openToo : Bool) (r : LB) : Option (LB × Bool) :=
  (r.h.c.fsm.labelStep r.t openToo).map fun x =>
    ({ r with t := x.1
              label := x.2.2.label.getD r.label
              done := match x.2.2.zone with
                | some z => z :: r.done
                | none => r.done }, x.2.1)

/-- Some other call on the cluster.  A child that is being rebuilt gets no writes
(`C58_commands`), so the zone that is written to needs repair. -/
def LB.env (g : Geo) (H : Nat → List ZoneOnDisk → Nat) (op : Op) (r : LB) : Option LB :=
  (step g H r.h op).map fun h' =>
    match op with
    | .write space txg =>
      match r.h.c.write g space txg with
      | some (_, some (z, _)) => { r with h := h', now := txg, need := z :: r.need, done := r.done.filter (· ≠ z) }
      | _ => { r with h := h', now := txg }
    | .flush _ => { r with h := h', disk := h'.c.fsm }
    | .advance => { r with
        h := h'
        need := r.need.filter fun z => !(r.h.c.advance.2.contains z)
        done := r.done.filter fun z => !(r.h.c.advance.2.contains z) }
    | _ => { r with h := h' }

/-- The calls that may come between the steps of a rebuild in the theorem.
* Transactions follow each other, and zones are closed no earlier than the task's `next_txg`
  (as in C31).
* No zone becomes free entirely before it has been copied.
* Zones are erased after the free-space map that lists them as free has been written, which is the
  order in which a transaction is committed (cluster.rs:988-999 is called at its end). -/
def Calm (g : Geo) (H : Nat → List ZoneOnDisk → Nat) (r : LB) : Op → Prop
  | .write _ txg => r.now ≤ txg ∧ r.t.nextTxg ≤ txg ∧ txg + 2 < TXG_MAX
  | .free i => ∀ h', step g H r.h (.free i) = some h' → ∀ z, (z ∈ r.t.zones ∨ z ∈ r.need ∧ z ∉ r.done) →
      h'.c.fsm.isDead z = false
  | .flush _ => True
  | .advance => ∀ z, r.h.c.fsm.isDead z = true → r.disk.isDead z = true
  | .reload => False

/-- All calls that the code can make between the steps of a rebuild. -/
def Plain (r : LB) : Op → Prop
  | .write _ txg => r.now ≤ txg ∧ txg + 2 < TXG_MAX
  | .free _ => True
  | .flush _ => True
  | .advance => ∀ z, r.h.c.fsm.isDead z = true → r.disk.isDead z = true
  | .reload => False

/-- The states of a rebuild: first with other calls between its steps, then, with the flag set,
while the pool is locked (`MirrorRepairTask`, ddml.rs:99-140). -/
inductive Rebuilding (g : Geo) (H : Nat → List ZoneOnDisk → Nat) (P : LB → Op → Prop) (r0 : LB) :
    Bool → LB → Prop where
  | start : Rebuilding g H P r0 false r0
  | env {r r' : LB} {op : Op} : Rebuilding g H P r0 false r → op.Legal r.h → P r op →
      r.env g H op = some r' → Rebuilding g H P r0 false r'
  | closed {r r' : LB} : Rebuilding g H P r0 false r → r.repair false = some (r', true) →
      Rebuilding g H P r0 false r'
  | lock {r r' r'' : LB} {b : Bool} : Rebuilding g H P r0 false r → r.repair false = some (r', false) →
      r'.repair true = some (r'', b) → Rebuilding g H P r0 true r''
  | locked {r r' : LB} {b : Bool} : Rebuilding g H P r0 true r → r.repair true = some (r', b) →
      Rebuilding g H P r0 true r'

/-! ## Proofs -/

variable {g : Geo} {n : Nat} {H : Nat → List ZoneOnDisk → Nat}

theorem startOf_closed {f : FSM} {z : Nat} {zn : Zone} (h : f.view z = .closed zn) : f.startOf z = zn.txgStart := by
  unfold FSM.startOf; rw [(FSM.view_closed h).1]; rfl

theorem endOf_closed {f : FSM} {z : Nat} {zn : Zone} (h : f.view z = .closed zn) : f.endOf z = zn.txgEnd := by
  unfold FSM.endOf; rw [(FSM.view_closed h).1]; rfl

theorem startOf_open {f : FSM} {z : Nat} {zn : Zone} {oz : OpenZone} (h : f.view z = .opn zn oz) :
    f.startOf z = zn.txgStart := by
  unfold FSM.startOf; rw [(FSM.view_open h).1]; rfl

/-- The least of the open zones' first transactions. -/
theorem minOpen_spec {f : FSM} {z : Nat} {zn : Zone} {oz : OpenZone} (wf : f.WF) (h : f.view z = .opn zn oz) :
    ∃ y, f.minOpen = some y ∧ y ≤ zn.txgStart := by
  have ho := (FSM.view_open h).2.1
  have hm : f.startOf z ∈ f.opn.map fun e => f.startOf e.1 := by
    have := OMap.mem_of_get ho
    exact List.mem_map.mpr ⟨_, this, rfl⟩
  unfold FSM.minOpen
  cases hh : (f.opn.map fun e => f.startOf e.1).min? with
  | none => rw [List.min?_eq_none_iff.mp hh] at hm; cases hm
  | some y =>
    refine ⟨y, rfl, ?_⟩
    rw [startOf_open h] at hm
    exact (List.min?_eq_some_iff.mp hh).2 _ hm

/-- What a call does to a zone, with the transactions. -/
inductive Goes (txg : Nat) (written killed erased : Prop) : ZState → ZState → Prop where
  | same (st : ZState) : Goes txg written killed erased st st
  | closed {zn zn' : Zone} : zn'.txgStart = zn.txgStart → zn'.txgEnd = zn.txgEnd →
      Goes txg written killed erased (.closed zn) (.closed zn')
  | opn {zn zn' : Zone} {oz oz' : OpenZone} : zn'.txgStart = zn.txgStart →
      Goes txg written killed erased (.opn zn oz) (.opn zn' oz')
  | close {zn zn' : Zone} {oz : OpenZone} : written → zn'.txgStart = zn.txgStart → zn'.txgEnd = txg + 1 →
      Goes txg written killed erased (.opn zn oz) (.closed zn')
  | open_ {zn : Zone} {oz : OpenZone} : written → zn.txgStart = txg →
      Goes txg written killed erased .empty (.opn zn oz)
  | kill {zn : Zone} : killed → Goes txg written killed erased (.closed zn) .dead
  | erase : erased → Goes txg written killed erased .dead .empty

theorem goes_step (geo : GeoOk g n) {h h' : Hist} (G : Good g n h) {op : Op} (hl : op.Legal h)
    (hs : step g H h op = some h') (hnr : op ≠ .reload) (T z : Nat) :
    Goes (op.txg T) (∃ space txg, op = .write space txg) (∃ i, op = .free i) (op = .advance)
      (h.c.fsm.view z) (h'.c.fsm.view z) := by
  have kept : ∀ {txg : Nat} {W A B : Prop} {st st' : ZState}, W → Kept txg st st' → Goes txg W A B st st' := by
    rintro txg W A B st st' w (rfl | ⟨zn, oz, zn', rfl, rfl, h1, h2⟩)
    · exact .same _
    · exact .close w h2 h1
  cases op with
  | write space txg =>
    unfold step at hs
    rcases write_spec geo G hl.1 hl.2 with ⟨c, he, -, -, -, hk⟩ | ⟨c, z', lba, he, -, -, -, -, hk, zn, oz, ho, hcase⟩
    · simp only [he] at hs
      cases hs
      exact kept ⟨space, txg, rfl⟩ (hk z)
    · simp only [he] at hs
      cases hs
      by_cases e : z = z'
      · subst e
        show Goes _ _ _ _ _ (c.fsm.view z)
        rw [ho]
        rcases hcase with ⟨zn', oz', h1, h2⟩ | ⟨h1, h2⟩
        · rw [h1]; exact .opn h2
        · rw [h1]; exact .open_ ⟨space, txg, rfl⟩ h2
      · exact kept ⟨space, txg, rfl⟩ (hk z e)
  | free i =>
    obtain ⟨r, hr, hlive⟩ := hl
    obtain ⟨c, z', h, hz', -, -, hk, hcase⟩ := free_spec geo G hr hlive
    unfold step at hs
    simp only [hr, h, Option.map_some] at hs
    cases hs
    show Goes _ _ _ _ _ (c.fsm.view z)
    by_cases e : z = z'
    · subst e
      rcases hcase with ⟨zn, zn', oz, h1, h2, h3⟩ | ⟨zn, h1, ⟨zn', h2, -, h3, h4⟩ | ⟨h2, -⟩⟩
      · rw [h1, h2]; exact .opn h3
      · rw [h1, h2]; exact .closed h4 h3
      · rw [h1, h2]; exact .kill ⟨i, rfl⟩
    · rw [hk z e]; exact .same _
  | flush gap =>
    obtain ⟨c, -, he, -, -, -, hw⟩ := flush_spec (H := H) G hl
    unfold step at hs
    simp only [he, Option.map_some] at hs
    cases hs
    show Goes _ _ _ _ _ (c.fsm.view z)
    rcases hw z with h | ⟨zn, oz, zn', oz', h1, h2, h3⟩
    · rw [h]; exact .same _
    · rw [h1, h2]; exact .opn h3
  | advance =>
    obtain ⟨-, -, he, hva⟩ := advance_spec (g := g) G
    cases hs
    show Goes _ _ _ _ _ (h.c.advance.1.fsm.view z)
    rw [hva]
    split
    · rename_i hd; rw [hd]; exact .erase rfl
    · exact .same _
  | reload => exact absurd rfl hnr

/-! ### The order of the list -/

theorem repairLe_total (f : FSM) (a b : Nat) : f.repairLe a b = true ∨ f.repairLe b a = true := by
  unfold FSM.repairLe
  simp only [decide_eq_true_eq]
  omega

theorem repairLe_trans (f : FSM) {a b c : Nat} (h1 : f.repairLe a b = true) (h2 : f.repairLe b c = true) :
    f.repairLe a c = true := by
  unfold FSM.repairLe at *
  simp only [decide_eq_true_eq] at *
  omega

theorem repairLe_start (f : FSM) {a b : Nat} (h : f.repairLe a b = true) : f.startOf a ≤ f.startOf b := by
  unfold FSM.repairLe at h
  unfold FSM.startOf
  simp only [decide_eq_true_eq] at h
  omega

theorem insertBy_pairwise (f : FSM) (a : Nat) {l : List Nat} (h : l.Pairwise fun a b => f.repairLe a b = true) :
    (insertBy f.repairLe a l).Pairwise fun a b => f.repairLe a b = true := by
  induction l with
  | nil => simp [insertBy]
  | cons b bs ih =>
    rw [List.pairwise_cons] at h
    unfold insertBy
    split
    · rename_i hab
      rw [List.pairwise_cons]
      refine ⟨?_, by rw [List.pairwise_cons]; exact h⟩
      intro x hx
      rcases List.mem_cons.mp hx with rfl | hx
      · exact hab
      · exact repairLe_trans f hab (h.1 x hx)
    · rename_i hab
      rw [List.pairwise_cons]
      refine ⟨?_, ih h.2⟩
      intro x hx
      rw [mem_insertBy] at hx
      rcases hx with rfl | hx
      · exact (repairLe_total f b x).resolve_right hab
      · exact h.1 x hx

theorem sortBy_pairwise (f : FSM) (l : List Nat) : (sortBy f.repairLe l).Pairwise fun a b => f.repairLe a b = true := by
  induction l with
  | nil => simp [sortBy]
  | cons a as ih => exact insertBy_pairwise f a ih

theorem orderZones_sorted (f : FSM) (s : Nat) (b : Bool) :
    (f.orderZones s b).1.Pairwise fun a b => f.startOf a ≤ f.startOf b := by
  unfold FSM.orderZones
  exact (sortBy_pairwise f _).imp (fun h => repairLe_start f h)

/-! ### Before the pool is locked -/

structure JInv (g : Geo) (n T0 : Nat) (r : LB) : Prop where
  good : Good g n r.h
  t0 : T0 ≤ r.now
  nowLt : r.now + 2 < TXG_MAX
  opens : ∀ z zn oz, r.h.c.fsm.view z = .opn zn oz → zn.txgStart ≤ r.now
  closeds : ∀ z zn, r.h.c.fsm.view z = .closed zn → zn.txgStart < zn.txgEnd ∧ zn.txgEnd ≤ r.now + 1
  next : r.t.nextTxg < TXG_MAX
  openNeed : ∀ z zn oz, r.h.c.fsm.view z = .opn zn oz → z ∈ r.need ∧ z ∉ r.done
  held : ∀ z ∈ r.need, z ∉ r.done → r.h.c.fsm.view z ≠ .empty ∧ r.h.c.fsm.view z ≠ .dead
  listed : ∀ z ∈ r.t.zones, ∃ zn, r.h.c.fsm.view z = .closed zn ∧ zn.txgEnd ≤ T0 + 1
  sorted : r.t.zones.Pairwise fun a b => r.h.c.fsm.startOf a ≤ r.h.c.fsm.startOf b
  out : ∀ z ∈ r.need, z ∉ r.done → z ∉ r.t.zones →
    (∃ y, r.t.minOpen = some y ∧ y ≤ r.h.c.fsm.startOf z) ∨ T0 ≤ r.h.c.fsm.startOf z
  cov : ∀ z ∈ r.need, z ∉ r.done → z ∉ r.t.zones → ∀ zn, r.h.c.fsm.view z = .closed zn → r.t.nextTxg < zn.txgEnd
  lab : ∀ z ∈ r.need, z ∉ r.done → ∀ zn, r.h.c.fsm.view z = .closed zn → r.label < zn.txgEnd
  labNow : r.label ≤ r.now
  disk : ∀ z zn, r.disk.view z = .closed zn → r.h.c.fsm.view z = .dead ∨
    ∃ zn', r.h.c.fsm.view z = .closed zn' ∧ zn'.txgEnd = zn.txgEnd

theorem startOf_goes {W A B : Prop} {txg : Nat} {f f' : FSM} {z : Nat} (h : Goes txg W A B (f.view z) (f'.view z))
    (h1 : f.view z ≠ .empty) (h2 : f'.view z ≠ .dead) : f'.view z = .empty ∨ f'.startOf z = f.startOf z := by
  generalize hv : f.view z = v at *
  generalize hv' : f'.view z = v' at *
  cases h with
  | same =>
    cases v with
    | empty => exact absurd rfl h1
    | dead => exact absurd rfl h2
    | opn zn oz => right; rw [startOf_open hv, startOf_open hv']
    | closed zn => right; rw [startOf_closed hv, startOf_closed hv']
  | closed h3 => right; rw [startOf_closed hv, startOf_closed hv', h3]
  | opn h3 => right; rw [startOf_open hv, startOf_open hv', h3]
  | close _ h3 => right; rw [startOf_open hv, startOf_closed hv', h3]
  | open_ => exact absurd rfl h1
  | kill => exact absurd rfl h2
  | erase => exact Or.inl rfl

theorem jinv_build {T0 : Nat} {r r' : LB} {W A B : Prop} (I : JInv g n T0 r) (G' : Good g n r'.h)
    (ht : r'.t = r.t) (hlab : r'.label = r.label) (hnow : r.now ≤ r'.now) (hlt : r'.now + 2 < TXG_MAX)
    (goes : ∀ z, Goes r'.now W A B (r.h.c.fsm.view z) (r'.h.c.fsm.view z))
    (hclose : W → r.t.nextTxg ≤ r'.now)
    (hkill : ∀ z, (z ∈ r.t.zones ∨ z ∈ r.need ∧ z ∉ r.done) → r'.h.c.fsm.view z ≠ .dead)
    (hneed : ∀ z ∈ r'.need, z ∉ r'.done → (z ∈ r.need ∧ z ∉ r.done) ∨
      r.h.c.fsm.view z = .empty ∧ ∃ zn oz, r'.h.c.fsm.view z = .opn zn oz)
    (hopen : ∀ z zn oz, r'.h.c.fsm.view z = .opn zn oz → z ∈ r'.need ∧ z ∉ r'.done)
    (hdisk : ∀ z zn, r'.disk.view z = .closed zn → r'.h.c.fsm.view z = .dead ∨
      ∃ zn', r'.h.c.fsm.view z = .closed zn' ∧ zn'.txgEnd = zn.txgEnd) : JInv g n T0 r' := by
  have hz1 : ∀ z ∈ r.need, z ∉ r.done → r'.h.c.fsm.view z ≠ .empty ∧ r'.h.c.fsm.view z ≠ .dead := by
    intro z h1 h2
    refine ⟨fun h => ?_, hkill z (.inr ⟨h1, h2⟩)⟩
    have hg := goes z
    obtain ⟨h3, h4⟩ := I.held z h1 h2
    rw [h] at hg
    generalize r.h.c.fsm.view z = v at *
    cases hg <;> simp_all
  have hstart : ∀ z ∈ r.need, z ∉ r.done → r'.h.c.fsm.startOf z = r.h.c.fsm.startOf z := by
    intro z h1 h2
    obtain ⟨h3, h4⟩ := hz1 z h1 h2
    exact (startOf_goes (goes z) (I.held z h1 h2).1 h4).resolve_left h3
  have hlist : ∀ z ∈ r.t.zones, ∃ zn zn', r.h.c.fsm.view z = .closed zn ∧ r'.h.c.fsm.view z = .closed zn' ∧
      zn'.txgStart = zn.txgStart ∧ zn'.txgEnd = zn.txgEnd ∧ zn.txgEnd ≤ T0 + 1 := by
    intro z hz
    obtain ⟨zn, h1, h2⟩ := I.listed z hz
    have hg := goes z
    have hk := hkill z (.inl hz)
    rw [h1] at hg
    generalize hv' : r'.h.c.fsm.view z = v' at *
    cases hg with
    | same => exact ⟨zn, zn, h1, rfl, rfl, rfl, h2⟩
    | closed h3 h4 => exact ⟨zn, _, h1, rfl, h3, h4, h2⟩
    | kill => exact absurd rfl hk
  refine { good := G', t0 := Nat.le_trans I.t0 hnow, nowLt := hlt, opens := ?_, closeds := ?_, next := by rw [ht]; exact I.next,
           openNeed := hopen, held := ?_, listed := ?_, sorted := ?_, out := ?_, cov := ?_, lab := ?_,
           labNow := by rw [hlab]; exact Nat.le_trans I.labNow hnow, disk := hdisk }
  · intro z zn oz h
    have hg := goes z
    rw [h] at hg
    generalize hv : r.h.c.fsm.view z = v at *
    cases hg with
    | same => have := I.opens z zn oz hv; omega
    | opn h3 => have := I.opens z _ _ hv; omega
    | open_ _ h3 => omega
  · intro z zn h
    have hg := goes z
    rw [h] at hg
    generalize hv : r.h.c.fsm.view z = v at *
    cases hg with
    | same => have := I.closeds z zn hv; omega
    | closed h3 h4 => have := I.closeds z _ hv; omega
    | close _ h3 h4 => have := I.opens z _ _ hv; omega
  · intro z h1 h2
    rcases hneed z h1 h2 with ⟨h3, h4⟩ | ⟨-, zn, oz, h3⟩
    · exact hz1 z h3 h4
    · rw [h3]; simp
  · intro z hz
    rw [ht] at hz
    obtain ⟨zn, zn', h1, h2, h3, h4, h5⟩ := hlist z hz
    exact ⟨zn', h2, by omega⟩
  · rw [ht]
    refine I.sorted.imp_of_mem ?_
    intro a b ha hb hab
    obtain ⟨zn, zn', h1, h2, h3, -⟩ := hlist a ha
    obtain ⟨wn, wn', k1, k2, k3, -⟩ := hlist b hb
    rw [startOf_closed h1, startOf_closed k1] at hab
    rw [startOf_closed h2, startOf_closed k2]
    omega
  · intro z h1 h2 h3
    rw [ht] at h3 ⊢
    rcases hneed z h1 h2 with ⟨h4, h5⟩ | ⟨h4, zn, oz, h5⟩
    · rw [hstart z h4 h5]; exact I.out z h4 h5 h3
    · right
      have hg := goes z
      rw [h4, h5] at hg
      rw [startOf_open h5]
      cases hg with
      | open_ _ h6 => have := I.t0; omega
  · intro z h1 h2 h3 zn h
    rw [ht] at h3 ⊢
    rcases hneed z h1 h2 with ⟨h4, h5⟩ | ⟨-, zn, oz, h4⟩
    · have hg := goes z
      rw [h] at hg
      generalize hv : r.h.c.fsm.view z = v at *
      cases hg with
      | same => exact I.cov z h4 h5 h3 zn hv
      | closed h6 h7 => rw [h7]; exact I.cov z h4 h5 h3 _ hv
      | close w h6 h7 => have := hclose w; omega
    · rw [h] at h4; cases h4
  · intro z h1 h2 zn h
    rw [hlab]
    rcases hneed z h1 h2 with ⟨h4, h5⟩ | ⟨-, zn, oz, h4⟩
    · have hg := goes z
      rw [h] at hg
      generalize hv : r.h.c.fsm.view z = v at *
      cases hg with
      | same => exact I.lab z h4 h5 zn hv
      | closed h6 h7 => rw [h7]; exact I.lab z h4 h5 _ hv
      | close w h6 h7 => have := I.labNow; omega
    · rw [h] at h4; cases h4

/-- A closed zone stays closed, or all its data is freed, unless it is erased. -/
theorem disk_goes {r : LB} {T0 : Nat} (I : JInv g n T0 r) {W A : Prop} {txg : Nat} {f' : FSM}
    (goes : ∀ z, Goes txg W A False (r.h.c.fsm.view z) (f'.view z)) :
    ∀ z zn, r.disk.view z = .closed zn → f'.view z = .dead ∨
      ∃ zn', f'.view z = .closed zn' ∧ zn'.txgEnd = zn.txgEnd := by
  intro z zn hd
  have hg := goes z
  rcases I.disk z zn hd with h | ⟨zn', h, h1⟩
  · rw [h] at hg
    generalize f'.view z = v at *
    cases hg with
    | same => exact Or.inl rfl
    | erase h => exact h.elim
  · rw [h] at hg
    generalize f'.view z = v at *
    cases hg with
    | same => exact Or.inr ⟨zn', rfl, h1⟩
    | closed h2 h3 => exact Or.inr ⟨_, rfl, by omega⟩
    | kill => exact Or.inl rfl

theorem Goes.mono {txg : Nat} {W A B W' A' B' : Prop} {v v' : ZState} (h : Goes txg W A B v v')
    (hw : W → W') (ha : A → A') (hb : B → B') : Goes txg W' A' B' v v' := by
  cases h with
  | same => exact .same _
  | closed h1 h2 => exact .closed h1 h2
  | opn h1 => exact .opn h1
  | close w h1 h2 => exact .close (hw w) h1 h2
  | open_ w h1 => exact .open_ (hw w) h1
  | kill a => exact .kill (ha a)
  | erase b => exact .erase (hb b)

theorem Goes.from_open {txg : Nat} {W A B : Prop} {v : ZState} {zn : Zone} {oz : OpenZone}
    (h : Goes txg W A B v (.opn zn oz)) : (∃ zn oz, v = .opn zn oz) ∨ v = .empty ∧ W := by
  cases h with
  | same => exact Or.inl ⟨_, _, rfl⟩
  | opn => exact Or.inl ⟨_, _, rfl⟩
  | open_ w => exact Or.inr ⟨rfl, w⟩

theorem jinv_env (geo : GeoOk g n) {T0 : Nat} {r r' : LB} (I : JInv g n T0 r) {op : Op} (hl : op.Legal r.h)
    (hP : Calm g H r op) (hs : r.env g H op = some r') : JInv g n T0 r' := by
  unfold LB.env at hs
  rw [Option.map_eq_some_iff] at hs
  obtain ⟨h', hst, he⟩ := hs
  obtain ⟨h2, he2, G'⟩ := good_step (H := H) geo I.good hl
  rw [hst] at he2
  cases he2
  cases op with
  | reload => exact hP.elim
  | write space txg =>
    obtain ⟨hp1, hp2, hp3⟩ := hP
    have goes := fun z => (goes_step geo I.good hl hst (by simp) r.now z).mono (W' := True) (A' := False) (B' := False)
      (fun _ => trivial) (by rintro ⟨i, h⟩; cases h) (by intro h; cases h)
    simp only [Op.txg] at goes
    have hnodead : ∀ z, (z ∈ r.t.zones ∨ z ∈ r.need ∧ z ∉ r.done) → h'.c.fsm.view z ≠ .dead := by
      intro z hz h
      have hg := goes z
      rw [h] at hg
      have : r.h.c.fsm.view z = .dead := by
        generalize r.h.c.fsm.view z = v at *
        cases hg with
        | same => rfl
        | kill h => exact h.elim
      rcases hz with hz | ⟨h1, h2⟩
      · obtain ⟨zn, h3, -⟩ := I.listed z hz
        rw [this] at h3; cases h3
      · exact (I.held z h1 h2).2 this
    simp only at he
    rcases write_spec geo I.good hl.1 hl.2 with ⟨c, hw, -, -, -, hk⟩ | ⟨c, z', lba, hw, -, -, -, hz', hk, zn, oz, ho, hcase⟩
    · rw [hw] at he
      simp only at he
      unfold step at hst
      simp only [hw] at hst
      cases hst
      cases he
      refine jinv_build I G' rfl rfl hp1 hp3 goes (fun _ => hp2) hnodead (fun z h1 h2 => Or.inl ⟨h1, h2⟩) ?_
        (disk_goes I goes)
      intro z zn oz h
      rcases (hk z) with h3 | ⟨_, _, _, _, h3, -⟩
      · exact I.openNeed z zn oz (h3 ▸ h)
      · have h : c.fsm.view z = _ := h
        rw [h] at h3; cases h3
    · rw [hw] at he
      simp only at he
      unfold step at hst
      simp only [hw] at hst
      cases hst
      cases he
      refine jinv_build I G' rfl rfl hp1 hp3 goes (fun _ => hp2) hnodead ?_ ?_ (disk_goes I goes)
      · intro z h1 h2
        simp only [List.mem_filter, List.mem_cons, decide_eq_true_eq, not_and, Decidable.not_not] at h1 h2
        by_cases e : z = z'
        · subst e
          rcases hcase with ⟨zn', oz', h3, -⟩ | ⟨h3, -⟩
          · exact Or.inl (I.openNeed z zn' oz' h3)
          · exact Or.inr ⟨h3, zn, oz, ho⟩
        · exact Or.inl ⟨h1.resolve_left e, fun h => e (h2 h)⟩
      · intro z zn1 oz1 h
        simp only [List.mem_filter, List.mem_cons, decide_eq_true_eq, not_and, Decidable.not_not]
        by_cases e : z = z'
        · exact ⟨Or.inl e, fun _ => e⟩
        · have h : c.fsm.view z = _ := h
          rcases (hk z e) with h3 | ⟨_, _, _, _, h3, -⟩
          · obtain ⟨h4, h5⟩ := I.openNeed z zn1 oz1 (h3 ▸ h)
            exact ⟨Or.inr h4, fun h => absurd h h5⟩
          · rw [h] at h3; cases h3
  | free i =>
    have goes := fun z => (goes_step geo I.good hl hst (by simp) r.now z).mono (W' := False) (A' := True) (B' := False)
      (by rintro ⟨_, _, h⟩; cases h) (fun _ => trivial) (by intro h; cases h)
    simp only [Op.txg] at goes
    simp only at he
    cases he
    refine jinv_build I G' rfl rfl (Nat.le_refl _) I.nowLt goes (fun h => h.elim) ?_ (fun z h1 h2 => Or.inl ⟨h1, h2⟩) ?_
      (disk_goes I goes)
    · intro z hz h
      have := hP h' hst z hz
      rw [(FSM.isDead_view _ z).mpr h] at this
      cases this
    · intro z zn oz h
      have hg := goes z
      rw [h] at hg
      rcases hg.from_open with ⟨zn', oz', h1⟩ | ⟨-, h1⟩
      · exact I.openNeed z zn' oz' h1
      · exact h1.elim
  | flush gap =>
    have goes := fun z => (goes_step geo I.good hl hst (by simp) r.now z).mono (W' := False) (A' := False) (B' := False)
      (by rintro ⟨_, _, h⟩; cases h) (by rintro ⟨i, h⟩; cases h) (by intro h; cases h)
    simp only [Op.txg] at goes
    simp only at he
    cases he
    refine jinv_build I G' rfl rfl (Nat.le_refl _) I.nowLt goes (fun h => h.elim) ?_ (fun z h1 h2 => Or.inl ⟨h1, h2⟩) ?_
      (fun z zn h => Or.inr ⟨zn, h, rfl⟩)
    · intro z hz h
      have hg := goes z
      rw [h] at hg
      have : r.h.c.fsm.view z = .dead := by
        generalize r.h.c.fsm.view z = v at *
        cases hg with
        | same => rfl
        | kill h => exact h.elim
      rcases hz with hz | ⟨h1, h2⟩
      · obtain ⟨zn, h3, -⟩ := I.listed z hz
        rw [this] at h3; cases h3
      · exact (I.held z h1 h2).2 this
    · intro z zn oz h
      have hg := goes z
      rw [h] at hg
      rcases hg.from_open with ⟨zn', oz', h1⟩ | ⟨-, h1⟩
      · exact I.openNeed z zn' oz' h1
      · exact h1.elim
  | advance =>
    obtain ⟨-, -, hdead, hva⟩ := advance_spec (g := g) I.good
    have goes := fun z => (goes_step geo I.good hl hst (by simp) r.now z).mono (W' := False) (A' := False) (B' := True)
      (by rintro ⟨_, _, h⟩; cases h) (by rintro ⟨i, h⟩; cases h) (fun _ => trivial)
    simp only [Op.txg] at goes
    simp only at he
    cases he
    have hmem : ∀ z, (z ∈ r.need.filter (fun z => !(r.h.c.advance.2.contains z)) ↔ z ∈ r.need ∧ r.h.c.fsm.view z ≠ .dead) ∧
        (z ∈ r.done.filter (fun z => !(r.h.c.advance.2.contains z)) ↔ z ∈ r.done ∧ r.h.c.fsm.view z ≠ .dead) := by
      intro z
      constructor <;> simp [hdead]
    refine jinv_build I G' rfl rfl (Nat.le_refl _) I.nowLt goes (fun h => h.elim) ?_ ?_ ?_ ?_
    · intro z hz h
      have hg := goes z
      rw [h] at hg
      have : r.h.c.fsm.view z = .dead := by
        generalize r.h.c.fsm.view z = v at *
        cases hg with
        | same => rfl
        | kill h => exact h.elim
      rcases hz with hz | ⟨h1, h2⟩
      · obtain ⟨zn, h3, -⟩ := I.listed z hz
        rw [this] at h3; cases h3
      · exact (I.held z h1 h2).2 this
    · intro z h1 h2
      simp only [hmem] at h1 h2
      exact Or.inl ⟨h1.1, fun h => h2 ⟨h, h1.2⟩⟩
    · intro z zn oz h
      have hg := goes z
      rw [h] at hg
      simp only [hmem]
      rcases hg.from_open with ⟨zn', oz', h1⟩ | ⟨-, h1⟩
      · obtain ⟨h2, h3⟩ := I.openNeed z zn' oz' h1
        exact ⟨⟨h2, by rw [h1]; simp⟩, fun h => h3 h.1⟩
      · exact h1.elim
    · intro z zn hd
      cases hst
      show r.h.c.advance.1.fsm.view z = .dead ∨ ∃ zn', r.h.c.advance.1.fsm.view z = .closed zn' ∧ _
      rw [hva]
      rcases I.disk z zn hd with h | ⟨zn', h, h1⟩
      · have := (FSM.isDead_view _ z).mp (hP z ((FSM.isDead_view _ z).mpr h))
        rw [hd] at this; cases this
      · rw [if_neg (by rw [h]; simp)]
        exact Or.inr ⟨zn', h, h1⟩

/-- The list that a step without open zones makes. -/
theorem order_closed {f : FSM} (wf : f.WF) {s z : Nat} (h : z ∈ (f.orderZones s false).1) :
    ∃ zn, f.view z = .closed zn ∧ s < zn.txgEnd := by
  rw [mem_orderZones, mem_contains] at h
  obtain ⟨⟨-, h1⟩, h2⟩ := h
  rcases h1 with h1 | ⟨zn, oz, hv⟩
  · exact h1
  · rcases h2 with h2 | h2
    · cases h2
    · rw [(FSM.isOpen_view wf z).mpr ⟨zn, oz, hv⟩] at h2; cases h2

theorem closed_order {f : FSM} (wf : f.WF) {s z : Nat} (hs : s < TXG_MAX) (b : Bool) {zn : Zone}
    (h : f.view z = .closed zn) (he : s < zn.txgEnd) : z ∈ (f.orderZones s b).1 := by
  rw [mem_orderZones, mem_contains]
  exact ⟨⟨hs, Or.inl ⟨zn, h, he⟩⟩, Or.inr (isOpen_false wf (fun _ _ h' => by rw [h] at h'; cases h'))⟩

theorem order_max {f : FSM} (wf : f.WF) {T s m : Nat}
    (hc : ∀ z zn, f.view z = .closed zn → zn.txgEnd ≤ T + 1) (h : (f.orderZones s false).2 = some m) : m ≤ T + 1 := by
  obtain ⟨z, hz, rfl⟩ := orderZones_max f s false h
  obtain ⟨zn, hv, -⟩ := order_closed wf hz
  have := endOf_closed hv
  unfold FSM.endOf at this
  rw [this]
  exact hc z zn hv

/-- The cluster when the rebuild starts: no transaction is after `now`, and the free-space map on
disk is not ahead of the one in memory. -/
structure Ready (g : Geo) (n : Nat) (h : Hist) (now : Nat) (disk : FSM) : Prop where
  good : Good g n h
  nowLt : now + 2 < TXG_MAX
  opens : ∀ z zn oz, h.c.fsm.view z = .opn zn oz → zn.txgStart ≤ now
  closeds : ∀ z zn, h.c.fsm.view z = .closed zn → zn.txgStart < zn.txgEnd ∧ zn.txgEnd ≤ now + 1
  disk : ∀ z zn, disk.view z = .closed zn → h.c.fsm.view z = .dead ∨
    ∃ zn', h.c.fsm.view z = .closed zn' ∧ zn'.txgEnd = zn.txgEnd

theorem jinv_start {h : Hist} {now : Nat} {disk : FSM} (R : Ready g n h now disk) {s : Nat} (hs : s ≤ now) :
    JInv g n now (LB.start h now disk s) := by
  have wf := R.good.wf
  have hlt : s < TXG_MAX := by have := R.nowLt; omega
  refine { good := R.good, t0 := Nat.le_refl _, nowLt := R.nowLt, opens := R.opens, closeds := R.closeds,
           next := ?_, openNeed := ?_, held := ?_, listed := ?_, sorted := orderZones_sorted _ _ _, out := ?_, cov := ?_,
           lab := ?_, labNow := hs, disk := R.disk }
  · simp only [LB.start, FSM.startRepair, FSM.repairMirror]
    split
    · rename_i m hm
      have := order_max wf (fun z zn h => (R.closeds z zn h).2) hm
      have := R.nowLt
      omega
    · unfold TXG_MAX; omega
  · intro z zn oz hv
    refine ⟨?_, by simp [LB.start]⟩
    simp only [LB.start, mem_contains]
    exact ⟨hlt, Or.inr ⟨zn, oz, hv⟩⟩
  · intro z hz _
    simp only [LB.start, mem_contains] at hz ⊢
    rcases hz with ⟨-, ⟨zn, hv, -⟩ | ⟨zn, oz, hv⟩⟩ <;> rw [hv] <;> simp
  · intro z hz
    obtain ⟨zn, hv, -⟩ := order_closed wf hz
    exact ⟨zn, hv, (R.closeds z zn hv).2⟩
  · intro z hz _ hn
    simp only [LB.start, mem_contains] at hz ⊢
    rcases hz with ⟨-, ⟨zn, hv, he⟩ | ⟨zn, oz, hv⟩⟩
    · exact absurd (closed_order wf hlt false hv he) hn
    · rw [startOf_open hv]
      exact Or.inl (minOpen_spec wf hv)
  · intro z hz _ hn zn hv
    simp only [LB.start, mem_contains] at hz
    rcases hz with ⟨-, ⟨zn', hv', he⟩ | ⟨zn', oz, hv'⟩⟩
    · exact absurd (closed_order wf hlt false hv' he) hn
    · simp only [LB.start] at hv
      rw [hv'] at hv; cases hv
  · intro z hz _ zn hv
    simp only [LB.start, mem_contains] at hz hv ⊢
    rcases hz with ⟨-, ⟨zn', hv', he⟩ | ⟨zn', oz, hv'⟩⟩
    · rw [hv'] at hv; cases hv; exact he
    · rw [hv'] at hv; cases hv

/-- What is known of a new label. -/
theorem syncTxg_some {t : LTask} {want : Option Nat} {x : Nat} (h : t.syncTxg want = some x) :
    want = some x ∧ (∀ y, t.minOpen = some y → x < y) ∧ t.initial < x := by
  unfold LTask.syncTxg at h
  cases want with
  | none => simp at h
  | some w =>
    cases hm : t.minOpen with
    | none =>
      simp only [hm] at h
      split at h
      · cases h
      · cases h; exact ⟨rfl, (fun y hy => by cases hy), by omega⟩
    | some y =>
      simp only [hm] at h
      by_cases hy : w < y
      · simp only [if_pos hy] at h
        split at h
        · cases h
        · cases h; exact ⟨rfl, (fun y' hy' => by cases hy'; exact hy), by omega⟩
      · simp only [if_neg hy] at h; cases h

/-- A step on a zone that holds data, whose successor holds data. -/
theorem labelStep_cons {f : FSM} {t : LTask} {z : Nat} {zs : List Nat} (hz : t.zones = z :: zs) (b : Bool)
    (h1 : f.view z ≠ .empty) (h2 : f.view z ≠ .dead) (h3 : f.writePointer z ≠ some 0)
    (hn : ∀ nz ∈ zs, f.view nz ≠ .empty) :
    ∃ want, f.wantTxg z zs = some want ∧
      f.labelStep t b = some ({ t with zones := zs }, true, ⟨some z, t.syncTxg want⟩) := by
  have he : (f.isDead z || f.isEmpty z) = false := by
    rw [Bool.or_eq_false_iff]
    constructor
    · cases h : f.isDead z with
      | false => rfl
      | true => exact absurd ((FSM.isDead_view f z).mp h) h2
    · cases h : f.isEmpty z with
      | false => rfl
      | true => exact absurd ((FSM.isEmpty_view f z).mp h) h1
  have hw : ∃ want, f.wantTxg z zs = some want := by
    unfold FSM.wantTxg
    cases zs with
    | nil => exact ⟨_, rfl⟩
    | cons nz _ =>
      have : nz < f.zones.length := by
        rcases Nat.lt_or_ge nz f.zones.length with h | h
        · exact h
        · exact absurd (FSM.view_ge h) (hn nz (List.mem_cons_self ..))
      exact ⟨_, if_pos this⟩
  obtain ⟨want, hw⟩ := hw
  refine ⟨want, hw, ?_⟩
  unfold FSM.labelStep
  rw [hz]
  simp only [he, Bool.false_eq_true, if_false, hw, Option.map_some, if_neg h3]

theorem wp_ne {h : Hist} (G : Good g n h) (z : Nat) : h.c.fsm.writePointer z ≠ some 0 := by
  intro he
  unfold FSM.writePointer at he
  rw [Option.map_eq_some_iff] at he
  obtain ⟨oz, ho, h0⟩ := he
  obtain ⟨zn, -, hv⟩ := FSM.view_of_open G.wf ho
  obtain ⟨-, -, h3, -⟩ := opn_inv G hv
  omega

/-- The bound on a new label: the zones after it in the list begin later. -/
theorem want_next {f : FSM} {z : Nat} {zs : List Nat} {x : Nat} (h : f.wantTxg z zs = some (some x))
    (hs : (z :: zs).Pairwise fun a b => f.startOf a ≤ f.startOf b) :
    (∀ z' ∈ zs, x < f.startOf z') ∧ ((zs = [] ∧ x = f.endOf z - 1) ∨ ∃ nz ∈ zs, x = f.startOf nz - 1) := by
  unfold FSM.wantTxg at h
  cases zs with
  | nil =>
    simp only [Option.some.injEq] at h
    exact ⟨by simp, Or.inl ⟨rfl, h.symm⟩⟩
  | cons nz rest =>
    simp only at h
    split at h
    · simp only [Option.some.injEq] at h
      split at h
      · cases h
        refine ⟨?_, Or.inr ⟨nz, List.mem_cons_self .., rfl⟩⟩
        intro z' hz'
        rw [List.pairwise_cons, List.pairwise_cons] at hs
        rcases List.mem_cons.mp hz' with rfl | hz'
        · omega
        · have := hs.2.1 z' hz'; omega
      · cases h
    · cases h

/-- The state after a step that copied `z`. -/
def LB.copied (r : LB) (z : Nat) (zs : List Nat) (want : Option Nat) : LB :=
  { r with t := { r.t with zones := zs }, label := (r.t.syncTxg want).getD r.label, done := z :: r.done }

/-- The state after a step that made a new list. -/
def LB.relisted (r : LB) (b : Bool) : LB :=
  { r with t := { r.t with
    zones := (r.h.c.fsm.orderZones r.t.nextTxg b).1
    nextTxg := match (r.h.c.fsm.orderZones r.t.nextTxg b).2 with
      | some m => m + 1
      | none => r.t.nextTxg
    minOpen := r.h.c.fsm.minOpen } }

theorem repair_cons {r : LB} {b : Bool} {z : Nat} {zs : List Nat} {want : Option Nat}
    (h : r.h.c.fsm.labelStep r.t b = some ({ r.t with zones := zs }, true, ⟨some z, r.t.syncTxg want⟩)) :
    r.repair b = some (r.copied z zs want, true) := by
  unfold LB.repair; rw [h]; rfl

theorem repair_nil {r : LB} (hz : r.t.zones = []) (b : Bool) :
    r.repair b = some (r.relisted b, !(r.h.c.fsm.orderZones r.t.nextTxg b).1.isEmpty) := by
  unfold LB.repair FSM.labelStep; rw [hz]; rfl

theorem jinv_repair {T0 : Nat} {r : LB} (I : JInv g n T0 r) :
    ∃ r' b T0', r.repair false = some (r', b) ∧ JInv g n T0' r' ∧ (b = false → r'.t.zones = []) ∧ r'.now = r.now := by
  have wf := I.good.wf
  cases hz : r.t.zones with
  | cons z zs =>
    obtain ⟨zn, hv, hend⟩ := I.listed z (by rw [hz]; exact List.mem_cons_self ..)
    obtain ⟨want, hw, hst⟩ := labelStep_cons hz false (f := r.h.c.fsm) (by rw [hv]; simp) (by rw [hv]; simp)
      (wp_ne I.good z) (by
        intro nz hnz
        obtain ⟨wn, h, -⟩ := I.listed nz (by rw [hz]; exact List.mem_cons_of_mem _ hnz)
        rw [h]; simp)
    refine ⟨_, _, T0, repair_cons hst, ?_, by simp, rfl⟩
    have hlist : ∀ z' ∈ zs, z' ∈ r.t.zones := fun z' h => by rw [hz]; exact List.mem_cons_of_mem _ h
    have hso := I.sorted
    rw [hz] at hso
    have hnd : ∀ z', z' ∉ z :: r.done → z' ∉ zs → z' ∉ r.t.zones ∧ z' ∉ r.done := by
      intro z' h1 h2
      rw [List.mem_cons, not_or] at h1
      rw [hz, List.mem_cons, not_or]
      exact ⟨⟨h1.1, h2⟩, h1.2⟩
    -- the bound on a new label
    have hx : ∀ x, r.t.syncTxg want = some x → x ≤ T0 ∧ (∀ y, r.t.minOpen = some y → x < y) ∧
        ∀ z' ∈ zs, x < r.h.c.fsm.startOf z' := by
      intro x hx
      obtain ⟨rfl, h1, -⟩ := syncTxg_some hx
      obtain ⟨h2, h3⟩ := want_next hw hso
      refine ⟨?_, h1, h2⟩
      rcases h3 with ⟨-, rfl⟩ | ⟨nz, hnz, rfl⟩
      · rw [endOf_closed hv]; omega
      · obtain ⟨wn, h4, h5⟩ := I.listed nz (hlist nz hnz)
        have := I.closeds nz wn h4
        rw [startOf_closed h4]; omega
    refine { good := I.good, t0 := I.t0, nowLt := I.nowLt, opens := I.opens, closeds := I.closeds, next := I.next,
             openNeed := ?_, held := ?_, listed := ?_, sorted := ?_, out := ?_, cov := ?_, lab := ?_, labNow := ?_,
             disk := I.disk }
    · intro z' zn' oz' h
      obtain ⟨h1, h2⟩ := I.openNeed z' zn' oz' h
      refine ⟨h1, ?_⟩
      show z' ∉ z :: r.done
      rw [List.mem_cons, not_or]
      refine ⟨?_, h2⟩
      rintro rfl
      have h : r.h.c.fsm.view z' = _ := h
      rw [hv] at h; cases h
    · intro z' h1 h2
      exact I.held z' h1 (fun h => h2 (List.mem_cons_of_mem _ h))
    · exact fun z' h => I.listed z' (hlist z' h)
    · exact (List.pairwise_cons.mp hso).2
    · intro z' h1 h2 h3
      obtain ⟨h4, h5⟩ := hnd z' h2 h3
      exact I.out z' h1 h5 h4
    · intro z' h1 h2 h3
      obtain ⟨h4, h5⟩ := hnd z' h2 h3
      exact I.cov z' h1 h5 h4
    · intro z' h1 h2 zn' h
      simp only [LB.copied] at h1 h2 h ⊢
      cases hl : r.t.syncTxg want with
      | none => exact I.lab z' h1 (fun h => h2 (List.mem_cons_of_mem _ h)) zn' h
      | some x =>
        obtain ⟨hx1, hx2, hx3⟩ := hx x hl
        simp only [Option.getD_some]
        have hc := I.closeds z' zn' h
        by_cases hin : z' ∈ zs
        · have := hx3 z' hin
          rw [startOf_closed h] at this
          omega
        · obtain ⟨h4, h5⟩ := hnd z' h2 hin
          rcases I.out z' h1 h5 h4 with ⟨y, h6, h7⟩ | h6
          · have := hx2 y h6
            rw [startOf_closed h] at h7; omega
          · rw [startOf_closed h] at h6; omega
    · simp only [LB.copied]
      cases hl : r.t.syncTxg want with
      | none => exact I.labNow
      | some x =>
        have := hx x hl
        have := I.t0
        simp only [Option.getD_some]; omega
  | nil =>
    refine ⟨_, _, r.now, repair_nil hz _, ?_, ?_, rfl⟩
    · refine { good := I.good, t0 := Nat.le_refl _, nowLt := I.nowLt, opens := I.opens, closeds := I.closeds,
               next := ?_, openNeed := I.openNeed, held := I.held, listed := ?_, sorted := orderZones_sorted _ _ _,
               out := ?_, cov := ?_, lab := I.lab, labNow := I.labNow, disk := I.disk }
      · simp only [LB.relisted]
        split
        · rename_i m hm
          have := order_max wf (fun z zn h => (I.closeds z zn h).2) hm
          have := I.nowLt
          omega
        · exact I.next
      · intro z h
        obtain ⟨zn, hv, -⟩ := order_closed wf h
        exact ⟨zn, hv, (I.closeds z zn hv).2⟩
      · intro z h1 h2 h3
        simp only [LB.relisted] at h1 h2 h3 ⊢
        cases hv : r.h.c.fsm.view z with
        | empty => exact absurd hv (I.held z h1 h2).1
        | dead => exact absurd hv (I.held z h1 h2).2
        | opn zn oz => rw [startOf_open hv]; exact Or.inl (minOpen_spec wf hv)
        | closed zn =>
          exact absurd (closed_order wf I.next false hv (I.cov z h1 h2 (by rw [hz]; simp) zn hv)) h3
      · intro z h1 h2 h3 zn hv
        exact absurd (closed_order wf I.next false hv (I.cov z h1 h2 (by rw [hz]; simp) zn hv)) h3
    · intro hb
      simpa [LB.relisted] using hb

/-! ### While the pool is locked -/

structure KInv (g : Geo) (n : Nat) (r : LB) : Prop where
  good : Good g n r.h
  nowLt : r.now + 2 < TXG_MAX
  opens : ∀ z zn oz, r.h.c.fsm.view z = .opn zn oz → zn.txgStart ≤ r.now
  closeds : ∀ z zn, r.h.c.fsm.view z = .closed zn → zn.txgStart < zn.txgEnd ∧ zn.txgEnd ≤ r.now + 1
  sub : ∀ z ∈ r.need, z ∉ r.done → z ∈ r.t.zones
  listed : ∀ z ∈ r.t.zones, r.h.c.fsm.view z ≠ .empty ∧ r.h.c.fsm.view z ≠ .dead
  minO : ∀ z zn oz, r.h.c.fsm.view z = .opn zn oz → ∃ y, r.t.minOpen = some y ∧ y ≤ zn.txgStart
  sorted : r.t.zones.Pairwise fun a b => r.h.c.fsm.startOf a ≤ r.h.c.fsm.startOf b
  lab : ∀ z ∈ r.need, z ∉ r.done → ∀ zn, r.h.c.fsm.view z = .closed zn → r.label < zn.txgEnd
  labNow : r.label ≤ r.now
  disk : ∀ z zn, r.disk.view z = .closed zn → r.h.c.fsm.view z = .dead ∨
    ∃ zn', r.h.c.fsm.view z = .closed zn' ∧ zn'.txgEnd = zn.txgEnd

theorem order_held {f : FSM} {s z : Nat} {b : Bool} (h : z ∈ (f.orderZones s b).1) :
    f.view z ≠ .empty ∧ f.view z ≠ .dead := by
  rw [mem_orderZones, mem_contains] at h
  obtain ⟨⟨-, ⟨zn, h1, -⟩ | ⟨zn, oz, h1⟩⟩, -⟩ := h <;> rw [h1] <;> simp

theorem kinv_lock {T0 : Nat} {r : LB} (I : JInv g n T0 r) (hz : r.t.zones = []) :
    ∃ r' b, r.repair true = some (r', b) ∧ KInv g n r' ∧ (b = false → r'.t.zones = []) := by
  have wf := I.good.wf
  refine ⟨_, _, repair_nil hz _, ?_, ?_⟩
  · refine { good := I.good, nowLt := I.nowLt, opens := I.opens, closeds := I.closeds, sub := ?_,
             listed := fun z h => order_held h, minO := fun z zn oz h => minOpen_spec wf h,
             sorted := orderZones_sorted _ _ _, lab := I.lab, labNow := I.labNow, disk := I.disk }
    intro z h1 h2
    simp only [LB.relisted] at h1 h2 ⊢
    cases hv : r.h.c.fsm.view z with
    | empty => exact absurd hv (I.held z h1 h2).1
    | dead => exact absurd hv (I.held z h1 h2).2
    | opn zn oz =>
      rw [mem_orderZones, mem_contains]
      exact ⟨⟨I.next, Or.inr ⟨zn, oz, hv⟩⟩, Or.inl rfl⟩
    | closed zn => exact closed_order wf I.next true hv (I.cov z h1 h2 (by rw [hz]; simp) zn hv)
  · intro hb
    simpa [LB.relisted] using hb

theorem kinv_repair {r : LB} (I : KInv g n r) :
    ∃ r' b, r.repair true = some (r', b) ∧ KInv g n r' ∧ (b = false → r'.t.zones = []) := by
  have wf := I.good.wf
  cases hz : r.t.zones with
  | cons z zs =>
    obtain ⟨hv1, hv2⟩ := I.listed z (by rw [hz]; exact List.mem_cons_self ..)
    have hlist : ∀ z' ∈ zs, z' ∈ r.t.zones := fun z' h => by rw [hz]; exact List.mem_cons_of_mem _ h
    obtain ⟨want, hw, hst⟩ := labelStep_cons hz true (f := r.h.c.fsm) hv1 hv2
      (wp_ne I.good z) (fun nz hnz => (I.listed nz (hlist nz hnz)).1)
    refine ⟨_, _, repair_cons hst, ?_, by simp⟩
    have hso := I.sorted
    rw [hz] at hso
    have hx : ∀ x, r.t.syncTxg want = some x → x ≤ r.now ∧ ∀ z' ∈ zs, x < r.h.c.fsm.startOf z' := by
      intro x hx
      obtain ⟨rfl, h1, -⟩ := syncTxg_some hx
      obtain ⟨h2, h3⟩ := want_next hw hso
      refine ⟨?_, h2⟩
      rcases h3 with ⟨-, hx⟩ | ⟨nz, hnz, hx⟩
      · cases hv : r.h.c.fsm.view z with
        | empty => exact absurd hv hv1
        | dead => exact absurd hv hv2
        | opn zn oz =>
          obtain ⟨y, h4, h5⟩ := I.minO z zn oz hv
          have := h1 y h4
          have := I.opens z zn oz hv
          omega
        | closed zn =>
          have := I.closeds z zn hv
          rw [endOf_closed hv] at hx; omega
      · obtain ⟨k1, k2⟩ := I.listed nz (hlist nz hnz)
        cases hv : r.h.c.fsm.view nz with
        | empty => exact absurd hv k1
        | dead => exact absurd hv k2
        | opn zn oz => have := I.opens nz zn oz hv; rw [startOf_open hv] at hx; omega
        | closed zn => have := I.closeds nz zn hv; rw [startOf_closed hv] at hx; omega
    have hsub : ∀ z' ∈ r.need, z' ∉ z :: r.done → z' ∈ zs := by
      intro z' h1 h2
      rw [List.mem_cons, not_or] at h2
      have := I.sub z' h1 h2.2
      rw [hz, List.mem_cons] at this
      exact this.resolve_left h2.1
    refine { good := I.good, nowLt := I.nowLt, opens := I.opens, closeds := I.closeds, sub := hsub,
             listed := fun z' h => I.listed z' (hlist z' h), minO := I.minO,
             sorted := (List.pairwise_cons.mp hso).2, lab := ?_, labNow := ?_, disk := I.disk }
    · intro z' h1 h2 zn' h
      simp only [LB.copied] at h1 h2 h ⊢
      cases hl : r.t.syncTxg want with
      | none => exact I.lab z' h1 (fun h => h2 (List.mem_cons_of_mem _ h)) zn' h
      | some x =>
        have hx3 := (hx x hl).2 z' (hsub z' h1 h2)
        have hc := I.closeds z' zn' h
        rw [startOf_closed h] at hx3
        simp only [Option.getD_some]
        omega
    · simp only [LB.copied]
      cases hl : r.t.syncTxg want with
      | none => exact I.labNow
      | some x => simp only [Option.getD_some]; exact (hx x hl).1
  | nil =>
    refine ⟨_, _, repair_nil hz _, ?_, ?_⟩
    · refine { good := I.good, nowLt := I.nowLt, opens := I.opens, closeds := I.closeds, sub := ?_,
               listed := fun z h => order_held h, minO := fun z zn oz h => minOpen_spec wf h,
               sorted := orderZones_sorted _ _ _, lab := I.lab, labNow := I.labNow, disk := I.disk }
      intro z h1 h2
      have := I.sub z h1 h2
      rw [hz] at this
      cases this
    · intro hb
      simpa [LB.relisted] using hb

theorem rebuilding_inv (geo : GeoOk g n) {h : Hist} {now s : Nat} {disk : FSM} (R : Ready g n h now disk)
    (hs : s ≤ now) {b : Bool} {r : LB} (hr : Rebuilding g H (Calm g H) (LB.start h now disk s) b r) :
    if b then KInv g n r else ∃ T0, JInv g n T0 r := by
  induction hr with
  | start => exact ⟨now, jinv_start R hs⟩
  | env _ hl hP he ih =>
    obtain ⟨T0, ih⟩ := ih
    exact ⟨T0, jinv_env geo ih hl hP he⟩
  | closed _ he ih =>
    obtain ⟨T0, ih⟩ := ih
    obtain ⟨r', b, T0', h1, h2, -⟩ := jinv_repair ih
    rw [he] at h1
    cases h1
    exact ⟨T0', h2⟩
  | lock _ he he2 ih =>
    obtain ⟨T0, ih⟩ := ih
    obtain ⟨r', b, T0', h1, h2, h3, -⟩ := jinv_repair ih
    rw [he] at h1
    cases h1
    obtain ⟨r'', b', h4, h5, -⟩ := kinv_lock h2 (h3 rfl)
    rw [he2] at h4
    cases h4
    exact h5
  | locked _ he ih =>
    obtain ⟨r', b, h1, h2, -⟩ := kinv_repair ih
    rw [he] at h1
    cases h1
    exact h2

/-- The transactions of zones, in a history in which transactions follow each other. -/
theorem closeds_inOrder (geo : GeoOk g n) {T : Nat} {s : TxgHist} (h : InOrder g H n T s) :
    ∀ z zn, s.h.c.fsm.view z = .closed zn → zn.txgStart < zn.txgEnd ∧ zn.txgEnd ≤ T + 1 := by
  induction h with
  | init =>
    intro z zn h
    rw [FSM.view_ge (Nat.zero_le _)] at h
    cases h
  | @step T s s' op hin hl hT hs ih =>
    intro z zn h
    have I := dinv_inOrder geo hin
    obtain ⟨h', hs1, rfl⟩ := Option.map_eq_some_iff.mp hs
    by_cases hnr : op = .reload
    · subst hnr
      obtain ⟨f, c, h1, h2, hc, -, -, hvw, -⟩ := reload_spec geo H I.good
      unfold step at hs1
      simp only [I.good.total, h1, h2, Option.map_some] at hs1
      cases hs1
      have h : c.fsm.view z = .closed zn := h
      rw [hc, hvw] at h
      exact ih z zn h
    · have hg := goes_step geo I.good hl hs1 hnr T z
      have h : h'.c.fsm.view z = .closed zn := h
      rw [h] at hg
      generalize hv : s.h.c.fsm.view z = v at *
      cases hg with
      | same => have := ih z zn hv; omega
      | closed h3 h4 => have := ih z _ hv; omega
      | close _ h3 h4 => have := I.opened z _ _ hv; omega

/-- The step is the one of `Rebuild.lean`, if it does not panic. -/
theorem labelStep_repairStep {f : FSM} {t t' : LTask} {b m : Bool} {d : Did} (h : f.labelStep t b = some (t', m, d)) :
    f.repairStep ⟨t.zones, t.nextTxg⟩ b = (⟨t'.zones, t'.nextTxg⟩, m, d.zone) := by
  unfold FSM.labelStep at h
  unfold FSM.repairStep
  cases hz : t.zones with
  | nil =>
    rw [hz] at h
    simp only [Option.some.injEq] at h
    cases h
    rfl
  | cons z zs =>
    rw [hz] at h
    simp only at h ⊢
    by_cases hd : (f.isDead z || f.isEmpty z) = true
    · rw [if_pos hd] at h ⊢
      cases h
      rfl
    · rw [if_neg hd] at h ⊢
      rw [Option.map_eq_some_iff] at h
      obtain ⟨w, -, h⟩ := h
      cases h
      by_cases hw : f.writePointer z = some 0
      · simp only [if_pos hw]
      · simp only [if_neg hw]

end Verif.Cluster
