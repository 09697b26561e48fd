import Verif.Cluster.Model

/-! # The state of a zone, and what each operation does to it -/

namespace Verif.Cluster

open Verif

/-- The life cycle of a zone (cluster.rs:45-78). -/
inductive ZState where
  | empty
  | dead
  | opn (zn : Zone) (oz : OpenZone)
  | closed (zn : Zone)
  deriving DecidableEq, Repr

namespace FSM

/-- The state of zone `z`. -/
def view (f : FSM) (z : Nat) : ZState :=
  match f.zones[z]? with
  | none => .empty
  | some zn =>
    if (f.empty.get z).isSome then (if 0 < zn.txgEnd then .dead else .empty)
    else match f.opn.get z with
      | some oz => .opn zn oz
      | none => .closed zn

/-- Well-formedness. -/
structure WF (f : FSM) : Prop where
  sortedE : OMap.Sorted f.empty
  sortedO : OMap.Sorted f.opn
  emptyLt : ∀ z, (f.empty.get z).isSome = true → z < f.zones.length
  openLt : ∀ z, (f.opn.get z).isSome = true → z < f.zones.length
  disj : ∀ z, (f.empty.get z).isSome = true → f.opn.get z = none
  len : f.zones.length ≤ f.total
  dirty : f.dirty.length = spacemapSpace f.total

theorem view_ge {f : FSM} {z : Nat} (h : f.zones.length ≤ z) : f.view z = .empty := by
  unfold view
  rw [List.getElem?_eq_none h]

theorem isEmpty_view (f : FSM) (z : Nat) : f.isEmpty z = true ↔ f.view z = .empty := by
  unfold isEmpty view
  cases h : f.zones[z]? with
  | none => simp
  | some zn =>
    simp only [Bool.and_eq_true, decide_eq_true_eq]
    by_cases he : (f.empty.get z).isSome = true
    · rw [if_pos he]
      by_cases ht : 0 < zn.txgEnd
      · rw [if_pos ht]; simp; omega
      · rw [if_neg ht]; simp [he]; omega
    · rw [if_neg he]
      cases f.opn.get z <;> simp [he]

theorem isDead_view (f : FSM) (z : Nat) : f.isDead z = true ↔ f.view z = .dead := by
  unfold isDead view
  cases h : f.zones[z]? with
  | none => simp
  | some zn =>
    simp only [Bool.and_eq_true, decide_eq_true_eq]
    by_cases he : (f.empty.get z).isSome = true
    · rw [if_pos he]
      by_cases ht : 0 < zn.txgEnd
      · rw [if_pos ht]; simp [he]; omega
      · rw [if_neg ht]; simp; omega
    · rw [if_neg he]
      cases f.opn.get z <;> simp [he]

theorem isOpen_view {f : FSM} (wf : WF f) (z : Nat) :
    f.isOpen z = true ↔ ∃ zn oz, f.view z = .opn zn oz := by
  unfold isOpen view
  cases h : f.zones[z]? with
  | none =>
    constructor
    · intro ho
      have := wf.openLt z ho
      rw [List.getElem?_eq_none_iff] at h
      omega
    · rintro ⟨zn, oz, h⟩; cases h
  | some zn =>
    by_cases he : (f.empty.get z).isSome = true
    · have := wf.disj z he
      simp only [this, he, if_true]
      constructor
      · intro h; cases h
      · rintro ⟨zn, oz, h⟩; split at h <;> cases h
    · simp only [if_neg he]
      cases f.opn.get z <;> simp

theorem isClosed_view {f : FSM} (z : Nat) :
    f.isClosed z = true ↔ ∃ zn, f.view z = .closed zn := by
  unfold isClosed view
  cases h : f.zones[z]? with
  | none =>
    rw [List.getElem?_eq_none_iff] at h
    simp; omega
  | some zn =>
    have : z < f.zones.length := (List.getElem?_eq_some_iff.mp h).1
    by_cases he : (f.empty.get z).isSome = true
    · simp only [he, if_true]
      have : (f.empty.get z).isNone = false := by cases hx : f.empty.get z <;> simp_all
      simp only [this, Bool.and_false, Bool.false_and, Bool.false_eq_true, false_iff]
      rintro ⟨zn, h⟩; split at h <;> cases h
    · simp only [if_neg he]
      cases ho : f.opn.get z <;> simp_all

/-- An open zone, from the view. -/
theorem view_open {f : FSM} {z : Nat} {zn : Zone} {oz : OpenZone} (h : f.view z = .opn zn oz) :
    f.zones[z]? = some zn ∧ f.opn.get z = some oz ∧ f.empty.get z = none := by
  unfold view at h
  split at h
  · cases h
  · rename_i zn' hz
    by_cases he : (f.empty.get z).isSome = true
    · rw [if_pos he] at h; split at h <;> cases h
    · rw [if_neg he] at h
      split at h
      · rename_i oz' ho
        cases h
        exact ⟨hz, ho, by simpa using he⟩
      · cases h

theorem view_closed {f : FSM} {z : Nat} {zn : Zone} (h : f.view z = .closed zn) :
    f.zones[z]? = some zn ∧ f.opn.get z = none ∧ f.empty.get z = none := by
  unfold view at h
  split at h
  · cases h
  · rename_i zn' hz
    by_cases he : (f.empty.get z).isSome = true
    · rw [if_pos he] at h; split at h <;> cases h
    · rw [if_neg he] at h
      split at h
      · cases h
      · rename_i ho
        cases h
        exact ⟨hz, ho, by simpa using he⟩

theorem view_of_open {f : FSM} (wf : WF f) {z : Nat} {oz : OpenZone} (h : f.opn.get z = some oz) :
    ∃ zn, f.zones[z]? = some zn ∧ f.view z = .opn zn oz := by
  have hlt := wf.openLt z (by rw [h]; rfl)
  refine ⟨f.zones[z], List.getElem?_eq_getElem hlt, ?_⟩
  unfold view
  rw [List.getElem?_eq_getElem hlt]
  have : f.empty.get z = none := by
    cases he : f.empty.get z with
    | none => rfl
    | some u => have := wf.disj z (by rw [he]; rfl); rw [h] at this; cases this
  simp [this, h]

theorem view_dead {f : FSM} {z : Nat} (h : f.view z = .dead) :
    ∃ zn, f.zones[z]? = some zn ∧ (f.empty.get z).isSome = true ∧ 0 < zn.txgEnd := by
  unfold view at h
  split at h
  · cases h
  · rename_i zn hz
    by_cases he : (f.empty.get z).isSome = true
    · rw [if_pos he] at h
      by_cases ht : 0 < zn.txgEnd
      · exact ⟨zn, hz, he, ht⟩
      · rw [if_neg ht] at h; cases h
    · rw [if_neg he] at h
      split at h <;> cases h

/-! ## Sizes in terms of the state -/

/-- The number of allocated blocks, freed or not. -/
def _root_.Verif.Cluster.ZState.alloc : ZState → Nat
  | .empty => 0
  | .dead => 0
  | .opn _ oz => oz.allocated
  | .closed zn => zn.total

/-- The number of blocks in use. -/
def _root_.Verif.Cluster.ZState.used : ZState → Nat
  | .empty => 0
  | .dead => 0
  | .opn zn oz => oz.allocated - zn.freed
  | .closed zn => zn.total - zn.freed

theorem inUse_view (f : FSM) (z : Nat) : f.inUse z = (f.view z).used := by
  unfold inUse
  by_cases hd : f.isDead z = true
  · rw [(isDead_view f z).mp hd, hd]; rfl
  · by_cases he : f.isEmpty z = true
    · rw [(isEmpty_view f z).mp he, he]; simp [ZState.used]
    · have hd' : f.isDead z = false := by simpa using hd
      have he' : f.isEmpty z = false := by simpa using he
      rw [hd', he']
      unfold isEmpty isDead at *
      unfold view
      cases h : f.zones[z]? with
      | none => rw [h] at he'; cases he'
      | some zn =>
        simp only [h] at he' hd'
        have hn : (f.empty.get z).isSome = false := by
          cases hx : f.empty.get z with
          | none => rfl
          | some u =>
            rw [hx] at he' hd'
            simp at he' hd'
            omega
        simp only [hn, Bool.or_self, Bool.false_eq_true, if_false]
        cases f.opn.get z <;> rfl

theorem allocated_view {f : FSM} (wf : WF f) {z : Nat} (h : z < f.zones.length) :
    f.allocated z = some (f.view z).alloc := by
  unfold allocated view
  rw [List.getElem?_eq_getElem h]
  cases ho : f.opn.get z with
  | some oz =>
    have : f.empty.get z = none := by
      cases he : f.empty.get z with
      | none => rfl
      | some u => have := wf.disj z (by rw [he]; rfl); rw [ho] at this; cases this
    simp [this, ZState.alloc]
  | none =>
    by_cases he : (f.empty.get z).isSome = true
    · simp only [he, if_true]
      split <;> rfl
    · simp only [he]
      rfl

theorem mapM_eq {α β : Type} (l : List α) (f : α → Option β) (g : α → β)
    (h : ∀ a ∈ l, f a = some (g a)) : l.mapM f = some (l.map g) := by
  induction l with
  | nil => rfl
  | cons a l ih =>
    rw [List.mapM_cons, h a (List.mem_cons_self ..), ih (fun b hb => h b (List.mem_cons_of_mem _ hb))]
    rfl

theorem allocatedTotal_view {f : FSM} (wf : WF f) :
    f.allocatedTotal = some ((List.range f.zones.length).map (fun z => (f.view z).alloc)).sum := by
  unfold allocatedTotal
  rw [mapM_eq _ _ (fun z => (f.view z).alloc)]
  · rfl
  · intro a ha
    exact allocated_view wf (List.mem_range.mp ha)

/-- A sum over more zones than there are in the vector. -/
theorem sum_extend (g : Nat → Nat) (n m : Nat) (h : n ≤ m) (h0 : ∀ z, n ≤ z → g z = 0) :
    ((List.range m).map g).sum = ((List.range n).map g).sum := by
  induction m with
  | zero => have : n = 0 := by omega
            rw [this]
  | succ m ih =>
    by_cases hm : n ≤ m
    · rw [List.range_succ, List.map_append, List.sum_append, ih hm]
      simp [h0 m hm]
    · have : n = m + 1 := by omega
      rw [this]

/-! ## Effects of the operations -/

/-- `f'` is `f` with zone `z` in state `st`. -/
structure Upd (f f' : FSM) (z : Nat) (st : ZState) : Prop where
  wf : WF f'
  view : ∀ z', f'.view z' = if z' = z then st else f.view z'
  total : f'.total = f.total
  dirty : f'.dirty = f.dirty.set (z / ZPL) true
  len : f'.zones.length = max f.zones.length (z + 1)
  disk : ∀ z', z' ≠ z → f'.zoneOnDisk z' = f.zoneOnDisk z'

theorem zoneOnDisk_congr {f f' : FSM} {z : Nat} (h1 : f'.zones[z]? = f.zones[z]?)
    (h2 : f'.empty.get z = f.empty.get z) (h3 : f'.opn.get z = f.opn.get z) :
    f'.zoneOnDisk z = f.zoneOnDisk z := by
  unfold zoneOnDisk isDead isEmpty
  rw [h1, h2, h3]

theorem zoneOnDisk_empty {f : FSM} {z : Nat} (h : f.view z = .empty) : f.zoneOnDisk z = ⟨0, 0, 0, 0⟩ := by
  have he := (isEmpty_view f z).mpr h
  unfold zoneOnDisk
  simp only [he, Bool.or_true, if_true]

theorem upd_of {f f' : FSM} {z : Nat} {zn' : Zone} (wf : WF f) (hz : z < f.zones.length)
    (hzones : f'.zones = f.zones.set z zn')
    (sE : OMap.Sorted f'.empty) (sO : OMap.Sorted f'.opn)
    (hE : ∀ z', z' ≠ z → f'.empty.get z' = f.empty.get z')
    (hO : ∀ z', z' ≠ z → f'.opn.get z' = f.opn.get z')
    (hd : (f'.empty.get z).isSome = true → f'.opn.get z = none)
    (ht : f'.total = f.total) (hdirty : f'.dirty = f.dirty.set (z / ZPL) true) :
    Upd f f' z (f'.view z) ∧ f'.zones[z]? = some zn' := by
  have hlen : f'.zones.length = f.zones.length := by rw [hzones, List.length_set]
  have hself : f'.zones[z]? = some zn' := by rw [hzones, List.getElem?_set_self hz]
  refine ⟨⟨⟨sE, sO, ?_, ?_, ?_, by rw [hlen, ht]; exact wf.len, ?_⟩, ?_, ht, hdirty, by omega, ?_⟩, hself⟩
  · intro z' h
    rw [hlen]
    by_cases hzz : z' = z
    · rw [hzz]; exact hz
    · rw [hE z' hzz] at h; exact wf.emptyLt z' h
  · intro z' h
    rw [hlen]
    by_cases hzz : z' = z
    · rw [hzz]; exact hz
    · rw [hO z' hzz] at h; exact wf.openLt z' h
  · intro z' h
    by_cases hzz : z' = z
    · rw [hzz] at h ⊢; exact hd h
    · rw [hE z' hzz] at h; rw [hO z' hzz]; exact wf.disj z' h
  · rw [hdirty, List.length_set, ht]; exact wf.dirty
  · intro z'
    by_cases hzz : z' = z
    · rw [if_pos hzz, hzz]
    · rw [if_neg hzz]
      have : f'.zones[z']? = f.zones[z']? := by
        rw [hzones, List.getElem?_set_ne (by omega)]
      unfold view
      rw [this, hE z' hzz, hO z' hzz]
  · intro z' hzz
    exact zoneOnDisk_congr (by rw [hzones, List.getElem?_set_ne (by omega)]) (hE z' hzz) (hO z' hzz)

theorem killZone_spec {f : FSM} (wf : WF f) {z : Nat} {zn : Zone} (h : f.view z = .closed zn) :
    ∃ f', f.killZone z = some (f', zn.total) ∧ Upd f f' z .dead ∧ f'.zoneOnDisk z = ⟨0, 0, 0, 1⟩ := by
  obtain ⟨hz, ho, he⟩ := view_closed h
  have hlt : z < f.zones.length := (List.getElem?_eq_some_iff.mp hz).1
  unfold killZone
  have hno : f.isOpen z = false := by unfold isOpen; rw [ho]; rfl
  rw [hno, hz, allocated_view wf hlt, h]
  simp only [Bool.false_eq_true, if_false]
  refine ⟨_, rfl, ?_⟩
  have := upd_of (f' := { (f.dirtyZone z).setZone z { zn with txgStart := 0, txgEnd := 1 } with
      empty := f.empty.insert z () }) wf hlt rfl (wf.sortedE.insert z ()) wf.sortedO
    (fun z' hne => by simp only [OMap.get_insert]; rw [if_neg hne]) (fun _ _ => rfl)
    (fun _ => ho) rfl rfl
  obtain ⟨hu, hself⟩ := this
  have hv : ({ (f.dirtyZone z).setZone z { zn with txgStart := 0, txgEnd := 1 } with
      empty := f.empty.insert z () } : FSM).view z = .dead := by
    unfold view
    rw [hself]
    simp [OMap.get_insert]
  rw [hv] at hu
  refine ⟨hu, ?_⟩
  have hd := (isDead_view _ z).mpr hv
  have hne := isEmpty_view ({ (f.dirtyZone z).setZone z { zn with txgStart := 0, txgEnd := 1 } with
      empty := f.empty.insert z () } : FSM) z
  rw [hv] at hne
  have he' : ({ (f.dirtyZone z).setZone z { zn with txgStart := 0, txgEnd := 1 } with
      empty := f.empty.insert z () } : FSM).isEmpty z = false := by simpa using hne
  unfold zoneOnDisk
  simp only [hd, he', hself]
  rfl

theorem finishZone_spec {f : FSM} (wf : WF f) {z txg : Nat} {zn : Zone} {oz : OpenZone}
    (h : f.view z = .opn zn oz) (hle : oz.allocated ≤ zn.total) :
    ∃ f', f.finishZone z txg = some (f', zn.total - oz.allocated) ∧
      Upd f f' z (.closed { zn with freed := zn.freed + (zn.total - oz.allocated), txgEnd := txg + 1 }) := by
  obtain ⟨hz, ho, he⟩ := view_open h
  have hlt : z < f.zones.length := (List.getElem?_eq_some_iff.mp hz).1
  unfold finishZone
  simp only [hz, ho, if_pos hle]
  refine ⟨_, rfl, ?_⟩
  have := upd_of (f' := { (f.dirtyZone z).setZone z
        { zn with freed := zn.freed + (zn.total - oz.allocated), txgEnd := txg + 1 } with
      opn := f.opn.remove z }) wf hlt rfl wf.sortedE (wf.sortedO.remove z)
    (fun _ _ => rfl) (fun z' hne => by simp only [OMap.get_remove]; rw [if_neg hne])
    (fun hc => by simp only [FSM.setZone, FSM.dirtyZone] at hc; rw [he] at hc; cases hc) rfl rfl
  obtain ⟨hu, hself⟩ := this
  have hv : ({ (f.dirtyZone z).setZone z
        { zn with freed := zn.freed + (zn.total - oz.allocated), txgEnd := txg + 1 } with
      opn := f.opn.remove z } : FSM).view z =
      .closed { zn with freed := zn.freed + (zn.total - oz.allocated), txgEnd := txg + 1 } := by
    unfold view
    rw [hself]
    simp [OMap.get_remove, setZone, dirtyZone, he]
  rw [hv] at hu
  exact hu

theorem free_open {f : FSM} (wf : WF f) {z len : Nat} {zn : Zone} {oz : OpenZone}
    (h : f.view z = .opn zn oz) (hle : oz.allocated ≤ zn.total) (hf : zn.freed + len ≤ oz.allocated) :
    ∃ f', f.free z len = some f' ∧ Upd f f' z (.opn { zn with freed := zn.freed + len } oz) := by
  obtain ⟨hz, ho, he⟩ := view_open h
  have hlt : z < f.zones.length := (List.getElem?_eq_some_iff.mp hz).1
  have hne : f.isEmpty z = false := by
    have := isEmpty_view f z
    rw [h] at this
    simpa using this
  unfold free
  simp only [hne, hz, ho, Bool.false_eq_true, if_false]
  rw [if_pos (by omega), if_pos hf]
  refine ⟨_, rfl, ?_⟩
  have := upd_of (f' := (f.dirtyZone z).setZone z { zn with freed := zn.freed + len }) wf hlt rfl
    wf.sortedE wf.sortedO (fun _ _ => rfl) (fun _ _ => rfl)
    (fun hc => by simp only [FSM.setZone, FSM.dirtyZone] at hc; rw [he] at hc; cases hc) rfl rfl
  obtain ⟨hu, hself⟩ := this
  have hv : ((f.dirtyZone z).setZone z { zn with freed := zn.freed + len }).view z =
      .opn { zn with freed := zn.freed + len } oz := by
    unfold view
    rw [hself]
    simp [setZone, dirtyZone, he, ho]
  rw [hv] at hu
  exact hu

theorem free_closed {f : FSM} (wf : WF f) {z len : Nat} {zn : Zone}
    (h : f.view z = .closed zn) (hf : zn.freed + len ≤ zn.total) :
    ∃ f', f.free z len = some f' ∧ Upd f f' z (.closed { zn with freed := zn.freed + len }) := by
  obtain ⟨hz, ho, he⟩ := view_closed h
  have hlt : z < f.zones.length := (List.getElem?_eq_some_iff.mp hz).1
  have hne : f.isEmpty z = false := by
    have := isEmpty_view f z
    rw [h] at this
    simpa using this
  unfold free
  simp only [hne, hz, ho, Bool.false_eq_true, if_false]
  rw [if_pos hf]
  refine ⟨_, rfl, ?_⟩
  have := upd_of (f' := (f.dirtyZone z).setZone z { zn with freed := zn.freed + len }) wf hlt rfl
    wf.sortedE wf.sortedO (fun _ _ => rfl) (fun _ _ => rfl)
    (fun hc => by simp only [FSM.setZone, FSM.dirtyZone] at hc; rw [he] at hc; cases hc) rfl rfl
  obtain ⟨hu, hself⟩ := this
  have hv : ((f.dirtyZone z).setZone z { zn with freed := zn.freed + len }).view z =
      .closed { zn with freed := zn.freed + len } := by
    unfold view
    rw [hself]
    simp [setZone, dirtyZone, he, ho]
  rw [hv] at hu
  exact hu

theorem setOpen_upd {f : FSM} (wf : WF f) {z : Nat} {zn zn' : Zone} {oz oz' : OpenZone}
    (h : f.view z = .opn zn oz) :
    Upd f { (f.dirtyZone z).setZone z zn' with opn := f.opn.insert z oz' } z (.opn zn' oz') := by
  obtain ⟨hz, ho, he⟩ := view_open h
  have hlt : z < f.zones.length := (List.getElem?_eq_some_iff.mp hz).1
  have := upd_of (f' := { (f.dirtyZone z).setZone z zn' with opn := f.opn.insert z oz' }) wf hlt rfl
    wf.sortedE (wf.sortedO.insert z oz') (fun _ _ => rfl)
    (fun z' hne => by simp only [OMap.get_insert]; rw [if_neg hne])
    (fun hc => by simp only [FSM.setZone, FSM.dirtyZone] at hc; rw [he] at hc; cases hc) rfl rfl
  obtain ⟨hu, hself⟩ := this
  have hv : ({ (f.dirtyZone z).setZone z zn' with opn := f.opn.insert z oz' } : FSM).view z =
      .opn zn' oz' := by
    unfold view
    rw [hself]
    simp [setZone, dirtyZone, he, OMap.get_insert]
  rw [hv] at hu
  exact hu

theorem wasteSpace_spec {f : FSM} (wf : WF f) {z space : Nat} {zn : Zone} {oz : OpenZone}
    (h : f.view z = .opn zn oz) (hle : oz.allocated + space ≤ zn.total) :
    ∃ f', f.wasteSpace z space = some f' ∧
      Upd f f' z (.opn { zn with freed := zn.freed + space } { oz with allocated := oz.allocated + space }) := by
  obtain ⟨hz, ho, he⟩ := view_open h
  unfold wasteSpace
  simp only [hz, ho, if_pos hle]
  exact ⟨_, rfl, setOpen_upd wf h⟩

/-- Allocating `space` blocks in an open zone. -/
theorem bump_upd {f : FSM} (wf : WF f) {z space : Nat} {zn : Zone} {oz : OpenZone}
    (h : f.view z = .opn zn oz) :
    Upd f { f.dirtyZone z with opn := f.opn.insert z { oz with allocated := oz.allocated + space } } z
      (.opn zn { oz with allocated := oz.allocated + space }) := by
  obtain ⟨hz, ho, he⟩ := view_open h
  have := setOpen_upd (zn' := zn) (oz' := { oz with allocated := oz.allocated + space }) wf h
  have hset : f.zones.set z zn = f.zones := by
    apply List.ext_getElem?
    intro i
    by_cases hi : i = z
    · subst hi
      rw [List.getElem?_set_self (List.getElem?_eq_some_iff.mp hz).1, hz]
    · rw [List.getElem?_set_ne (by omega)]
  simp only [setZone, dirtyZone, hset] at this
  exact this

theorem fillEmpty_get (e : OMap Unit) (lo n z : Nat) :
    (fillEmpty e lo n).get z = if lo ≤ z ∧ z < lo + n then some () else e.get z := by
  unfold fillEmpty
  induction n with
  | zero => rw [if_neg (by omega)]; rfl
  | succ n ih =>
    rw [List.range_succ, List.foldl_append]
    simp only [List.foldl_cons, List.foldl_nil, OMap.get_insert, ih]
    by_cases h : z = lo + n
    · rw [if_pos h, if_pos (by omega)]
    · rw [if_neg h]
      by_cases h2 : lo ≤ z ∧ z < lo + n
      · rw [if_pos h2, if_pos (by omega)]
      · rw [if_neg h2, if_neg (by omega)]

theorem fillEmpty_sorted {e : OMap Unit} (h : OMap.Sorted e) (lo n : Nat) :
    OMap.Sorted (fillEmpty e lo n) := by
  unfold fillEmpty
  induction n with
  | zero => exact h
  | succ n ih =>
    rw [List.range_succ, List.foldl_append]
    exact OMap.Sorted.insert ih _ _

theorem openZone_nospace {f : FSM} {id start stop lbas txg : Nat} (htxg : txg ≤ TXG_MAX)
    (hs : start ≤ stop) (he : f.view id = .empty) (ho : f.opn.get id = none) (hsp : stop - start < lbas) :
    f.openZone id start stop lbas txg = some (f.dirtyZone id, none) := by
  unfold openZone
  rw [if_pos ⟨htxg, hs, (isEmpty_view f id).mpr he, by unfold isOpen; rw [ho]; rfl⟩]
  simp only
  rw [if_pos hsp]

/-- Empty zones are not open. -/
theorem open_none {f : FSM} (wf : WF f) {id : Nat} (he : f.view id = .empty) : f.opn.get id = none := by
  cases h : f.opn.get id with
  | none => rfl
  | some oz =>
    obtain ⟨zn, -, hv⟩ := view_of_open wf h
    rw [he] at hv; cases hv

theorem openZone_spec {f : FSM} (wf : WF f) {id start stop lbas txg : Nat} (htxg : txg ≤ TXG_MAX)
    (hid : id < f.total) (hs : start ≤ stop) (he : f.view id = .empty) (hsp : lbas ≤ stop - start) :
    ∃ f', f.openZone id start stop lbas txg = some (f', some (if 0 < lbas then some (id, start) else none)) ∧
      Upd f f' id (.opn ⟨0, stop - start, txg, TXG_MAX⟩ ⟨start, lbas⟩) := by
  have ho := open_none wf he
  unfold openZone
  rw [if_pos ⟨htxg, hs, (isEmpty_view f id).mpr he, by unfold isOpen; rw [ho]; rfl⟩]
  simp only
  rw [if_neg (by omega)]
  refine ⟨_, rfl, ?_⟩
  by_cases hlen : f.zones.length ≤ id
  · -- the vector grows
    have hlen' : (f.dirtyZone id).zones.length ≤ id := hlen
    rw [if_pos hlen']
    simp only [dirtyZone, setZone]
    have hL : (f.zones ++ List.replicate (id + 1 - f.zones.length) Zone.default).length = id + 1 := by
      simp; omega
    have hget : ∀ z, z < f.zones.length →
        (f.zones ++ List.replicate (id + 1 - f.zones.length) Zone.default)[z]? = f.zones[z]? :=
      fun z hz => List.getElem?_append_left hz
    have hget2 : ∀ z, f.zones.length ≤ z → z < id + 1 →
        (f.zones ++ List.replicate (id + 1 - f.zones.length) Zone.default)[z]? = some Zone.default := by
      intro z h1 h2
      rw [List.getElem?_append_right h1, List.getElem?_replicate, if_pos (by omega)]
    refine ⟨⟨(fillEmpty_sorted wf.sortedE _ _).remove id, wf.sortedO.insert _ _, ?_, ?_, ?_, ?_, ?_⟩,
      ?view, rfl, rfl, ?_, ?_⟩
    · intro z h
      simp only [List.length_set, hL, OMap.get_remove, fillEmpty_get] at h ⊢
      by_cases hz : z = id
      · omega
      · rw [if_neg hz] at h
        by_cases h2 : f.zones.length ≤ z ∧ z < f.zones.length + (id - f.zones.length)
        · omega
        · rw [if_neg h2] at h
          have := wf.emptyLt z h
          omega
    · intro z h
      simp only [List.length_set, hL, OMap.get_insert] at h ⊢
      by_cases hz : z = id
      · omega
      · rw [if_neg hz] at h
        have := wf.openLt z h
        omega
    · intro z h
      simp only [OMap.get_remove, fillEmpty_get, OMap.get_insert] at h ⊢
      by_cases hz : z = id
      · rw [if_pos hz] at h; cases h
      · rw [if_neg hz] at h ⊢
        cases hoz : f.opn.get z with
        | none => rfl
        | some oz =>
          have hlt := wf.openLt z (by rw [hoz]; rfl)
          rw [if_neg (by omega)] at h
          have := wf.disj z h
          rw [hoz] at this; cases this
    · simp only [List.length_set, hL]; omega
    · simp only [List.length_set]; exact wf.dirty
    case view =>
      intro z
      unfold view
      by_cases hz : z = id
      · rw [if_pos hz, hz]
        rw [List.getElem?_set_self (by rw [hL]; omega)]
        simp [OMap.get_remove, OMap.get_insert]
      · rw [if_neg hz, List.getElem?_set_ne (by omega)]
        simp only [OMap.get_remove, OMap.get_insert, if_neg hz, fillEmpty_get]
        by_cases h1 : z < f.zones.length
        · rw [hget z h1, if_neg (by omega)]
        · by_cases h2 : z < id + 1
          · rw [hget2 z (by omega) h2, if_pos (by omega), List.getElem?_eq_none (by omega)]
            simp [Zone.default]
          · rw [List.getElem?_eq_none (by rw [hL]; omega), List.getElem?_eq_none (by omega)]
    · simp only [List.length_set, hL]; omega
    · intro z hz
      by_cases h1 : z < f.zones.length
      · apply zoneOnDisk_congr
        · simp only; rw [List.getElem?_set_ne (by omega), hget z h1]
        · simp only [OMap.get_remove, fillEmpty_get, if_neg hz]; rw [if_neg (by omega)]
        · simp only [OMap.get_insert, if_neg hz]
      · have hf := view_ge (f := f) (z := z) (by omega)
        rw [zoneOnDisk_empty hf]
        apply zoneOnDisk_empty
        unfold view
        rw [List.getElem?_set_ne (by omega)]
        simp only [OMap.get_remove, OMap.get_insert, if_neg hz, fillEmpty_get]
        by_cases h2 : z < id + 1
        · rw [hget2 z (by omega) h2, if_pos (by omega)]
          simp [Zone.default]
        · rw [List.getElem?_eq_none (by rw [hL]; omega)]
  · -- an empty zone in the vector
    have hlen' : ¬ (f.dirtyZone id).zones.length ≤ id := hlen
    rw [if_neg hlen']
    have hlt : id < f.zones.length := by omega
    have := upd_of (f' := { (f.dirtyZone id).setZone id ⟨0, stop - start, txg, TXG_MAX⟩ with
        empty := f.empty.remove id, opn := f.opn.insert id ⟨start, lbas⟩ }) wf hlt rfl
      (wf.sortedE.remove id) (wf.sortedO.insert _ _)
      (fun z' hne => by simp only [OMap.get_remove]; rw [if_neg hne])
      (fun z' hne => by simp only [OMap.get_insert]; rw [if_neg hne])
      (fun hc => by simp [OMap.get_remove] at hc) rfl rfl
    obtain ⟨hu, hself⟩ := this
    have hv : ({ (f.dirtyZone id).setZone id ⟨0, stop - start, txg, TXG_MAX⟩ with
        empty := f.empty.remove id, opn := f.opn.insert id ⟨start, lbas⟩ } : FSM).view id =
        .opn ⟨0, stop - start, txg, TXG_MAX⟩ ⟨start, lbas⟩ := by
      unfold view
      rw [hself]
      simp [OMap.get_remove, OMap.get_insert]
    rw [hv] at hu
    exact hu

theorem findEmpty_some {f : FSM} (wf : WF f) {z : Nat} (h : f.findEmpty = some z) :
    f.view z = .empty ∧ z < f.total := by
  unfold findEmpty at h
  split at h
  · rename_i e he
    cases h
    have hmem := List.mem_of_find?_eq_some he
    have hp := List.find?_some he
    have hg := OMap.get_of_mem wf.sortedE (k := e.1) (v := e.2) hmem
    have hlt := wf.emptyLt e.1 (by rw [hg]; rfl)
    refine ⟨?_, by have := wf.len; omega⟩
    simp only [List.getElem?_eq_getElem hlt, decide_eq_true_eq] at hp
    unfold view
    rw [List.getElem?_eq_getElem hlt]
    simp [hg, hp]
  · split at h
    · cases h
      exact ⟨view_ge (Nat.le_refl _), by omega⟩
    · cases h

theorem findEmpty_none {f : FSM} (h : f.findEmpty = none) (z : Nat) (hz : z < f.total) :
    f.view z ≠ .empty := by
  unfold findEmpty at h
  split at h
  · cases h
  · rename_i he
    split at h
    · cases h
    · rename_i hlen
      rw [List.find?_eq_none] at he
      intro hv
      have hlt : z < f.zones.length := by omega
      unfold view at hv
      rw [List.getElem?_eq_getElem hlt] at hv
      simp only at hv
      by_cases hs : (f.empty.get z).isSome = true
      · rw [if_pos hs] at hv
        split at hv
        · cases hv
        · rename_i ht
          obtain ⟨u, hu⟩ := Option.isSome_iff_exists.mp hs
          have := he (z, u) (OMap.mem_of_get hu)
          simp only [List.getElem?_eq_getElem hlt, decide_eq_true_eq] at this
          omega
      · rw [if_neg hs] at hv
        split at hv <;> cases hv

/-! ## Reaping -/

theorem unkill_length (zs : List Zone) (z : Nat) : (unkill zs z).length = zs.length := by
  unfold unkill
  split
  · rw [List.length_set]
  · rfl

theorem unkill_get (zs : List Zone) (z i : Nat) :
    (unkill zs z)[i]? = if i = z then zs[i]?.map (fun zn => { zn with txgEnd := 0 }) else zs[i]? := by
  unfold unkill
  cases h : zs[z]? with
  | none =>
    by_cases hi : i = z
    · rw [if_pos hi, hi, h]; rfl
    · rw [if_neg hi]
  | some zn =>
    by_cases hi : i = z
    · rw [if_pos hi, hi, h, List.getElem?_set_self (List.getElem?_eq_some_iff.mp h).1]; rfl
    · rw [if_neg hi, List.getElem?_set_ne (by omega)]

theorem unkills_get (l : List Nat) (zs : List Zone) (i : Nat) :
    (l.foldl unkill zs)[i]? = if i ∈ l then zs[i]?.map (fun zn => { zn with txgEnd := 0 }) else zs[i]? := by
  induction l generalizing zs with
  | nil => simp
  | cons a l ih =>
    rw [List.foldl_cons, ih, unkill_get]
    by_cases h : i = a
    · simp only [h, List.mem_cons, true_or, if_true]
      split
      · rw [Option.map_map]; rfl
      · rfl
    · simp only [List.mem_cons, h, false_or, if_false]

theorem unkills_length (l : List Nat) (zs : List Zone) : (l.foldl unkill zs).length = zs.length := by
  induction l generalizing zs with
  | nil => rfl
  | cons a l ih => rw [List.foldl_cons, ih, unkill_length]

theorem dirties_get (l : List Nat) (d : List Bool) (i : Nat) (h : (l.foldl (fun d z => d.set (z / ZPL) true) d)[i]? = some false) :
    d[i]? = some false ∧ ∀ z ∈ l, z / ZPL ≠ i := by
  induction l generalizing d with
  | nil => exact ⟨h, by simp⟩
  | cons a l ih =>
    obtain ⟨h1, h2⟩ := ih _ h
    simp only at h1
    by_cases hi : a / ZPL = i
    · rw [hi] at h1
      by_cases hl : i < d.length
      · rw [List.getElem?_set_self hl] at h1; cases h1
      · rw [List.getElem?_eq_none (by rw [List.length_set]; omega)] at h1; cases h1
    · rw [List.getElem?_set_ne hi] at h1
      refine ⟨h1, ?_⟩
      intro z hz
      rcases List.mem_cons.mp hz with rfl | hz
      · exact hi
      · exact h2 z hz

theorem dirties_length (l : List Nat) (d : List Bool) :
    (l.foldl (fun d z => d.set (z / ZPL) true) d).length = d.length := by
  induction l generalizing d with
  | nil => rfl
  | cons a l ih => rw [List.foldl_cons, ih, List.length_set]

theorem mem_reaped (f : FSM) (z : Nat) : z ∈ f.reaped ↔ f.view z = .dead := by
  unfold reaped
  rw [List.mem_filter, isDead_view, List.mem_map]
  constructor
  · exact fun h => h.2
  · intro h
    refine ⟨?_, h⟩
    obtain ⟨zn, hz, he, -⟩ := view_dead h
    obtain ⟨u, hu⟩ := Option.isSome_iff_exists.mp he
    exact ⟨(z, u), OMap.mem_of_get hu, rfl⟩

theorem firstTrailing_spec (p : Nat → Bool) (n : Nat) :
    firstTrailing p n ≤ n ∧ (∀ i, firstTrailing p n ≤ i → i < n → p i = true) ∧
    (firstTrailing p n = 0 ∨ p (firstTrailing p n - 1) = false) := by
  induction n with
  | zero => exact ⟨Nat.le_refl _, fun i _ h => by omega, Or.inl rfl⟩
  | succ n ih =>
    unfold firstTrailing
    by_cases h : p n = true
    · rw [if_pos h]
      refine ⟨by omega, ?_, ih.2.2⟩
      intro i h1 h2
      by_cases hi : i = n
      · rw [hi]; exact h
      · exact ih.2.1 i h1 (by omega)
    · rw [if_neg h]
      exact ⟨Nat.le_refl _, fun i h1 h2 => by omega, Or.inr (by simpa using h)⟩

/-- The last zone of the vector is not empty. -/
def LastOk (f : FSM) : Prop := f.zones.length = 0 ∨ f.view (f.zones.length - 1) ≠ .empty

theorem foldl_max_le (l : List Nat) (a n : Nat) (ha : a ≤ n) (h : ∀ x ∈ l, x ≤ n) : l.foldl max a ≤ n := by
  induction l generalizing a with
  | nil => exact ha
  | cons b l ih =>
    rw [List.foldl_cons]
    exact ih _ (by have := h b (List.mem_cons_self ..); omega) (fun x hx => h x (List.mem_cons_of_mem _ hx))

theorem le_foldl_max (l : List Nat) (a x : Nat) (h : x ∈ l ∨ x ≤ a) : x ≤ l.foldl max a := by
  induction l generalizing a with
  | nil => rcases h with h | h
           · cases h
           · exact h
  | cons b l ih =>
    rw [List.foldl_cons]
    apply ih
    rcases h with h | h
    · rcases List.mem_cons.mp h with rfl | h
      · right; omega
      · left; exact h
    · right; omega

theorem reap_spec {f : FSM} (wf : WF f) (hlast : LastOk f) :
    WF f.reap.1 ∧ LastOk f.reap.1 ∧ f.reap.1.total = f.total ∧
    (∀ z, f.reap.1.view z = if f.view z = .dead then .empty else f.view z) ∧
    (∀ z, z ∈ f.reap.2 ↔ f.view z = .dead) ∧
    (∀ i, f.reap.1.dirty[i]? = some false → f.dirty[i]? = some false ∧
      ∀ z, f.view z = .dead → z / ZPL ≠ i) ∧
    (∀ z, f.view z ≠ .dead → f.reap.1.zoneOnDisk z = f.zoneOnDisk z) := by
  -- after the loop
  let f1 : FSM := { f with dirty := f.reaped.foldl (fun d z => d.set (z / ZPL) true) f.dirty,
                           zones := f.reaped.foldl unkill f.zones }
  have hf1 : f1 = { f with dirty := f.reaped.foldl (fun d z => d.set (z / ZPL) true) f.dirty,
                           zones := f.reaped.foldl unkill f.zones } := rfl
  have hlen1 : f1.zones.length = f.zones.length := unkills_length _ _
  have wf1 : WF f1 := ⟨wf.sortedE, wf.sortedO, fun z h => by rw [hlen1]; exact wf.emptyLt z h,
    fun z h => by rw [hlen1]; exact wf.openLt z h, wf.disj, by rw [hlen1]; exact wf.len,
    by rw [hf1]; simp only; rw [dirties_length]; exact wf.dirty⟩
  have hview1 : ∀ z, f1.view z = if f.view z = .dead then .empty else f.view z := by
    intro z
    by_cases hd : f.view z = .dead
    · rw [if_pos hd]
      obtain ⟨zn, hz, he, -⟩ := view_dead hd
      unfold view
      have : f1.zones[z]? = some { zn with txgEnd := 0 } := by
        rw [hf1]; simp only
        rw [unkills_get, if_pos ((mem_reaped f z).mpr hd), hz]; rfl
      rw [this]
      simp only [show f1.empty = f.empty from rfl, he, if_true]
      rfl
    · rw [if_neg hd]
      have : f1.zones[z]? = f.zones[z]? := by
        rw [hf1]; simp only
        rw [unkills_get, if_neg (fun h => hd ((mem_reaped f z).mp h))]
      unfold view
      rw [this]
  have hdisk1 : ∀ z, f.view z ≠ .dead → f1.zoneOnDisk z = f.zoneOnDisk z := by
    intro z hd
    refine zoneOnDisk_congr ?_ rfl rfl
    rw [hf1]; simp only
    rw [unkills_get, if_neg (fun h => hd ((mem_reaped f z).mp h))]
  have hdirty1 : ∀ i, f1.dirty[i]? = some false → f.dirty[i]? = some false ∧
      ∀ z, f.view z = .dead → z / ZPL ≠ i := by
    intro i h
    obtain ⟨h1, h2⟩ := dirties_get _ _ _ h
    exact ⟨h1, fun z hz => h2 z ((mem_reaped f z).mpr hz)⟩
  have hreap : f.reap = if f.reaped.foldl max 0 + 1 = f1.zones.length then
      ({ f1 with zones := f1.zones.take (firstTrailing f1.isEmpty f1.zones.length),
                 empty := f1.empty.rangeDeleteFrom (firstTrailing f1.isEmpty f1.zones.length) }, f.reaped)
      else (f1, f.reaped) := rfl
  rw [hreap]
  by_cases hc : f.reaped.foldl max 0 + 1 = f1.zones.length
  · rw [if_pos hc]
    simp only
    obtain ⟨t1, t2, t3⟩ := firstTrailing_spec f1.isEmpty f1.zones.length
    generalize firstTrailing f1.isEmpty f1.zones.length = first at *
    have hopen : ∀ z, (f1.opn.get z).isSome = true → z < first := by
      intro z h
      have hlt := wf1.openLt z h
      apply Decidable.byContradiction
      intro hge
      have := t2 z (by omega) hlt
      rw [isEmpty_view] at this
      have h2 := open_none wf1 this
      rw [h2] at h; cases h
    have hv2 : ∀ z, ({ f1 with zones := f1.zones.take first, empty := f1.empty.rangeDeleteFrom first } : FSM).view z
        = f1.view z := by
      intro z
      by_cases hz : z < first
      · unfold view
        simp only [List.getElem?_take, if_pos hz, OMap.get_rangeDeleteFrom]
        rw [if_neg (by omega)]
      · have h1 : ({ f1 with zones := f1.zones.take first, empty := f1.empty.rangeDeleteFrom first } : FSM).view z
            = .empty := by
          apply view_ge
          simp only [List.length_take]; omega
        rw [h1]
        by_cases hzl : z < f1.zones.length
        · have := t2 z (by omega) hzl
          rw [isEmpty_view] at this
          exact this.symm
        · exact (view_ge (by omega)).symm
    refine ⟨⟨wf1.sortedE.rangeDeleteFrom _, wf1.sortedO, ?_, ?_, ?_, ?_, wf1.dirty⟩, ?_, rfl, ?_, mem_reaped f, hdirty1, ?_⟩
    · intro z h
      simp only [OMap.get_rangeDeleteFrom] at h
      by_cases hz : first ≤ z
      · rw [if_pos hz] at h; cases h
      · simp only [List.length_take]; omega
    · intro z h
      have := hopen z h
      simp only [List.length_take]; omega
    · intro z h
      simp only [OMap.get_rangeDeleteFrom] at h
      by_cases hz : first ≤ z
      · rw [if_pos hz] at h; cases h
      · rw [if_neg hz] at h
        exact wf1.disj z h
    · simp only [List.length_take]
      have := wf1.len
      omega
    · unfold LastOk
      simp only [List.length_take]
      rw [Nat.min_eq_left t1]
      rcases t3 with h | h
      · left; exact h
      · right
        rw [hv2]
        intro hv
        rw [← isEmpty_view] at hv
        rw [hv] at h; cases h
    · intro z
      rw [hv2, hview1]
    · intro z hd
      rw [← hdisk1 z hd]
      by_cases hz : z < first
      · apply zoneOnDisk_congr
        · simp only [List.getElem?_take, if_pos hz]
        · simp only [OMap.get_rangeDeleteFrom]; rw [if_neg (by omega)]
        · rfl
      · have h1 : f1.view z = .empty := by
          by_cases hzl : z < f1.zones.length
          · have := t2 z (by omega) hzl
            rw [isEmpty_view] at this
            exact this
          · exact view_ge (by omega)
        rw [zoneOnDisk_empty h1, zoneOnDisk_empty ((hv2 z).trans h1)]
  · rw [if_neg hc]
    refine ⟨wf1, ?_, rfl, hview1, mem_reaped f, hdirty1, hdisk1⟩
    unfold LastOk
    rw [hlen1]
    rcases hlast with h | h
    · left; exact h
    · right
      simp only
      rw [hview1]
      by_cases h0 : f.zones.length = 0
      · rw [view_ge (by omega)] at h; exact absurd rfl h
      by_cases hd : f.view (f.zones.length - 1) = .dead
      · exfalso
        apply hc
        have hm := (mem_reaped f _).mpr hd
        have h1 := le_foldl_max f.reaped 0 _ (Or.inl hm)
        have h2 := foldl_max_le f.reaped 0 (f.zones.length - 1) (by omega) (fun x hx => by
          obtain ⟨zn, hz, -⟩ := view_dead ((mem_reaped f x).mp hx)
          have := (List.getElem?_eq_some_iff.mp hz).1
          omega)
        omega
      · rw [if_neg hd]; exact h

end FSM

end Verif.Cluster
