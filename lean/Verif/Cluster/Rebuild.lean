import Verif.Cluster.Run

/-!
# C31: rebuilding a mirror child

`Cluster::repair_mirror`, `order_zones_for_repair` and `repair_mirror_step`
(cluster.rs:1069-1209) and the two loops of `MirrorRepairTask`
(ddml/ddml.rs:99-140).  The copying of one zone is `C15`; the updates of the child's
label during the rebuild are in `Resume.lean`.
-/

namespace Verif.Cluster

open Verif

/-- `FreeSpaceMap::contains`, cluster.rs:221-236. -/
def FSM.contains (f : FSM) (s : Nat) : List Nat :=
  (List.range f.zones.length).filter (fun z =>
    !(f.empty.get z).isSome && decide (s < TXG_MAX) &&
      (decide (s < ((f.zones[z]?).getD Zone.default).txgEnd) || (f.opn.get z).isSome))

/-- The order of `order_zones_for_repair`, cluster.rs:1110-1116. -/
def FSM.repairLe (f : FSM) (a b : Nat) : Bool :=
  let za := (f.zones[a]?).getD Zone.default
  let zb := (f.zones[b]?).getD Zone.default
  decide (za.txgStart < zb.txgStart ∨ za.txgStart = zb.txgStart ∧
    (za.txgEnd < zb.txgEnd ∨ za.txgEnd = zb.txgEnd ∧ a ≤ b))

/-- `sort_by_key`: the keys are distinct, so that any sort gives the same result. -/
def insertBy (le : Nat → Nat → Bool) (a : Nat) : List Nat → List Nat
  | [] => [a]
  | b :: bs => if le a b then a :: b :: bs else b :: insertBy le a bs

def sortBy (le : Nat → Nat → Bool) : List Nat → List Nat
  | [] => []
  | a :: as => insertBy le a (sortBy le as)

/-- `order_zones_for_repair`, cluster.rs:1098-1130, without the lowest open
transaction.  Returns the zones and the highest end of a transaction range. -/
def FSM.orderZones (f : FSM) (s : Nat) (openToo : Bool) : List Nat × Option Nat :=
  let zs := (f.contains s).filter (fun z => openToo || !f.isOpen z) |> sortBy f.repairLe
  (zs, (zs.map (fun z => ((f.zones[z]?).getD Zone.default).txgEnd)).max?)

/-- `RepairMirrorTask`, cluster.rs:846-860, the fields used here. -/
structure Task where
  zones : List Nat
  nextTxg : Nat
  deriving DecidableEq, Repr

/-- `repair_mirror`, cluster.rs:1069-1088. -/
def FSM.repairMirror (f : FSM) (s : Nat) : Task :=
  let r := f.orderZones s false
  ⟨r.1, match r.2 with
    | some m => m + 1
    | none => 0⟩

/-- `repair_mirror_step`, cluster.rs:1134-1209: the new task, whether there may be
more to do, and the zone that was repaired.  (The `checked_add` cannot fail, because
ranges end at most at `TXG_MAX`.) -/
def FSM.repairStep (f : FSM) (t : Task) (openToo : Bool) : Task × Bool × Option Nat :=
  match t.zones with
  | z :: zs =>
    if f.isDead z || f.isEmpty z then (⟨zs, t.nextTxg⟩, true, none)
    else if f.writePointer z = some 0 then (⟨zs, t.nextTxg⟩, true, none)
    else (⟨zs, t.nextTxg⟩, true, some z)
  | [] =>
    let r := f.orderZones t.nextTxg openToo
    (⟨r.1, match r.2 with
      | some m => m + 1
      | none => t.nextTxg⟩, !r.1.isEmpty, none)

/-! ## Histories of a rebuild -/

/-- The state of a rebuild.  `need` are the zones that held data at its start, which
may contain data the child missed, and have not been erased since; `done` are the
zones repaired.  Both are ghost state. -/
structure RB where
  h : Hist
  t : Task
  need : List Nat
  done : List Nat

/-- The start of a rebuild of a child which has all data up to transaction `s`. -/
def RB.start (h : Hist) (s : Nat) : RB :=
  ⟨h, h.c.fsm.repairMirror s, h.c.fsm.contains s, []⟩

/-- One call of `repair_mirror_step`. -/
def RB.repair (openToo : Bool) (r : RB) : RB × Bool :=
  let (t, more, d) := r.h.c.fsm.repairStep r.t openToo
  ({ r with t := t, done := match d with
      | some z => z :: r.done
      | none => r.done }, more)

/-- Some other call on the cluster. -/
def RB.env (g : Geo) (H : Nat → List ZoneOnDisk → Nat) (op : Op) (r : RB) : Option RB :=
  (step g H r.h op).map (fun h' =>
    { r with h := h', need := match op with
      | .advance => r.need.filter (fun z => !(r.h.c.advance.2.contains z))
      | _ => r.need })

/-- `repair_closed_zones`, ddml.rs:99-116, with other calls between its steps; `P`
says which. -/
inductive Phase1 (g : Geo) (H : Nat → List ZoneOnDisk → Nat) (P : RB → Op → Prop) : RB → RB → Prop where
  | env {r r' r'' : RB} {op : Op} : op.Legal r.h → P r op → r.env g H op = some r' → Phase1 g H P r' r'' →
      Phase1 g H P r r''
  | more {r r' r'' : RB} : r.repair false = (r', true) → Phase1 g H P r' r'' → Phase1 g H P r r''
  | done {r r' : RB} : r.repair false = (r', false) → Phase1 g H P r r'

/-- `finalize`, ddml.rs:121-140: the pool is locked, so that nothing else happens. -/
inductive Phase2 : RB → RB → Prop where
  | more {r r' r'' : RB} : r.repair true = (r', true) → Phase2 r' r'' → Phase2 r r''
  | done {r r' : RB} : r.repair true = (r', false) → Phase2 r r'

/-! ## Proofs -/

variable {g : Geo} {n : Nat} {H : Nat → List ZoneOnDisk → Nat}

theorem mem_contains (f : FSM) (s z : Nat) :
    z ∈ f.contains s ↔ s < TXG_MAX ∧ ((∃ zn, f.view z = .closed zn ∧ s < zn.txgEnd) ∨ ∃ zn oz, f.view z = .opn zn oz) := by
  unfold FSM.contains
  simp only [List.mem_filter, List.mem_range, Bool.and_eq_true, Bool.or_eq_true, Bool.not_eq_true', decide_eq_true_eq]
  constructor
  · rintro ⟨h1, ⟨h2, h3⟩, h4⟩
    refine ⟨h3, ?_⟩
    unfold FSM.view
    rw [List.getElem?_eq_getElem h1] at h4 ⊢
    simp only [h2, Bool.false_eq_true, if_false]
    cases ho : f.opn.get z with
    | some oz => exact Or.inr ⟨_, oz, rfl⟩
    | none =>
      rw [ho] at h4
      rcases h4 with h4 | h4
      · exact Or.inl ⟨_, rfl, by simpa using h4⟩
      · cases h4
  · rintro ⟨h3, ⟨zn, hv, h4⟩ | ⟨zn, oz, hv⟩⟩
    · obtain ⟨h1, h2, h5⟩ := FSM.view_closed hv
      refine ⟨(List.getElem?_eq_some_iff.mp h1).1, ⟨?_, h3⟩, Or.inl ?_⟩
      · unfold FSM.view at hv
        rw [h1] at hv
        simp only at hv
        cases he : (f.empty.get z).isSome with
        | false => rfl
        | true => rw [he] at hv; simp only [if_true] at hv; split at hv <;> cases hv
      · rw [h1]; exact h4
    · obtain ⟨h1, h2, h5⟩ := FSM.view_open hv
      refine ⟨(List.getElem?_eq_some_iff.mp h1).1, ⟨?_, h3⟩, Or.inr (by rw [h2]; rfl)⟩
      unfold FSM.view at hv
      rw [h1] at hv
      simp only at hv
      cases he : (f.empty.get z).isSome with
      | false => rfl
      | true => rw [he] at hv; simp only [if_true] at hv; split at hv <;> cases hv

theorem mem_insertBy (le : Nat → Nat → Bool) (a z : Nat) (l : List Nat) : z ∈ insertBy le a l ↔ z = a ∨ z ∈ l := by
  induction l with
  | nil => simp [insertBy]
  | cons b bs ih =>
    unfold insertBy
    split
    · simp
    · simp only [List.mem_cons, ih]; constructor <;> rintro (h | h | h) <;> simp [h]

theorem mem_sortBy (le : Nat → Nat → Bool) (z : Nat) (l : List Nat) : z ∈ sortBy le l ↔ z ∈ l := by
  induction l with
  | nil => simp [sortBy]
  | cons b bs ih => unfold sortBy; rw [mem_insertBy, ih, List.mem_cons]

theorem mem_orderZones (f : FSM) (s z : Nat) (openToo : Bool) :
    z ∈ (f.orderZones s openToo).1 ↔ z ∈ f.contains s ∧ (openToo = true ∨ f.isOpen z = false) := by
  unfold FSM.orderZones
  simp only [mem_sortBy, List.mem_filter, Bool.or_eq_true, Bool.not_eq_true']

theorem orderZones_max (f : FSM) (s : Nat) (openToo : Bool) {m : Nat} (h : (f.orderZones s openToo).2 = some m) :
    ∃ z ∈ (f.orderZones s openToo).1, ((f.zones[z]?).getD Zone.default).txgEnd = m := by
  unfold FSM.orderZones at h ⊢
  have := List.max?_mem h
  rw [List.mem_map] at this
  exact this

theorem isOpen_false {f : FSM} (wf : f.WF) {z : Nat} (h : ∀ zn oz, f.view z ≠ .opn zn oz) : f.isOpen z = false := by
  cases ho : f.isOpen z with
  | false => rfl
  | true =>
    obtain ⟨zn, oz, h'⟩ := (FSM.isOpen_view wf z).mp ho
    exact absurd h' (h zn oz)

/-- All transaction numbers are small. -/
def Small (f : FSM) : Prop := ∀ z zn, f.view z = .closed zn → zn.txgEnd + 1 < TXG_MAX

theorem max_small {f : FSM} (wf : f.WF) (hs : Small f) {s m : Nat} (h : (f.orderZones s false).2 = some m) :
    m + 1 < TXG_MAX := by
  obtain ⟨z, hz, rfl⟩ := orderZones_max f s false h
  rw [mem_orderZones, mem_contains] at hz
  obtain ⟨⟨-, h1⟩, h2⟩ := hz
  rcases h1 with ⟨zn, hv, -⟩ | ⟨zn, oz, hv⟩
  · rw [(FSM.view_closed hv).1]
    exact hs z zn hv
  · rcases h2 with h2 | h2
    · cases h2
    · rw [(FSM.isOpen_view wf z).mpr ⟨zn, oz, hv⟩] at h2; cases h2

/-- Every zone that needs repair has been repaired, or is going to be. -/
structure RInv (g : Geo) (n : Nat) (r : RB) : Prop where
  good : Good g n r.h
  small : Small r.h.c.fsm
  next : r.t.nextTxg < TXG_MAX
  held : ∀ z ∈ r.need, r.h.c.fsm.view z ≠ .empty
  cov : ∀ z ∈ r.need, z ∈ r.done ∨ z ∈ r.t.zones ∨ r.h.c.fsm.view z = .dead ∨
    (∃ zn oz, r.h.c.fsm.view z = .opn zn oz) ∨ ∃ zn, r.h.c.fsm.view z = .closed zn ∧ r.t.nextTxg < zn.txgEnd

theorem rinv_start {h : Hist} (G : Good g n h) (hs : Small h.c.fsm) (s : Nat) : RInv g n (RB.start h s) := by
  refine ⟨G, hs, ?_, ?_, ?_⟩
  · unfold RB.start FSM.repairMirror
    simp only
    split
    · rename_i m hm
      exact max_small G.wf hs hm
    · unfold TXG_MAX; omega
  · intro z hz
    simp only [RB.start] at hz ⊢
    rw [mem_contains] at hz
    rcases hz with ⟨-, ⟨zn, hv, -⟩ | ⟨zn, oz, hv⟩⟩ <;> rw [hv] <;> simp
  · intro z hz
    simp only [RB.start] at hz ⊢
    have hz' := hz
    rw [mem_contains] at hz
    rcases hz with ⟨hlt, ⟨zn, hv, he⟩ | h⟩
    · right; left
      unfold FSM.repairMirror
      rw [mem_orderZones]
      exact ⟨hz', Or.inr (isOpen_false G.wf (fun _ _ h => by rw [hv] at h; cases h))⟩
    · exact Or.inr (Or.inr (Or.inr (Or.inl h)))

/-- What a call does to a zone that holds data. -/
theorem env_view (geo : GeoOk g n) {h h' : Hist} (G : Good g n h) {op : Op} (hl : op.Legal h)
    (hs : step g H h op = some h') (hnr : op ≠ .reload) {z : Nat} :
    (∀ zn, h.c.fsm.view z = .closed zn →
      h'.c.fsm.view z = .dead ∨ ∃ zn', h'.c.fsm.view z = .closed zn' ∧ zn'.txgEnd = zn.txgEnd) ∧
    (∀ zn oz, h.c.fsm.view z = .opn zn oz →
      (∃ zn oz, h'.c.fsm.view z = .opn zn oz) ∨
      ∃ zn' space txg, h'.c.fsm.view z = .closed zn' ∧ op = .write space txg ∧ zn'.txgEnd = txg + 1) ∧
    (h.c.fsm.view z = .dead → h'.c.fsm.view z = .dead ∨ op = .advance ∧ z ∈ h.c.advance.2) ∧
    (h.c.fsm.view z = .empty → h'.c.fsm.view z = .empty ∨ ∃ zn oz, h'.c.fsm.view z = .opn zn oz) := by
  cases op with
  | write space txg =>
    unfold step at hs
    rcases write_spec geo G hl.1 hl.2 with ⟨c, he, -, -, -, hk⟩ | ⟨c, z', lba, he, -, -, -, hz', hk, ho⟩
    · simp only [he] at hs
      cases hs
      simp only
      have := hk z
      refine ⟨fun zn hv => ?_, fun zn oz hv => ?_, fun hv => ?_, fun hv => ?_⟩ <;> rw [hv] at this <;>
        rcases this with h | ⟨_, _, zn', h, h1, h2⟩
      · exact Or.inr ⟨zn, h, rfl⟩
      · cases h
      · exact Or.inl ⟨_, _, h⟩
      · exact Or.inr ⟨zn', _, _, h1, rfl, h2.1⟩
      · exact Or.inl h
      · cases h
      · exact Or.inl h
      · cases h
    · simp only [he] at hs
      cases hs
      simp only
      by_cases e : z = z'
      · subst e
        refine ⟨fun zn hv => ?_, fun zn oz hv => Or.inl (ho.imp fun _ h => h.imp fun _ h => h.1), fun hv => ?_, fun hv => Or.inr (ho.imp fun _ h => h.imp fun _ h => h.1)⟩ <;>
          rw [hv] at hz' <;> rcases hz' with ⟨_, _, h⟩ | h <;> cases h
      · have := hk z e
        refine ⟨fun zn hv => ?_, fun zn oz hv => ?_, fun hv => ?_, fun hv => ?_⟩ <;> rw [hv] at this <;>
          rcases this with h | ⟨_, _, zn', h, h1, h2⟩
        · exact Or.inr ⟨zn, h, rfl⟩
        · cases h
        · exact Or.inl ⟨_, _, h⟩
        · exact Or.inr ⟨zn', _, _, h1, rfl, h2.1⟩
        · exact Or.inl h
        · cases h
        · exact Or.inl h
        · cases h
  | free i =>
    obtain ⟨r, hr, hlive⟩ := hl
    obtain ⟨c, z', h, hz', -, -, hk, hcase⟩ := free_spec geo G hr hlive
    unfold step at hs
    simp only [hr, h, Option.map_some] at hs
    cases hs
    simp only
    by_cases e : z = z'
    · subst e
      rcases hcase with ⟨_, _, _, h1, h2⟩ | ⟨zn', h1, h2⟩
      · refine ⟨fun zn hv => ?_, fun zn oz hv => Or.inl ⟨_, _, h2.1⟩, fun hv => ?_, fun hv => ?_⟩ <;>
          rw [hv] at h1 <;> cases h1
      · refine ⟨fun zn hv => ?_, fun zn oz hv => ?_, fun hv => ?_, fun hv => ?_⟩ <;> rw [hv] at h1 <;> cases h1
        rcases h2 with ⟨zn2, h3, -, h4⟩ | ⟨h3, -⟩
        · exact Or.inr ⟨zn2, h3, h4.1⟩
        · exact Or.inl h3
    · rw [hk z e]
      exact ⟨fun zn hv => Or.inr ⟨zn, hv, rfl⟩, fun zn oz hv => Or.inl ⟨_, _, hv⟩, fun hv => Or.inl hv, fun hv => Or.inl hv⟩
  | flush gap =>
    obtain ⟨c, -, he, -, -, -, hw⟩ := flush_spec (H := H) G hl
    unfold step at hs
    simp only [he, Option.map_some] at hs
    cases hs
    have hw := hw z
    have hcl : c.fsm.clearDirty.view z = c.fsm.view z := rfl
    simp only
    rw [hcl]
    rcases hw with h1 | ⟨zn, oz, zn', oz', h1, h2⟩
    · rw [h1]
      exact ⟨fun zn hv => Or.inr ⟨zn, hv, rfl⟩, fun zn oz hv => Or.inl ⟨_, _, hv⟩, fun hv => Or.inl hv, fun hv => Or.inl hv⟩
    · refine ⟨fun zn hv => ?_, fun zn oz hv => Or.inl ⟨_, _, h2.1⟩, fun hv => ?_, fun hv => ?_⟩ <;>
        rw [hv] at h1 <;> cases h1
  | advance =>
    obtain ⟨-, -, he, hva⟩ := advance_spec (g := g) G
    cases hs
    simp only
    rw [hva]
    refine ⟨fun zn hv => ?_, fun zn oz hv => ?_, fun hv => ?_, fun hv => ?_⟩
    · rw [if_neg (by rw [hv]; simp)]; exact Or.inr ⟨zn, hv, rfl⟩
    · rw [if_neg (by rw [hv]; simp)]; exact Or.inl ⟨_, _, hv⟩
    · exact Or.inr ⟨trivial, (he z).mpr hv⟩
    · rw [if_neg (by rw [hv]; simp)]; exact Or.inl hv
  | reload => exact absurd rfl hnr

/-- Calls during the rebuild: any, but a write that closes a zone does so in a
transaction that is not before `nextTxg`. -/
def Late (r : RB) (op : Op) : Prop :=
  op ≠ .reload ∧ ∀ space txg, op = .write space txg → r.t.nextTxg ≤ txg ∧ txg + 2 < TXG_MAX

theorem rinv_env (geo : GeoOk g n) {r r' : RB} (I : RInv g n r) {op : Op} (hl : op.Legal r.h) (hP : Late r op)
    (hs : r.env g H op = some r') : RInv g n r' := by
  unfold RB.env at hs
  rw [Option.map_eq_some_iff] at hs
  obtain ⟨h', hst, rfl⟩ := hs
  obtain ⟨h2, he, G'⟩ := good_step (H := H) geo I.good hl
  rw [hst] at he
  cases he
  have hsub : ∀ z, z ∈ (match op with
      | .advance => r.need.filter (fun z => !(r.h.c.advance.2.contains z))
      | _ => r.need) → z ∈ r.need ∧ (op = .advance → z ∉ r.h.c.advance.2) := by
    intro z hz
    cases op with
    | advance =>
      simp only [List.mem_filter, Bool.not_eq_true', List.contains_eq_mem, decide_eq_false_iff_not] at hz
      exact ⟨hz.1, fun _ => hz.2⟩
    | _ => exact ⟨hz, by simp⟩
  have hE := fun z => env_view geo I.good hl hst hP.1 (z := z)
  refine ⟨G', ?_, I.next, ?_, ?_⟩
  · intro z zn' hv'
    simp only at hv'
    obtain ⟨h1, h2, h3, h4⟩ := hE z
    cases hv : r.h.c.fsm.view z with
    | empty => rcases h4 hv with h | ⟨_, _, h⟩ <;> rw [hv'] at h <;> cases h
    | dead =>
      rcases h3 hv with h | ⟨rfl, -⟩
      · rw [hv'] at h; cases h
      · cases hst
        simp only at hv'
        rw [(advance_spec (g := g) I.good).2.2.2, if_pos hv] at hv'
        cases hv'
    | opn zn oz =>
      rcases h2 zn oz hv with ⟨_, _, h⟩ | ⟨zn2, space, txg, h, h5, h6⟩
      · rw [hv'] at h; cases h
      · rw [hv'] at h
        cases h
        have := (hP.2 space txg h5).2
        omega
    | closed zn =>
      rcases h1 zn hv with h | ⟨zn2, h, h5⟩
      · rw [hv'] at h; cases h
      · rw [hv'] at h
        cases h
        have := I.small z zn hv
        omega
  · intro z hz
    simp only at hz ⊢
    obtain ⟨hz, hna⟩ := hsub z hz
    obtain ⟨h1, h2, h3, h4⟩ := hE z
    cases hv : r.h.c.fsm.view z with
    | empty => exact absurd hv (I.held z hz)
    | dead =>
      rcases h3 hv with h | ⟨e, h⟩
      · rw [h]; simp
      · exact absurd h (hna e)
    | opn zn oz => rcases h2 zn oz hv with ⟨_, _, h⟩ | ⟨zn2, space, txg, h, h5, h6⟩ <;> rw [h] <;> simp
    | closed zn => rcases h1 zn hv with h | ⟨zn2, h, h5⟩ <;> rw [h] <;> simp
  · intro z hz
    simp only at hz ⊢
    obtain ⟨hz, hna⟩ := hsub z hz
    obtain ⟨h1, h2, h3, h4⟩ := hE z
    rcases I.cov z hz with h | h | h | ⟨zn, oz, h⟩ | ⟨zn, h, hlt⟩
    · exact Or.inl h
    · exact Or.inr (Or.inl h)
    · rcases h3 h with h | ⟨e, h⟩
      · exact Or.inr (Or.inr (Or.inl h))
      · exact absurd h (hna e)
    · rcases h2 zn oz h with h | ⟨zn2, space, txg, h, h5, h6⟩
      · exact Or.inr (Or.inr (Or.inr (Or.inl h)))
      · have := (hP.2 space txg h5).1
        exact Or.inr (Or.inr (Or.inr (Or.inr ⟨zn2, h, by omega⟩)))
    · rcases h1 zn h with h | ⟨zn2, h, h5⟩
      · exact Or.inr (Or.inr (Or.inl h))
      · exact Or.inr (Or.inr (Or.inr (Or.inr ⟨zn2, h, by omega⟩)))

theorem rinv_repair {r : RB} (I : RInv g n r) : RInv g n (r.repair false).1 := by
  have hG := I.good
  unfold RB.repair FSM.repairStep
  cases hz : r.t.zones with
  | cons z zs =>
    simp only
    split
    · rename_i h
      rw [Bool.or_eq_true, FSM.isDead_view, FSM.isEmpty_view] at h
      refine ⟨hG, I.small, I.next, I.held, fun z' hz' => ?_⟩
      rcases I.cov z' hz' with h' | h' | h'
      · exact Or.inl h'
      · rw [hz, List.mem_cons] at h'
        rcases h' with rfl | h'
        · rcases h with h | h
          · exact Or.inr (Or.inr (Or.inl h))
          · exact absurd h (I.held _ hz')
        · exact Or.inr (Or.inl h')
      · exact Or.inr (Or.inr h')
    · split
      · rename_i h
        refine ⟨hG, I.small, I.next, I.held, fun z' hz' => ?_⟩
        rcases I.cov z' hz' with h' | h' | h'
        · exact Or.inl h'
        · rw [hz, List.mem_cons] at h'
          rcases h' with rfl | h'
          · unfold FSM.writePointer at h
            rw [Option.map_eq_some_iff] at h
            obtain ⟨oz, ho, -⟩ := h
            obtain ⟨zn, -, hv⟩ := FSM.view_of_open hG.wf ho
            exact Or.inr (Or.inr (Or.inr (Or.inl ⟨zn, oz, hv⟩)))
          · exact Or.inr (Or.inl h')
        · exact Or.inr (Or.inr h')
      · refine ⟨hG, I.small, I.next, I.held, fun z' hz' => ?_⟩
        simp only
        rcases I.cov z' hz' with h' | h' | h'
        · exact Or.inl (List.mem_cons_of_mem _ h')
        · rw [hz, List.mem_cons] at h'
          rcases h' with rfl | h'
          · exact Or.inl (List.mem_cons_self ..)
          · exact Or.inr (Or.inl h')
        · exact Or.inr (Or.inr h')
  | nil =>
    simp only
    refine ⟨hG, I.small, ?_, I.held, fun z' hz' => ?_⟩
    · simp only
      split
      · rename_i m hm
        exact max_small hG.wf I.small hm
      · exact I.next
    · simp only
      rcases I.cov z' hz' with h' | h' | h' | h' | ⟨zn, h', hlt⟩
      · exact Or.inl h'
      · rw [hz] at h'; cases h'
      · exact Or.inr (Or.inr (Or.inl h'))
      · exact Or.inr (Or.inr (Or.inr (Or.inl h')))
      · right; left
        rw [mem_orderZones, mem_contains]
        exact ⟨⟨I.next, Or.inl ⟨zn, h', hlt⟩⟩, Or.inr (isOpen_false hG.wf (fun _ _ h => by rw [h'] at h; cases h))⟩

theorem phase1_inv (geo : GeoOk g n) {r r' : RB} (h : Phase1 g H Late r r') (I : RInv g n r) : RInv g n r' := by
  induction h with
  | env hl hP hs _ ih => exact ih (rinv_env geo I hl hP hs)
  | more h _ ih => exact ih (by have := rinv_repair I; rw [h] at this; exact this)
  | done h => have := rinv_repair I; rw [h] at this; exact this

/-- While the pool is locked: nothing is missing from the list any more. -/
structure RFin (g : Geo) (n : Nat) (r : RB) : Prop where
  good : Good g n r.h
  held : ∀ z ∈ r.need, r.h.c.fsm.view z ≠ .empty
  cov : ∀ z ∈ r.need, z ∈ r.done ∨ z ∈ r.t.zones ∨ r.h.c.fsm.view z = .dead

theorem fin_repair {r : RB} (I : RFin g n r) : RFin g n (r.repair true).1 := by
  have hG := I.good
  unfold RB.repair FSM.repairStep
  cases hz : r.t.zones with
  | cons z zs =>
    simp only
    split
    · rename_i h
      rw [Bool.or_eq_true, FSM.isDead_view, FSM.isEmpty_view] at h
      refine ⟨hG, I.held, fun z' hz' => ?_⟩
      rcases I.cov z' hz' with h' | h' | h'
      · exact Or.inl h'
      · rw [hz, List.mem_cons] at h'
        rcases h' with rfl | h'
        · rcases h with h | h
          · exact Or.inr (Or.inr h)
          · exact absurd h (I.held _ hz')
        · exact Or.inr (Or.inl h')
      · exact Or.inr (Or.inr h')
    · split
      · rename_i h
        exfalso
        unfold FSM.writePointer at h
        rw [Option.map_eq_some_iff] at h
        obtain ⟨oz, ho, h0⟩ := h
        obtain ⟨zn, -, hv⟩ := FSM.view_of_open hG.wf ho
        obtain ⟨-, -, h3, -⟩ := opn_inv hG hv
        omega
      · refine ⟨hG, I.held, fun z' hz' => ?_⟩
        simp only
        rcases I.cov z' hz' with h' | h' | h'
        · exact Or.inl (List.mem_cons_of_mem _ h')
        · rw [hz, List.mem_cons] at h'
          rcases h' with rfl | h'
          · exact Or.inl (List.mem_cons_self ..)
          · exact Or.inr (Or.inl h')
        · exact Or.inr (Or.inr h')
  | nil =>
    simp only
    refine ⟨hG, I.held, fun z' hz' => ?_⟩
    rcases I.cov z' hz' with h' | h' | h'
    · exact Or.inl h'
    · rw [hz] at h'; cases h'
    · exact Or.inr (Or.inr h')

theorem rinv_fin {r : RB} (I : RInv g n r) (h0 : r.t.zones = []) : RFin g n (r.repair true).1 := by
  have hG := I.good
  unfold RB.repair FSM.repairStep
  rw [h0]
  simp only
  refine ⟨hG, I.held, fun z' hz' => ?_⟩
  simp only
  rcases I.cov z' hz' with h' | h' | h' | h' | ⟨zn, h', hlt⟩
  · exact Or.inl h'
  · rw [h0] at h'; cases h'
  · exact Or.inr (Or.inr h')
  · right; left
    rw [mem_orderZones, mem_contains]
    exact ⟨⟨I.next, Or.inr h'⟩, Or.inl rfl⟩
  · right; left
    rw [mem_orderZones, mem_contains]
    exact ⟨⟨I.next, Or.inl ⟨zn, h', hlt⟩⟩, Or.inl rfl⟩

/-- A step that reports the end leaves the list empty. -/
theorem repair_done {r r' : RB} {b : Bool} (h : r.repair b = (r', false)) : r'.t.zones = [] := by
  unfold RB.repair FSM.repairStep at h
  cases hz : r.t.zones with
  | cons z zs =>
    rw [hz] at h
    simp only at h
    split at h
    · cases h
    · split at h <;> cases h
  | nil =>
    rw [hz] at h
    simp only [Prod.mk.injEq, Bool.not_eq_false'] at h
    obtain ⟨rfl, h⟩ := h
    simpa using h

theorem phase1_done {P : RB → Op → Prop} {r r' : RB} (h : Phase1 g H P r r') : r'.t.zones = [] := by
  induction h with
  | env _ _ _ _ ih => exact ih
  | more _ _ ih => exact ih
  | done h => exact repair_done h

theorem fin_phase2 {r r' : RB} (h : Phase2 r r') (I : RFin g n r) : RFin g n r' ∧ r'.t.zones = [] := by
  induction h with
  | more h _ ih => exact ih (by have := fin_repair I; rw [h] at this; exact this)
  | done h => exact ⟨by have := fin_repair I; rw [h] at this; exact this, repair_done h⟩

theorem phase2_fin {r r' : RB} (h : Phase2 r r') (I : RInv g n r) (h0 : r.t.zones = []) :
    RFin g n r' ∧ r'.t.zones = [] := by
  cases h with
  | more h h2 => exact fin_phase2 h2 (by have := rinv_fin I h0; rw [h] at this; exact this)
  | done h => exact ⟨by have := rinv_fin I h0; rw [h] at this; exact this, repair_done h⟩

end Verif.Cluster
