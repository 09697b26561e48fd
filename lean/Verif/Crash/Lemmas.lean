import Verif.Crash.Spec
import Verif.Cluster.Pool
import Verif.Cluster.Copies

/-! # The invariant, and the steps between syncs -/

namespace Verif.Crash

open Verif
open Verif.Cluster hiding Op step

variable {β : Type}

/-! ### The disk -/

/-- The write changes this block. -/
def Wr.touches : Wr β → Nat → Prop
  | .blk b _, a => b = a
  | .erase lo hi, a => lo ≤ a ∧ a < hi
  | _, _ => False

def Wr.isData : Wr β → Prop
  | .blk _ _ => True
  | .erase _ _ => True
  | _ => False

theorem view_write (d : Disk β) (ws : List (Wr β)) : (d.write ws).view = ws.foldl Wr.apply d.view := by
  simp [Disk.view, Disk.write, List.foldl_append]

theorem foldl_blk (ws : List (Wr β)) (m : Media β) (a : Nat) (h : ∀ w ∈ ws, ¬ w.touches a) :
    (ws.foldl Wr.apply m).blk a = m.blk a := by
  induction ws generalizing m with
  | nil => rfl
  | cons w ws ih =>
    rw [List.foldl_cons, ih _ (fun w hw => h w (List.mem_cons_of_mem _ hw))]
    have := h w (List.mem_cons_self ..)
    cases w with
    | label i l => rfl
    | smap c i b => rfl
    | blk b v => simp only [Wr.apply]; rw [if_neg (fun e => this e.symm)]
    | erase lo hi =>
      simp only [Wr.touches] at this
      simp only [Wr.apply]
      rw [if_neg this]

theorem foldl_label_data (ws : List (Wr β)) (m : Media β) (h : ∀ w ∈ ws, w.isData) :
    (ws.foldl Wr.apply m).label = m.label ∧ (ws.foldl Wr.apply m).smap = m.smap := by
  induction ws generalizing m with
  | nil => exact ⟨rfl, rfl⟩
  | cons w ws ih =>
    rw [List.foldl_cons]
    obtain ⟨h1, h2⟩ := ih (w.apply m) (fun w hw => h w (List.mem_cons_of_mem _ hw))
    have := h w (List.mem_cons_self ..)
    rw [h1, h2]
    cases w with
    | label i l => exact absurd this id
    | smap c i b => exact absurd this id
    | blk b v => exact ⟨rfl, rfl⟩
    | erase lo hi => exact ⟨rfl, rfl⟩

theorem foldl_smap (bs : List (Nat × SpacemapBlock)) (m : Media β) (copy : Nat) :
    ((bs.map fun x => Wr.smap copy x.1 x.2).foldl Wr.apply m).smap = writeBlocks m.smap copy bs ∧
    ((bs.map fun x => (Wr.smap copy x.1 x.2 : Wr β)).foldl Wr.apply m).label = m.label := by
  induction bs generalizing m with
  | nil => exact ⟨rfl, rfl⟩
  | cons b bs ih =>
    rw [List.map_cons, List.foldl_cons]
    exact ih _

theorem mem_blkWrites {lba : Nat} {d : List β} {w : Wr β} (h : w ∈ blkWrites lba d) :
    ∃ i v, w = .blk (lba + i) v ∧ d[i]? = some v := by
  induction d generalizing lba with
  | nil => cases h
  | cons x xs ih =>
    rw [blkWrites, List.mem_cons] at h
    rcases h with rfl | h
    · exact ⟨0, x, rfl, rfl⟩
    · obtain ⟨i, v, rfl, hv⟩ := ih h
      exact ⟨i + 1, v, by congr 1; omega, hv⟩

theorem foldl_blkWrites (d : List β) (lba : Nat) (m : Media β) (i : Nat) (v : β) (h : d[i]? = some v) :
    ((blkWrites lba d).foldl Wr.apply m).blk (lba + i) = some v := by
  induction d generalizing lba m i with
  | nil => cases h
  | cons x xs ih =>
    rw [blkWrites, List.foldl_cons]
    cases i with
    | zero =>
      cases h
      rw [foldl_blk]
      · simp [Wr.apply]
      · intro w hw ht
        obtain ⟨i, v, rfl, -⟩ := mem_blkWrites hw
        simp only [Wr.touches] at ht
        omega
    | succ i =>
      have := ih (lba + 1) (Wr.apply m (.blk lba x)) i h
      rw [show lba + 1 + i = lba + (i + 1) from by omega] at this
      exact this

/-! ### Records and the log of the cluster -/

/-- Every record is in the cluster's log, freed or not. -/
def Covered (recs : List Rec) (refs : List (Ref β)) : Prop :=
  ∀ r ∈ refs, ∃ x ∈ recs, x.lba = r.1 ∧ x.len = r.2.length

/-- The live records of the log are these. -/
def LiveAre (recs : List Rec) (refs : List (Ref β)) : Prop :=
  (recs.filter (·.live)).map (fun r => (r.lba, r.len)) = refs.map (fun r => (r.1, r.2.length))

def Untouched (ws : List (Wr β)) (refs : List (Ref β)) : Prop :=
  ∀ w ∈ ws, ∀ r ∈ refs, ∀ i, i < r.2.length → ¬ w.touches (r.1 + i)

theorem LiveAre.mem {recs : List Rec} {refs : List (Ref β)} (h : LiveAre recs refs) {r : Ref β}
    (hr : r ∈ refs) : ∃ x ∈ recs, x.live = true ∧ x.lba = r.1 ∧ x.len = r.2.length := by
  have : (r.1, r.2.length) ∈ refs.map (fun r => (r.1, r.2.length)) := List.mem_map.2 ⟨r, hr, rfl⟩
  rw [← h, List.mem_map] at this
  obtain ⟨x, hx, e⟩ := this
  rw [List.mem_filter] at hx
  simp only [Prod.mk.injEq] at e
  exact ⟨x, hx.1, hx.2, e⟩

theorem LiveAre.covered {recs : List Rec} {refs : List (Ref β)} (h : LiveAre recs refs) :
    Covered recs refs := by
  intro r hr
  obtain ⟨x, hx, -, h1⟩ := h.mem hr
  exact ⟨x, hx, h1⟩

theorem LiveAre.sum {recs : List Rec} {refs : List (Ref β)} (h : LiveAre recs refs) :
    liveSum recs = (refs.map fun r => r.2.length).sum := by
  have h1 : refs.map (fun r => r.2.length) = (refs.map (fun r => (r.1, r.2.length))).map Prod.snd := by
    rw [List.map_map]; rfl
  rw [h1, ← h, List.map_map]
  unfold liveSum
  clear h h1
  induction recs with
  | nil => rfl
  | cons x xs ih =>
    cases hl : x.live with
    | true => simp [hl, ih]
    | false => simp [hl, ih]

theorem filter_set {α : Type} (p : α → Bool) (l : List α) (i : Nat) (x : α)
    (h : (l.filter p)[i]? = some x) :
    ∃ j : Nat, l[j]? = some x ∧ p x = true ∧
      ∀ y, p y = false → (l.set j y).filter p = (l.filter p).eraseIdx i := by
  induction l generalizing i with
  | nil => simp at h
  | cons a l ih =>
    cases ha : p a with
    | true =>
      rw [List.filter_cons_of_pos ha] at h ⊢
      cases i with
      | zero =>
        cases h
        refine ⟨0, rfl, ha, fun y hy => ?_⟩
        rw [List.set_cons_zero, List.filter_cons_of_neg (by simp [hy])]
        rfl
      | succ i =>
        obtain ⟨j, h1, h2, h3⟩ := ih i h
        refine ⟨j + 1, h1, h2, fun y hy => ?_⟩
        rw [List.set_cons_succ, List.filter_cons_of_pos ha, h3 y hy]
        rfl
    | false =>
      rw [List.filter_cons_of_neg (by simp [ha])] at h ⊢
      obtain ⟨j, h1, h2, h3⟩ := ih i h
      refine ⟨j + 1, h1, h2, fun y hy => ?_⟩
      rw [List.set_cons_succ, List.filter_cons_of_neg (by simp [ha]), h3 y hy]

/-! ### The invariant -/

def HasLabel (d : Disk β) (i : Nat) (l : Label β) : Prop :=
  d.durable.label i = some l ∨ Wr.label i l ∈ d.cache

/-- The label's records are durable, will not be hurt by the writes in progress, and the cluster knows
of them. -/
structure Kept (d : Disk β) (recs : List Rec) (l : Label β) : Prop where
  intact : Intact d.durable l.refs
  untouched : Untouched d.cache l.refs
  covered : Covered recs l.refs

/-- The durable first label and the durable first spacemap belong together. -/
def Snap (g : Geo) (H : Nat → List ZoneOnDisk → Nat) (n : Nat) (d : Disk β) : Prop :=
  ∃ c recs l, Good g n ⟨c, recs⟩ ∧ d.durable.label 0 = some l ∧ LiveAre recs l.refs ∧
    (∀ i, i < spacemapSpace n → Current H c.fsm d.durable.smap i) ∧
    ∀ l, HasLabel d 1 l → Covered recs l.refs

/-- Everything that does not mention the user. -/
structure Core (g : Geo) (H : Nat → List ZoneOnDisk → Nat) (n : Nat) (A : List (List β) → Prop)
    (s : Sys β) (recs : List Rec) : Prop where
  good : Good g n ⟨s.c, recs⟩
  live : LiveAre recs s.trees
  intact : Intact s.disk.view s.trees
  cur : ∀ i, s.c.fsm.dirty[i]? = some false → Current H s.c.fsm s.disk.view.smap i
  labels : ∀ i l, i < 2 → HasLabel s.disk i l → Kept s.disk recs l ∧ A (l.refs.map Prod.snd)
  snap : ¬ Window s → Snap g H n s.disk
  data : s.pc ≤ 1 → ∀ w ∈ s.disk.cache, w.isData

def Sys.cur (s : Sys β) : Label β := ⟨s.txg, s.trees⟩

/-- What is known at each step of a sync. -/
structure Phase (H : Nat → List ZoneOnDisk → Nat) (n : Nat) (s : Sys β) : Prop where
  le : s.pc ≤ 8
  mem : 1 ≤ s.pc → s.mem = []
  clean : 2 ≤ s.pc → ∀ i, i < spacemapSpace n → Current H s.c.fsm s.disk.view.smap i
  two : s.pc = 2 → ∀ w ∈ s.disk.cache, w.isData ∨ ∃ c i b, w = .smap c i b
  empty : s.pc = 3 ∨ s.pc = 6 ∨ s.pc = 8 → s.disk.cache = []
  four : s.pc = 4 → s.disk.cache = [.label 0 s.cur]
  five : s.pc = 5 → Wr.label 0 s.cur ∈ s.disk.cache ∧
    ∀ w ∈ s.disk.cache, w = .label 0 s.cur ∨ ∃ i b, w = .smap 1 i b
  seven : s.pc = 7 → s.disk.cache = [.label 1 s.cur]
  first : 6 ≤ s.pc → s.disk.durable.label 0 = some s.cur
  second : s.pc = 8 → s.disk.durable.label 1 = some s.cur

variable [DecidableEq β]

structure Inv (g : Geo) (H : Nat → List ZoneOnDisk → Nat) (n : Nat) (s : Sys β) (k : Client β)
    (recs : List Rec) : Prop where
  core : Core g H n k.Allowed s recs
  phase : Phase H n s
  nonempty : ∀ d ∈ s.mem, d ≠ []
  contents : k.contents.Perm (s.mem ++ s.trees.map Prod.snd)
  called : 1 ≤ s.pc → k.contents ∈ k.later

variable {g : Geo} {H : Nat → List ZoneOnDisk → Nat} {n : Nat} {A : List (List β) → Prop}

omit [DecidableEq β] in
theorem phase_zero (s : Sys β) (h : s.pc = 0) : Phase H n s := by
  constructor <;> intros <;> omega

omit [DecidableEq β] in
/-- The blocks of a record of the log. -/
theorem Core.rec_zone (geo : GeoOk g n) {s : Sys β} {recs : List Rec} (C : Core g H n A s recs)
    {x : Rec} (hx : x ∈ recs) : ∃ z, z < n ∧ g.lba2zone x.lba = some z ∧ (g.limits z).1 ≤ x.lba ∧
      x.lba + x.len ≤ (g.limits z).2 := by
  obtain ⟨-, z, h1, h2⟩ := C.good.inv.recOk x hx
  obtain ⟨h3, h4, -⟩ := in_zone geo h1
  exact ⟨z, h3, h1, h4, h2⟩

omit [DecidableEq β] in
theorem untouched_new {recs : List Rec} {refs : List (Ref β)} {lba : Nat} {d : List β}
    (hc : Covered recs refs) (hd : ∀ x ∈ recs, x.Disjoint ⟨lba, d.length, true⟩) :
    Untouched (blkWrites lba d) refs := by
  intro w hw r hr i hi ht
  obtain ⟨j, v, rfl, hj⟩ := mem_blkWrites hw
  obtain ⟨x, hx, h1, h2⟩ := hc r hr
  have hlen : j < d.length := (List.getElem?_eq_some_iff.mp hj).1
  have := hd x hx
  simp only [Rec.Disjoint, Wr.touches] at this ht
  omega

omit [DecidableEq β] in
theorem intact_foldl {m : Media β} {ws : List (Wr β)} {refs : List (Ref β)} (h : Intact m refs)
    (hu : Untouched ws refs) : Intact (ws.foldl Wr.apply m) refs := by
  intro r hr i v hv
  rw [foldl_blk _ _ _ (fun w hw => hu w hw r hr i (List.getElem?_eq_some_iff.mp hv).1)]
  exact h r hr i v hv

omit [DecidableEq β] in
/-- Writing a record. -/
theorem Core.store (geo : GeoOk g n) {s : Sys β} {recs : List Rec} (C : Core g H n A s recs)
    (hpc : s.pc ≤ 1) {d : List β} (hd : d ≠ []) (ht : s.txg ≤ TXG_MAX) :
    ∃ s' b, s.store g d = some (s', b) ∧ s'.pc = s.pc ∧ s'.txg = s.txg ∧ s'.mem = s.mem ∧
      (∃ recs', Core g H n A s' recs') ∧
      (b = false → s'.trees = s.trees) ∧ (b = true → ∃ lba, s'.trees = s.trees ++ [(lba, d)]) := by
  have hpos : 0 < d.length := List.length_pos_iff.2 hd
  unfold Sys.store
  rcases write_spec geo C.good hpos ht with ⟨c, h, hG, hT, -⟩ | ⟨c, z, lba, h, hz, hG, hT, -⟩
  · simp only at h
    rw [h]
    refine ⟨_, _, rfl, rfl, rfl, rfl, ⟨recs, hG, C.live, C.intact, hT.current C.cur, C.labels, C.snap, C.data⟩,
      fun _ => rfl, by intro h; cases h⟩
  · simp only at h
    rw [h]
    have hdisj : ∀ x ∈ recs, x.Disjoint ⟨lba, d.length, true⟩ := by
      have := hG.inv.disj
      rw [List.pairwise_append] at this
      exact fun x hx => this.2.2 x hx _ (by simp)
    have hdata : ∀ w ∈ blkWrites lba d, w.isData := by
      intro w hw
      obtain ⟨i, v, rfl, -⟩ := mem_blkWrites hw
      trivial
    have hv := foldl_label_data (blkWrites lba d) s.disk.view hdata
    refine ⟨_, _, rfl, rfl, rfl, rfl, ⟨recs ++ [⟨lba, d.length, true⟩], hG, ?_, ?_, ?_, ?_, ?_, ?_⟩,
      (by intro h; cases h), fun _ => ⟨lba, rfl⟩⟩
    · have := C.live
      unfold LiveAre at this ⊢
      simp [List.filter_append, this]
    · intro r hr
      simp only [List.mem_append, List.mem_singleton] at hr
      simp only [view_write]
      rcases hr with hr | rfl
      · exact intact_foldl C.intact (untouched_new C.live.covered hdisj) r hr
      · intro i v hv
        exact foldl_blkWrites d lba _ i v hv
    · simp only [view_write, hv.2]
      exact hT.current C.cur
    · intro i l hi hl
      have hl' : HasLabel s.disk i l := by
        rcases hl with hl | hl
        · exact .inl hl
        · simp only [Disk.write, List.mem_append] at hl
          rcases hl with hl | hl
          · exact .inr hl
          · exact absurd (hdata _ hl) id
      obtain ⟨hk, ha⟩ := C.labels i l hi hl'
      refine ⟨⟨hk.intact, ?_, ?_⟩, ha⟩
      · intro w hw
        simp only [Disk.write, List.mem_append] at hw
        rcases hw with hw | hw
        · exact hk.untouched w hw
        · exact untouched_new hk.covered hdisj w hw
      · intro r hr
        obtain ⟨x, hx, h⟩ := hk.covered r hr
        exact ⟨x, List.mem_append.2 (.inl hx), h⟩
    · intro hw
      obtain ⟨c0, recs0, l0, h1, h2, h3, h4, h5⟩ := C.snap hw
      refine ⟨c0, recs0, l0, h1, h2, h3, h4, fun l hl => h5 l ?_⟩
      rcases hl with hl | hl
      · exact .inl hl
      · simp only [Disk.write, List.mem_append] at hl
        rcases hl with hl | hl
        · exact .inr hl
        · exact absurd (hdata _ hl) id
    · intro _ w hw
      simp only [Disk.write, List.mem_append] at hw
      rcases hw with hw | hw
      · exact C.data hpc w hw
      · exact hdata w hw

omit [DecidableEq β] in
theorem Core.storeAll (geo : GeoOk g n) (ds : List (List β)) {s s' : Sys β} {recs : List Rec}
    (C : Core g H n A s recs) (hpc : s.pc = 0) (hd : ∀ d ∈ ds, d ≠ []) (ht : s.txg ≤ TXG_MAX)
    (h : s.storeAll g ds = some s') :
    s'.pc = 0 ∧ s'.txg = s.txg ∧ (∃ recs', Core g H n A s' recs') ∧
      s'.trees.map Prod.snd = s.trees.map Prod.snd ++ ds := by
  induction ds generalizing s recs with
  | nil => cases h; exact ⟨hpc, rfl, ⟨recs, C⟩, by simp⟩
  | cons d ds ih =>
    obtain ⟨s1, b, h1, h2, h3, -, ⟨recs1, C1⟩, -, h5⟩ := C.store geo (by omega) (hd d (by simp)) ht
    rw [Sys.storeAll, h1] at h
    cases b with
    | false => cases h
    | true =>
      obtain ⟨lba, e⟩ := h5 rfl
      obtain ⟨k1, k2, k3, k4⟩ := ih C1 (h2.trans hpc) (fun d hd' => hd d (List.mem_cons_of_mem _ hd'))
        (by rw [h3]; exact ht) h
      refine ⟨k1, k2.trans h3, k3, ?_⟩
      rw [k4, e]
      simp

omit [DecidableEq β] in
/-- Freeing a record. -/
theorem Core.free (geo : GeoOk g n) {s : Sys β} {recs : List Rec} (C : Core g H n A s recs)
    {i : Nat} {r : Ref β} (hr : s.trees[i]? = some r) :
    ∃ c recs', s.c.free g r.1 r.2.length = some c ∧
      Core g H n A { s with c := c, trees := s.trees.eraseIdx i } recs' := by
  have h1 : ((recs.filter (·.live)).map (fun r => (r.lba, r.len)))[i]? = some (r.1, r.2.length) := by
    rw [C.live, List.getElem?_map, hr]; rfl
  rw [List.getElem?_map, Option.map_eq_some_iff] at h1
  obtain ⟨x, hx, hxe⟩ := h1
  simp only [Prod.mk.injEq] at hxe
  obtain ⟨j, hj, hl, hset⟩ := filter_set _ _ _ _ hx
  obtain ⟨c, z, h, hz, hG, hT, -⟩ := free_spec geo C.good hj hl
  simp only at h
  rw [hxe.1, hxe.2] at h
  have hcov : ∀ refs : List (Ref β), Covered recs refs →
      Covered (recs.set j { x with live := false }) refs := by
    intro refs hc r hr
    obtain ⟨y, hy, h1⟩ := hc r hr
    obtain ⟨m, hm⟩ := List.mem_iff_getElem?.1 hy
    by_cases e : m = j
    · subst e
      rw [hj] at hm
      cases hm
      refine ⟨_, List.mem_iff_getElem?.2 ⟨m, List.getElem?_set_self (List.getElem?_eq_some_iff.mp hj).1⟩, h1⟩
    · exact ⟨y, List.mem_iff_getElem?.2 ⟨m, by rw [List.getElem?_set_ne (fun e' => e e'.symm)]; exact hm⟩, h1⟩
  refine ⟨c, recs.set j { x with live := false }, h, hG, ?_, ?_, hT.current C.cur, ?_, C.snap, C.data⟩
  · have := C.live
    unfold LiveAre at this ⊢
    rw [hset _ rfl]
    have e : ∀ {α γ : Type} (f : α → γ) (l : List α) (i : Nat), (l.eraseIdx i).map f = (l.map f).eraseIdx i := by
      intro α γ f l
      induction l with
      | nil => intro i; rfl
      | cons a l ih =>
        intro i
        cases i with
        | zero => rfl
        | succ i => simp [ih]
    rw [e, this, e]
  · intro r hr
    exact C.intact r (List.mem_of_mem_eraseIdx hr)
  · intro i l hi hl
    obtain ⟨hk, ha⟩ := C.labels i l hi hl
    exact ⟨⟨hk.intact, hk.untouched, hcov _ hk.covered⟩, ha⟩

theorem perm_erase_idx {l : List (List β)} {i : Nat} {d : List β} (h : l[i]? = some d) :
    (l.eraseIdx i).Perm (l.erase d) := by
  have h1 : l.Perm (d :: l.eraseIdx i) := by
    induction l generalizing i with
    | nil => cases h
    | cons a l ih =>
      cases i with
      | zero => cases h; exact .refl _
      | succ i => exact ((ih h).cons a).trans (.swap ..)
  have h2 : l.Perm (d :: l.erase d) := List.perm_cons_erase (List.mem_of_getElem? h)
  exact (List.perm_cons d).1 (h1.symm.trans h2)

/-- The user's operations. -/
theorem Inv.op (geo : GeoOk g n) {s : Sys β} {k : Client β} {recs : List Rec} (I : Inv g H n s k recs)
    (hpc : s.pc = 0) {o : Op β} (hl : Legal s o) :
    ∃ s', s.step g o = some s' ∧ ∃ recs', Inv g H n s' (k.op o) recs' := by
  have hcore : ∀ {s' : Sys β} {r}, Core g H n k.Allowed s' r → Core g H n (k.op o).Allowed s' r := by
    intro s' r h
    have : (k.op o).Allowed = k.Allowed := by cases o <;> rfl
    rw [this]; exact h
  cases o with
  | put d =>
    refine ⟨_, rfl, recs, ⟨⟨I.core.good, I.core.live, I.core.intact, I.core.cur, I.core.labels, I.core.snap, I.core.data⟩,
      phase_zero _ hpc, ?_, ?_, ?_⟩⟩
    · intro x hx
      rcases List.mem_append.1 hx with hx | hx
      · exact I.nonempty x hx
      · rw [List.mem_singleton.1 hx]; exact hl
    · have := I.contents
      simp only [Client.op]
      refine (this.append_right [d]).trans ?_
      rw [List.append_assoc, List.append_assoc]
      exact List.Perm.append_left _ List.perm_append_comm
    · intro h; simp only at h; omega
  | evict i =>
    obtain ⟨hi, ht⟩ := hl
    have hd : s.mem[i]? = some s.mem[i] := List.getElem?_eq_getElem hi
    obtain ⟨s1, b, h1, h2, h3, h4, ⟨recs1, C1⟩, h5, h6⟩ :=
      I.core.store geo (by omega) (I.nonempty _ (List.getElem_mem hi)) ht
    simp only [Sys.step, hd, h1]
    cases b with
    | false =>
      refine ⟨_, rfl, recs1, ⟨C1, phase_zero _ (h2.trans hpc), ?_, ?_, ?_⟩⟩
      · rw [h4]; exact I.nonempty
      · rw [h4, h5 rfl]; exact I.contents
      · intro h; omega
    | true =>
      obtain ⟨lba, e⟩ := h6 rfl
      refine ⟨_, rfl, recs1, ⟨⟨C1.good, C1.live, C1.intact, C1.cur, C1.labels, C1.snap, C1.data⟩,
        phase_zero _ (h2.trans hpc), ?_, ?_, ?_⟩⟩
      · exact fun d hd => I.nonempty d (List.mem_of_mem_eraseIdx hd)
      · show k.contents.Perm (s.mem.eraseIdx i ++ s1.trees.map Prod.snd)
        rw [e]
        refine I.contents.trans ?_
        have hp : s.mem.Perm (s.mem[i] :: s.mem.eraseIdx i) :=
          (List.perm_cons_erase (List.getElem_mem hi)).trans ((perm_erase_idx hd).symm.cons _)
        refine (hp.append_right _).trans ?_
        rw [List.map_append, ← List.append_assoc]
        exact (List.perm_append_comm (l₁ := [s.mem[i]]))
      · intro h; simp only at h; omega
  | drop i d =>
    refine ⟨_, rfl, recs, ⟨⟨I.core.good, I.core.live, I.core.intact, I.core.cur, I.core.labels, I.core.snap, I.core.data⟩,
      phase_zero _ hpc, ?_, ?_, ?_⟩⟩
    · exact fun d hd => I.nonempty d (List.mem_of_mem_eraseIdx hd)
    · simp only [Client.op]
      refine (I.contents.erase d).trans ?_
      rw [List.erase_append_left _ (List.mem_of_getElem? hl)]
      exact (perm_erase_idx hl).symm.append_right _
    · intro h; simp only at h; omega
  | free i d =>
    obtain ⟨a, ha⟩ := hl
    obtain ⟨c, recs', h1, C1⟩ := I.core.free geo ha
    simp only [Sys.step, ha, h1, Option.map_some]
    refine ⟨_, rfl, recs', ⟨C1, phase_zero _ hpc, I.nonempty, ?_, ?_⟩⟩
    · simp only [Client.op]
      have hm : (s.trees.map Prod.snd)[i]? = some d := by rw [List.getElem?_map, ha]; rfl
      have e : (s.trees.eraseIdx i).map Prod.snd = (s.trees.map Prod.snd).eraseIdx i := by
        generalize s.trees = l
        induction l generalizing i with
        | nil => rfl
        | cons x l ih => cases i with
          | zero => rfl
          | succ i => simpa using (by
              have : ∀ (l : List (Ref β)) (i : Nat), (l.eraseIdx i).map Prod.snd = (l.map Prod.snd).eraseIdx i := by
                intro l
                induction l with
                | nil => intro i; rfl
                | cons a l ih => intro i; cases i with
                  | zero => rfl
                  | succ i => simp [ih]
              exact this l i)
      show (k.contents.erase d).Perm (s.mem ++ (s.trees.eraseIdx i).map Prod.snd)
      rw [e]
      refine (I.contents.erase d).trans ?_
      have hmem : d ∈ s.trees.map Prod.snd := List.mem_of_getElem? hm
      refine ((List.perm_append_comm).erase d).trans ?_
      rw [List.erase_append_left _ hmem]
      exact ((perm_erase_idx hm).symm.append_right _).trans List.perm_append_comm
    · intro h; simp only at h; omega

end Verif.Crash
