import Verif.Crash.Steps
import Verif.Cluster.Props

/-!
# C32, C41: what is found after a crash

A crash can happen before, after and at any step of a sync; the positive theorems leave out the steps from the
first flush of the spacemap until the first label is durable, because in that window the claim is
false (see the end of this file).
-/

namespace Verif.Crash

open Verif
open Verif.Cluster (Cluster FSM Geo GeoOk SpacemapBlock ZoneOnDisk spacemapSpace mkBlock TXG_MAX exGeo exGeo_ok exH)

variable {β : Type} [DecidableEq β] {g : Geo} {H : Nat → List ZoneOnDisk → Nat} {n : Nat}

/-- **C32**, except for crashes in the window: import succeeds; it finds the contents of the last sync
that returned, or of one called later; all its records are on the disk; the zones they are in are neither
empty nor waiting to be erased; and the space in use is that of those records. -/
theorem C32_crash_partial (geo : GeoOk g n) {s : Sys β} {k : Client β} (R : Reach g H n s k)
    (hw : ¬ Window s) {m : Media β} (hc : CrashTo s.disk m) :
    ∃ s', «import» g H n m = some s' ∧ k.Allowed (s'.trees.map Prod.snd) ∧ s'.mem = [] ∧ Intact m s'.trees ∧
      (∀ r ∈ s'.trees, ∃ z, g.lba2zone r.1 = some z ∧ r.1 + r.2.length ≤ (g.limits z).2 ∧
        s'.c.fsm.isEmpty z = false ∧ s'.c.fsm.isDead z = false) ∧
      s'.c.used = (s'.trees.map fun r => r.2.length).sum := by
  obtain ⟨recs, I⟩ := inv_reach geo R
  obtain ⟨s', recs', h, I', -, h1, h2, h3⟩ := I.crash geo hw hc
  refine ⟨s', h, h3, h1, ?_, ?_, ?_⟩
  · have := I'.core.intact
    rw [h2] at this
    exact this
  · intro r hr
    obtain ⟨x, hx, hl, e1, e2⟩ := I'.core.live.mem hr
    obtain ⟨-, z, z1, z2⟩ := I'.core.good.inv.recOk x hx
    have hZ := I'.core.good.inv.zone z (Cluster.in_zone geo z1).1
    simp only at hZ
    refine ⟨z, by rw [← e1]; exact z1, by omega, ?_, ?_⟩
    · cases he : s'.c.fsm.isEmpty z with
      | false => rfl
      | true =>
        rw [(FSM.isEmpty_view _ z).mp he] at hZ
        exact absurd z1 (hZ x hx)
    · cases he : s'.c.fsm.isDead z with
      | false => rfl
      | true =>
        rw [(FSM.isDead_view _ z).mp he] at hZ
        have := hZ x hx z1
        rw [hl] at this
        cases this
  · exact (Cluster.used_eq geo I'.core.good).trans I'.core.live.sum

/-- **C32**, also in the window: the label that is found, if any, is that of the last sync that returned
or of one called later, and all its records are on the disk. -/
theorem C32_label_partial (geo : GeoOk g n) {s : Sys β} {k : Client β} (R : Reach g H n s k)
    {m : Media β} (hc : CrashTo s.disk m) :
    (∀ l, readLabel m = some l → k.Allowed (l.refs.map Prod.snd) ∧ Intact m l.refs) ∧
      (s.disk.durable.label 1 ≠ none → readLabel m ≠ none) := by
  obtain ⟨recs, I⟩ := inv_reach geo R
  constructor
  · intro l hl
    have : ∃ i, i < 2 ∧ m.label i = some l := by
      unfold readLabel at hl
      split at hl
      · cases hl; exact ⟨0, by omega, by assumption⟩
      · exact ⟨1, by omega, hl⟩
    obtain ⟨i, hi, h⟩ := this
    obtain ⟨h1, h2⟩ := I.core.labels i l hi (crash_label hc h)
    exact ⟨h2, crash_intact hc h1⟩
  · intro h1 hr
    by_cases hw : Window s
    · have hm : m.label 1 = none := by
        unfold readLabel at hr
        split at hr
        · cases hr
        · exact hr
      rcases hc.label 1 with h | ⟨l, hl, -⟩
      · exact h1 (h.symm.trans hm)
      · have P := I.phase
        unfold Window at hw
        rcases (by omega : s.pc = 2 ∨ s.pc = 3 ∨ s.pc = 4 ∨ s.pc = 5) with h | h | h | h
        · rcases P.two h _ hl with h | ⟨c, i, b, h⟩
          · exact h
          · cases h
        · rw [P.empty (.inl h)] at hl; cases hl
        · rw [P.four h] at hl; cases List.mem_singleton.1 hl
        · rcases (P.five h).2 _ hl with h | ⟨i, b, h⟩
          · cases h
          · cases h
    · obtain ⟨s', recs', h, -⟩ := I.crash geo hw hc
      unfold «import» at h
      rw [hr] at h
      cases h

/-- The pool holds what the user put in and has not removed, all records that have been written
read back, and the space in use is that of those records: at any time, also during a sync. -/
theorem C32_contents (geo : GeoOk g n) {s : Sys β} {k : Client β} (R : Reach g H n s k) :
    k.contents.Perm (s.mem ++ s.trees.map Prod.snd) ∧ Intact s.disk.view s.trees ∧
      s.c.used = (s.trees.map fun r => r.2.length).sum := by
  obtain ⟨recs, I⟩ := inv_reach geo R
  exact ⟨I.contents, I.core.intact, (Cluster.used_eq geo I.core.good).trans I.core.live.sum⟩

/-- A sync that has written the trees completes, and user operations do not panic. -/
theorem C32_no_panic (geo : GeoOk g n) {s : Sys β} {k : Client β} (R : Reach g H n s k) :
    (s.pc = 0 → ∀ o, Legal s o → ∃ s', s.step g o = some s') ∧
    (0 < s.pc → ∀ gap, SyncLegal s gap → ∃ s', s.sync g H gap = some s') := by
  obtain ⟨recs, I⟩ := inv_reach geo R
  refine ⟨fun hpc o hl => ?_, fun h0 gap hl => ?_⟩
  · obtain ⟨s', h, -⟩ := I.op geo hpc hl
    exact ⟨s', h⟩
  · have := I.phase.le
    by_cases h8 : s.pc = 8
    · obtain ⟨s', r, h, -⟩ := I.ret geo h8 gap
      exact ⟨s', h⟩
    · obtain ⟨s', h, -⟩ := I.sync h0 (by omega) hl
      exact ⟨s', h⟩

/-! ## C41 -/

theorem contents_step {s s' : Sys β} {k k' : Client β} {e : Ev β} (h : Step g H n s k e s' k')
    {d : List β} (hk : e.Keeps d) (hn : e.NoCrash) (hd : d ∈ k.contents) : d ∈ k'.contents := by
  have er : ∀ (l : List (List β)) (d' : List β), d' ≠ d → d ∈ l → d ∈ l.erase d' :=
    fun l d' hne hd => (List.mem_erase_of_ne (fun e => hne e.symm)).2 hd
  cases h with
  | op o =>
    cases o with
    | put x => exact List.mem_append.2 (.inl hd)
    | evict i => exact hd
    | drop i x => exact er _ _ hk hd
    | free i x => exact er _ _ hk hd
  | call => exact hd
  | sync => exact hd
  | ret => exact hd
  | crash => exact absurd hn id

theorem contents_run {s s' : Sys β} {k k' : Client β} {es : List (Ev β)} (h : Run g H n s k es s' k')
    {d : List β} (hk : ∀ e ∈ es, e.Keeps d ∧ e.NoCrash) (hd : d ∈ k.contents) : d ∈ k'.contents := by
  induction h with
  | nil => exact hd
  | cons hs _ ih =>
    have := hk _ (List.mem_cons_self ..)
    exact ih (fun e he => hk e (List.mem_cons_of_mem _ he)) (contents_step hs this.1 this.2 hd)

/-- The record is in every state that may be found. -/
def Safe (d : List β) (k : Client β) : Prop := d ∈ k.contents ∧ d ∈ k.synced ∧ ∀ x ∈ k.later, d ∈ x

omit [DecidableEq β] in
theorem Safe.allowed {d : List β} {k : Client β} (h : Safe d k) {x : List (List β)} (hx : k.Allowed x) : d ∈ x := by
  rcases hx with hx | ⟨y, hy, hx⟩
  · exact hx.mem_iff.2 h.2.1
  · exact hx.mem_iff.2 (h.2.2 y hy)

theorem safe_step (geo : GeoOk g n) {s s' : Sys β} {k k' : Client β} {e : Ev β} {recs : List Cluster.Rec}
    (I : Inv g H n s k recs) (h : Step g H n s k e s' k')
    {d : List β} (hk : e.Keeps d) (hd : Safe d k) : Safe d k' := by
  obtain ⟨h1, h2, h3⟩ := hd
  by_cases hn : e.NoCrash
  · have hc := contents_step h hk hn h1
    cases h with
    | op o =>
      have e1 : (k.op o).synced = k.synced ∧ (k.op o).later = k.later := by cases o <;> exact ⟨rfl, rfl⟩
      exact ⟨hc, by rw [e1.1]; exact h2, by rw [e1.2]; exact h3⟩
    | call =>
      refine ⟨hc, h2, fun x hx => ?_⟩
      rcases List.mem_append.1 hx with hx | hx
      · exact h3 x hx
      · rw [List.mem_singleton.1 hx]; exact h1
    | sync => exact ⟨hc, h2, h3⟩
    | ret => exact ⟨hc, h1, fun x hx => (by cases hx)⟩
    | crash => exact absurd hn id
  · cases h with
    | op o => exact absurd trivial hn
    | call => exact absurd trivial hn
    | sync => exact absurd trivial hn
    | ret => exact absurd trivial hn
    | crash m hw hc hs =>
      obtain ⟨s'', r', h, -, -, -, -, ha⟩ := I.crash geo hw hc
      rw [hs] at h
      cases h
      exact ⟨Safe.allowed ⟨h1, h2, h3⟩ ha, h2, h3⟩

theorem safe_run (geo : GeoOk g n) {s s' : Sys β} {k k' : Client β} {es : List (Ev β)}
    (h : Run g H n s k es s' k') {recs : List Cluster.Rec} (I : Inv g H n s k recs)
    {d : List β} (hk : ∀ e ∈ es, e.Keeps d) (hd : Safe d k) : Safe d k' := by
  induction h generalizing recs with
  | nil => exact hd
  | cons hs _ ih =>
    obtain ⟨recs', I'⟩ := inv_step geo I hs
    exact ih I' (fun e he => hk e (List.mem_cons_of_mem _ he))
      (safe_step geo I hs (hk _ (List.mem_cons_self ..)) hd)

/-- **C41**, with one writer: a record that is in the pool when a sync is called, and is not removed
later, is found after every crash that follows the sync's return, whatever happens in between, other
crashes included.  Missing: the window of a later sync; and writes that run at the same time as a sync,
for which the claim is false (`Verif.Crash.Dirty`). -/
theorem C41_synced_partial (geo : GeoOk g n) {s s1 s2 s3 : Sys β} {k k1 k2 k3 : Client β}
    (R : Reach g H n s k) {d : List β} (hd : d ∈ k.contents)
    {es es' : List (Ev β)} (R1 : Run g H n s k es s1 k1) (hes : ∀ e ∈ es, e.Keeps d ∧ e.NoCrash)
    {gap : Nat → Nat} (hret : Step g H n s1 k1 (.ret gap) s2 k2)
    (R3 : Run g H n s2 k2 es' s3 k3) (hes' : ∀ e ∈ es', e.Keeps d)
    (hw : ¬ Window s3) {m : Media β} (hc : CrashTo s3.disk m) :
    ∃ s', «import» g H n m = some s' ∧ (∃ a, (a, d) ∈ s'.trees) ∧ Intact m s'.trees := by
  have h1 := contents_run R1 hes hd
  have h2 : Safe d k2 := by
    cases hret
    exact ⟨h1, h1, fun x hx => (by cases hx)⟩
  obtain ⟨recs2, I2⟩ := inv_reach geo ((R.run R1).step hret)
  have h3 := safe_run geo R3 I2 hes' h2
  obtain ⟨s', h4, h5, -, h6, -⟩ := C32_crash_partial geo (((R.run R1).step hret).run R3) hw hc
  have := h3.allowed h5
  obtain ⟨⟨a, x⟩, hr, rfl⟩ := List.mem_map.1 this
  exact ⟨s', h4, ⟨a, hr⟩, h6⟩

/-! ## Examples -/

/-- Do `j` steps of a sync. -/
def syncs (g : Geo) (H : Nat → List ZoneOnDisk → Nat) : Nat → Sys β → Option (Sys β)
  | 0, s => some s
  | j + 1, s => (s.sync g H (fun _ => 0)).bind (syncs g H j)

theorem legal_zero (geo : GeoOk g n) {s : Sys β} {k : Client β} (R : Reach g H n s k) (ht : s.txg ≤ TXG_MAX) :
    SyncLegal s (fun _ => 0) := by
  obtain ⟨recs, I⟩ := inv_reach geo R
  refine ⟨ht, fun z zn oz hz ho => ?_⟩
  obtain ⟨zn', hz', hv⟩ := FSM.view_of_open I.core.good.wf ho
  simp only at hz'
  rw [hz] at hz'
  cases hz'
  obtain ⟨-, -, -, h4, -⟩ := Cluster.opn_inv I.core.good hv
  simpa using h4

theorem syncs_tail (geo : GeoOk g n) (j : Nat) {s s' : Sys β} {k : Client β} (R : Reach g H n s k)
    (h0 : 0 < s.pc) (ht : s.txg ≤ TXG_MAX) (hj : s.pc + j ≤ 8) (h : syncs g H j s = some s') :
    Reach g H n s' k ∧ s'.pc = s.pc + j ∧ s'.txg = s.txg := by
  induction j generalizing s with
  | zero => cases h; exact ⟨R, rfl, rfl⟩
  | succ j ih =>
    simp only [syncs, Option.bind_eq_some_iff] at h
    obtain ⟨s1, h1, h2⟩ := h
    have R1 := R.step (.sync _ h0 (by omega) (legal_zero geo R ht) h1)
    obtain ⟨recs, I⟩ := inv_reach geo R
    obtain ⟨s1', e, -, e3⟩ := I.sync h0 (by omega) (legal_zero geo R ht)
    rw [h1] at e
    cases e
    have e4 : s1.txg = s.txg := by
      unfold Sys.sync at h1
      have hcases : s.pc = 1 ∨ s.pc = 2 ∨ s.pc = 3 ∨ s.pc = 4 ∨ s.pc = 5 ∨ s.pc = 6 ∨ s.pc = 7 := by omega
      rcases hcases with hp | hp | hp | hp | hp | hp | hp <;> rw [hp] at h1 <;>
        simp only [prog, List.getElem?_cons_succ, List.getElem?_cons_zero, Sys.micro] at h1 <;>
        first
        | (cases h1; rfl)
        | (split at h1
           · cases h1
           · cases h1; rfl)
    obtain ⟨a1, a2, a3⟩ := ih R1 (by omega) (by omega) (by omega) h2
    exact ⟨a1, by omega, by omega⟩

theorem syncs_call (geo : GeoOk g n) (j : Nat) {s s' : Sys β} {k : Client β} (R : Reach g H n s k)
    (h0 : s.pc = 0) (ht : s.txg < TXG_MAX) (hj : j < 8) (h : syncs g H (j + 1) s = some s') :
    Reach g H n s' k.called ∧ s'.pc = j + 1 := by
  simp only [syncs, Option.bind_eq_some_iff] at h
  obtain ⟨s1, h1, h2⟩ := h
  have hl := legal_zero geo R (by omega)
  have R1 := R.step (.call _ h0 hl h1)
  obtain ⟨recs, I⟩ := inv_reach geo R
  obtain ⟨r', -, e⟩ := I.call geo h0 hl h1
  have e4 : s1.txg = s.txg := by
    have h1' := h1
    unfold Sys.sync at h1'
    rw [show prog[s.pc]? = some Micro.flushTrees by rw [h0]; rfl] at h1'
    simp only [Sys.micro, Option.map_map, Option.map_eq_some_iff] at h1'
    obtain ⟨s2, h3, rfl⟩ := h1'
    exact (I.core.storeAll geo s.mem h0 I.nonempty (by omega) h3).2.1
  obtain ⟨a1, a2, a3⟩ := syncs_tail geo j R1 (by omega) (by omega) (by omega) h2
  exact ⟨a1, by omega⟩

/-- A whole sync. -/
theorem syncs_whole (geo : GeoOk g n) {s s' : Sys β} {k : Client β} (R : Reach g H n s k)
    (h0 : s.pc = 0) (ht : s.txg < TXG_MAX) (h : syncs g H 9 s = some s') :
    Reach g H n s' k.called.returned := by
  have hsplit : ∀ (j : Nat) (s : Sys β), syncs g H (j + 1) s = (syncs g H j s).bind (fun s => s.sync g H (fun _ => 0)) := by
    intro j
    induction j with
    | zero => intro s; simp [syncs]
    | succ j ih =>
      intro s
      show (s.sync g H (fun _ => 0)).bind (syncs g H (j + 1)) =
        ((s.sync g H (fun _ => 0)).bind (syncs g H j)).bind (fun s => s.sync g H (fun _ => 0))
      rw [Option.bind_assoc, show syncs g H (j + 1) = _ from funext ih]
  rw [hsplit 8, Option.bind_eq_some_iff] at h
  obtain ⟨s1, h1, h2⟩ := h
  obtain ⟨R1, hp⟩ := syncs_call geo 7 R h0 ht (by omega) h1
  exact R1.step (.ret _ hp h2)

def d1 : List Nat := [1, 2, 3, 4, 5, 6, 7, 8]
def d2 : List Nat := [9, 8, 7, 6, 5, 4, 3, 2]

def exPut : Sys Nat := { (Sys.init exH 3 : Sys Nat) with mem := [d1] }
/-- The pool with `d1` synced. -/
def ex1 : Sys Nat := (syncs (exGeo 3) exH 9 exPut).getD exPut
def exPut2 : Sys Nat := { ex1 with mem := ex1.mem ++ [d2] }
def exEvict : Sys Nat := (exPut2.step (exGeo 3) (.evict 0)).getD exPut2
/-- `d2` was added and written early, in another zone, and `d1` removed. -/
def ex2 : Sys Nat := (exEvict.step (exGeo 3) (.free 0 d1)).getD exEvict
/-- The first two steps of a sync have been done. -/
def ex3 : Sys Nat := (syncs (exGeo 3) exH 2 ex2).getD ex2
/-- Seven have been done. -/
def ex4 : Sys Nat := (syncs (exGeo 3) exH 7 ex2).getD ex2

def exK1 : Client Nat := ⟨[d1], [d1], []⟩
def exK2 : Client Nat := ⟨[d2], [d1], []⟩
def exK3 : Client Nat := ⟨[d2], [d1], [[d2]]⟩

theorem some_getD {α : Type} {o : Option α} {x : α} (h : o.isSome = true) : o = some (o.getD x) := by
  cases o with
  | none => cases h
  | some a => rfl

theorem ex1_reach : Reach (exGeo 3) exH 3 ex1 exK1 :=
  syncs_whole (exGeo_ok 3) (k := Client.init.op (.put d1))
    (Reach.init.step (.op (.put d1) rfl (by simp [Legal, d1]) rfl)) rfl (by decide +kernel)
    (some_getD (by decide +kernel))

theorem ex2_reach : Reach (exGeo 3) exH 3 ex2 exK2 := by
  have R1 : Reach (exGeo 3) exH 3 exPut2 (exK1.op (.put d2)) :=
    ex1_reach.step (.op (.put d2) (by decide +kernel) (by simp [Legal, d2]) rfl)
  have R2 : Reach (exGeo 3) exH 3 exEvict ((exK1.op (.put d2)).op (.evict 0)) :=
    R1.step (.op (.evict 0) (by decide +kernel) ⟨by decide +kernel, by decide +kernel⟩ (some_getD (by decide +kernel)))
  have := R2.step (.op (.free 0 d1) (s' := ex2) (by decide +kernel) ⟨0, by decide +kernel⟩ (some_getD (by decide +kernel)))
  have e : ((exK1.op (.put d2)).op (.evict 0)).op (.free 0 d1) = exK2 := by
    simp only [Client.op, exK1, exK2]
    congr 1
  rw [e] at this
  exact this

theorem ex3_reach : Reach (exGeo 3) exH 3 ex3 exK3 :=
  (syncs_call (exGeo_ok 3) 1 ex2_reach (by decide +kernel) (by decide +kernel) (by omega)
    (some_getD (by decide +kernel))).1

theorem ex4_reach : Reach (exGeo 3) exH 3 ex4 exK3 :=
  (syncs_call (exGeo_ok 3) 6 ex2_reach (by decide +kernel) (by decide +kernel) (by omega)
    (some_getD (by decide +kernel))).1

omit [DecidableEq β] in
/-- Everything in the cache is lost. -/
theorem crash_durable (d : Disk β) : CrashTo d d.durable :=
  ⟨fun _ => .inl rfl, fun _ _ => .inl rfl, fun _ => .inl rfl⟩

/-- The second label is torn while it is written. -/
def exTorn : Media Nat := { ex4.disk.durable with label := fun i => if i = 1 then none else ex4.disk.durable.label i }

theorem exTorn_crash : CrashTo ex4.disk exTorn := by
  refine ⟨fun i => ?_, fun _ _ => .inl rfl, fun _ => .inl rfl⟩
  simp only [exTorn]
  split
  · rename_i h
    subst h
    exact .inr ⟨⟨ex4.txg, ex4.trees⟩, by
      have : ex4.disk.cache = [.label 1 ⟨ex4.txg, ex4.trees⟩] := by
        obtain ⟨r, I⟩ := inv_reach (exGeo_ok 3) ex4_reach
        exact I.phase.seven (by decide +kernel)
      rw [this]
      simp, .inr rfl⟩
  · exact .inl rfl

/-- The premises of `C32_crash_partial`: before the sync `d2` is lost and `d1`, which was removed, is back;
when the second label is torn, `d2` is found. -/
example : ¬ Window ex2 ∧ CrashTo ex2.disk ex2.disk.durable ∧
    («import» (exGeo 3) exH 3 ex2.disk.durable).map (·.trees) = some [(0, d1)] :=
  ⟨by unfold Window; decide +kernel, crash_durable _, by decide +kernel⟩
example : ¬ Window ex4 ∧ CrashTo ex4.disk exTorn ∧
    («import» (exGeo 3) exH 3 exTorn).map (·.trees) = some [(10, d2)] :=
  ⟨by unfold Window; decide +kernel, exTorn_crash, by decide +kernel⟩

/-- The premises of `C41_synced_partial`: `d1` is put, synced, then `d2` is put and written early, and
power is lost. -/
example : ∃ s', «import» (exGeo 3) exH 3 exEvict.disk.durable = some s' ∧ (∃ a, (a, d1) ∈ s'.trees) ∧
    Intact exEvict.disk.durable s'.trees := by
  let ex0 : Sys Nat := (syncs (exGeo 3) exH 1 exPut).getD exPut
  have R : Reach (exGeo 3) exH 3 exPut (Client.init.op (.put d1)) :=
    Reach.init.step (.op (.put d1) rfl (by simp [Legal, d1]) rfl)
  -- the steps of the sync
  have key : ∀ (j : Nat) (s s' : Sys Nat) (k : Client Nat), Reach (exGeo 3) exH 3 s k → 0 < s.pc → s.txg < TXG_MAX →
      s.pc + j ≤ 8 → syncs (exGeo 3) exH j s = some s' →
      ∃ es, Run (exGeo 3) exH 3 s k es s' k ∧ ∀ e ∈ es, e.Keeps d1 ∧ e.NoCrash := by
    intro j
    induction j with
    | zero => intro s s' k _ _ _ _ h; cases h; exact ⟨[], .nil _ _, fun e he => by cases he⟩
    | succ j ih =>
      intro s s' k R h0 ht hj h
      simp only [syncs, Option.bind_eq_some_iff] at h
      obtain ⟨s1, h1, h2⟩ := h
      have st : Step (exGeo 3) exH 3 s k (.sync _) s1 k := .sync _ h0 (by omega) (legal_zero (exGeo_ok 3) R (by omega)) h1
      obtain ⟨-, b1, b2⟩ := syncs_tail (exGeo_ok 3) 1 R h0 (by omega) (by omega) (s' := s1) (by simp [syncs, h1])
      obtain ⟨es, h3, h4⟩ := ih s1 s' k (R.step st) (by omega) (by omega) (by omega) h2
      refine ⟨_ :: es, .cons st h3, fun e he => ?_⟩
      rcases List.mem_cons.1 he with rfl | he
      · exact ⟨trivial, trivial⟩
      · exact h4 e he
  have hs : exPut.sync (exGeo 3) exH (fun _ => 0) = some ((exPut.sync (exGeo 3) exH (fun _ => 0)).getD exPut) :=
    some_getD (by decide +kernel)
  have st : Step (exGeo 3) exH 3 exPut (Client.init.op (.put d1)) (.call _) _ _ :=
    .call _ rfl (legal_zero (exGeo_ok 3) R (by decide +kernel)) hs
  have hs2 : syncs (exGeo 3) exH 7 ((exPut.sync (exGeo 3) exH (fun _ => 0)).getD exPut) =
      some ((syncs (exGeo 3) exH 7 ((exPut.sync (exGeo 3) exH (fun _ => 0)).getD exPut)).getD exPut) :=
    some_getD (by decide +kernel)
  obtain ⟨es, h1, h2⟩ := key 7 _ _ _ (R.step st) (by decide +kernel) (by decide +kernel) (by decide +kernel) hs2
  have R' := (R.step st).run h1
  have hr : Step (exGeo 3) exH 3 _ _ (.ret (fun _ => 0)) _ _ :=
    .ret (s := (syncs (exGeo 3) exH 7 ((exPut.sync (exGeo 3) exH (fun _ => 0)).getD exPut)).getD exPut)
      (s' := ex1) (k := (Client.init.op (.put d1)).called) (fun _ => 0) (by decide +kernel) (by
        have hall : syncs (exGeo 3) exH 9 exPut = some ex1 := some_getD (by decide +kernel)
        have hb : ∀ (j : Nat) (s : Sys Nat), syncs (exGeo 3) exH (j + 1) s =
            (syncs (exGeo 3) exH j s).bind (fun s => s.sync (exGeo 3) exH (fun _ => 0)) := by
          intro j
          induction j with
          | zero => intro s; simp [syncs]
          | succ j ih =>
            intro s
            show (s.sync (exGeo 3) exH (fun _ => 0)).bind (syncs (exGeo 3) exH (j + 1)) =
              ((s.sync (exGeo 3) exH (fun _ => 0)).bind (syncs (exGeo 3) exH j)).bind (fun s => s.sync (exGeo 3) exH (fun _ => 0))
            rw [Option.bind_assoc, show syncs (exGeo 3) exH (j + 1) = _ from funext ih]
        rw [hb 8] at hall
        have h8 : syncs (exGeo 3) exH 8 exPut = some _ := (by
          show (exPut.sync (exGeo 3) exH (fun _ => 0)).bind (syncs (exGeo 3) exH 7) = _
          rw [hs, Option.bind_some]
          exact hs2)
        rw [h8, Option.bind_some] at hall
        exact hall)
  have R1 := R'.step hr
  have s1 : Step (exGeo 3) exH 3 ex1 _ (.op (.put d2)) exPut2 _ :=
    .op (k := (Client.init.op (.put d1)).called.returned) (.put d2) (by decide +kernel) (by simp [Legal, d2]) rfl
  have s2 : Step (exGeo 3) exH 3 exPut2 _ (.op (.evict 0)) exEvict _ :=
    .op (k := (Client.init.op (.put d1)).called.returned.op (.put d2)) (.evict 0) (by decide +kernel)
      ⟨by decide +kernel, by decide +kernel⟩ (some_getD (by decide +kernel))
  refine C41_synced_partial (exGeo_ok 3) R (d := d1) (by simp [Client.op]) (.cons st h1) ?_ hr
    (.cons s1 (.cons s2 (.nil _ _))) ?_ (by unfold Window; decide +kernel) (crash_durable _)
  · intro e he
    rcases List.mem_cons.1 he with rfl | he
    · exact ⟨trivial, trivial⟩
    · exact h2 e he
  · intro e he
    simp only [List.mem_cons, List.not_mem_nil, or_false] at he
    rcases he with rfl | rfl <;> trivial

/-! ## Counterexamples -/

/-- The spacemap reaches the disk before the label. -/
def exWindow : Media Nat := { ex3.disk.durable with smap := ex3.disk.view.smap }

omit [DecidableEq β] in
theorem smap_view (d : Disk β) (c i : Nat) : d.view.smap c i = d.durable.smap c i ∨
    ∃ b, Wr.smap c i b ∈ d.cache ∧ (d.view.smap c i = some b ∨ d.view.smap c i = none) := by
  have : ∀ (ws : List (Wr β)) (m : Media β), (ws.foldl Wr.apply m).smap c i = m.smap c i ∨
      ∃ b, Wr.smap c i b ∈ ws ∧ (ws.foldl Wr.apply m).smap c i = some b := by
    intro ws
    induction ws with
    | nil => exact fun m => .inl rfl
    | cons w ws ih =>
      intro m
      rw [List.foldl_cons]
      rcases ih (Wr.apply m w) with h | ⟨b, h1, h2⟩
      · rw [h]
        cases w with
        | smap c' i' b =>
          simp only [Wr.apply]
          split
          · rename_i e
            exact .inr ⟨b, by rw [e.1, e.2]; exact List.mem_cons_self .., rfl⟩
          · exact .inl rfl
        | label j l => exact .inl rfl
        | blk b v => exact .inl rfl
        | erase lo hi => exact .inl rfl
      · exact .inr ⟨b, List.mem_cons_of_mem _ h1, h2⟩
  rcases this d.cache d.durable with h | ⟨b, h1, h2⟩
  · exact .inl h
  · exact .inr ⟨b, h1, .inl h2⟩

theorem exWindow_crash : CrashTo ex3.disk exWindow :=
  ⟨fun _ => .inl rfl, fun c i => smap_view ex3.disk c i, fun _ => .inl rfl⟩

/-- **C32 fails in the window.**  The last sync that returned had `d1`.  During the next sync the
new spacemap becomes durable and power is lost before the new label does.  Import finds the old label, so
`d1`, and the new spacemap, in which the zone of `d1` is waiting to be erased.  The user, who finds `d1`
again, syncs: the zone is erased, and `d1` is gone, although the label refers to it. -/
theorem C32_window_counterexample :
    Reach (exGeo 3) exH 3 ex3 exK3 ∧ CrashTo ex3.disk exWindow ∧ ∃ s', «import» (exGeo 3) exH 3 exWindow = some s' ∧
      s'.trees = [(0, d1)] ∧ s'.c.fsm.isDead 0 = true ∧ exWindow.blk 0 = some 1 ∧
      ∃ s'', syncs (exGeo 3) exH 9 s' = some s'' ∧ s''.trees = [(0, d1)] ∧ s''.disk.view.blk 0 = none ∧
        s''.disk.view.label 0 = some ⟨1, [(0, d1)]⟩ := by
  refine ⟨ex3_reach, exWindow_crash, ((«import» (exGeo 3) exH 3 exWindow).getD ex3), some_getD (by decide +kernel), by decide +kernel, by decide +kernel,
    by decide +kernel, _, some_getD (x := ex3) (by decide +kernel), by decide +kernel, by decide +kernel, by decide +kernel⟩

/-- The spacemap's block is torn. -/
def exTornMap : Media Nat := { ex3.disk.durable with smap := fun c i => if c = 0 ∧ i = 0 then none else ex3.disk.durable.smap c i }

theorem C32_torn_spacemap_counterexample :
    Reach (exGeo 3) exH 3 ex3 exK3 ∧ CrashTo ex3.disk exTornMap ∧ «import» (exGeo 3) exH 3 exTornMap = none := by
  refine ⟨ex3_reach, ⟨fun _ => .inl rfl, fun c i => ?_, fun _ => .inl rfl⟩, ?_⟩
  · simp only [exTornMap]
    split
    · rename_i e
      rcases smap_view ex3.disk 0 0 with h | ⟨b, h, -⟩
      · exact absurd h (by decide +kernel)
      · exact .inr ⟨b, by rw [e.1, e.2]; exact h, .inr rfl⟩
    · exact .inl rfl
  · have : («import» (exGeo 3) exH 3 exTornMap).isSome = false := by decide +kernel
    cases h : «import» (exGeo 3) exH 3 exTornMap with
    | none => rfl
    | some s => rw [h] at this; cases this

/-- The pool after the crash that tore the second label, four steps into the next sync. -/
def exAfter : Sys Nat := («import» (exGeo 3) exH 3 exTorn).getD ex4
def exAfter4 : Sys Nat := (syncs (exGeo 3) exH 4 exAfter).getD exAfter
def exLost : Media Nat := { exAfter4.disk.durable with label := fun i => if i = 0 then none else exAfter4.disk.durable.label i }

/-- **Two crashes lose the pool.**  The first tears the second label.  Import uses the first and does not
repair the second.  The next sync writes the first label before the second; the second crash tears it, and
no label is left. -/
theorem C32_no_label_counterexample :
    ∃ k, Reach (exGeo 3) exH 3 exAfter4 k ∧ CrashTo exAfter4.disk exLost ∧ readLabel exLost = none ∧
      «import» (exGeo 3) exH 3 exLost = none := by
  have R1 : Reach (exGeo 3) exH 3 exAfter _ :=
    ex4_reach.step (.crash exTorn (by unfold Window; decide +kernel) exTorn_crash (some_getD (by decide +kernel)))
  obtain ⟨R2, hp⟩ := syncs_call (exGeo_ok 3) 3 R1 (by decide +kernel) (by decide +kernel) (by omega)
    (s' := exAfter4) (some_getD (by decide +kernel))
  have hr : readLabel exLost = none := by decide +kernel
  refine ⟨_, R2, ⟨fun i => ?_, fun _ _ => .inl rfl, fun _ => .inl rfl⟩, hr, by unfold «import»; rw [hr]⟩
  simp only [exLost]
  split
  · rename_i h
    subst h
    refine .inr ⟨⟨exAfter4.txg, exAfter4.trees⟩, ?_, .inr rfl⟩
    obtain ⟨r, I⟩ := inv_reach (exGeo_ok 3) R2
    rw [I.phase.four hp]
    simp [Sys.cur]
  · exact .inl rfl

end Verif.Crash
