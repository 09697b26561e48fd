import Verif.Conc.ScanKeys

/-!
# C85: each call of `get_range` returns exactly once
-/

namespace Verif.Conc

open Verif
open Verif.Tree (Limits Bnd)

variable {V : Type}

/-- A query that will need its `next_guard` has it. -/
def Kept {h : Nat} (n : Node V h) : Prop :=
  ∀ i s e k, Ky.cntN (Ky.Y i s e k) n ≤ cntN (Ky.gw i s e k) n

theorem kept_drop {h : Nat} {n : Node V h} (id : Nat)
    (hid : ∀ s e k, Ky.cntN (Ky.Y id s e k) n = 0)
    (hn : ∀ i s e k, i ≠ id → Ky.cntN (Ky.Y i s e k) n ≤ cntN (Ky.gw i s e k) n) :
    Kept (mapReads (dropGuard id) (h + 1) n : Node V h) := by
  intro i s e k
  rw [Ky.y_drop]
  by_cases hi : i = id
  · subst hi
    rw [hid]
    exact Nat.zero_le _
  · rw [Ky.g_drop hi]
    exact hn i s e k hi

theorem turn_zero {h id : Nat} {n n' : Node V h} (hs : ScanStep h n (.turn id) n')
    (h1 : cntN (isScan id) n ≤ 1) (s e : Bnd Nat) (k : Nat) : Ky.cntN (Ky.Y id s e k) n = 0 := by
  have := (Ky.turn_y id s e k hs rfl).1
  omega

/-- `scan_cnt` for the query that makes the step. -/
theorem scan_self {h : Nat} {n n' : Node V h} {l : ScanLbl V} (hs : ScanStep h n l n') :
    cntN (isScan l.id) n' + l.ends = cntN (isScan l.id) n := by
  have h1 := (scan_cnt hs l.id).1
  rwa [if_pos rfl] at h1

/-- `scan_cnt` for the other queries. -/
theorem scan_other {h i : Nat} {n n' : Node V h} {l : ScanLbl V} (hs : ScanStep h n l n')
    (hi : l.id ≠ i) : cntN (isScan i) n' = cntN (isScan i) n := by
  have h1 := (scan_cnt hs i).1
  rwa [if_neg hi] at h1

theorem kept_step {L : Limits} {seq : Bool} {s s' : XSys V} {es : List (XEvent V)}
    (hst : XStep L seq s es s') (hi : Inv L s.sys)
    (h1 : ∀ i, cntN (isScan i) s.sys.tree.node ≤ 1) (hk : Kept s.sys.tree.node) :
    Kept s'.sys.tree.node := by
  cases hst with
  | base hst =>
    intro i s e k
    have h2 := Ky.base_cnt (w := Ky.Y i s e k) (fun j ks r hr => Ky.Y_ne (by rintro rfl; cases hr)) hst hi
    have h3 := Lv.base_cnt (w := fun _ => Ky.gw i s e k)
      (fun j r hr => if_neg (by rintro rfl; cases hr)) hst hi
    rw [Ky.const_n, Ky.const_n] at h3
    have := hk i s e k
    simp only at h2 h3 this ⊢
    omega
  | scan => exact hk
  | @root calls pre post rs used id s e h n =>
    intro i s0 e0 k
    have := hk i s0 e0 k
    simp only [Ky.cnt_shared, cnt_shared, cntR_cons, Ky.gw_scan] at this ⊢
    rw [Ky.Y_ne (by simp)]
    omega
  | down hst =>
    intro i s e k
    have h2 := Ky.scan_y i s e k hst
    have := hk i s e k
    simp only at this ⊢
    omega
  | @release calls top h id n n' used hst _ =>
    have h2 := (Ky.turn_y id .unb .unb 0 hst rfl).2
    subst h2
    exact kept_drop id (turn_zero hst (h1 id)) fun i s e k _ => hk i s e k
  | @swap calls top h id n n' used hst =>
    have hs1 : cntN (isScan id) (mapReads (dropGuard id) (h + 1) n : Node V h) ≤ 1 := by
      rw [Ky.s_drop]
      exact h1 id
    have hz := turn_zero (swap_turn hst rfl) hs1
    have hm : Kept (mapReads (dropGuard id) (h + 1) n : Node V h) :=
      kept_drop id (fun s e k => by have := hz s e k; rwa [Ky.y_drop] at this) fun i s e k _ => hk i s e k
    intro i s e k
    have h2 := Ky.scan_y i s e k hst
    have := hm i s e k
    simp only
    omega
  | @goto calls top h id key s e n n' used hst =>
    intro i s0 e0 k0
    have h2 := Ky.scan_y i s0 e0 k0 hst
    have h3 := hk i s0 e0 k0
    simp only at h3 ⊢
    rw [Ky.y_wake]
    by_cases hp : i = id ∧ s0 = s ∧ e0 = e ∧ k0 = key
    · obtain ⟨rfl, rfl, rfl, rfl⟩ := hp
      have h4 : cntN (isScan i) n' + 1 = cntN (isScan i) n := scan_self hst
      have h5 := h1 i
      have h6 := Ky.y_le i s0 e0 k0 n'
      simp only at h5
      omega
    · rw [Ky.g_wake hp]
      omega
  | @ret calls top h id v b n n' used hst =>
    have h4 : cntN (isScan id) n' + 1 = cntN (isScan id) n := scan_self hst
    have h5 := h1 id
    simp only at h5
    refine kept_drop id (fun s e k => ?_) fun i s e k _ => ?_
    · have h6 := Ky.y_le id s e k n'
      omega
    · have h2 := Ky.scan_y i s e k hst
      have h3 := hk i s e k
      simp only at h3
      omega

/-- No call is lost: it has returned, or it is at the root pointer or at a node. -/
theorem lost_step {L : Limits} {seq : Bool} {s s' : XSys V} {es es' : List (XEvent V)}
    (hst : XStep L seq s es' s') (hi : Inv L s.sys) (h1 : ∀ i, cntN (isScan i) s.sys.tree.node ≤ 1)
    (hk : Kept s.sys.tree.node) {i : Nat} (ha : called i es ≤ returned i es + s.sys.cnt (isScan i)) :
    called i (es ++ es') ≤ returned i (es ++ es') + s'.sys.cnt (isScan i) := by
  have c1 : called i (es ++ es') = called i es + called i es' := List.countP_append
  have c2 : returned i (es ++ es') = returned i es + returned i es' := List.countP_append
  rw [c1, c2]
  have keep : ∀ {s' : XSys V}, s.sys.cnt (isScan i) ≤ s'.sys.cnt (isScan i) →
      called i es + called i ([] : List (XEvent V)) ≤
        returned i es + returned i ([] : List (XEvent V)) + s'.sys.cnt (isScan i) := by
    intro s' h
    simp only [called, returned, List.countP_nil] at ha ⊢
    omega
  cases hst with
  | @base s s' used es' hst =>
    have h2 := sys_cnt (plain_isScan i) hst hi
    have h3 := count_base (V := V) i es'
    simp only at ha ⊢
    omega
  | @scan calls rs t used id s e hid hp =>
    have h2 : called i [(.scan id s e : XEvent V)] = if id = i then 1 else 0 := by
      simp [called, List.countP_cons, XEvent.isScan]
    simp only [Sys.cnt, cntL, cntR_cons, isScan] at ha ⊢
    omega
  | @root calls pre post rs used id s e h n =>
    refine keep ?_
    simp only [Sys.cnt, cntL, cntN, cntR_mid, cntR_cons]
    omega
  | @down calls top h id n n' used hst =>
    refine keep ?_
    have h2 := scan_cnt hst i
    simp only [ScanLbl.ends, ite_self] at h2
    simp only [Sys.cnt]
    omega
  | @release calls top h id n n' used hst hg =>
    refine keep ?_
    have h2 := scan_cnt hst i
    simp only [ScanLbl.ends, ite_self] at h2
    simp only [Sys.cnt]
    rw [Ky.s_drop]
    omega
  | @swap calls top h id n n' used hst =>
    refine keep ?_
    have h2 := scan_cnt hst i
    simp only [ScanLbl.ends, ite_self] at h2
    rw [Ky.s_drop] at h2
    simp only [Sys.cnt]
    omega
  | @goto calls top h id key s e n n' used hst =>
    refine keep ?_
    simp only [Sys.cnt]
    by_cases hid : i = id
    · subst hid
      have h2 : cntN (isScan i) n' + 1 = cntN (isScan i) n := scan_self hst
      have h3 := Ky.goto_y i s e key hst rfl
      have h4 := hk i s e key
      have h5 := (Ky.scan_y i s e key hst).2
      simp only at h4
      rw [Ky.s_wake]
      omega
    · have h2 : cntN (isScan i) n' = cntN (isScan i) n := scan_other hst fun h => hid h.symm
      rw [Ky.s_wake_ne hid]
      omega
  | @ret calls top h id v b n n' used hst =>
    have hc : called i [(.chunk id v b : XEvent V)] = 0 := by
      simp [called, XEvent.isScan]
    have hr : returned i [(.chunk id v b : XEvent V)] = if id = i then 1 else 0 := by
      simp [returned, List.countP_cons, XEvent.isChunk]
    simp only [Sys.cnt] at ha ⊢
    rw [Ky.s_drop, hc, hr]
    by_cases hid : id = i
    · subst hid
      have h2 : cntN (isScan id) n' + 1 = cntN (isScan id) n := scan_self hst
      rw [if_pos rfl]
      omega
    · have h2 : cntN (isScan i) n' = cntN (isScan i) n := scan_other hst hid
      rw [if_neg hid]
      omega

structure Exact (es : List (XEvent V)) (s : XSys V) : Prop where
  once : ∀ i, Once es s i
  kept : Kept s.sys.tree.node
  all : ∀ i, called i es ≤ returned i es + s.sys.cnt (isScan i)

theorem Exact.step {L : Limits} {seq : Bool} {s s' : XSys V} {es es' : List (XEvent V)}
    (he : Exact es s) (hst : XStep L seq s es' s') (hi : Inv L s.sys) : Exact (es ++ es') s' := by
  have h1 : ∀ i, cntN (isScan i) s.sys.tree.node ≤ 1 := by
    intro i
    have h2 := (he.once i).ret
    have h3 := (he.once i).call
    simp only [Sys.cnt] at h2
    omega
  exact ⟨fun i => once_step hst hi (he.once i), kept_step hst hi h1 he.kept,
    fun i => lost_step hst hi h1 he.kept (he.all i)⟩

theorem exact_run {L : Limits} (hL : L.Ok) {seq : Bool} {s s' : XSys V} {es' : List (XEvent V)}
    (hr : XRun L seq s es' s') : ∀ {es : List (XEvent V)}, Sound L s → Exact es s →
      Exact (es ++ es') s' := by
  induction hr with
  | nil => intro es _ he; rw [List.append_nil]; exact he
  | cons hst _ ih =>
    intro es hs he
    obtain ⟨a, h1, _⟩ := hs.inv
    rw [← List.append_assoc]
    exact ih (hs.step hL hst) (he.step hst h1.inv)



/-- A call of `get_range` returns at most once, and only if it was made; and when nobody holds a lock
any more, it has returned if it was made.  By `C85_comes_to_rest_partial` this state comes, once no new calls
are made.  `called` and `returned` count the events with the call's name, which is new for each
call. -/
theorem C85_returns_exactly_once {L : Limits} (hL : L.Ok) {seq : Bool} {s : XSys V}
    {es : List (XEvent V)} (hr : XRun L seq XSys.empty es s) (id : Nat) :
    returned id es ≤ called id es ∧ called id es ≤ 1 ∧
      (¬ s.sys.Busy → returned id es = called id es) := by
  have h0 : Exact ([] : List (XEvent V)) (XSys.empty : XSys V) :=
    ⟨fun _ => ⟨Nat.le_refl _, Nat.zero_le _, fun _ => ⟨rfl, rfl⟩, Nat.zero_le _, rfl⟩,
      fun _ _ _ _ => Nat.le_refl _, fun _ => Nat.zero_le _⟩
  have h := exact_run hL hr (Sound.empty L) h0
  rw [List.nil_append] at h
  have h1 := (h.once id).ret
  refine ⟨by omega, (h.once id).call, fun hb => ?_⟩
  have h2 := h.all id
  have h3 : s.sys.cnt (isScan id) = 0 := by
    simp only [Sys.Busy, not_or, Classical.not_not] at hb
    have gen : ∀ (h : Nat) (e : Nat × Sub V h), ¬ busy h e.2 → cntOf (isScan id) h e = 0 := by
      intro h
      induction h with
      | zero => exact fun _ _ => rfl
      | succ h ih =>
        intro e he
        simp only [busy, not_or, not_exists, not_and, Classical.not_not] at he
        show cntL (isScan id) e.2.lock + (e.2.kids.map (cntOf (isScan id) h)).sum = 0
        rw [he.1]
        have : ¬ 0 < (e.2.kids.map (cntOf (isScan id) h)).sum := by
          intro hp
          obtain ⟨x, hx, hx'⟩ := sum_pos hp
          rw [ih x (he.2 x hx)] at hx'
          exact absurd hx' (Nat.lt_irrefl 0)
        have h0 : cntL (isScan id) (.free : Lock V) = 0 := rfl
        omega
    show cntL (isScan id) s.sys.top + cntN (isScan id) s.sys.tree.node = 0
    rw [hb.1]
    have := gen (s.sys.tree.h + 1) (0, s.sys.tree.node) hb.2
    exact (Nat.zero_add _).trans this
  omega

/-- Once no new calls are made, each call of `get_range` returns: however the tasks go on, after a
bounded number of steps no step is possible, and then every call has returned exactly once.

Missing of the full property: schedules in which a query holds one of the two locks it waits for
(`try_join`, `mod.rs` 1239); the model takes both in one step. -/
theorem C85_every_query_returns_partial {L : Limits} (hL : L.Ok) {seq : Bool} {s : XSys V}
    {es : List (XEvent V)} (hr : XRun L seq XSys.empty es s) :
    (∃ bound, ∀ n s', XFinish L seq n s s' → n ≤ bound) ∧
    ∀ es' s', XRun L seq s es' s' → (∀ s'', ¬ XFinish L seq 1 s' s'') →
      ∀ id s e, .scan id s e ∈ es ++ es' → returned id (es ++ es') = 1 := by
  refine ⟨(C85_comes_to_rest_partial hL hr).1, fun es' s' hr' hstop id sb eb hm => ?_⟩
  have key : ∀ {s s1 s2 : XSys V} {es es' : List (XEvent V)}, XRun L seq s es s1 →
      XRun L seq s1 es' s2 → XRun L seq s (es ++ es') s2 := by
    intro s s1 s2 es es' h1 h2
    induction h1 with
    | nil => exact h2
    | cons h _ ih => rw [List.append_assoc]; exact .cons h (ih h2)
  have hrr := key hr hr'
  have h1 := ((C85_comes_to_rest_partial hL hrr).2 0 s' (.nil _) hstop).2
  obtain ⟨h2, h3, h4⟩ := C85_returns_exactly_once hL hrr id
  have h5 : 0 < called id (es ++ es') := List.countP_pos_iff.mpr ⟨_, hm, by simp [XEvent.isScan]⟩
  have := h4 h1
  omega

/-- Such an end of the steps comes, after any beginning. -/
theorem rest_exists {L : Limits} (hL : L.Ok) {seq : Bool} {s : XSys V} {es : List (XEvent V)}
    (hr : XRun L seq XSys.empty es s) :
    ∃ es' s', XRun L seq s es' s' ∧ ∀ s'', ¬ XFinish L seq 1 s' s'' := by
  obtain ⟨b, hb⟩ := (C85_comes_to_rest_partial hL hr).1
  have key : ∀ (m : Nat) (s : XSys V), (∀ n s', XFinish L seq n s s' → n ≤ m) →
      ∃ es' s', XRun L seq s es' s' ∧ ∀ s'', ¬ XFinish L seq 1 s' s'' := by
    intro m
    induction m with
    | zero => exact fun s h => ⟨[], s, .nil _, fun s'' h1 => absurd (h 1 s'' h1) (by omega)⟩
    | succ m ih =>
      intro s h
      by_cases hx : ∃ s'', XFinish L seq 1 s s''
      · obtain ⟨s'', h1⟩ := hx
        cases h1 with
        | @cons _ s1 _ es1 _ hst hn _ =>
          obtain ⟨es', s', h2, h3⟩ := ih s1 fun n s' hf => by
            have := h (n + 1) s' (.cons hst hn hf)
            omega
          exact ⟨_, s', .cons hst h2, h3⟩
      · exact ⟨[], s, .nil _, fun s'' h1 => hx ⟨s'', h1⟩⟩
  exact key b s hb

/-- After the run of `finish_demo`, in whose end a query holds a lock, such an end of the steps
comes. -/
example : ∃ (es : List (XEvent Nat)) (s : XSys Nat), XRun demoL false XSys.empty es s ∧ s.sys.Busy ∧
    ∃ es' s', XRun demoL false s es' s' ∧ ∀ s'', ¬ XFinish demoL false 1 s' s'' := by
  obtain ⟨es, s, _, h1, _, h2⟩ := finish_demo
  exact ⟨es, s, h1, h2, rest_exists demoL_ok h1⟩

/-- It applies to the run of `scan_demo`: nobody holds a lock, and the query 7 has returned. -/
example : returned 7 scanEvents = called 7 scanEvents ∧ called 7 scanEvents = 1 := by
  refine ⟨(C85_returns_exactly_once demoL_ok scan_demo 7).2.2 ?_, rfl⟩
  simp [Sys.Busy, busy, fresh, Lock.free]

end Verif.Conc
