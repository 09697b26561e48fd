import Verif.Progress.Finish
/-!
# Locks exclude each other, and calls that hang
-/

namespace Verif.Progress

variable {s s' : Sys} {cap : Nat}

/-! ## Exclusion -/

/-- Whoever has the transaction lock for writing excludes readers. -/
def Excl (s : Sys) : Prop :=
  ∀ p ∈ s.syncer :: s.tasks, ∀ q ∈ s.syncer :: s.tasks, p.txgW = true → q.txgR = false

theorem not_both (p : PC) (h : p.txgW = true) : p.txgR = false := by
  cases p <;> first | rfl | (cases h; done)

theorem txgRead_mem (h : s.txgRead = true) {p : PC} (hp : p ∈ s.syncer :: s.tasks) : p.txgW = false := by
  have := List.all_eq_true.1 h p hp
  simpa using this

theorem txgWrite_mem (h : s.txgWrite = true) {p : PC} (hp : p ∈ s.syncer :: s.tasks) :
    p.txgW = false ∧ p.txgR = false := by
  have := List.all_eq_true.1 h p hp
  simpa using this

/-- One task goes on from `p` to `q`: any lock that it gets was free. -/
theorem Excl.move (h : Excl s) {p q : PC} (hp : p ∈ s.syncer :: s.tasks)
    (hm : ∀ r ∈ s'.syncer :: s'.tasks, r = q ∨ r ∈ s.syncer :: s.tasks)
    (h1 : q.txgR = true → p.txgR = true ∨ s.txgRead = true)
    (h2 : q.txgW = true → p.txgW = true ∨ s.txgWrite = true) : Excl s' := by
  intro a ha b hb haw
  cases hbr : b.txgR with
  | false => rfl
  | true =>
    rcases hm a ha with rfl | ha <;> rcases hm b hb with rfl | hb
    · rw [not_both _ haw] at hbr; cases hbr
    · rcases h2 haw with h2 | h2
      · rw [h p hp b hb h2] at hbr; cases hbr
      · rw [(txgWrite_mem h2 hb).2] at hbr; cases hbr
    · rcases h1 hbr with h1 | h1
      · rw [h a ha p hp haw] at h1; cases h1
      · rw [txgRead_mem h1 ha] at haw; cases haw
    · rw [h a ha b hb haw] at hbr; cases hbr

theorem Excl.set (h : Excl s) {i : Nat} {p : PC} (hi : s.tasks[i]? = some p) (q : PC)
    (h1 : q.txgR = true → p.txgR = true ∨ s.txgRead = true)
    (h2 : q.txgW = true → p.txgW = true ∨ s.txgWrite = true) :
    Excl { s with tasks := s.tasks.set i q } := by
  refine h.move (p := p) (q := q) (List.mem_cons_of_mem _ (get_mem hi)) (fun r hr => ?_) h1 h2
  rcases List.mem_cons.1 hr with rfl | hr
  · exact .inr List.mem_cons_self
  · obtain ⟨j, hj⟩ := mem_get hr
    rcases get_set hj with ⟨_, rfl⟩ | ⟨_, hj⟩
    · exact .inl rfl
    · exact .inr (List.mem_cons_of_mem _ (get_mem hj))

theorem granted_txg (k t w) : (granted k t w).txgW = false ∧
    ((granted k t w).txgR = true → (PC.asleep k t w).txgR = true) := by
  cases k <;> simp [granted, PC.txgW, PC.txgR]

theorem Excl.of_le (h : Excl s) (hm : ∀ r ∈ s'.syncer :: s'.tasks,
    ∃ p ∈ s.syncer :: s.tasks, (r.txgR = true → p.txgR = true) ∧ (r.txgW = true → p.txgW = true)) :
    Excl s' := by
  intro a ha b hb haw
  obtain ⟨p, hp, _, h1⟩ := hm a ha
  obtain ⟨q, hq, h2, _⟩ := hm b hb
  cases hbr : b.txgR with
  | false => rfl
  | true => have := h p hp q hq (h1 haw); rw [h2 hbr] at this; cases this

theorem Excl.woken (h : Excl s) (hw : Woken s s') : Excl s' := by
  refine h.of_le fun r hr => ?_
  rcases List.mem_cons.1 hr with rfl | hr
  · exact ⟨_, List.mem_cons_self, by rw [hw.syncer]; exact ⟨id, id⟩⟩
  · obtain ⟨j, hj⟩ := mem_get hr
    rcases hw.tasks j r hj with h | ⟨k, t, w, h, rfl, _⟩
    · exact ⟨r, List.mem_cons_of_mem _ (get_mem h), id, id⟩
    · have := granted_txg k t w
      exact ⟨_, List.mem_cons_of_mem _ (get_mem h), this.2, fun h => by rw [this.1] at h; cases h⟩

theorem Excl.repay (h : Excl s) {n : Nat} (hi : Inv n s) : Excl (repay s n) :=
  Excl.woken (s := { s with supply := s.supply + n }) h (repay_inv hi).2

theorem Excl.flushAll (h : Excl s) (hi : Inv 0 s) : Excl (flushAll s) := by
  have hc := hi.conserve
  have hm := sum_flush s.trees
  refine Excl.repay (s := { s with
    trees := s.trees.map fun x => if x.cached then { x with credit := 0 } else x }) h ?_
  exact ⟨by dsimp only; omega, hi.sleepers, hi.head⟩

theorem doWork_eq {c : Nat} (h : Inv c s) (k : Kind) (t n m : Nat) :
    ∃ ts d, doWork s k t c n m = repay { s with trees := ts } d ∧ Inv d { s with trees := ts } := by
  have hc := h.conserve
  unfold doWork
  split
  · exact ⟨s.trees, c, rfl, h⟩
  · rename_i x hx
    split
    · have := sum_upd (fun x => { x with credit := 0 }) s.trees t hx
      simp only at this
      exact ⟨_, _, rfl, by dsimp only; omega, h.sleepers, h.head⟩
    · have := sum_upd (fun x => { x with credit := x.credit - min m x.credit + min n c }) s.trees t hx
      simp only at this
      exact ⟨_, _, rfl, by dsimp only; omega, h.sleepers, h.head⟩

theorem opened_txg (k t w) : (opened k t w).txgW = false ∧
    ((opened k t w).txgR = true → (PC.opening k t w).txgR = true) ∧
    ((opened k t w).txgR = true → (PC.installing k t w).txgR = true) := by
  cases k <;> simp [opened, PC.txgW, PC.txgR]

theorem stepTask_excl (h : Excl s) (hinv : Inv 0 s) {i : Nat} {p : PC} (hi : s.tasks[i]? = some p)
    {n m : Nat} (hs : stepTask s i p n m = some s') : Excl s' := by
  have go := fun q => h.set hi q
  have nw : ∀ {q : PC}, q.txgW = false → q.txgW = true → p.txgW = true ∨ s.txgWrite = true :=
    fun h1 h2 => by rw [h1] at h2; cases h2
  have nr : ∀ {q : PC}, q.txgR = false → q.txgR = true → p.txgR = true ∨ s.txgRead = true :=
    fun h1 h2 => by rw [h1] at h2; cases h2
  unfold stepTask at hs
  dsimp only at hs
  split at hs
  · cases hs
  · split at hs
    · rename_i hl; cases hs; exact go _ (fun _ => .inr hl) (nw rfl)
    · cases hs
  · rename_i k t w
    split at hs
    · split at hs
      · cases hs; exact go _ (fun h => .inl (by cases k <;> first | rfl | (cases h; done))) (nw rfl)
      · cases hs
        split
        · exact go _ (fun h => .inl ((opened_txg k t w).2.1 h)) (nw (opened_txg k t w).1)
        · exact go _ (nr rfl) (nw rfl)
    · cases hs
  · rename_i k t w
    have := go _ (fun h => .inl ((opened_txg k t w).2.2 h)) (nw (opened_txg k t w).1)
    split at hs
    · split at hs
      · cases hs; exact this
      · cases hs; exact this
    · cases hs
  · split at hs
    · rename_i hl; cases hs; exact go _ (fun _ => .inr hl) (nw rfl)
    · cases hs
  · split at hs
    · cases hs; exact go _ (fun _ => .inl rfl) (nw rfl)
    · cases hs
  · cases hs
    exact go (.borrowing .destroy _ _) (fun _ => .inl rfl) (nw rfl)
  · rename_i k t w
    cases hs
    unfold borrow
    split
    · exact go (.asleep k t w) (fun h => .inl (by cases k <;> first | rfl | (cases h; done))) (nw rfl)
    · exact go (granted k t w) (fun h => .inl (by cases k <;> first | rfl | (cases h; done)))
        (nw (granted_txg k t w).1)
  · cases hs
  · split at hs
    · rename_i hl; cases hs; exact go _ (fun _ => .inr hl) (nw rfl)
    · cases hs
  · rename_i k t c
    cases hs
    obtain ⟨ts, d, he, hd⟩ := doWork_eq (c := c) (hinv.set hi rfl .done rfl (by simp [PC.credit])) k t n m
    rw [he]
    exact Excl.repay (s := { s with tasks := s.tasks.set i .done, trees := ts })
      (go .done (nr rfl) (nw rfl)) hd
  · split at hs
    · rename_i hl; cases hs; exact go _ (fun _ => .inr hl) (nw rfl)
    · cases hs
  · cases hs; exact go _ (nr rfl) (nw rfl)
  · split at hs
    · cases hs; exact go .syncTxg (nr rfl) (nw rfl)
    · cases hs; exact go _ (nr rfl) (nw rfl)
  · split at hs
    · rename_i hl; cases hs; exact go _ (nr rfl) (fun _ => .inr hl)
    · cases hs
  · split at hs
    · cases hs; exact go _ (nr rfl) (fun _ => .inl rfl)
    · cases hs
  · cases hs
    exact (go .syncRest (nr rfl) (fun _ => .inl rfl)).flushAll (hinv.set hi rfl .syncRest rfl rfl)
  · cases hs; exact go _ (nr rfl) (nw rfl)
  all_goals cases hs

theorem stepSyncer_excl (h : Excl s) (hinv : Inv 0 s) (hs : stepSyncer s = some s') : Excl s' := by
  have go : ∀ q : PC, (q.txgR = true → s.syncer.txgR = true ∨ s.txgRead = true) →
      (q.txgW = true → s.syncer.txgW = true ∨ s.txgWrite = true) → Excl { s with syncer := q } := by
    intro q h1 h2
    refine h.move (p := s.syncer) (q := q) List.mem_cons_self (fun r hr => ?_) h1 h2
    rcases List.mem_cons.1 hr with rfl | hr
    · exact .inl rfl
    · exact .inr (List.mem_cons_of_mem _ hr)
  have inv : ∀ q, Inv 0 { s with syncer := q } := fun q => hinv.congr rfl rfl rfl rfl rfl
  unfold stepSyncer at hs
  split at hs
  all_goals rename_i he
  all_goals try rw [he] at go
  · split at hs
    · rename_i hl; cases hs; exact go _ (fun h => by cases h) (fun _ => .inr hl)
    · cases hs
  · split at hs
    · cases hs; exact go _ (fun h => by cases h) (fun _ => .inl rfl)
    · cases hs
  · cases hs
    exact (go .syncRest (fun h => by cases h) (fun _ => .inl rfl)).flushAll (inv _)
  · cases hs; exact go _ (fun h => by cases h) (fun h => by cases h)
  · split at hs
    · rename_i hl; cases hs; exact go _ (fun _ => .inr hl) (fun h => by cases h)
    · cases hs
  · split at hs
    · cases hs; exact go _ (fun _ => .inl rfl) (fun h => by cases h)
    · cases hs
  · cases hs
    exact (go .done (fun h => by cases h) (fun h => by cases h)).flushAll (inv _)
  · cases hs

theorem start_txg (c : Call) : c.start.txgR = false ∧ c.start.txgW = false := by
  cases c <;> exact ⟨rfl, rfl⟩

theorem step_excl (h : Excl s) (hinv : Inv 0 s) {a : Act} (hs : step s a = some s') : Excl s' := by
  unfold step at hs
  split at hs
  · rename_i c
    cases hs
    refine h.move (p := s.syncer) (q := c.start) List.mem_cons_self (fun r hr => ?_)
      (fun h => by rw [(start_txg c).1] at h; cases h) (fun h => by rw [(start_txg c).2] at h; cases h)
    rcases List.mem_cons.1 hr with rfl | hr
    · exact .inr List.mem_cons_self
    · rcases List.mem_append.1 hr with hr | hr
      · exact .inr (List.mem_cons_of_mem _ hr)
      · exact .inl (List.mem_singleton.1 hr)
  · split at hs
    · cases hs
    · rename_i p hi; exact stepTask_excl h hinv hi hs
  all_goals first | exact stepSyncer_excl h hinv hs | skip
  all_goals
    split at hs
    · cases hs
      refine h.of_le fun r hr => ?_
      rcases List.mem_cons.1 hr with rfl | hr
      · refine ⟨_, List.mem_cons_self, ?_⟩
        dsimp only
        split
        all_goals exact ⟨(fun h => nomatch h), (fun h => nomatch h)⟩
      · exact ⟨r, List.mem_cons_of_mem _ hr, id, id⟩
    · cases hs

theorem reach_excl {ok : Call → Prop} (h : Reach ok cap s) : Excl s := by
  induction h with
  | init => intro p hp q hq hw; simp only [init, List.mem_cons, List.not_mem_nil, or_false] at hp; subst hp; cases hw
  | step a hr _ hs ih => exact step_excl ih (reach_inv hr) hs

/-! ## Sleepers that nobody wakes -/

theorem run_ind (P : Sys → Prop) {allowed : Act → Prop}
    (h : ∀ s a s', P s → allowed a → step s a = some s' → P s') :
    ∀ (l : List Act) (s s' : Sys), P s → (∀ a ∈ l, allowed a) → run s l = some s' → P s'
  | [], s, s', hp, _, hr => by cases hr; exact hp
  | a :: l, s, s', hp, ha, hr => by
    simp only [run] at hr
    cases hs : step s a with
    | none => rw [hs] at hr; cases hr
    | some s₁ =>
      rw [hs] at hr
      exact run_ind P h l s₁ s' (h s a s₁ hp (ha a List.mem_cons_self) hs)
        (fun b hb => ha b (List.mem_cons_of_mem _ hb)) hr

/-- Where a call may stand while nobody has credit or the transaction lock for writing. -/
def PC.poor : PC → Bool
  | .txg _ _ _ | .work _ _ _ | .syncFs | .syncFlush | .syncRest => false
  | _ => true

/-- The syncer waits for the transaction lock, which a call keeps that waits for credit, and nobody has
credit to repay. -/
structure Blocked (i : Nat) (s : Sys) : Prop where
  syncer : s.syncer = .syncTxg
  me : ∃ k t w, s.tasks[i]? = some (.asleep k t w) ∧ k ≠ .write
  queue : s.queue ≠ []
  poor : ∀ (j : Nat) (p : PC), s.tasks[j]? = some p → p.poor = true

theorem blocked_txg {i : Nat} (h : Blocked i s) : s.txgWrite = false := by
  obtain ⟨k, t, w, hi, hk⟩ := h.me
  cases hw : s.txgWrite with
  | false => rfl
  | true =>
    have := (txgWrite_mem hw (List.mem_cons_of_mem _ (get_mem hi))).2
    cases k
    · exact absurd rfl hk
    · cases this
    · cases this

theorem Blocked.set {i j : Nat} {p : PC} (h : Blocked i s) (hj : s.tasks[j]? = some p)
    (hp : p.sleeps = false) (q : PC) (hq : q.poor = true) :
    Blocked i { s with tasks := s.tasks.set j q } := by
  obtain ⟨k, t, w, hi, hk⟩ := h.me
  have hne : j ≠ i := by rintro rfl; rw [hi] at hj; cases hj; cases hp
  refine ⟨h.syncer, ⟨k, t, w, ?_, hk⟩, h.queue, ?_⟩
  · simp only [get_set_ne q hne, hi]
  · intro l r hl
    rcases get_set hl with ⟨_, rfl⟩ | ⟨_, hl⟩
    · exact hq
    · exact h.poor l r hl

theorem step_blocked {i : Nat} (h : Blocked i s) {a : Act} (hs : step s a = some s') : Blocked i s' := by
  have hl := blocked_txg h
  unfold step at hs
  split at hs
  · rename_i c
    cases hs
    obtain ⟨k, t, w, hi, hk⟩ := h.me
    refine ⟨h.syncer, ⟨k, t, w, get_append_left hi, hk⟩, h.queue, ?_⟩
    intro j p hj
    rcases get_append hj with hj | rfl
    · exact h.poor j p hj
    · cases c <;> rfl
  · rename_i j n m
    split at hs
    · cases hs
    · rename_i p hj
      have hp := h.poor j p hj
      have go := fun hp => h.set hj hp
      unfold stepTask at hs
      dsimp only at hs
      split at hs
      · cases hs
      · split at hs
        · cases hs; exact go rfl _ rfl
        · cases hs
      · rename_i k t w
        split at hs
        · split at hs
          · cases hs; exact go rfl _ rfl
          · cases hs
            split
            · exact go rfl _ (by cases k <;> rfl)
            · exact go rfl _ rfl
        · cases hs
      · rename_i k t w
        have hb := go rfl (opened k t w) (by cases k <;> rfl)
        split at hs
        · split at hs
          · cases hs; exact ⟨hb.syncer, hb.me, hb.queue, hb.poor⟩
          · cases hs; exact hb
        · cases hs
      · split at hs
        · cases hs; exact go rfl _ rfl
        · cases hs
      · split at hs
        · cases hs; exact go rfl _ rfl
        · cases hs
      · rename_i t w
        cases hs
        have hb := go rfl (.borrowing .destroy t w) rfl
        exact ⟨hb.syncer, hb.me, hb.queue, hb.poor⟩
      · rename_i k t w
        cases hs
        unfold borrow
        rw [if_pos (.inr h.queue)]
        have hb := go rfl (.asleep k t w) rfl
        exact ⟨hb.syncer, hb.me, by simp, hb.poor⟩
      · cases hs
      · cases hp
      · cases hp
      · split at hs
        · cases hs; exact go rfl _ rfl
        · cases hs
      · cases hs; exact go rfl _ rfl
      · split at hs
        · cases hs
          have hb := go rfl .syncTxg rfl
          exact ⟨hb.syncer, hb.me, hb.queue, hb.poor⟩
        · cases hs; exact go rfl _ rfl
      · rw [hl] at hs; cases hs
      · cases hp
      · cases hp
      · cases hp
      all_goals cases hs
  · rw [h.syncer] at hs; cases hs
  · rw [h.syncer] at hs; cases hs
  · unfold stepSyncer at hs
    rw [h.syncer] at hs
    simp only [hl] at hs; cases hs

/-- Where a call may stand while everybody sleeps and `dirty` is not set. -/
def PC.still : PC → Bool
  | .done | .asleep _ _ _ | .cleanTxg | .clean | .syncStart => true
  | _ => false

/-- Everybody sleeps, and the syncer sees nothing to do. -/
structure Forgotten (i : Nat) (s : Sys) : Prop where
  syncer : s.syncer = .done
  dirty : s.dirty = false
  me : ∃ k t w, s.tasks[i]? = some (.asleep k t w)
  still : ∀ (j : Nat) (p : PC), s.tasks[j]? = some p → p.still = true

/-- Anything but a new call that writes. -/
def NoWrite : Act → Prop
  | .call c => c.writes = false
  | _ => True

theorem Forgotten.set {i j : Nat} {p : PC} (h : Forgotten i s) (hj : s.tasks[j]? = some p)
    (hp : p.sleeps = false) (q : PC) (hq : q.still = true) :
    Forgotten i { s with tasks := s.tasks.set j q } := by
  obtain ⟨k, t, w, hi⟩ := h.me
  have hne : j ≠ i := by rintro rfl; rw [hi] at hj; cases hj; cases hp
  refine ⟨h.syncer, h.dirty, ⟨k, t, w, ?_⟩, ?_⟩
  · simp only [get_set_ne q hne, hi]
  · intro l r hl
    rcases get_set hl with ⟨_, rfl⟩ | ⟨_, hl⟩
    · exact hq
    · exact h.still l r hl

theorem step_forgotten {i : Nat} (h : Forgotten i s) {a : Act} (ha : NoWrite a)
    (hs : step s a = some s') : Forgotten i s' := by
  unfold step at hs
  split at hs
  · rename_i c
    cases hs
    obtain ⟨k, t, w, hi⟩ := h.me
    refine ⟨h.syncer, ?_, ⟨k, t, w, get_append_left hi⟩, ?_⟩
    · simp only [NoWrite] at ha
      simp only [h.dirty, ha]; rfl
    · intro j p hj
      rcases get_append hj with hj | rfl
      · exact h.still j p hj
      · cases c <;> first | rfl | (cases ha; done)
  · rename_i j n m
    split at hs
    · cases hs
    · rename_i p hj
      have hp := h.still j p hj
      cases p with
      | cleanTxg =>
        simp only [stepTask] at hs
        split at hs
        · cases hs; exact h.set hj rfl _ rfl
        · cases hs
      | clean => simp only [stepTask] at hs; cases hs; exact h.set hj rfl _ rfl
      | syncStart =>
        simp only [stepTask, h.dirty, Bool.false_eq_true, if_false] at hs; cases hs
        have hb := h.set hj rfl .done rfl
        exact ⟨hb.syncer, rfl, hb.me, hb.still⟩
      | done => simp only [stepTask] at hs; cases hs
      | asleep k t w => simp only [stepTask] at hs; cases hs
      | _ => cases hp
  · rw [if_pos h.syncer] at hs; cases hs
    exact ⟨by simp only [h.dirty]; rfl, h.dirty, h.me, h.still⟩
  · rw [if_pos h.syncer] at hs; cases hs
    exact ⟨by simp only [h.dirty]; rfl, rfl, h.me, h.still⟩
  · unfold stepSyncer at hs
    rw [h.syncer] at hs; cases hs

/-! ## A tree that nobody flushes -/

/-- The tree on which a call that has looked it up operates. -/
def PC.uses : PC → Option Nat
  | .installing _ t _ | .borrowing _ t _ | .asleep _ t _ | .txg _ t _ | .work _ t _ => some t
  | .destroyTxg t _ | .unlinking t _ | .unlinked t _ => some t
  | _ => none

/-- A tree outside `fs_trees`, whose dirty leaves have so much credit that its destroyer cannot get
what it asks for. -/
structure Orphan (i t w c : Nat) (s : Sys) : Prop where
  inv : Inv 0 s
  me : s.tasks[i]? = some (.asleep .destroy t w)
  tree : findTree s.trees t = some ⟨t, c, false⟩
  big : s.cap < c + w
  others : ∀ (j : Nat) (p : PC), j ≠ i → s.tasks[j]? = some p → p.uses ≠ some t

theorem find_upd_ne (f : Tree → Tree) (hf : ∀ x, (f x).id = x.id) {t t' : Nat} (hne : t' ≠ t) :
    ∀ (l : List Tree), findTree (updTree f l t') t = findTree l t
  | [] => rfl
  | y :: l => by
    unfold updTree
    split
    · rename_i he
      simp only [findTree, hf, he, if_neg hne]
    · simp only [findTree, find_upd_ne f hf hne l]

theorem find_append {l : List Tree} {t : Nat} {x y : Tree} (h : findTree l t = some x) :
    findTree (l ++ [y]) t = some x := by
  induction l with
  | nil => cases h
  | cons z l ih =>
    simp only [List.cons_append, findTree] at *
    split
    · rename_i he; rw [if_pos he] at h; exact h
    · rename_i he; rw [if_neg he] at h; exact ih h

theorem find_flush {l : List Tree} {t c : Nat} (h : findTree l t = some ⟨t, c, false⟩) :
    findTree (l.map fun x => if x.cached then { x with credit := 0 } else x) t = some ⟨t, c, false⟩ := by
  induction l with
  | nil => cases h
  | cons z l ih =>
    have hid : (if z.cached then { z with credit := 0 } else z : Tree).id = z.id := by split <;> rfl
    simp only [List.map_cons, findTree, hid] at *
    split
    · rename_i he
      rw [if_pos he] at h; cases h; rfl
    · rename_i he; rw [if_neg he] at h; exact ih h

theorem find_le {l : List Tree} {t : Nat} {x : Tree} (h : findTree l t = some x) :
    x.credit ≤ (l.map Tree.credit).sum := by
  induction l with
  | nil => cases h
  | cons z l ih =>
    simp only [List.map_cons, List.sum_cons]
    unfold findTree at h
    split at h
    · cases h; omega
    · have := ih h; omega

theorem granted_uses (k t w) : (granted k t w).uses = some t := by cases k <;> rfl

/-- Credit repaid by others does not help. -/
theorem repay_orphan {i t w c n : Nat} (hi : Inv n s) (me : s.tasks[i]? = some (.asleep .destroy t w))
    (tree : findTree s.trees t = some ⟨t, c, false⟩) (big : s.cap < c + w)
    (others : ∀ (j : Nat) (p : PC), j ≠ i → s.tasks[j]? = some p → p.uses ≠ some t) :
    Orphan i t w c (repay s n) := by
  obtain ⟨h1, h2⟩ := repay_inv hi
  have hc := hi.conserve
  have hl := find_le tree
  simp only at hl
  refine ⟨h1, ?_, by rw [h2.trees]; exact tree, by rw [h2.cap]; exact big, ?_⟩
  · have hlen : i < (repay s n).tasks.length := by
      rw [h2.length]; exact (List.getElem?_eq_some_iff.1 me).1
    have hg := List.getElem?_eq_getElem hlen
    rcases h2.tasks i _ hg with h | ⟨k, t', w', h, _, hw⟩
    · rw [hg, ← h]; exact me
    · rw [me] at h; cases h
      simp only at hw; omega
  · intro j p hj hp
    rcases h2.tasks j p hp with h | ⟨k, t', w', h, rfl, _⟩
    · exact others j p hj h
    · have := others j _ hj h
      rw [granted_uses]; exact this

theorem Orphan.set {i t w c j : Nat} {p : PC} (h : Orphan i t w c s) (hj : s.tasks[j]? = some p)
    (hp : p.sleeps = false) (q : PC) (hq : q.sleeps = false) (hd : q.credit = p.credit)
    (hu : q.uses = none ∨ q.uses = p.uses) : Orphan i t w c { s with tasks := s.tasks.set j q } := by
  have hne : j ≠ i := by rintro rfl; rw [h.me] at hj; cases hj; cases hp
  refine ⟨h.inv.set hj hp q hq (by omega), ?_, h.tree, h.big, ?_⟩
  · simp only [get_set_ne q hne, h.me]
  · intro l r hl hr
    rcases get_set hr with ⟨rfl, rfl⟩ | ⟨_, hr⟩
    · rcases hu with hu | hu
      · rw [hu]; intro h; cases h
      · rw [hu]; exact h.others _ p hl hj
    · exact h.others l r hl hr

theorem flushAll_orphan {i t w c : Nat} (h : Orphan i t w c s) : Orphan i t w c (flushAll s) := by
  have hc := h.inv.conserve
  have hm := sum_flush s.trees
  refine repay_orphan ?_ h.me (find_flush h.tree) h.big h.others
  exact ⟨by dsimp only; omega, h.inv.sleepers, h.inv.head⟩

theorem stepTask_orphan {i t w c : Nat} (h : Orphan i t w c s) {j : Nat} {p : PC}
    (hj : s.tasks[j]? = some p) {n m : Nat} (hs : stepTask s j p n m = some s') : Orphan i t w c s' := by
  have go := fun hp q => h.set (q := q) hj hp
  have hne : p.sleeps = false → j ≠ i := by
    rintro hp rfl; rw [h.me] at hj; cases hj; cases hp
  unfold stepTask at hs
  dsimp only at hs
  split at hs
  · cases hs
  · split at hs
    · cases hs; exact go rfl _ rfl rfl (.inl rfl)
    · cases hs
  · rename_i k t' w'
    split at hs
    · split at hs
      · rename_i hf
        have hn : t' ≠ t := by rintro rfl; rw [h.tree] at hf; cases hf
        cases hs
        have h0 := h.inv.set hj rfl (.installing k t' w') rfl (e := 0) (by rfl)
        refine ⟨h0, ?_, h.tree, h.big, ?_⟩
        · simp only [get_set_ne _ (hne rfl), h.me]
        · intro l r hl hr
          rcases get_set hr with ⟨rfl, rfl⟩ | ⟨_, hr⟩
          · intro he; cases he; exact hn rfl
          · exact h.others l r hl hr
      · rename_i x hf
        cases hs
        split
        · rename_i hc
          have hn : t' ≠ t := by rintro rfl; rw [h.tree] at hf; cases hf; cases hc
          have h0 := h.inv.set hj rfl (opened k t' w') (opened_sleeps _ _ _) (e := 0)
            (by rw [opened_credit]; rfl)
          refine ⟨h0, ?_, h.tree, h.big, ?_⟩
          · simp only [get_set_ne _ (hne rfl), h.me]
          · intro l r hl hr
            rcases get_set hr with ⟨rfl, rfl⟩ | ⟨_, hr⟩
            · intro he; apply hn; cases k <;> (cases he; rfl)
            · exact h.others l r hl hr
        · exact go rfl _ rfl rfl (.inl rfl)
    · cases hs
  · rename_i k t' w'
    have hb := go rfl (opened k t' w') (opened_sleeps _ _ _) (opened_credit _ _ _)
      (.inr (by cases k <;> rfl))
    split at hs
    · split at hs
      · cases hs
        exact ⟨hb.inv.congr rfl rfl rfl (by simp only [sum_append]; rfl) rfl, hb.me, find_append h.tree,
          h.big, hb.others⟩
      · cases hs; exact hb
    · cases hs
  · split at hs
    · cases hs; exact go rfl _ rfl rfl (.inr rfl)
    · cases hs
  · split at hs
    · cases hs; exact go rfl _ rfl rfl (.inr rfl)
    · cases hs
  · rename_i t' w'
    have hn : t' ≠ t := by
      rintro rfl; exact h.others j _ (hne rfl) hj rfl
    have hb := go rfl (.borrowing .destroy t' w') rfl rfl (.inr rfl)
    cases hs
    exact ⟨hb.inv.congr rfl rfl rfl (sum_upd_same (fun x => { x with cached := false }) (fun _ => rfl) _ _) rfl,
      hb.me, (find_upd_ne (fun x => { x with cached := false }) (fun _ => rfl) hn _).trans h.tree,
      h.big, hb.others⟩
  · rename_i k t' w'
    have hu := h.others j _ (hne rfl) hj
    cases hs
    have h0 := borrow_inv h.inv hj rfl rfl k t' w'
    unfold borrow at *
    by_cases hc : s.supply < w' ∨ s.queue ≠ []
    · rw [if_pos hc] at *
      refine ⟨h0, ?_, h.tree, h.big, ?_⟩
      · simp only [get_set_ne _ (hne rfl), h.me]
      · intro l r hl hr
        rcases get_set hr with ⟨rfl, rfl⟩ | ⟨_, hr⟩
        · exact hu
        · exact h.others l r hl hr
    · rw [if_neg hc] at *
      refine ⟨h0, ?_, h.tree, h.big, ?_⟩
      · simp only [get_set_ne _ (hne rfl), h.me]
      · intro l r hl hr
        rcases get_set hr with ⟨rfl, rfl⟩ | ⟨_, hr⟩
        · rw [granted_uses]; exact hu
        · exact h.others l r hl hr
  · cases hs
  · split at hs
    · cases hs; exact go rfl _ rfl rfl (.inr rfl)
    · cases hs
  · rename_i k t' c'
    have hn : t' ≠ t := by
      rintro rfl; exact h.others j _ (hne rfl) hj rfl
    cases hs
    have h1 : Inv c' { s with tasks := s.tasks.set j .done } :=
      h.inv.set hj rfl .done rfl (by simp [PC.credit])
    have hc := h1.conserve
    have h2 : (s.tasks.set j .done)[i]? = some (.asleep .destroy t w) := by
      rw [get_set_ne _ (hne rfl), h.me]
    have h3 : ∀ (l : Nat) (p : PC), l ≠ i → (s.tasks.set j .done)[l]? = some p → p.uses ≠ some t := by
      intro l r hl hr
      rcases get_set hr with ⟨rfl, rfl⟩ | ⟨_, hr⟩
      · intro he; cases he
      · exact h.others l r hl hr
    unfold doWork
    split
    · exact repay_orphan h1 h2 h.tree h.big h3
    · rename_i x hx
      simp only at hx hc
      split
      · have := sum_upd (fun x => { x with credit := 0 }) s.trees t' hx
        simp only at this
        refine repay_orphan ?_ h2
          ((find_upd_ne (fun x => { x with credit := 0 }) (fun _ => rfl) hn _).trans h.tree) h.big h3
        exact ⟨by dsimp only; omega, h1.sleepers, h1.head⟩
      · have := sum_upd (fun x => { x with credit := x.credit - min m x.credit + min n c' }) s.trees t' hx
        simp only at this
        refine repay_orphan ?_ h2 ((find_upd_ne (fun x =>
          { x with credit := x.credit - min m x.credit + min n c' }) (fun _ => rfl) hn _).trans h.tree) h.big h3
        exact ⟨by dsimp only; omega, h1.sleepers, h1.head⟩
  · split at hs
    · cases hs; exact go rfl _ rfl rfl (.inl rfl)
    · cases hs
  · cases hs; exact go rfl _ rfl rfl (.inl rfl)
  · split at hs
    · cases hs
      have hb := go rfl .syncTxg rfl rfl (.inl rfl)
      exact ⟨hb.inv.congr rfl rfl rfl rfl rfl, hb.me, hb.tree, hb.big, hb.others⟩
    · cases hs; exact go rfl _ rfl rfl (.inl rfl)
  · split at hs
    · cases hs; exact go rfl _ rfl rfl (.inl rfl)
    · cases hs
  · split at hs
    · cases hs; exact go rfl _ rfl rfl (.inl rfl)
    · cases hs
  · cases hs; exact flushAll_orphan (go rfl .syncRest rfl rfl (.inl rfl))
  · cases hs; exact go rfl _ rfl rfl (.inl rfl)
  all_goals cases hs

theorem step_orphan {i t w c : Nat} (h : Orphan i t w c s) {a : Act} (hs : step s a = some s') :
    Orphan i t w c s' := by
  have sy : ∀ q, Orphan i t w c { s with syncer := q } := fun q =>
    ⟨h.inv.congr rfl rfl rfl rfl rfl, h.me, h.tree, h.big, h.others⟩
  have hinv := step_inv h.inv hs
  unfold step at hs
  split at hs
  · rename_i c'
    cases hs
    refine ⟨hinv, get_append_left h.me, h.tree, h.big, ?_⟩
    intro l r hl hr
    rcases get_append hr with hr | rfl
    · exact h.others l r hl hr
    · cases c' <;> (intro he; cases he)
  · split at hs
    · cases hs
    · rename_i p hj; exact stepTask_orphan h hj hs
  · split at hs
    · cases hs; exact sy _
    · cases hs
  · split at hs
    · cases hs
      exact ⟨hinv, h.me, h.tree, h.big, h.others⟩
    · cases hs
  · unfold stepSyncer at hs
    split at hs
    · split at hs
      · cases hs; exact sy _
      · cases hs
    · split at hs
      · cases hs; exact sy _
      · cases hs
    · cases hs; exact flushAll_orphan (sy _)
    · cases hs; exact sy _
    · split at hs
      · cases hs; exact sy _
      · cases hs
    · split at hs
      · cases hs; exact sy _
      · cases hs
    · cases hs; exact flushAll_orphan (sy _)
    · cases hs

end Verif.Progress
