/-!
# The dirty flag: which syncs do anything

`Database::sync_transaction` does nothing if the flag `dirty` is not set.  The flag is set when a write
starts, before it waits for credit and for the transaction lock, and cleared when a sync is called, before
it waits for the lock.  This is a model of writes and syncs that run at the same time; a sync's work is one step here
(its own steps are in `Verif.Crash.Model`).
-/

namespace Verif.Crash.Dirty

/-- Writes and syncs are numbered by their callers. -/
structure St where
  /-- database.rs:146. -/
  dirty : Bool
  /-- Writes that have set the flag, and wait for credit or the lock. -/
  started : List Nat
  /-- Writes that hold the transaction lock for reading. -/
  holding : List Nat
  /-- Writes that have returned. -/
  completed : List Nat
  /-- Writes whose effect is in the trees. -/
  mem : List Nat
  /-- Writes whose effect is found after a crash. -/
  durable : List Nat
  /-- Syncs that wait for the lock. -/
  waiting : List Nat
  /-- The sync that holds the lock for writing, and whether it has written everything. -/
  running : Option (Nat × Bool)

/-- database.rs:199: a database that has just been opened is dirty. -/
def St.init : St := ⟨true, [], [], [], [], [], [], none⟩

inductive Ev where
  /-- A write starts: database.rs:254, :173, :377, :495. -/
  | start (w : Nat)
  /-- It gets the lock: database.rs:265. -/
  | lock (w : Nat)
  /-- Its effect is in the trees and it returns: database.rs:267-269. -/
  | finish (w : Nat)
  /-- A sync is called, and has to work: database.rs:732. -/
  | call (i : Nat)
  /-- A sync is called and returns `Ok` at once: database.rs:732-733. -/
  | skip (i : Nat)
  /-- A sync gets the lock: idml.rs:477. -/
  | acquire (i : Nat)
  /-- It writes everything: database.rs:737-767. -/
  | commit (i : Nat)
  /-- It returns `Ok`: idml.rs:481-483. -/
  | ret (i : Nat)
  /-- It fails, before everything is written: idml.rs:480. -/
  | fail (i : Nat)

inductive Step : St → Ev → St → Prop where
  | start {s : St} (w : Nat) : Step s (.start w) { s with
      dirty := true
      started := w :: s.started }
  | lock {s : St} (w : Nat) : w ∈ s.started → s.running = none → Step s (.lock w) { s with
      started := s.started.erase w
      holding := w :: s.holding }
  | finish {s : St} (w : Nat) : w ∈ s.holding → Step s (.finish w) { s with
      holding := s.holding.erase w
      mem := w :: s.mem
      completed := w :: s.completed }
  | call {s : St} (i : Nat) : s.dirty = true → Step s (.call i) { s with
      dirty := false
      waiting := i :: s.waiting }
  | skip {s : St} (i : Nat) : s.dirty = false → Step s (.skip i) s
  | acquire {s : St} (i : Nat) : i ∈ s.waiting → s.running = none → s.holding = [] → Step s (.acquire i) { s with
      waiting := s.waiting.erase i
      running := some (i, false) }
  | commit {s : St} (i : Nat) : s.running = some (i, false) → Step s (.commit i) { s with
      durable := s.mem
      running := some (i, true) }
  | ret {s : St} (i : Nat) : s.running = some (i, true) → Step s (.ret i) { s with running := none }
  | fail {s : St} (i : Nat) : s.running = some (i, false) → Step s (.fail i) { s with running := none }

/-- A history, with the events so far, the latest first. -/
inductive Reach : List Ev → St → Prop where
  | init : Reach [] St.init
  | step {es s e s'} : Reach es s → Step s e s' → Reach (e :: es) s'

/-! ## Specification -/

/-- Writes that returned before this. -/
def returned (es : List Ev) : List Nat := es.filterMap fun | .finish w => some w | _ => none

/-- Which writes had returned when sync `i` was (last) called; the latest event comes first. -/
def due (i : Nat) : List Ev → List Nat
  | [] => []
  | .call j :: es => if j = i then returned es else due i es
  | _ :: es => due i es

/-! ## Proofs -/

theorem completed_eq {es : List Ev} {s : St} (R : Reach es s) :
    s.completed = returned es ∧ ∀ w ∈ s.completed, w ∈ s.mem := by
  induction R with
  | init => exact ⟨rfl, fun w h => h⟩
  | step _ h ih =>
    obtain ⟨h1, h2⟩ := ih
    cases h with
    | finish w hw =>
      refine ⟨by simp [returned, h1], fun x hx => ?_⟩
      rcases List.mem_cons.1 hx with rfl | hx
      · exact List.mem_cons_self ..
      · exact List.mem_cons_of_mem _ (h2 x hx)
    | start w => exact ⟨by simpa [returned] using h1, h2⟩
    | lock w _ _ => exact ⟨by simpa [returned] using h1, h2⟩
    | call i _ => exact ⟨by simpa [returned] using h1, h2⟩
    | skip i _ => exact ⟨by simpa [returned] using h1, h2⟩
    | acquire i _ _ _ => exact ⟨by simpa [returned] using h1, h2⟩
    | commit i _ => exact ⟨by simpa [returned] using h1, h2⟩
    | ret i _ => exact ⟨by simpa [returned] using h1, h2⟩
    | fail i _ => exact ⟨by simpa [returned] using h1, h2⟩

theorem returned_mono (e : Ev) (es : List Ev) : ∀ w ∈ returned es, w ∈ returned (e :: es) := by
  intro w hw
  unfold returned at *
  rw [List.filterMap_cons]
  split
  · exact hw
  · exact List.mem_cons_of_mem _ hw

theorem due_returned (i : Nat) (es : List Ev) : ∀ w ∈ due i es, w ∈ returned es := by
  induction es with
  | nil => exact fun w h => h
  | cons e es ih =>
    intro w hw
    refine returned_mono e es w ?_
    cases e with
    | call j =>
      simp only [due] at hw
      split at hw
      · exact hw
      · exact ih w hw
    | start _ => exact ih w hw
    | lock _ => exact ih w hw
    | finish _ => exact ih w hw
    | skip _ => exact ih w hw
    | acquire _ => exact ih w hw
    | commit _ => exact ih w hw
    | ret _ => exact ih w hw
    | fail _ => exact ih w hw

/-- While a sync holds the lock no write does; once it has written everything, all is durable. -/
theorem running_inv {es : List Ev} {s : St} (R : Reach es s) :
    (∀ x, s.running = some x → s.holding = []) ∧
    (∀ i, s.running = some (i, true) → s.durable = s.mem) := by
  induction R with
  | init => exact ⟨fun x h => (by cases h), fun i h => (by cases h)⟩
  | step _ h ih =>
    obtain ⟨h1, h2⟩ := ih
    cases h with
    | start w => exact ⟨h1, h2⟩
    | lock w _ hr => exact ⟨fun x h => (by simp [hr] at h), fun i h => (by simp [hr] at h)⟩
    | finish w hw =>
      refine ⟨fun x h => ?_, fun i h => ?_⟩
      · rw [h1 x h] at hw; cases hw
      · rw [h1 _ h] at hw; cases hw
    | call i _ => exact ⟨h1, h2⟩
    | skip i _ => exact ⟨h1, h2⟩
    | acquire i _ _ hh => exact ⟨fun _ _ => hh, fun i h => (by simp at h)⟩
    | commit i hr => exact ⟨fun _ _ => h1 _ hr, fun _ _ => rfl⟩
    | ret i _ => exact ⟨fun x h => (by cases h), fun i h => (by cases h)⟩
    | fail i _ => exact ⟨fun x h => (by cases h), fun i h => (by cases h)⟩

/-- **C41** for a sync that had something to do: when it returns `Ok`, every write that had returned
when it was called is durable, whatever else runs at the same time. -/
theorem C41_working_sync {es : List Ev} {s s' : St} {i : Nat} (R : Reach es s) (h : Step s (.ret i) s') :
    ∀ w ∈ due i es, w ∈ s'.durable := by
  intro w hw
  cases h with
  | ret _ hr =>
    show w ∈ s.durable
    rw [(running_inv R).2 i hr]
    obtain ⟨h1, h2⟩ := completed_eq R
    exact h2 w (by rw [h1]; exact due_returned i es w hw)

/-- A sync that is called while another waits or works, or fails; or a write that has set the flag but
has no lock yet when a sync that cleared the flag gets the lock. -/
def Calm : St → Ev → Prop
  | s, .call _ => s.waiting = [] ∧ s.running = none ∧ s.started = []
  | s, .skip _ => s.waiting = [] ∧ s.running = none
  | _, .fail _ => False
  | _, _ => True

/-- Histories in which syncs are called one after the other, none fails, and none is called while a write has
started and has no lock yet. -/
inductive CalmReach : List Ev → St → Prop where
  | init : CalmReach [] St.init
  | step {es s e s'} : CalmReach es s → Calm s e → Step s e s' → CalmReach (e :: es) s'

theorem CalmReach.reach {es : List Ev} {s : St} (R : CalmReach es s) : Reach es s := by
  induction R with
  | init => exact .init
  | step _ _ h ih => exact .step ih h

structure Clean (s : St) : Prop where
  started : s.dirty = false → s.started = []
  idle : s.dirty = false → s.waiting = [] → s.running = none → s.holding = [] ∧ s.durable = s.mem
  one : s.running ≠ none → s.waiting = []

theorem clean {es : List Ev} {s : St} (R : CalmReach es s) : Clean s := by
  induction R with
  | init => exact ⟨fun h => (by cases h), fun h => (by cases h), fun h => absurd rfl h⟩
  | @step es s0 e0 s' R0 hc h ih =>
    obtain ⟨h1, h2, h3⟩ := ih
    cases h with
    | start w => exact ⟨fun h => (by cases h), fun h => (by cases h), h3⟩
    | lock w hw hr =>
      refine ⟨fun h => ?_, fun h => ?_, h3⟩
      · rw [h1 h] at hw; cases hw
      · rw [h1 h] at hw; cases hw
    | finish w hw =>
      refine ⟨h1, fun a b c => ?_, h3⟩
      rw [(h2 a b c).1] at hw
      cases hw
    | call i hd =>
      obtain ⟨c1, c2, c3⟩ := hc
      exact ⟨fun _ => c3, fun _ h => (by simp at h), fun h => absurd c2 h⟩
    | skip i _ => exact ⟨h1, h2, h3⟩
    | acquire i hi hr hh =>
      refine ⟨h1, fun _ _ h => (by cases h), fun _ => ?_⟩
      -- at most one sync waits
      have key : ∀ es (s : St), CalmReach es s → s.waiting = [] ∨ ∃ j, s.waiting = [j] := by
        intro es s R
        induction R with
        | init => exact .inl rfl
        | step _ hc h ih =>
          cases h with
          | call j _ => exact .inr ⟨j, by simp [hc.1]⟩
          | acquire j hj _ _ =>
            rcases ih with ih | ⟨x, ih⟩
            · rw [ih] at hj; cases hj
            · simp only [ih, List.mem_singleton] at hj ⊢
              subst hj
              exact .inl (by simp)
          | start _ => exact ih
          | lock _ _ _ => exact ih
          | finish _ _ => exact ih
          | skip _ _ => exact ih
          | commit _ _ => exact ih
          | ret _ _ => exact ih
          | fail _ _ => exact ih
      rcases key _ _ R0 with h | ⟨j, h⟩
      · rw [h] at hi; cases hi
      · simp only [h, List.mem_singleton] at hi ⊢
        subst hi
        simp
    | commit i hr => exact ⟨h1, fun _ _ h => (by cases h), fun _ => h3 (by simp [hr])⟩
    | ret i hr =>
      refine ⟨h1, fun _ _ _ => ?_, fun h => absurd rfl h⟩
      obtain ⟨r1, r2⟩ := running_inv R0.reach
      exact ⟨r1 _ hr, r2 i hr⟩
    | fail i _ => exact absurd hc id

/-- **C41** for a sync that does nothing, as long as syncs do not overlap, do not fail, and are not called
while a write has started and has no lock yet: all writes that have returned are durable.  Without these
conditions it is false. -/
theorem C41_idle_sync_partial {es : List Ev} {s s' : St} {i : Nat} (R : CalmReach es s) (hc : Calm s (.skip i))
    (h : Step s (.skip i) s') : ∀ w ∈ returned es, w ∈ s'.durable := by
  intro w hw
  cases h with
  | skip _ hd =>
    rw [((clean R).idle hd hc.1 hc.2).2]
    obtain ⟨h1, h2⟩ := completed_eq R.reach
    exact h2 w (by rw [h1]; exact hw)

/-! ## Examples and counterexamples -/

/-- A write, a sync that works, a sync that does nothing. -/
example : CalmReach [.skip 2, .ret 1, .commit 1, .acquire 1, .call 1, .finish 7, .lock 7, .start 7]
    ⟨false, [], [], [7], [7], [7], [], none⟩ :=
  .step (.step (.step (.step (.step (.step (.step (.step .init trivial (.start 7)) trivial (.lock 7 (by decide) rfl))
    trivial (.finish 7 (by decide))) ⟨rfl, rfl, rfl⟩ (.call 1 rfl)) trivial (.acquire 1 (by decide) rfl rfl))
    trivial (.commit 1 rfl)) trivial (.ret 1 rfl)) ⟨rfl, rfl⟩ (.skip 2 rfl)

/-- The premise of `C41_working_sync`: write 7 is due when sync 1 returns. -/
example : due 1 [.commit 1, .acquire 1, .call 1, .finish 7, .lock 7, .start 7] = [7] := rfl

/-- **C41 fails: a sync returns early.**  Write 7 returns.  The syncer task calls sync 1, which clears the
flag and has not written anything yet.  The user calls sync 2, which returns `Ok` at once.  Write 7 is not durable. -/
theorem C41_overlap_counterexample :
    ∃ s, Reach [.skip 2, .call 1, .finish 7, .lock 7, .start 7] s ∧
      7 ∈ returned [.call 1, .finish 7, .lock 7, .start 7] ∧ 7 ∉ s.durable :=
  ⟨⟨false, [], [], [7], [7], [], [1], none⟩,
    .step (.step (.step (.step (.step .init (.start 7)) (.lock 7 (by decide) rfl)) (.finish 7 (by decide))) (.call 1 rfl))
      (.skip 2 rfl), by decide, by decide⟩

/-- **C41 fails: the flag is cleared too early.**  Write 7 starts and sets the flag.  Sync 1 clears it, gets
the lock first, and completes.  Write 7 gets the lock and returns.  Every later sync does nothing, although no sync
is in progress, and write 7 is not durable. -/
theorem C41_flag_counterexample :
    ∃ s, Reach [.skip 2, .finish 7, .lock 7, .ret 1, .commit 1, .acquire 1, .call 1, .start 7] s ∧
      7 ∈ s.completed ∧ 7 ∉ s.durable ∧ s.waiting = [] ∧ s.running = none ∧
      ∀ i, Step s (.skip i) s ∧ ∀ s', ¬ Step s (.call i) s' := by
  refine ⟨⟨false, [], [], [7], [7], [], [], none⟩,
    .step (.step (.step (.step (.step (.step (.step (.step .init (.start 7)) (.call 1 rfl)) (.acquire 1 (by decide) rfl rfl))
      (.commit 1 rfl)) (.ret 1 rfl)) (.lock 7 (by decide) rfl)) (.finish 7 (by decide))) (.skip 2 rfl),
    by decide, by decide, rfl, rfl, fun i => ⟨.skip i rfl, fun s' h => ?_⟩⟩
  cases h with
  | call _ hd => cases hd

/-- **C41 fails: a sync that follows a failed one.**  Sync 1 fails; the flag stays clear.  Sync 2 returns `Ok`
without doing anything. -/
theorem C41_failed_counterexample :
    ∃ s, Reach [.skip 2, .fail 1, .acquire 1, .call 1, .finish 7, .lock 7, .start 7] s ∧
      7 ∈ s.completed ∧ 7 ∉ s.durable ∧ s.waiting = [] ∧ s.running = none :=
  ⟨⟨false, [], [], [7], [7], [], [], none⟩,
    .step (.step (.step (.step (.step (.step (.step .init (.start 7)) (.lock 7 (by decide) rfl)) (.finish 7 (by decide)))
      (.call 1 rfl)) (.acquire 1 (by decide) rfl rfl)) (.fail 1 rfl)) (.skip 2 rfl), by decide, by decide, rfl, rfl⟩

end Verif.Crash.Dirty
