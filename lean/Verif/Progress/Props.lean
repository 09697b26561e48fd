import Verif.Progress.Hang
/-!
# C80: no call hangs

Calls, the flusher and syncs wait for each other through the transaction lock, the lock on the list of
trees, and the writeback credit.  Ordinary calls can always finish, as long as the flusher sees that
there is something to flush (`C80_progress_partial`).  The rest is false of the code: `destroy_fs` and
`create_fs` wait for credit while they have the transaction lock (`C80_destroy_hangs`, `C80_create_hangs`), and
a sync may clear the `dirty` flag of calls that have not written yet, so that the flusher sleeps on
(`C80_flush_forgets`).
-/

namespace Verif.Progress

variable {s s' : Sys} {cap : Nat}

/-- In every state that calls of all kinds can reach, no credit is lost or made, and whoever has the
transaction lock for writing excludes all readers. -/
theorem C80_sound {ok : Call → Prop} (h : Reach ok cap s) :
    s.supply + (s.tasks.map PC.credit).sum + (s.trees.map Tree.credit).sum = s.cap ∧
      ∀ p ∈ s.syncer :: s.tasks, ∀ q ∈ s.syncer :: s.tasks, p.txgW = true → q.txgR = false :=
  ⟨(reach_inv h).conserve, reach_excl h⟩

theorem start_plain {c : Call} (h : Ordinary cap c) : c.start.plain cap = true := by
  cases c <;> first | rfl | exact decide_eq_true h | exact h.elim

theorem reach_plain (h : Reach (Ordinary cap) cap s) : Plain cap s := by
  induction h with
  | init => exact ⟨init_inv cap, rfl, by intro i p h; simp [init] at h, rfl, by intro x h; simp [init] at h⟩
  | @step s s' a hr hok hs ih =>
    have hinv := step_inv ih.inv hs
    unfold step at hs
    split at hs
    · rename_i c
      cases hs
      refine ⟨hinv, ih.size, ?_, ih.syncer, ih.cached⟩
      intro j p hj
      rcases get_append hj with hj | rfl
      · exact ih.tasks j p hj
      · exact start_plain (hok c rfl)
    · split at hs
      · cases hs
      · rename_i p hi
        by_cases hp : p = .syncStart
        · subst hp
          simp only [stepTask] at hs
          split at hs
          · cases hs
            have h1 := ih.set hi rfl .syncTxg rfl rfl rfl
            exact ⟨hinv, h1.size, h1.tasks, h1.syncer, h1.cached⟩
          · cases hs; exact ih.set hi rfl .done rfl rfl rfl
        · exact (stepTask_nearer ih hi hp hs).plain
    · split at hs
      · cases hs
        exact ⟨hinv, ih.size, ih.tasks, by dsimp only; split <;> rfl, ih.cached⟩
      · cases hs
    · split at hs
      · cases hs
        exact ⟨hinv, ih.size, ih.tasks, by dsimp only; split <;> rfl, ih.cached⟩
      · cases hs
    · exact (stepSyncer_nearer ih hs).plain

/-- **C80, in part.**  Whatever ordinary calls have been made, and wherever they stand: they can all be
brought to an end, whatever they do to their trees, if the flusher knows that there is something to flush, or no
call waits for credit. -/
theorem C80_progress_partial (h : Reach (Ordinary cap) cap s)
    (hd : s.dirty = true ∨ ∀ p ∈ s.tasks, p.waits = false) : Finishes s :=
  finishes _ s (Nat.le_refl _) (reach_plain h) hd

/-- One more call that writes is enough to get them all going again. -/
theorem C80_progress_call_partial (h : Reach (Ordinary cap) cap s) (t w : Nat) (hw : w ≤ cap)
    (hs : step s (.call (.write t w)) = some s') : Finishes s' := by
  refine C80_progress_partial (.step _ h (by rintro c ⟨⟩; exact hw) hs) (.inl ?_)
  cases hs
  simp only [Call.writes, Bool.or_true]

/-- **C80 is false: destroying a file system.**  `destroy_fs` takes the tree out of the list of those that are
flushed, and then waits for credit.  If the dirty data of that tree take so much of the cache that what is
left is not enough, it waits forever, whatever else happens; and since it has the transaction lock, nothing
is ever synced again. -/
theorem C80_destroy_hangs {ok : Call → Prop} (h : Reach ok cap s) {i t w : Nat} {x : Tree}
    (hi : s.tasks[i]? = some (.asleep .destroy t w)) (hx : findTree s.trees t = some x)
    (hc : x.cached = false) (hbig : s.cap < x.credit + w)
    (ho : ∀ (j : Nat) (p : PC), j ≠ i → s.tasks[j]? = some p → p.uses ≠ some t) :
    Hangs (fun _ => True) s i ∧ NeverSyncs s := by
  have hid : ∀ {l : List Tree}, findTree l t = some x → x.id = t := by
    intro l
    induction l with
    | nil => intro h; cases h
    | cons y l ih =>
      intro h
      unfold findTree at h
      split at h
      · cases h; assumption
      · exact ih h
  have h0 : Orphan i t w x.credit s := by
    refine ⟨reach_inv h, hi, ?_, hbig, ho⟩
    rw [hx, ← hc, ← hid hx]
  have hrun := fun l s' (hr : run s l = some s') =>
    run_ind (fun s => Orphan i t w x.credit s ∧ Excl s) (allowed := fun _ => True)
      (fun s a s' hp _ hs => ⟨step_orphan hp.1 hs, step_excl hp.2 hp.1.inv hs⟩) l s s'
      ⟨h0, reach_excl h⟩ (fun _ _ => trivial) hr
  refine ⟨fun l s' _ hr => ⟨_, _, _, (hrun l s' hr).1.me⟩, fun l s' hr p hp => ?_⟩
  obtain ⟨ho', he⟩ := hrun l s' hr
  cases hw : p.txgW with
  | false => rfl
  | true =>
    have := he p hp _ (List.mem_cons_of_mem _ (get_mem ho'.me)) hw
    cases this

/-- **C80 is false: creating or destroying while a sync is due.**  If the syncer waits for the transaction
lock while `create_fs` or `destroy_fs` has it and waits for credit, and no call has credit to give back, then nobody
flushes: it waits forever, nothing is ever synced again, and no call gets credit any more, whatever
else happens. -/
theorem C80_create_hangs {i t w : Nat} {k : Kind} {ok : Call → Prop} (h : Reach ok cap s)
    (hsy : s.syncer = .syncTxg) (hi : s.tasks[i]? = some (.asleep k t w)) (hk : k ≠ .write)
    (hn : ∀ p ∈ s.tasks, ∀ k t c, p ≠ .txg k t c ∧ p ≠ .work k t c) :
    Hangs (fun _ => True) s i ∧ NeverSyncs s ∧
      ∀ l s', run s l = some s' → ∀ p ∈ s'.tasks, ∀ k t c, p ≠ .txg k t c ∧ p ≠ .work k t c := by
  have hx := reach_excl h
  have htr : (PC.asleep k t w).txgR = true := by
    cases k
    · exact absurd rfl hk
    · rfl
    · rfl
  have h0 : Blocked i s := by
    refine ⟨hsy, ⟨k, t, w, hi, hk⟩, ?_, ?_⟩
    · intro hq
      have := (reach_inv h).sleepers i _ hi rfl
      rw [hq] at this; cases this
    · intro j p hj
      have h1 := hn p (get_mem hj)
      have h2 : p.txgW = false := by
        cases hw : p.txgW with
        | false => rfl
        | true =>
          have := hx p (List.mem_cons_of_mem _ (get_mem hj)) _ (List.mem_cons_of_mem _ (get_mem hi)) hw
          rw [htr] at this; cases this
      cases p
      case txg k t c => exact absurd rfl (h1 k t c).1
      case work k t c => exact absurd rfl (h1 k t c).2
      all_goals first | rfl | (cases h2; done)
  have hrun := fun l s' (hr : run s l = some s') =>
    run_ind (Blocked i) (allowed := fun _ => True)
      (fun s a s' hp _ hs => step_blocked hp hs) l s s' h0 (fun _ _ => trivial) hr
  refine ⟨fun l s' _ hr => ?_, fun l s' hr p hp => ?_, fun l s' hr p hp k t c => ?_⟩
  · obtain ⟨k, t, w, hi, _⟩ := (hrun l s' hr).me
    exact ⟨k, t, w, hi⟩
  · have hb := hrun l s' hr
    rcases List.mem_cons.1 hp with rfl | hp
    · rw [hb.syncer]; rfl
    · obtain ⟨j, hj⟩ := mem_get hp
      have := hb.poor j p hj
      cases p <;> first | rfl | (cases this; done)
  · obtain ⟨j, hj⟩ := mem_get hp
    have := (hrun l s' hr).poor j p hj
    constructor <;> (rintro rfl; cases this)

/-- **C80 is false: the flusher forgets.**  A sync clears `dirty` although calls that have set it are still
waiting for their credit.  If all calls that have not returned wait for credit (or only sync or clean),
and `dirty` is not set, then they wait until somebody makes another call that writes; syncing does
not help. -/
theorem C80_flush_forgets {i t w : Nat} {k : Kind} (hsy : s.syncer = .done) (hd : s.dirty = false)
    (hi : s.tasks[i]? = some (.asleep k t w)) (hall : ∀ p ∈ s.tasks, p.still = true) :
    Hangs NoWrite s i := by
  intro l s' hl hr
  have h0 : Forgotten i s := ⟨hsy, hd, ⟨k, t, w, hi⟩, fun j p hj => hall p (get_mem hj)⟩
  exact (run_ind (Forgotten i) (fun s a s' hp ha hs => step_forgotten hp ha hs) l s s' h0 hl hr).me

/-! ## The states exist -/

theorem reach_run {ok : Call → Prop} : ∀ (l : List Act) {s s' : Sys}, Reach ok cap s →
    (∀ a ∈ l, ∀ c, a = .call c → ok c) → run s l = some s' → Reach ok cap s'
  | [], _, _, h, _, hr => by cases hr; exact h
  | a :: l, s, s', h, ha, hr => by
    simp only [run] at hr
    cases hs : step s a with
    | none => rw [hs] at hr; cases hr
    | some s₁ =>
      rw [hs] at hr
      exact reach_run l (.step a h (ha a List.mem_cons_self) hs)
        (fun b hb => ha b (List.mem_cons_of_mem _ hb)) hr

/-- A write to file system 1 that leaves 9 of 10 bytes dirty. -/
def write9 : List Act :=
  [.call (.write 1 10), .task 0 0 0, .task 0 0 0, .task 0 0 0, .task 0 0 0, .task 0 9 0]

/-- The file system is destroyed before the next flush. -/
def destroy9 : List Act := write9 ++
  [.call (.destroy 1 3), .task 1 0 0, .task 1 0 0, .task 1 0 0, .task 1 0 0, .task 1 0 0]

def destroyed : Sys :=
  ⟨10, 1, [⟨1, 9, false⟩], [1], true, .done, [.done, .asleep .destroy 1 3]⟩

theorem destroyed_reach : Reach (fun _ => True) 10 destroyed :=
  reach_run destroy9 .init (fun _ _ _ _ => trivial) (by rfl)

/-- Destroying the file system hangs. -/
theorem C80_destroy_example : Hangs (fun _ => True) destroyed 1 ∧ NeverSyncs destroyed := by
  refine C80_destroy_hangs destroyed_reach (t := 1) (w := 3) rfl rfl rfl (by decide) ?_
  intro j p hj hp
  match j, hj with
  | 0, _ => cases hp; intro h; cases h
  | 1, hj => exact absurd rfl hj
  | j + 2, _ => simp [destroyed] at hp

/-- Another file system is created before the next flush, and then it is time to sync. -/
def create9 : List Act := write9 ++
  [.call (.create 2 3), .task 1 0 0, .task 1 0 0, .task 1 0 0, .task 1 0 0, .sync]

def created : Sys :=
  ⟨10, 1, [⟨1, 9, true⟩, ⟨2, 0, true⟩], [1], false, .syncTxg, [.done, .asleep .create 2 3]⟩

theorem created_reach : Reach (fun _ => True) 10 created :=
  reach_run create9 .init (fun _ _ _ _ => trivial) (by rfl)

/-- Creating the file system hangs. -/
theorem C80_create_example : Hangs (fun _ => True) created 1 ∧ NeverSyncs created := by
  have h := C80_create_hangs created_reach (i := 1) (t := 2) (w := 3) (k := .create) rfl rfl
    (by decide) (by
      intro p hp k t c
      simp only [created, List.mem_cons, List.not_mem_nil, or_false] at hp
      rcases hp with rfl | rfl <;> exact ⟨(by intro h; cases h), (by intro h; cases h)⟩)
  exact ⟨h.1, h.2.1⟩

/-- While two more writes wait for credit, a sync writes out the first; the second then gets its
credit, and leaves too little for the third. -/
def forget : List Act := write9 ++
  [.call (.write 1 10), .call (.write 1 10), .task 1 0 0, .task 2 0 0, .task 1 0 0, .task 2 0 0,
    .sync, .syncer, .syncer, .syncer, .syncer, .task 1 0 0, .task 1 9 0]

def forgotten : Sys :=
  ⟨10, 1, [⟨1, 9, true⟩], [2], false, .done, [.done, .done, .asleep .write 1 10]⟩

theorem forgotten_reach : Reach (Ordinary 10) 10 forgotten := by
  refine reach_run forget .init (fun a ha c hc => ?_) (by rfl)
  subst hc
  simp only [forget, write9, List.cons_append, List.nil_append, List.mem_cons, List.not_mem_nil, or_false,
    Act.call.injEq, reduceCtorEq, false_or] at ha
  rcases ha with rfl | rfl | rfl <;> exact Nat.le_refl _

/-- The third write hangs. -/
theorem C80_flush_example : Hangs NoWrite forgotten 2 :=
  C80_flush_forgets (k := .write) (t := 1) (w := 10) rfl rfl rfl (by decide)

/-- The same if a user syncs, and not the syncer. -/
def forget' : List Act := write9 ++
  [.call (.write 1 10), .call (.write 1 10), .task 1 0 0, .task 2 0 0, .task 1 0 0, .task 2 0 0,
    .call .sync, .task 3 0 0, .task 3 0 0, .task 3 0 0, .task 3 0 0, .task 3 0 0, .task 1 0 0, .task 1 9 0]

example : ∃ s, run (init 10) forget' = some s ∧ s.tasks[2]? = some (.asleep .write 1 10) ∧
    Hangs NoWrite s 2 := by
  refine ⟨_, rfl, rfl, C80_flush_forgets (k := .write) (t := 1) (w := 10) rfl rfl rfl (by decide)⟩

def busyActs : List Act :=
  [.call (.write 1 10), .task 0 0 0, .task 0 0 0, .task 0 0 0, .task 0 0 0,
    .call (.write 2 7), .task 1 0 0, .task 1 0 0, .task 1 0 0, .sync, .call .sync,
    .call (.write 1 10), .task 3 0 0, .task 3 0 0]

/-- The hypotheses of `C80_progress_partial` are met while calls wait for credit and the syncer for the
lock. -/
example : ∃ s, Reach (Ordinary 10) 10 s ∧ s.dirty = true ∧ s.syncer = .syncTxg ∧
    s.tasks = [.work .write 1 10, .asleep .write 2 7, .syncStart, .asleep .write 1 10] := by
  refine ⟨_, reach_run busyActs .init (fun a ha c hc => ?_) rfl, rfl, rfl, rfl⟩
  subst hc
  simp only [busyActs, List.mem_cons, List.not_mem_nil, or_false,
    Act.call.injEq, reduceCtorEq, false_or] at ha
  rcases ha with rfl | rfl | rfl | rfl <;> simp [Ordinary]

end Verif.Progress
