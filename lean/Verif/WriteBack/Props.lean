import Verif.WriteBack.Queued
import Verif.WriteBack.Spec

/-!
# C01, C02, C03: the writeback credit bank

The theorems quantify over every capacity, number of threads and schedule of
atomic steps (`run (init cap n) sched = some s`: `s` is reached by `sched`).
-/

namespace Verif.WriteBack

/-! ## C01 -/

/-- **C01** (conservation).  In every reachable state the credit owned by
callers, granted, tentatively subtracted, available, or lost with a dropped
future adds up to the capacity. -/
theorem C01_conservation (cap n : Nat) (sched : List Action) (s : St)
    (h : run (init cap n) sched = some s) :
    available s + lent s + granted s + inFlight s + s.leaked = 2 * cap := by
  have hi := inv_run (inv_init cap n) h
  have hm := hi.money
  have hc : s.capacity = 2 * cap := by
    have : ∀ (as : List Action) (s s' : St), run s as = some s' → Inv s → s'.capacity = s.capacity := by
      intro as
      induction as with
      | nil => intro s s' h _; simp [run] at h; rw [h]
      | cons a as ih =>
        intro s s' h hi
        simp only [run] at h
        cases h1 : step s a with
        | none => simp [h1] at h
        | some s1 =>
          simp [h1] at h
          rw [ih s1 s' h (inv_step hi h1)]
          clear h ih
          have hset : ∀ (s : St) i pc, (setPC s i pc).capacity = s.capacity := by
            intro s i pc; simp only [setPC]; split <;> rfl
          cases a with
          | step i =>
            simp only [step] at h1
            split at h1
            · simp at h1
            rename_i t ht
            revert h1
            cases t.pc <;> simp only [stepPC] <;> intro hs
            all_goals (try (simp at hs; done))
            all_goals (repeat' split at hs)
            all_goals first
              | (simp only [Option.some.injEq] at hs; subst hs; simp [hset])
              | simp at hs
          | repay i n =>
            simp only [step] at h1
            split at h1
            · simp at h1
            split at h1
            rotate_left
            · simp at h1
            split at h1 <;> (simp only [Option.some.injEq] at h1; subst h1; rfl)
          | _ =>
            simp only [step] at h1
            repeat' split at h1
            all_goals first
              | (simp only [Option.some.injEq] at h1; subst h1; simp [hset]; done)
              | simp at h1
    rw [this sched _ _ h (inv_init cap n)]
    simp [init]; omega
  rw [hc] at hm
  simp only [tsum, even] at hm
  simp only [available, lent, granted, inFlight]
  omega

/-- **C01** (never over-lent).  Whatever the schedule, and even if futures are
dropped, callers together never own more credit than the capacity, and nobody
owns a negative amount. -/
theorem C01_never_overlent (cap n : Nat) (sched : List Action) (s : St)
    (h : run (init cap n) sched = some s) :
    lent s + granted s ≤ 2 * cap ∧
    ∀ (i : Nat) (t : Thread), s.threads[i]? = some t → 0 ≤ t.held := by
  have hi := inv_run (inv_init cap n) h
  have hc := C01_conservation cap n sched s h
  have h1 := hi.solvent
  have h2 := hi.leak
  have h3 : tsum (fun t => res t.pc) s ≤ inFlight s := by
    simp only [tsum, inFlight]
    have : ∀ l : List Thread, (∀ t ∈ l, res t.pc ≤ tent t.pc) →
        (l.map fun t => res t.pc).sum ≤ (l.map fun t => tent t.pc).sum := by
      intro l
      induction l with
      | nil => simp
      | cons a l ih =>
        intro hl
        have := hl a (by simp)
        have := ih (fun t ht => hl t (by simp [ht]))
        simp; omega
    apply this
    intro t ht
    obtain ⟨i, hi', e⟩ := List.getElem_of_mem ht
    have hg : s.threads[i]? = some t := by simp [List.getElem?_eq_getElem hi', e]
    have := hi.tent_nonneg i t hg
    cases hp : t.pc <;> simp_all [res, tent]
  refine ⟨?_, fun i t ht => (hi.helds i t ht).1⟩
  simp only [available, even] at *
  omega

/-- **C01** (the debug assertion at writeback.rs:281 never fires). -/
theorem C01_assertion_holds (cap n : Nat) (sched : List Action) (s : St)
    (h : run (init cap n) sched = some s) :
    ∀ (i : Nat) (t : Thread), s.threads[i]? = some t → t.pc ≠ PC.panicked :=
  fun i t ht => ((inv_run (inv_init cap n) h).helds i t ht).2

/-- **C01** (restitution), partial: when no borrower dropped its future after
being granted credit, then once every caller has repaid and no method is in
progress, the whole capacity is available again.  Missing: schedules that drop
a granted future, for which it is false (`C01_dropped_future_leaks`). -/
theorem C01_full_when_repaid_partial (cap n : Nat) (sched : List Action) (s : St)
    (h : run (init cap n) sched = some s) (hnd : NoDrop sched)
    (hidle : ∀ (i : Nat) (t : Thread), s.threads[i]? = some t →
      t.held = 0 ∧ (t.pc = .idle ∨ ∃ w, t.pc = .sleeping w)) :
    available s = 2 * cap := by
  have hc := C01_conservation cap n sched s h
  have hl := leaked_run h hnd
  have hz : ∀ (f : Thread → Int), (∀ (i : Nat) (t : Thread), s.threads[i]? = some t → f t = 0) →
      (s.threads.map f).sum = 0 := by
    intro f
    generalize s.threads = l
    induction l with
    | nil => simp
    | cons a l ih =>
      intro hl
      have h0 := hl 0 a rfl
      have := ih (fun i t hi => hl (i+1) t hi)
      simp; omega
  have h1 : lent s = 0 := hz _ fun i t ht => (hidle i t ht).1
  have h2 : granted s = 0 := hz _ fun i t ht => by
    rcases (hidle i t ht).2 with e | ⟨w, e⟩ <;> simp [e, sent]
  have h3 : inFlight s = 0 := hz _ fun i t ht => by
    rcases (hidle i t ht).2 with e | ⟨w, e⟩ <;> simp [e, tent]
  have h4 : s.leaked = 0 := by rw [hl]; rfl
  omega

/-- The schedules of C01 are real: two threads contend for a bank of 10 bytes,
one has to sleep and is woken. -/
def exampleSched : List Action :=
  [.borrow 0 7, .step 0, .borrow 1 5, .step 1, .step 1, .step 1, .step 1, .step 1,
   .repay 0 7, .step 0, .step 0, .step 0, .step 0, .poll 1, .repay 1 5]

example : ∃ s, run (init 10 2) exampleSched = some s ∧ NoDrop exampleSched ∧
    (∀ (i : Nat) (t : Thread), s.threads[i]? = some t →
      t.held = 0 ∧ (t.pc = .idle ∨ ∃ w, t.pc = .sleeping w)) := by
  refine ⟨⟨20, 20, [], none, [⟨.idle, 0⟩, ⟨.idle, 0⟩], 0⟩, by decide, ?_, ?_⟩
  · simp [NoDrop, exampleSched]
  · intro i t ht
    match i, ht with
    | 0, ht => simp at ht; subst ht; simp
    | 1, ht => simp at ht; subst ht; simp
    | i + 2, ht => simp at ht

/-- Restitution fails in general: a future dropped between its grant and its
completion takes the credit with it.  Everybody has returned, yet only 5 of 10
bytes are available. -/
theorem C01_dropped_future_leaks :
    ∃ (sched : List Action) (s : St), run (init 10 2) sched = some s ∧
      (∀ t ∈ s.threads, t = ⟨.idle, 0⟩) ∧ available s = 2 * 5 := by
  refine ⟨[.borrow 0 7, .step 0, .borrow 1 5, .step 1, .step 1, .step 1, .step 1, .step 1,
    .repay 0 7, .step 0, .step 0, .step 0, .step 0, .dropWoken 1],
    ⟨20, 10, [], none, [⟨.idle, 0⟩, ⟨.idle, 0⟩], 10⟩, by decide, by decide, by decide⟩

/-! ## C02 -/

/-- **C02**, partial: if methods do not overlap (each `borrow` or `repay` runs
to its next suspension point before another one starts), then whenever a
thread waits, either somebody owns or has been granted credit, or a granted
future was dropped.  In particular when everybody has repaid, nobody waits.
Missing: overlapping methods, for which it is false (`C02_deadlock`). -/
theorem C02_waits_only_while_lent_partial (cap n : Nat) (sched : List Action) (s : St)
    (h : serialRun (init cap n) sched = some s) (hnd : NoDrop sched) (hq : Quiescent s)
    (i : Nat) (bytes : Int) (hw : Waiting s i bytes) :
    0 < lent s + granted s := by
  have hS := sinv_run (sinv_init cap n) h
  have hQ := queued_serialRun (sinv_init cap n) (queued_init cap n) h
  obtain ⟨t, ht, hp⟩ := hw
  obtain ⟨x, hx, _⟩ := hQ i t _ ht (by rw [hp]; rfl)
  obtain ⟨y, q, e⟩ : ∃ y q, s.sleepers = y :: q := by
    cases hs : s.sleepers with
    | nil => rw [hs] at hx; simp at hx
    | cons y q => exact ⟨y, q, rfl⟩
  have hr := hS.rest hq
  have hlt := hr.2 y q e
  have hya := hS.inv.qamts y (by simp [e])
  have hm := hS.inv.money
  have hl := leaked_run (serialRun_run h) hnd
  have hl0 : s.leaked = 0 := by rw [hl]; rfl
  have htent : tsum (fun t => tent t.pc) s = 0 := by
    have hz : ∀ l : List Thread, (∀ t ∈ l, tent t.pc = 0) → (l.map fun t => tent t.pc).sum = 0 := by
      intro l
      induction l with
      | nil => simp
      | cons a l ih =>
        intro hl
        have := hl a (by simp)
        have := ih (fun t ht => hl t (by simp [ht]))
        simp; omega
    apply hz
    intro u hu
    obtain ⟨j, hj, e'⟩ := List.getElem_of_mem hu
    have := hq j u (by simp [List.getElem?_eq_getElem hj, e'])
    cases hp' : u.pc <;> simp_all [PC.active, tent]
  simp only [tsum, even] at hm htent
  simp only [lent, granted]
  omega

/-- **C02**, partial: in the same executions a front-of-queue borrower that
still waits could not be served from the available credit. -/
theorem C02_front_waits_only_if_short_partial (cap n : Nat) (sched : List Action) (s : St)
    (h : serialRun (init cap n) sched = some s) (hq : Quiescent s)
    (x : Sleeper) (q : List Sleeper) (hf : s.sleepers = x :: q) :
    available s < x.wants := by
  have hS := sinv_run (sinv_init cap n) h
  have := (hS.rest hq).2 x q hf
  have := (hS.inv.qamts x (by simp [hf])).2.1
  simp only [available]; omega

/-- Non-vacuity: a serial execution in which a thread waits and another thread
holds credit. -/
example : ∃ s, serialRun (init 10 2) (exampleSched.take 8) = some s ∧
    NoDrop (exampleSched.take 8) ∧ Quiescent s ∧ Waiting s 1 5 ∧
    ∃ x q, s.sleepers = x :: q := by
  refine ⟨⟨20, 7, [⟨1, 10, true⟩], none, [⟨.idle, 14⟩, ⟨.sleeping 10, 0⟩], 0⟩,
    by decide, by simp [NoDrop, exampleSched], ?_, ⟨_, rfl, rfl⟩, ⟨_, _, rfl⟩⟩
  intro i t ht
  match i, ht with
  | 0, ht => simp at ht; subst ht; rfl
  | 1, ht => simp at ht; subst ht; rfl
  | i + 2, ht => simp at ht

/-- **C02 is false of the code.**  A `repay` that lands between a borrower's
`fetch_add` (writeback.rs:246) and its `fetch_or` (255) is not noticed: the
borrower goes to sleep with the full supply available, all credit repaid.  And
from there no schedule ever gives credit to anyone again. -/
theorem C02_deadlock :
    ∃ (sched : List Action) (s : St), run (init 10 2) sched = some s ∧
      Quiescent s ∧ Waiting s 1 1 ∧ available s = 2 * 10 ∧ lent s + granted s = 0 ∧
      ∀ (more : List Action) (s' : St), run s more = some s' → lent s' + granted s' = 0 := by
  refine ⟨[.borrow 0 10, .step 0, .borrow 1 1, .step 1, .step 1, .step 1, .repay 0 10,
    .step 1, .step 1],
    ⟨20, 21, [⟨1, 2, true⟩], none, [⟨.idle, 0⟩, ⟨.sleeping 2, 0⟩], 0⟩,
    by decide, ?_, ⟨_, rfl, rfl⟩, by decide, by decide, ?_⟩
  · intro i t ht
    match i, ht with
    | 0, ht => simp at ht; subst ht; rfl
    | 1, ht => simp at ht; subst ht; rfl
    | i + 2, ht => simp at ht
  · intro more s' hrun
    have hI : Inv ⟨20, 21, [⟨1, 2, true⟩], none, [⟨.idle, 0⟩, ⟨.sleeping 2, 0⟩], 0⟩ :=
      inv_run (inv_init 10 2) (as := [.borrow 0 10, .step 0, .borrow 1 1, .step 1, .step 1,
        .step 1, .repay 0 10, .step 1, .step 1]) (by decide)
    have hD : Dead ⟨20, 21, [⟨1, 2, true⟩], none, [⟨.idle, 0⟩, ⟨.sleeping 2, 0⟩], 0⟩ := by
      refine ⟨by decide, hI, ?_⟩
      intro i t ht
      match i, ht with
      | 0, ht => simp at ht; subst ht; decide
      | 1, ht => simp at ht; subst ht; decide
      | i + 2, ht => simp at ht
    have hD' := dead_run hD hrun
    have hz : ∀ (l : List Thread), (∀ (i : Nat) (t : Thread), l[i]? = some t → t.held = 0 ∧ t.pc.quiet = true) →
        (l.map (·.held)).sum = 0 ∧ (l.map fun t => sent t.pc).sum = 0 := by
      intro l
      induction l with
      | nil => simp
      | cons a l ih =>
        intro hl
        have h0 := hl 0 a rfl
        have h1 := ih (fun i t hi => hl (i+1) t hi)
        have : sent a.pc = 0 := by
          cases hp : a.pc <;> simp_all [PC.quiet, sent]
        simp; omega
    have := hz s'.threads hD'.quiet
    simp only [lent, granted]; omega

/-- A second lost wake-up, without a repay inside the critical section: the
first borrower's tentative subtraction hides the repaid credit from the second
one.  Both end up asleep with the whole supply available. -/
theorem C02_deadlock_two_borrowers :
    ∃ (sched : List Action) (s : St), run (init 10 3) sched = some s ∧
      Waiting s 1 6 ∧ Waiting s 2 5 ∧ available s = 2 * 10 ∧ lent s + granted s = 0 := by
  refine ⟨[.borrow 0 5, .step 0, .borrow 1 6, .step 1, .repay 0 5,
    .borrow 2 5, .step 2, .step 2, .step 2, .step 2, .step 2,
    .step 1, .step 1, .step 1, .step 1, .step 1, .step 1, .step 1],
    ⟨20, 21, [⟨2, 10, true⟩, ⟨1, 12, true⟩], none,
      [⟨.idle, 0⟩, ⟨.sleeping 12, 0⟩, ⟨.sleeping 10, 0⟩], 0⟩,
    by decide, ⟨_, rfl, rfl⟩, ⟨_, rfl, rfl⟩, by decide, by decide⟩

/-! ## C03 -/

/-- **C03** (nothing is lost).  Any sequence of split, atomic_split, halve,
take and extend leaves the total credit unchanged. -/
theorem C03_total_preserved (ops : List CreditOp) (cs : List Int) :
    (ops.foldl applyOp cs).sum = cs.sum := by
  have hset : ∀ (l : List Int) (i : Nat) (x y : Int), l[i]? = some x →
      (l.set i y).sum = l.sum - x + y := by
    intro l i x y h
    have := sum_set (fun z : Int => z) l i x y h
    simpa using this
  have hstep : ∀ (cs : List Int) (op : CreditOp), (applyOp cs op).sum = cs.sum := by
    intro cs op
    cases op with
    | split i c =>
      simp only [applyOp]; split
      · rfl
      · rename_i x hx; rw [List.sum_append, hset _ _ _ _ hx]; simp [split, isplit]; omega
    | atomicSplit i c =>
      simp only [applyOp]; split
      · rfl
      · rename_i x hx; rw [List.sum_append, hset _ _ _ _ hx]; simp [atomicSplit]; omega
    | halve i =>
      simp only [applyOp]; split
      · rfl
      · rename_i x hx; rw [List.sum_append, hset _ _ _ _ hx]; simp [halve, isplit]; omega
    | take i =>
      simp only [applyOp]; split
      · rfl
      · rename_i x hx; rw [List.sum_append, hset _ _ _ _ hx]; simp [take, isplit]; omega
    | extend i j =>
      simp only [applyOp]; split
      · rfl
      · rename_i hij
        split
        · rename_i x y hx hy
          have hy' : (cs.set i (extend x y))[j]? = some y := by
            rw [get_set _ _ _ _ _ hx, if_neg hij]; exact hy
          rw [hset _ _ _ _ hy', hset _ _ _ _ hx]; simp [extend]; omega
        · rfl
  induction ops generalizing cs with
  | nil => rfl
  | cons op ops ih => rw [List.foldl_cons, ih, hstep]

/-- **C03** (no counterfeit).  Starting from whole-byte, non-negative credits,
every credit any such program ever produces is a whole, non-negative number of
bytes. -/
theorem C03_never_negative (ops : List CreditOp) (cs : List Int)
    (h : ∀ c ∈ cs, 0 ≤ c ∧ c % 2 = 0) :
    ∀ c ∈ ops.foldl applyOp cs, 0 ≤ c ∧ c % 2 = 0 := by
  have hget : ∀ (l : List Int) (i : Nat) (x : Int), (∀ c ∈ l, 0 ≤ c ∧ c % 2 = 0) →
      l[i]? = some x → 0 ≤ x ∧ x % 2 = 0 :=
    fun l i x hl hx => hl x (List.mem_of_getElem? hx)
  have hset : ∀ (l : List Int) (i : Nat) (y z : Int), (∀ c ∈ l, 0 ≤ c ∧ c % 2 = 0) →
      (0 ≤ y ∧ y % 2 = 0) → (0 ≤ z ∧ z % 2 = 0) →
      ∀ c ∈ l.set i y ++ [z], 0 ≤ c ∧ c % 2 = 0 := by
    intro l i y z hl hy hz c hc
    rw [List.mem_append] at hc
    rcases hc with hc | hc
    · rcases List.mem_or_eq_of_mem_set hc with hc | rfl
      · exact hl c hc
      · exact hy
    · simp at hc; subst hc; exact hz
  have hstep : ∀ (cs : List Int) (op : CreditOp), (∀ c ∈ cs, 0 ≤ c ∧ c % 2 = 0) →
      ∀ c ∈ applyOp cs op, 0 ≤ c ∧ c % 2 = 0 := by
    intro cs op hcs
    cases op with
    | split i c =>
      simp only [applyOp]; split
      · exact hcs
      · rename_i x hx
        have := hget _ _ _ hcs hx
        apply hset _ _ _ _ hcs <;> simp [split, isplit] <;> omega
    | atomicSplit i c =>
      simp only [applyOp]; split
      · exact hcs
      · rename_i x hx
        have := hget _ _ _ hcs hx
        apply hset _ _ _ _ hcs <;> simp [atomicSplit] <;> omega
    | halve i =>
      simp only [applyOp]; split
      · exact hcs
      · rename_i x hx
        have := hget _ _ _ hcs hx
        apply hset _ _ _ _ hcs <;> simp [halve, isplit] <;> omega
    | take i =>
      simp only [applyOp]; split
      · exact hcs
      · rename_i x hx
        have := hget _ _ _ hcs hx
        apply hset _ _ _ _ hcs <;> simp [take, isplit] <;> omega
    | extend i j =>
      simp only [applyOp]; split
      · exact hcs
      · split
        · rename_i x y hx hy
          have h1 := hget _ _ _ hcs hx
          have h2 := hget _ _ _ hcs hy
          intro c hc
          rcases List.mem_or_eq_of_mem_set hc with hc | rfl
          · rcases List.mem_or_eq_of_mem_set hc with hc | rfl
            · exact hcs c hc
            · simp only [extend]; omega
          · simp
        · exact hcs
  induction ops generalizing cs with
  | nil => exact h
  | cons op ops ih => exact ih _ (hstep cs op h)

/-- **C03** (amounts).  For a credit of `b` bytes: `split` and `atomic_split`
by `c` bytes take exactly `min c b` bytes, `halve` takes half (rounded down),
`take` takes everything; each leaves the rest behind. -/
theorem C03_amounts (b c : Nat) :
    split (2 * b : Nat) c = (((2 * (b - c) : Nat) : Int), ((2 * min c b : Nat) : Int)) ∧
    atomicSplit (2 * b : Nat) c = (((2 * (b - c) : Nat) : Int), ((2 * min c b : Nat) : Int)) ∧
    halve (2 * b : Nat) = (((2 * (b - b / 2) : Nat) : Int), ((2 * (b / 2) : Nat) : Int)) ∧
    take (2 * b : Nat) = (0, ((2 * b : Nat) : Int)) := by
  refine ⟨?_, ?_, ?_, ?_⟩ <;>
    simp only [split, atomicSplit, halve, take, isplit, Prod.mk.injEq] <;> omega

/-- Non-vacuity: three credits of 5, 0 and 3 bytes and a mixed program. -/
example : (∀ c ∈ [10, 0, 6], (0 : Int) ≤ c ∧ c % 2 = 0) ∧
    [CreditOp.split 0 2, .halve 0, .extend 1 2, .atomicSplit 1 9, .take 3].foldl applyOp [10, 0, 6]
      = [4, 0, 0, 0, 2, 6, 4] := by decide

end Verif.WriteBack
