import Verif.Conc.ScanExact
import Verif.Conc.Props

/-!
# C71, C85: the calls of the other tasks return once too
-/

namespace Verif.Conc

open Verif
open Verif.Tree (Limits)

variable {V : Type}

/-- Is this a call under the name `id`? -/
def Event.isCall (id : Nat) : Event V → Bool
  | .call id' _ => id' == id
  | .ret _ _ => false

/-- Is this the return of a call under the name `id`? -/
def Event.isRet (id : Nat) : Event V → Bool
  | .call _ _ => false
  | .ret id' _ => id' == id

/-- The events of the tasks that are not range queries. -/
def plainEvents (es : List (XEvent V)) : List (Event V) :=
  es.filterMap fun
    | .base e => some e
    | _ => none

/-- The calls under the name `id` that have not returned. -/
def Atomic.pending (id : Nat) (a : Atomic V) : Nat :=
  a.calls.countP (·.1 == id) + a.done.countP (·.1 == id)

theorem astep_pending {a a' : Atomic V} {es : List (Event V)} (h : AStep a es a') (id : Nat) :
    es.countP (Event.isRet id) + a'.pending id = es.countP (Event.isCall id) + a.pending id := by
  cases h <;> simp [Atomic.pending, List.countP_cons, Event.isRet, Event.isCall] <;> omega

theorem arun_pending {a a' : Atomic V} {es : List (Event V)} (h : ARun a es a') (id : Nat) :
    es.countP (Event.isRet id) + a'.pending id = es.countP (Event.isCall id) + a.pending id := by
  induction h with
  | nil => rfl
  | cons h1 _ ih =>
    have := astep_pending h1 id
    rw [List.countP_append, List.countP_append]
    omega

theorem plain_append (es es' : List (XEvent V)) :
    plainEvents (es ++ es') = plainEvents es ++ plainEvents es' := List.filterMap_append

theorem plain_base (es : List (Event V)) : plainEvents (es.map .base) = es := by
  induction es with
  | nil => rfl
  | cons e es ih => exact congrArg (e :: ·) ih

theorem xarun_plain {a a' : XAtomic V} {es : List (XEvent V)} (h : XARun a es a') :
    ARun a.atom (plainEvents es) a'.atom := by
  induction h with
  | nil => exact .nil _
  | cons h1 _ ih =>
    rw [plain_append]
    cases h1 with
    | base c h => rw [plain_base]; exact .cons h ih
    | scan => exact ih
    | chunk => exact ih

/-- No call returns twice or without having been made: under each name there are at most as many
returns as calls.  When no call waits and nobody holds a lock, there are as many.  By
`C71_every_call_returns` this state comes, once no new calls are made. -/
theorem C71_returns_match_calls {L : Limits} (hL : L.Ok) {seq : Bool} {s : Sys V}
    {es : List (Event V)} (hr : Run L seq Sys.empty es s) (id : Nat) :
    es.countP (Event.isRet id) ≤ es.countP (Event.isCall id) ∧
      (s.calls = [] → ¬ s.Busy → es.countP (Event.isRet id) = es.countP (Event.isCall id)) := by
  obtain ⟨a, h1, h2, h3⟩ := C71_linearizable hL hr
  have h4 := arun_pending h1 id
  have h0 : (⟨[], [], []⟩ : Atomic V).pending id = 0 := rfl
  refine ⟨by omega, fun hc hb => ?_⟩
  have h5 : a.pending id = 0 := by
    unfold Atomic.pending
    rw [h2, hc, (h3 hb).2]
    rfl
  omega

/-- It applies to the run of `demo_build`: the call 2 was made and has returned. -/
example : List.countP (Event.isRet 2) [(.call 0 (.insert 1 10) : Event Nat), .ret 0 (.value none),
      .call 1 (.insert 5 50), .ret 1 (.value none), .call 2 (.insert 3 30), .ret 2 (.value none)] = 1 :=
  ((C71_returns_match_calls demoL_ok demo_build 2).2 rfl
    (by
      simp only [Sys.Busy, busy, demoTree, fresh]
      rintro (h | h | ⟨x, hx, h | ⟨_, _, h⟩⟩)
      · exact h rfl
      · exact h rfl
      · rcases List.mem_cons.mp hx with rfl | hx
        · exact h rfl
        · cases List.mem_singleton.mp hx
          exact h rfl
      · exact h)).trans (by decide)

/-- The same for the calls of the other tasks while range queries run: once no new calls are made,
however the tasks go on, when no step is possible any more, every call has returned as often as it was
made.  By `C85_comes_to_rest_partial` that comes after a bounded number of steps.

Missing of the full property: schedules in which a query holds one of the two locks it waits for
(`try_join`, `mod.rs` 1239); the model takes both in one step. -/
theorem C85_other_calls_return_partial {L : Limits} (hL : L.Ok) {seq : Bool} {s : XSys V}
    {es : List (XEvent V)} (hr : XRun L seq XSys.empty es s) (id : Nat) :
    (plainEvents es).countP (Event.isRet id) ≤ (plainEvents es).countP (Event.isCall id) ∧
      ((∀ s', ¬ XFinish L seq 1 s s') →
        (plainEvents es).countP (Event.isRet id) = (plainEvents es).countP (Event.isCall id)) := by
  obtain ⟨a, h1, h2, h3⟩ := C85_chunk_atomic hL hr
  have h4 := arun_pending (xarun_plain h1) id
  have h0 : (⟨[], [], []⟩ : Atomic V).pending id = 0 := rfl
  simp only at h4
  refine ⟨by omega, fun hstop => ?_⟩
  obtain ⟨hc, hb⟩ := (C85_comes_to_rest_partial hL hr).2 0 s (.nil _) hstop
  have h5 : a.atom.pending id = 0 := by
    unfold Atomic.pending
    rw [h2, hc, (h3 hb).2]
    rfl
  omega

/-- In the run of `scan_demo` there are calls of other tasks, and each has returned. -/
example : 0 < (plainEvents scanEvents).length ∧
    (plainEvents scanEvents).countP (Event.isRet 1) ≤ (plainEvents scanEvents).countP (Event.isCall 1) ∧
    (plainEvents scanEvents).countP (Event.isCall 1) = 1 :=
  ⟨by decide, (C85_other_calls_return_partial demoL_ok scan_demo 1).1, by decide⟩

end Verif.Conc
