/-!
# Model of `bfffs-core/src/writeback/writeback.rs`

Two parts: the arithmetic of `Credit`, and the `WriteBack` bank as a
transition system with one transition per atomic instruction (or per critical
section step), for any number of threads.

All amounts are in the code's doubled representation: the stored integer is
twice the number of bytes (writeback.rs:28), and bit 0 of `supply` is the
"there are sleepers" flag (writeback.rs:185).
-/

namespace Verif.WriteBack

/-! ## Credit (writeback.rs:32-110)

A `Credit` is its inner integer.  Each function returns
`(new self, returned credit)`.  `isize` is modelled by `Int` (no overflow);
`x >> k` on `isize` is the arithmetic shift, i.e. floor division by `2^k`,
which is `Int`'s `/` for a positive divisor. -/

/-- `Credit::isplit`, writeback.rs:95-100. -/
def isplit (self c : Int) : Int × Int :=
  let new := self - c * 2
  (new, self - new)

/-- `Credit::split`, writeback.rs:83-89. -/
def split (self : Int) (c : Nat) : Int × Int :=
  isplit self (min (c : Int) (self / 2))

/-- `Credit::halve`, writeback.rs:64-67. -/
def halve (self : Int) : Int × Int :=
  isplit self (self / 4)

/-- `Credit::take`, writeback.rs:106-109. -/
def take (self : Int) : Int × Int :=
  isplit self (self / 2)

/-- `Credit::extend`, writeback.rs:49-52; `other` is consumed. -/
def extend (self other : Int) : Int := self + other

/-- `Credit::atomic_split`, writeback.rs:38-47.  The `try_update` loop is one
atomic read-modify-write. -/
def atomicSplit (self : Int) (c : Nat) : Int × Int :=
  (max (self - (c : Int) * 2) 0, min ((c : Int) * 2) self)

/-- The operations a program can apply to its collection of `Credit` objects.
Indices name the objects. -/
inductive CreditOp where
  | split (i : Nat) (c : Nat)
  | atomicSplit (i : Nat) (c : Nat)
  | halve (i : Nat)
  | take (i : Nat)
  /-- `credits[i].extend(credits[j])`; object `j` is consumed. -/
  | extend (i j : Nat)
  deriving Repr

/-- Apply one operation to the program's collection of credits.  A newly
created credit is appended; the object consumed by `extend` is left as a null
credit.  Operations on missing objects (not expressible in Rust) do nothing. -/
def applyOp (cs : List Int) : CreditOp → List Int
  | .split i c =>
    match cs[i]? with
    | none => cs
    | some x => (cs.set i (split x c).1) ++ [(split x c).2]
  | .atomicSplit i c =>
    match cs[i]? with
    | none => cs
    | some x => (cs.set i (atomicSplit x c).1) ++ [(atomicSplit x c).2]
  | .halve i =>
    match cs[i]? with
    | none => cs
    | some x => (cs.set i (halve x).1) ++ [(halve x).2]
  | .take i =>
    match cs[i]? with
    | none => cs
    | some x => (cs.set i (take x).1) ++ [(take x).2]
  | .extend i j =>
    if i = j then cs else
    match cs[i]?, cs[j]? with
    | some x, some y => (cs.set i (extend x y)).set j 0
    | _, _ => cs

/-! ## WriteBack (writeback.rs:170-299) -/

/-- Where a thread is inside `borrow`, `repay` or `awaken`. -/
inductive PC where
  /-- not inside any WriteBack method -/
  | idle
  /-- top of `borrow`'s loop, writeback.rs:226; `w = size << 1` -/
  | borrowTry (w : Int)
  /-- `borrow` took the slow path after line 232 and wants the mutex (238) -/
  | borrowFailed (w old : Int)
  /-- `borrow` holds the mutex, before line 246 -/
  | borrowLocked (w old : Int)
  /-- holds the mutex; line 246-247 found no race; before line 254 -/
  | borrowAdded (w : Int)
  /-- holds the mutex; pushed itself on the queue; before line 255 -/
  | borrowQueued (w : Int)
  /-- waiting on the oneshot channel, line 256 -/
  | sleeping (w : Int)
  /-- the oneshot has been sent but the future not yet polled -/
  | woken (w : Int)
  /-- `repay` saw the flag (283) and wants the mutex (194) -/
  | repayWake
  /-- holds the mutex, top of `awaken`'s loop, line 195 -/
  | awakening
  /-- holds the mutex; line 198 found too little supply; before line 200 -/
  | awakeShort (w : Int)
  /-- holds the mutex; line 198 found enough supply; before line 203 -/
  | awakeGot (w : Int)
  /-- holds the mutex; `send` failed (205); before line 207 -/
  | awakeRefund (w : Int)
  /-- a failed `debug_assert!` (line 281) -/
  | panicked
  deriving DecidableEq, Repr

/-- `Sleeper`, writeback.rs:171-175.  `tid` stands for the receiving end of the
oneshot channel; `alive` is false once the receiver was dropped. -/
structure Sleeper where
  tid : Nat
  wants : Int
  alive : Bool
  deriving DecidableEq, Repr

structure Thread where
  pc : PC
  /-- credit owned by this thread (sum of its `Credit` objects, doubled) -/
  held : Int
  deriving DecidableEq, Repr

/-- `WriteBack`, writeback.rs:181-189, plus the threads using it.  `leaked` is
ghost state: credit that was sent to a future dropped before being polled. -/
structure St where
  capacity : Int
  supply : Int
  sleepers : List Sleeper
  lock : Option Nat
  threads : List Thread
  leaked : Int
  deriving DecidableEq, Repr

/-- `WriteBack::with_capacity`, writeback.rs:291-298, and `n` threads. -/
def init (cap n : Nat) : St where
  capacity := (cap : Int) * 2
  supply := (cap : Int) * 2
  sleepers := []
  lock := none
  threads := List.replicate n ⟨.idle, 0⟩
  leaked := 0

/-- What the scheduler may do next. -/
inductive Action where
  /-- thread `i` calls `borrow(size)` (line 219) -/
  | borrow (i : Nat) (size : Nat)
  /-- thread `i` calls `repay` with (doubled) credit `2*bytes` (line 274) -/
  | repay (i : Nat) (bytes : Nat)
  /-- thread `i` executes its next atomic step -/
  | step (i : Nat)
  /-- thread `i` drops the future it is sleeping on -/
  | cancel (i : Nat)
  /-- thread `i` polls its future after the oneshot was sent -/
  | poll (i : Nat)
  /-- thread `i` drops its future after the oneshot was sent, unpolled -/
  | dropWoken (i : Nat)
  /-- thread `i` hands some of its credit to thread `j` -/
  | give (i j : Nat) (bytes : Nat)
  deriving Repr

/-- Replace thread `i`'s program counter. -/
def setPC (s : St) (i : Nat) (pc : PC) : St :=
  match s.threads[i]? with
  | none => s
  | some t => { s with threads := s.threads.set i { t with pc := pc } }

/-- Mark the live queue entry of thread `i` as abandoned. -/
def abandon (i : Nat) (q : List Sleeper) : List Sleeper :=
  q.map fun x => if x.tid = i then { x with alive := false } else x

/-- `supply.fetch_or(1)`, line 255. -/
def orFlag (x : Int) : Int := if x % 2 = 1 then x else x + 1
/-- `supply.fetch_and(!1)`, line 212. -/
def clearFlag (x : Int) : Int := x - x % 2

/-- One atomic step of thread `i` at program counter `pc`, in state `s`.
`none`: the step is not enabled (blocked on the mutex, or waiting). -/
def stepPC (s : St) (i : Nat) : PC → Option St
  -- lines 231-232 and 258-259
  | .borrowTry w =>
    let old := s.supply
    let s' := { s with supply := s.supply - w }
    if old < w ∨ old % 2 = 1 then
      some (setPC s' i (.borrowFailed w old))
    else
      match s.threads[i]? with
      | none => none
      | some t =>
        some { s' with threads := s'.threads.set i ⟨.idle, t.held + w⟩ }
  -- line 238
  | .borrowFailed w old =>
    if s.lock = none then some (setPC { s with lock := some i } i (.borrowLocked w old))
    else none
  -- lines 246-250
  | .borrowLocked w old =>
    let locked := s.supply
    let s' := { s with supply := s.supply + w }
    if locked ≠ old - w then
      some (setPC { s' with lock := none } i (.borrowTry w))
    else
      some (setPC s' i (.borrowAdded w))
  -- line 254
  | .borrowAdded w =>
    some (setPC { s with sleepers := s.sleepers ++ [⟨i, w, true⟩] } i (.borrowQueued w))
  -- lines 255-256 (and the guard is dropped)
  | .borrowQueued w =>
    some (setPC { s with supply := orFlag s.supply, lock := none } i (.sleeping w))
  -- line 194
  | .repayWake =>
    if s.lock = none then some (setPC { s with lock := some i } i .awakening) else none
  -- lines 196-198 and 210-213
  | .awakening =>
    match s.sleepers with
    | [] => some (setPC { s with supply := clearFlag s.supply, lock := none } i .idle)
    | x :: _ =>
      let s' := { s with supply := s.supply - x.wants }
      if s.supply < x.wants then some (setPC s' i (.awakeShort x.wants))
      else some (setPC s' i (.awakeGot x.wants))
  -- lines 200-201
  | .awakeShort w =>
    some (setPC { s with supply := s.supply + w, lock := none } i .idle)
  -- lines 203-205
  | .awakeGot w =>
    match s.sleepers with
    | [] => none
    | x :: q =>
      if x.alive then
        some (setPC (setPC { s with sleepers := q } x.tid (.woken x.wants)) i .awakening)
      else
        some (setPC { s with sleepers := q } i (.awakeRefund w))
  -- line 207
  | .awakeRefund w =>
    some (setPC { s with supply := s.supply + w } i .awakening)
  | .idle => none
  | .sleeping _ => none
  | .woken _ => none
  | .panicked => none

/-- The transition function.  `none`: the action is not possible in `s`. -/
def step (s : St) : Action → Option St
  -- line 222-224; a request beyond the capacity is a caller bug (debug_assert)
  | .borrow i size =>
    match s.threads[i]? with
    | none => none
    | some t =>
      if t.pc = .idle ∧ (size : Int) * 2 ≤ s.capacity then
        some (setPC s i (.borrowTry ((size : Int) * 2)))
      else none
  -- lines 274-286; a thread can only repay credit that it owns
  | .repay i bytes =>
    match s.threads[i]? with
    | none => none
    | some t =>
      let c := (bytes : Int) * 2
      if t.pc = .idle ∧ c ≤ t.held then
        if c = 0 then some s
        else
          let old := s.supply
          let pc := if ¬ (s.capacity ≥ (old - old % 2) + c) then PC.panicked
                    else if old % 2 = 1 then .repayWake else .idle
          some { s with supply := s.supply + c,
                        threads := s.threads.set i ⟨pc, t.held - c⟩ }
      else none
  | .step i =>
    match s.threads[i]? with
    | none => none
    | some t => stepPC s i t.pc
  | .cancel i =>
    match s.threads[i]? with
    | none => none
    | some t =>
      match t.pc with
      | .sleeping _ => some (setPC { s with sleepers := abandon i s.sleepers } i .idle)
      | _ => none
  | .poll i =>
    match s.threads[i]? with
    | none => none
    | some t =>
      match t.pc with
      | .woken w => some { s with threads := s.threads.set i ⟨.idle, t.held + w⟩ }
      | _ => none
  | .dropWoken i =>
    match s.threads[i]? with
    | none => none
    | some t =>
      match t.pc with
      | .woken w => some { setPC s i .idle with leaked := s.leaked + w }
      | _ => none
  | .give i j bytes =>
    if i = j then none else
    match s.threads[i]?, s.threads[j]? with
    | some t, some u =>
      let c := (bytes : Int) * 2
      if t.pc = .idle ∧ u.pc = .idle ∧ c ≤ t.held then
        some { s with threads := (s.threads.set i { t with held := t.held - c }).set j
                                   { u with held := u.held + c } }
      else none
    | _, _ => none

/-- Run a whole schedule. -/
def run (s : St) : List Action → Option St
  | [] => some s
  | a :: as => (step s a).bind (run · as)

/-- A thread that is in the middle of a WriteBack method (as opposed to being
outside, waiting for a wake-up, or having been woken). -/
def PC.active : PC → Bool
  | .idle | .sleeping _ | .woken _ => false
  | _ => true

/-- Which thread performs an action. -/
def Action.tid : Action → Nat
  | .borrow i _ | .repay i _ | .step i | .cancel i | .poll i | .dropWoken i | .give i _ _ => i

/-- The serial restriction of the system: a thread only acts when no *other*
thread is in the middle of a method.  (What the code would do if each method
body were one critical section.) -/
def serialStep (s : St) (a : Action) : Option St :=
  if (s.threads.zipIdx.all fun (t, i) => i == a.tid || !t.pc.active) then step s a else none

def serialRun (s : St) : List Action → Option St
  | [] => some s
  | a :: as => (serialStep s a).bind (serialRun · as)

end Verif.WriteBack
