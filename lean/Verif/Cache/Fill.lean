import Verif.Cache.Spec

/-!
# Model of `get_or_insert!`: `bfffs-core/src/cache/mod.rs:208-248`

Tasks are numbered in the order in which they call the macro.  An event is a
section executed under the cache's mutex, or the outcome of an I/O.
-/

namespace Verif.Cache.Fill

variable {K V : Type} [DecidableEq K] [DecidableEq V]

/-- What has become of a call of `get_or_insert!`. -/
inductive Task (K V : Type) where
  /-- its I/O, `$f`, is running -/
  | filling (k : K)
  /-- it awaits `rx`; the flag tells whether a message has been sent -/
  | waiting (k : K) (signalled : Bool)
  /-- it has returned `Ok` -/
  | ok (v : V)
  /-- it has returned `Err` -/
  | failed
  | panicked
  | dropped
  deriving DecidableEq, Repr

structure State (K V : Type) where
  cache : Lru K V
  /-- `pending_insertions`; the senders are represented by their tasks -/
  pending : HMap K (List Nat)
  tasks : List (Task K V)
  deriving DecidableEq, Repr

inductive Event (K V : Type) where
  /-- a task calls the macro -/
  | start (k : K)
  /-- the I/O of a task succeeds -/
  | fillOk (t : Nat) (v : V)
  /-- the I/O of a task fails -/
  | fillErr (t : Nat)
  /-- a task that has been sent a message runs -/
  | poll (t : Nat)
  /-- a task is cancelled -/
  | drop (t : Nat)
  /-- anybody else uses the cache -/
  | other (o : Spec.Op K V)

/-- `for s in v.into_iter() { s.send(()).unwrap() }`, 239-241: messages go out in
order; sending to a dropped task panics. -/
def signal : List Nat → List (Task K V) → List (Task K V) × Bool
  | [], ts => (ts, true)
  | w :: ws, ts =>
    match ts[w]? with
    | some (.waiting k _) => signal ws (ts.set w (.waiting k true))
    | _ => (ts, false)

/-- One event; `none` if it cannot happen in this state. -/
def step (sz : V → Nat) (s : State K V) : Event K V → Option (State K V)
  | .start k =>
    -- 213-216
    match get s.cache k with
    | none => none
    | some (c, some v) => some { s with cache := c, tasks := s.tasks ++ [.ok v] }
    | some (c, none) =>
      match HMap.get s.pending k with
      -- 217-227
      | some ws => some ⟨c, HMap.put s.pending k (ws ++ [s.tasks.length]), s.tasks ++ [.waiting k false]⟩
      -- 228-231
      | none => some ⟨c, HMap.put s.pending k [], s.tasks ++ [.filling k]⟩
  | .fillOk t v =>
    match s.tasks[t]? with
    | some (.filling k) =>
      -- 234-244
      match insert sz s.cache k v with
      | none => some { s with tasks := s.tasks.set t .panicked }
      | some c =>
        match HMap.get s.pending k with
        | some ws =>
          match signal ws s.tasks with
          | (ts, true) => some ⟨c, HMap.erase s.pending k, ts.set t (.ok v)⟩
          | (ts, false) => some ⟨c, HMap.erase s.pending k, ts.set t .panicked⟩
        | none => some ⟨c, s.pending, s.tasks.set t (.ok v)⟩
    | _ => none
  | .fillErr t =>
    -- `map_ok` passes an error through without calling the closure
    match s.tasks[t]? with
    | some (.filling _) => some { s with tasks := s.tasks.set t .failed }
    | _ => none
  | .poll t =>
    match s.tasks[t]? with
    | some (.waiting k true) =>
      -- 222-225
      match get s.cache k with
      | none => none
      | some (c, some v) => some { s with cache := c, tasks := s.tasks.set t (.ok v) }
      | some (c, none) => some { s with cache := c, tasks := s.tasks.set t .panicked }
    | _ => none
  | .drop t =>
    match s.tasks[t]? with
    | some (.filling _) | some (.waiting _ _) => some { s with tasks := s.tasks.set t .dropped }
    | _ => none
  | .other o =>
    match Cache.step sz s.cache o with
    | none => none
    | some (c, _) => some { s with cache := c }

def run (sz : V → Nat) : State K V → List (Event K V) → Option (State K V)
  | s, [] => some s
  | s, e :: es =>
    match step sz s e with
    | none => none
    | some s => run sz s es

def init (cap : Nat) : State K V := ⟨withCapacity cap, [], []⟩

/-- Some task has an I/O for `k` in progress. -/
def ioRunning (s : State K V) (k : K) : Prop := Task.filling k ∈ s.tasks

end Verif.Cache.Fill
