/-!
# Calls, the syncer, the transaction lock and the writeback credit

Models `bfffs-core/src/database/database.rs`: `Inner::fswrite` (242-272),
`Inner::open_filesystem` (223-239), `Inner::new_filesystem` (204-220),
`Inner::destroy_fs` (162-195), `Database::create_fs` (491-573), `Database::flush` (442-461),
`Database::sync_transaction_priv` (720-770) and the loop of `Syncer::run` (82-129), as tasks that
wait for the transaction lock (`IDML::txg`, `IDML::advance_transaction`, idml/idml.rs 470-486), for
the lock on `fs_trees`, and for credit (`writeback/writeback.rs`).

Simplifications:
* `futures_locks::RwLock` (not in the repository) lets a reader in whenever no writer has the lock,
  and a writer when nobody has it; who of several goes first is left open.
* Credit is counted in bytes, not in half bytes, and the bank works in one step: the steps inside
  `borrow` and `repay` are the subject of WriteBack (C01, C02).
* What a call does to the trees is one step, which moves any part of its credit into dirty leaves
  of its tree and frees any part of what the tree has, as proved of single operations in TreeCredit
  (C73).  A flush writes all dirty leaves of a tree in one step.
* The forest has trees of its own, which need no credit; its operations always succeed, and are
  part of the step before them.
* `sync_transaction` also sends a message to the syncer, which is left out.
-/

namespace Verif.Progress

/-- Which function of `Database` a task that needs credit executes. -/
inductive Kind where
  /-- `fswrite`, by any file system call -/
  | write
  /-- `create_fs`, which calls `fswrite` -/
  | create
  /-- `destroy_fs` -/
  | destroy
  deriving DecidableEq, Repr

/-- Where a task stands.  `t` is a tree id, `w` the credit it asks for, `c` the credit it has. -/
inductive PC where
  /-- a call that has returned; the syncer between two rounds -/
  | done
  /-- `create_fs` wants the transaction lock for reading (database.rs 506) -/
  | createTxg (t w : Nat)
  /-- `open_filesystem` wants to read `fs_trees` (228) -/
  | opening (k : Kind) (t w : Nat)
  /-- `new_filesystem` wants to write `fs_trees` (214) -/
  | installing (k : Kind) (t w : Nat)
  /-- `destroy_fs` wants the transaction lock for reading (178) -/
  | destroyTxg (t w : Nat)
  /-- `destroy_fs` wants to write `fs_trees` (181) -/
  | unlinking (t w : Nat)
  /-- `destroy_fs` has both, and removes the tree from the forest (182) -/
  | unlinked (t w : Nat)
  /-- about to call `borrow_credit` (188 and 258) -/
  | borrowing (k : Kind) (t w : Nat)
  /-- waiting for credit (the same) -/
  | asleep (k : Kind) (t w : Nat)
  /-- `fswrite` has credit and wants the transaction lock for reading (265) -/
  | txg (k : Kind) (t c : Nat)
  /-- operating on the tree (195 and 267) -/
  | work (k : Kind) (t c : Nat)
  /-- the cleaner wants the transaction lock for reading (cleaner.rs 49) -/
  | cleanTxg
  /-- the cleaner has it -/
  | clean
  /-- about to look at the `dirty` flag (732) -/
  | syncStart
  /-- wants the transaction lock for writing (736; idml.rs 478) -/
  | syncTxg
  /-- has it and wants to read `fs_trees` (737) -/
  | syncFs
  /-- has both, and flushes the trees (738-742) -/
  | syncFlush
  /-- writes forest and labels (744-766) -/
  | syncRest
  /-- `flush` wants the transaction lock for reading (451) -/
  | flushTxg
  /-- has it and wants to read `fs_trees` (453) -/
  | flushFs
  /-- has both, and flushes the trees (454-458) -/
  | flushing
  deriving DecidableEq, Repr

/-- Does the task have the transaction lock for reading?  `create_fs` keeps its guard while
`fswrite` runs (506-573), `destroy_fs` until the end (178-195). -/
def PC.txgR : PC → Bool
  | .opening .create _ _ | .installing .create _ _ | .borrowing .create _ _ | .asleep .create _ _
  | .txg .create _ _ => true
  | .unlinking _ _ | .unlinked _ _ => true
  | .borrowing .destroy _ _ | .asleep .destroy _ _ | .txg .destroy _ _ => true
  | .work _ _ _ => true
  | .clean | .flushFs | .flushing => true
  | _ => false

/-- Does it have the transaction lock for writing? (idml.rs 478-485) -/
def PC.txgW : PC → Bool
  | .syncFs | .syncFlush | .syncRest => true
  | _ => false

/-- Does it have `fs_trees` for reading?  (`open_filesystem` gives it back in the same step.) -/
def PC.fsR : PC → Bool
  | .syncFlush | .flushing => true
  | _ => false

/-- Does it have `fs_trees` for writing?  (`new_filesystem` gives it back in the same step.) -/
def PC.fsW : PC → Bool
  | .unlinked _ _ => true
  | _ => false

/-- The credit the task has in hand. -/
def PC.credit : PC → Nat
  | .txg _ _ c | .work _ _ c => c
  | _ => 0

/-- A tree that has been opened. -/
structure Tree where
  id : Nat
  /-- the credit that its dirty leaves have -/
  credit : Nat
  /-- whether it is in `fs_trees`, and so found by `flush` -/
  cached : Bool
  deriving DecidableEq, Repr

/-- The state of the database. -/
structure Sys where
  /-- size of the writeback cache -/
  cap : Nat
  /-- credit that can be lent -/
  supply : Nat
  /-- trees that have been opened -/
  trees : List Tree
  /-- tasks waiting for credit, in order of arrival (`WriteBack::sleepers`) -/
  queue : List Nat
  /-- `Inner::dirty` -/
  dirty : Bool
  syncer : PC
  /-- all calls ever made -/
  tasks : List PC
  deriving Repr

/-- `Database::new` (654-660): no file system is open; `Inner::new` sets `dirty` (199). -/
def init (cap : Nat) : Sys := ⟨cap, cap, [], [], true, .done, []⟩

def findTree : List Tree → Nat → Option Tree
  | [], _ => none
  | x :: l, t => if x.id = t then some x else findTree l t

/-- Change tree `t`, if it is there. -/
def updTree (f : Tree → Tree) : List Tree → Nat → List Tree
  | [], _ => []
  | x :: l, t => if x.id = t then f x :: l else x :: updTree f l t

/-- A reader may take the transaction lock. -/
def Sys.txgRead (s : Sys) : Bool := (s.syncer :: s.tasks).all fun p => !p.txgW
/-- A writer may take it. -/
def Sys.txgWrite (s : Sys) : Bool := (s.syncer :: s.tasks).all fun p => !p.txgW && !p.txgR
/-- A reader may take `fs_trees`. -/
def Sys.fsRead (s : Sys) : Bool := (s.syncer :: s.tasks).all fun p => !p.fsW
/-- A writer may take it. -/
def Sys.fsWrite (s : Sys) : Bool := (s.syncer :: s.tasks).all fun p => !p.fsW && !p.fsR

/-- What a task does once it has the credit: `fswrite` takes the transaction lock (265),
`destroy_fs` has it already (195). -/
def granted : Kind → Nat → Nat → PC
  | .destroy, t, w => .work .destroy t w
  | k, t, w => .txg k t w

/-- `WriteBack::awaken` (writeback.rs 193-215): serve the sleepers in order as long as the supply
lasts.  The list is the queue. -/
def awaken : List Nat → Sys → Sys
  | [], s => { s with queue := [] }
  | i :: q, s =>
    match s.tasks[i]? with
    | some (.asleep k t w) =>
      if s.supply < w then { s with queue := i :: q }
      else awaken q { s with supply := s.supply - w, tasks := s.tasks.set i (granted k t w) }
    | _ => awaken q s

/-- `WriteBack::repay` (274-290). -/
def repay (s : Sys) (n : Nat) : Sys :=
  if n = 0 then s else awaken s.queue { s with supply := s.supply + n }

/-- `WriteBack::borrow` (219-262) by task `i`: it sleeps if there is not enough, or if others
sleep already. -/
def borrow (s : Sys) (i : Nat) (k : Kind) (t w : Nat) : Sys :=
  if s.supply < w ∨ s.queue ≠ [] then
    { s with queue := s.queue ++ [i], tasks := s.tasks.set i (.asleep k t w) }
  else { s with supply := s.supply - w, tasks := s.tasks.set i (granted k t w) }

/-- The dirty leaves of all trees in `fs_trees` are written, and their credit is repaid
(tree/tree/mod.rs, `Tree::flush`; see C73). -/
def flushAll (s : Sys) : Sys :=
  repay { s with trees := s.trees.map fun x => if x.cached then { x with credit := 0 } else x }
    ((s.trees.map fun x => if x.cached then x.credit else 0).sum)

/-- What comes after `open_filesystem`. -/
def opened : Kind → Nat → Nat → PC
  | .destroy, t, w => .destroyTxg t w
  | k, t, w => .borrowing k t w

/-- The work of a call with credit `c`: it frees `m` of the credit that the tree's dirty leaves
have, moves `n` of its own into them, and repays what it has left.  `range_delete(..)` in
`destroy_fs` frees all. -/
def doWork (s : Sys) (k : Kind) (t c n m : Nat) : Sys :=
  match findTree s.trees t with
  | none => repay s c
  | some x =>
    match k with
    | .destroy =>
      repay { s with trees := updTree (fun x => { x with credit := 0 }) s.trees t } (c + x.credit)
    | _ =>
      repay { s with trees := updTree (fun x =>
          { x with credit := x.credit - min m x.credit + min n c }) s.trees t }
        (c - min n c + min m x.credit)

/-- The next step of the call `i`, which stands at `p`; `none` if it has to wait or has returned.
`n` and `m` say what it does to its tree. -/
def stepTask (s : Sys) (i : Nat) (p : PC) (n m : Nat) : Option Sys :=
  let to (p : PC) : Sys := { s with tasks := s.tasks.set i p }
  match p with
  | .done => none
  | .createTxg t w => if s.txgRead then some (to (.opening .create t w)) else none
  | .opening k t w =>
    if s.fsRead then
      match findTree s.trees t with
      | none => some (to (.installing k t w))
      -- the tree has been removed from the forest, too: ENOENT (232)
      | some x => some (to (if x.cached then opened k t w else .done))
    else none
  | .installing k t w =>
    if s.fsWrite then
      match findTree s.trees t with
      | none => some { to (opened k t w) with trees := s.trees ++ [⟨t, 0, true⟩] }
      | some _ => some (to (opened k t w))
    else none
  | .destroyTxg t w => if s.txgRead then some (to (.unlinking t w)) else none
  | .unlinking t w => if s.fsWrite then some (to (.unlinked t w)) else none
  | .unlinked t w =>
    some { to (.borrowing .destroy t w) with
      trees := updTree (fun x => { x with cached := false }) s.trees t }
  | .borrowing k t w => some (borrow s i k t w)
  | .asleep _ _ _ => none
  | .txg k t c => if s.txgRead then some (to (.work k t c)) else none
  | .work k t c => some (doWork (to .done) k t c n m)
  | .cleanTxg => if s.txgRead then some (to .clean) else none
  | .clean => some (to .done)
  | .syncStart =>
    if s.dirty then some { to .syncTxg with dirty := false } else some (to .done)
  | .syncTxg => if s.txgWrite then some (to .syncFs) else none
  | .syncFs => if s.fsRead then some (to .syncFlush) else none
  | .syncFlush => some (flushAll (to .syncRest))
  | .syncRest => some (to .done)
  | .flushTxg | .flushFs | .flushing => none

/-- The next step of the syncer in the middle of a round (`Syncer::run`, 93-110). -/
def stepSyncer (s : Sys) : Option Sys :=
  match s.syncer with
  | .syncTxg => if s.txgWrite then some { s with syncer := .syncFs } else none
  | .syncFs => if s.fsRead then some { s with syncer := .syncFlush } else none
  | .syncFlush => some (flushAll { s with syncer := .syncRest })
  | .syncRest => some { s with syncer := .done }
  | .flushTxg => if s.txgRead then some { s with syncer := .flushFs } else none
  | .flushFs => if s.fsRead then some { s with syncer := .flushing } else none
  | .flushing => some (flushAll { s with syncer := .done })
  | _ => none

/-- A call to the database. -/
inductive Call where
  | write (t w : Nat)
  | create (t w : Nat)
  | destroy (t w : Nat)
  | sync
  | clean
  deriving DecidableEq, Repr

/-- Its first step; those that will write set `dirty` (173, 254, 495). -/
def Call.start : Call → PC
  | .write t w => .opening .write t w
  | .create t w => .createTxg t w
  | .destroy t w => .opening .destroy t w
  | .sync => .syncStart
  | .clean => .cleanTxg

def Call.writes : Call → Bool
  | .write _ _ | .create _ _ | .destroy _ _ => true
  | _ => false

/-- What may happen next. -/
inductive Act where
  /-- somebody makes a call -/
  | call (c : Call)
  /-- call `i` takes a step -/
  | task (i n m : Nat)
  /-- the syncer's timer goes off, and it is not yet time to sync (104-108) -/
  | flush
  /-- the same, and it is time to sync (97-103) -/
  | sync
  /-- the syncer goes on -/
  | syncer
  deriving DecidableEq, Repr

/-- One step of the database; `none` if it is not possible now. -/
def step (s : Sys) : Act → Option Sys
  | .call c => some { s with tasks := s.tasks ++ [c.start], dirty := s.dirty || c.writes }
  | .task i n m =>
    match s.tasks[i]? with
    | none => none
    | some p => stepTask s i p n m
  -- 445
  | .flush =>
    if s.syncer = .done then some { s with syncer := if s.dirty then .flushTxg else .done } else none
  -- 732
  | .sync =>
    if s.syncer = .done then
      some { s with syncer := if s.dirty then .syncTxg else .done, dirty := false }
    else none
  | .syncer => stepSyncer s

/-- Several steps; `none` if one of them is not possible. -/
def run (s : Sys) : List Act → Option Sys
  | [] => some s
  | a :: l => (step s a).bind fun s' => run s' l

end Verif.Progress
