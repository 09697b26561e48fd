import Verif.Progress.Model
/-!
# What it means for calls to hang or to finish
-/

namespace Verif.Progress

/-- States of a database with a writeback cache of `cap` bytes, if only calls that are `ok` are made. -/
inductive Reach (ok : Call → Prop) (cap : Nat) : Sys → Prop where
  | init : Reach ok cap (init cap)
  | step {s s' : Sys} (a : Act) : Reach ok cap s → (∀ c, a = .call c → ok c) → step s a = some s' →
      Reach ok cap s'

/-- Calls other than `create_fs` and `destroy_fs`, that ask for no more credit than there is. -/
def Ordinary (cap : Nat) : Call → Prop
  | .write _ w => w ≤ cap
  | .sync | .clean => True
  | .create _ _ | .destroy _ _ => False

/-- The call has not got its credit yet. -/
def PC.waits : PC → Bool
  | .opening _ _ _ | .installing _ _ _ | .borrowing _ _ _ | .asleep _ _ _ => true
  | _ => false

/-- Every call has returned. -/
def AllDone (s : Sys) : Prop := ∀ p ∈ s.tasks, p = .done

/-- The calls already made can all be brought to an end by letting them and the syncer take turns in a
suitable order, whatever they do to their trees. -/
inductive Finishes : Sys → Prop where
  | now {s : Sys} : AllDone s → Finishes s
  | task {s : Sys} (i : Nat) : (∃ s', step s (.task i 0 0) = some s') →
      (∀ n m s', step s (.task i n m) = some s' → Finishes s') → Finishes s
  | syncer {s s' : Sys} : step s .syncer = some s' → Finishes s' → Finishes s
  | flush {s s' : Sys} : step s .flush = some s' → Finishes s' → Finishes s

/-- Whatever happens from now on, as long as it is `allowed`, call `i` never gets the credit for which
it waits. -/
def Hangs (allowed : Act → Prop) (s : Sys) (i : Nat) : Prop :=
  ∀ l s', (∀ a ∈ l, allowed a) → run s l = some s' → ∃ k t w, s'.tasks[i]? = some (.asleep k t w)

/-- Whatever happens from now on, nobody gets the transaction lock for writing: no sync completes. -/
def NeverSyncs (s : Sys) : Prop :=
  ∀ l s', run s l = some s' → ∀ p ∈ s'.syncer :: s'.tasks, p.txgW = false

end Verif.Progress
