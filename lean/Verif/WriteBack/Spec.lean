import Verif.WriteBack.Lemmas

/-! Vocabulary for the WriteBack properties (C01–C03).  Amounts are in the
code's doubled units: 2 per byte. -/

namespace Verif.WriteBack

/-- Credit owned by callers. -/
def lent (s : St) : Int := (s.threads.map (·.held)).sum
/-- Credit granted to waiting borrowers that have not picked it up yet. -/
def granted (s : St) : Int := (s.threads.map fun t => sent t.pc).sum
/-- Credit tentatively subtracted from the supply by methods in progress. -/
def inFlight (s : St) : Int := (s.threads.map fun t => tent t.pc).sum
/-- The remaining supply, without the flag bit. -/
def available (s : St) : Int := s.supply - s.supply % 2

/-- No thread is in the middle of a WriteBack method. -/
def Quiescent (s : St) : Prop :=
  ∀ (i : Nat) (t : Thread), s.threads[i]? = some t → t.pc.active = false

/-- Thread `i` waits for `bytes` bytes of credit. -/
def Waiting (s : St) (i : Nat) (bytes : Int) : Prop :=
  ∃ t, s.threads[i]? = some t ∧ t.pc = .sleeping (bytes * 2)

/-- No borrower drops its future after it was granted credit. -/
def NoDrop (sched : List Action) : Prop := ∀ a ∈ sched, ∀ i, a ≠ .dropWoken i

end Verif.WriteBack
