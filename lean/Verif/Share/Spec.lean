import Verif.Common.OMap

/-!
# What readers and writers of a file may expect

The file's records are a map from offsets to bytes.  A write replaces records,
each by a function of what was there; a read returns the records of a range.
There are no buffers and no flushes here.
-/

namespace Verif.Share.Spec
open Verif (OMap)

/-- A new record in terms of the old one, if any. -/
abbrev Update := Option (List UInt8) → List UInt8

/-- Replace the records at some offsets. -/
def write (c : OMap (List UInt8)) : List (Nat × Update) → OMap (List UInt8)
  | [] => c
  | (k, f) :: l => write (c.insert k (f (c.get k))) l

/-- The records from `lo` up to `hi`. -/
def read (c : OMap (List UInt8)) (lo hi : Nat) : List (Nat × List UInt8) :=
  c.filter fun e => decide (lo ≤ e.1 ∧ e.1 < hi)

end Verif.Share.Spec
