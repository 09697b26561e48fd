import Verif.Codec.Model

/-!
# The erasure codec: what its properties speak about
-/

namespace Verif.Codec

/-- `d` times `m` is the identity, as `k` by `k` matrices. -/
def LeftInv (k : Nat) (d m : Mat) : Prop :=
  ∀ i < k, ∀ j < k, ∑ l ∈ Finset.range k, d i l * m l j = if i = j then 1 else 0

/-- What `gf_invert_matrix` promises: it inverts every matrix that has an inverse. -/
def Inverts (invert : Nat → Mat → Option Mat) : Prop :=
  ∀ k m, (∃ d, LeftInv k d m) → ∃ d, invert k m = some d ∧ LeftInv k d m

/-- The columns of a stripe: data, then parity. -/
def stripe (k f len : Nat) (data : List (List GF)) : List (List GF) := data ++ encode k f len data

/-- The `k` lowest columns that are not erased. -/
def survivors (er : Nat → Bool) (k f : Nat) : List Nat :=
  ((List.range (k + f)).filter fun i => !er i).take k

/-- How many of the first `m` columns are erased. -/
def erasedCount (er : Nat → Bool) (m : Nat) : Nat := ((List.range m).filter er).length

end Verif.Codec
