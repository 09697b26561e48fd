import Verif.Codec.GF
import Verif.Bytes.Model
import Mathlib.Algebra.BigOperators.Group.Finset.Basic

/-!
# The erasure codec

Models `/repo/bfffs-core/src/raid/codec.rs`.  As in the code, `m` is the number of columns
of a stripe, `f` the number of parity columns and `k = m - f` the number of data columns.
A column is a list of bytes.  Functions of the ISA-L library (`/repo/bfffs-isa-l/src/lib.rs`)
are modelled by what their documentation says they compute.
-/

namespace Verif.Codec

open GF

/-- A matrix of coefficients, row and column to byte.  The code keeps it row by row in a
slice of bytes. -/
abbrev Mat := Nat → Nat → GF

/-- The encoding matrix of `Codec::new` (`codec.rs:39-64`): the identity on top; below it,
for one parity column, a row of ones (`gf_gen_rs_matrix`, whose first parity row is
`1^0, 1^1, …`), otherwise the Cauchy matrix `1 / (i + j)` of `gf_gen_cauchy1_matrix`
(`bfffs-isa-l/src/lib.rs:150-172`, `174-222`). -/
def encMatrix (k f : Nat) : Mat := fun i j =>
  if i < k then (if i = j then 1 else 0)
  else if f = 1 then 1
  else (pt i + pt j)⁻¹

/-- `ec_init_tables` followed by `ec_encode_data` (`bfffs-isa-l/src/lib.rs:47-69,
120-148`): `rows` output columns of `len` bytes, each byte being the sum of the coefficients
of its row times the bytes of the `k` input columns at the same place. -/
def ecEncode (len k rows : Nat) (a : Mat) (input : List (List GF)) : List (List GF) :=
  (List.range rows).map fun i => (List.range len).map fun p =>
    ∑ j ∈ Finset.range k, a i j * ((input.getD j []).getD p 0)

/-- `codec.rs:130-136` (`Codec::encode`): the encoding tables are made from rows `k` and up
of the encoding matrix (`codec.rs:58-61`). -/
def encode (k f len : Nat) (data : List (List GF)) : List (List GF) :=
  ecEncode len k f (fun i j => encMatrix k f (k + i) j) data

/-- The inner loop of `mk_decode_tables` (`codec.rs:225-227`): from position `r`, skip erased
columns.  The bit set has `m` bits, and `FixedBitSet::contains` is false beyond them. -/
def skipErased (er : Nat → Bool) (m r : Nat) : Nat :=
  if _h : r < m then (if er r then skipErased er m (r + 1) else r) else r
termination_by m - r

/-- The rows selected by `mk_decode_tables` (`codec.rs:222-228`): for each of the next `n`
values of `i`, `i + skips` moved past erased columns. -/
def selRows (er : Nat → Bool) (m : Nat) : Nat → Nat → Nat → List Nat
  | 0, _, _ => []
  | n + 1, i, skips =>
    let row := skipErased er m (i + skips)
    row :: selRows er m n (i + 1) (row - i)

/-- Erased data columns, in order: `erasures.ones()` below `k` (`codec.rs:238-246`). -/
def lostData (er : Nat → Bool) (k : Nat) : List Nat := (List.range k).filter er

/-- `codec.rs:213-252` (`mk_decode_tables`) and `codec.rs:107-115` (`decode`).  `invert` is
`gf_invert_matrix`.  `none` is a panic: no data column erased, a row of the encoding matrix
that does not exist, or a matrix that has no inverse. -/
def decode (invert : Nat → Mat → Option Mat) (k f len : Nat) (er : Nat → Bool)
    (surviving : List (List GF)) : Option (List (List GF)) :=
  let lost := lostData er k
  let rows := selRows er (k + f) k 0 0
  if lost = [] then none
  else if rows.any fun r => decide (k + f ≤ r) then none
  else
    match invert k (fun i j => encMatrix k f (rows.getD i 0) j) with
    | none => none
    | some d => some (ecEncode len k lost.length (fun i j => d (lost.getD i 0) j) surviving)

/-- `codec.rs:196-207` (`encode_update`): add one data column's contribution to the
parity columns. -/
def encodeUpdate (k f : Nat) (data : List GF) (parity : List (List GF)) (idx : Nat) :
    List (List GF) :=
  parity.mapIdx fun i col => col.mapIdx fun p b => b + encMatrix k f (k + i) idx * data.getD p 0

/-- A byte as a field element. -/
def ofByte (b : UInt8) : GF := ⟨b.toBitVec⟩

open Verif.Bytes in
/-- The loop of `encodev` (`codec.rs:160-181`).  `left` is `len - l`, the number of bytes of
each column still to encode.  Each round takes from every cursor the shortest of their next
segments; `none` is a panic, when some cursor is empty or there are none.  The parity of the
round goes after that of the rounds before.  If a segment were longer than `left` the code
would write beyond the parity buffers; that too is `none`. -/
def encodevLoop (k f : Nat) (left : Nat) (cs : List Cursor) : Option (List (List GF)) :=
  if left = 0 then some (List.replicate f [])
  else
    match (cs.map Cursor.peekLen).min? with
    | none => none
    | some ncl =>
      if ncl = 0 ∨ left < ncl then none
      else
        match (cs.map fun c => (c.next ncl).1).mapM id with
        | none => none
        | some bufs =>
          (encodevLoop k f (left - ncl) (cs.map fun c => (c.next ncl).2)).map fun tl =>
            List.zipWith (· ++ ·) (encode k f ncl (bufs.map fun b => b.map ofByte)) tl
termination_by left

open Verif.Bytes in
/-- `codec.rs:156-182` (`Codec::encodev`). -/
def encodev (k f len : Nat) (data : List SGList) : Option (List (List GF)) :=
  encodevLoop k f len (data.map Cursor.of)

end Verif.Codec
