import Verif.Raid.ReconModel

/-!
# Long reads

Models `read_long`, `read_long_one` and `read_long_multi` of
`/repo/bfffs-core/src/raid/vdev_raid.rs`: after a checksum failure, the caller asks for all the
data that the range could hold if some of the disks returned wrong data.

A candidate `none` is a panic.  The iterator of candidates is a list.
-/

namespace Verif.Raid

open Verif.Bytes

/-- The sublists of `n` elements: `Itertools::combinations`, in its order. -/
def combinations {α : Type} : Nat → List α → List (List α)
  | 0, _ => [[]]
  | _ + 1, [] => []
  | n + 1, x :: xs => (combinations n xs).map (x :: ·) ++ combinations (n + 1) xs

/-- One stripe of a candidate (`vdev_raid.rs:1437-1481` and `1324-1367`): the data, on the
assumption that the positions in `erased` are bad. -/
def longStripe (m k : Nat) (dec : Decoder) (col : Nat) (got : Nat → Buf) (erased : List Nat) :
    Option Buf :=
  let er := fun b => erased.contains b
  let missing := (List.range m).filter er
  let surviving := (((List.range m).filter fun b => !er b) ++
    ((List.range' m (k - m)).filter fun b => !er b)).take m
  if missing = [] then some ((List.range m).map got).flatten
  else
    (dec col er (surviving.map got)).map fun outs =>
      ((List.range m).map fun b =>
        if er b then outs.getD ((List.range b).filter er).length [] else got b).flatten

/-- `read_long_one` (`vdev_raid.rs:1394-1506`), of `n` LBAs from `u` on: position `b` of the stripe
has the result `res b` and was read as `got b`. -/
def readLongOne (g : Geom) (f : Nat) (dec : Decoder) (u n : Nat) (got : Nat → Buf)
    (res : Nat → Res) : List (Option Buf) :=
  ((combinations f (List.range g.Y.k)).filter fun erased =>
    (List.range g.Y.k).all fun b => !(res b).isErr || erased.contains b).map fun erased =>
      (longStripe g.Y.m g.Y.k dec g.col got erased).map fun s =>
        if n = g.slbas then s
        else (s.drop (u % g.slbas * g.bpl)).take (n * g.bpl)

/-- `args_per_disk` (`vdev_raid.rs:1275-1288`): the first offset read from disk `d`, and the one
after the last, in chunks.  The positions are those of `n` stripes from `s` on. -/
def longSpan (g : Geom) (s n d : Nat) : Option (Nat × Nat) :=
  (List.range' (s * g.Y.k) (n * g.Y.k)).foldl (fun a p =>
    if g.Y.disk (p / g.Y.k) (p % g.Y.k) = d then
      match a with
      | none => some (g.Y.off (p / g.Y.k) (p % g.Y.k), g.Y.off (p / g.Y.k) (p % g.Y.k) + 1)
      | some (o, _) => some (o, g.Y.off (p / g.Y.k) (p % g.Y.k) + 1)
    else a) none

/-- The disks that are read, in order (`vdev_raid.rs:1289-1299`). -/
def longDisks (g : Geom) (s n : Nat) : List Nat :=
  (List.range g.Y.n).filter fun d => (longSpan g s n d).isSome

/-- The set `failures` (`vdev_raid.rs:1301-1306`): the results are those of the disks that were
read, but their indices are taken for disks. -/
def longFailures (g : Geom) (s n : Nat) (res : Nat → Res) : List Nat :=
  (List.range (longDisks g s n).length).filter fun i => (res ((longDisks g s n).getD i 0)).isErr

/-- The chunk at position `b` of stripe `t`, from its disk's buffer (`vdev_raid.rs:1341-1352`).
`fill r` is what the read `r` leaves in its buffer. -/
def longChunk (g : Geom) (s n : Nat) (fill : CR → Buf) (t b : Nat) : Option Buf :=
  match longSpan g s n (g.Y.disk t b) with
  | none => none
  | some (o, z) =>
    let db := fill ⟨g.Y.disk t b, o * g.col, (z - o) * g.col⟩
    if o ≤ g.Y.off t b ∧ (g.Y.off t b - o) * g.col + g.col ≤ db.length then
      some ((db.drop ((g.Y.off t b - o) * g.col)).take g.col)
    else none

/-- One stripe of a candidate of `read_long_multi` (`vdev_raid.rs:1324-1367`): only data chunks are
taken as erased.  The model cuts out all the chunks of the stripe, the code those that it uses. -/
def longMultiStripe (g : Geom) (dec : Decoder) (s n : Nat) (fill : CR → Buf) (erased : List Nat)
    (t : Nat) : Option Buf :=
  match (List.range g.Y.k).mapM (longChunk g s n fill t) with
  | none => none
  | some cs =>
    longStripe g.Y.m g.Y.k dec g.col (fun b => cs.getD b [])
      ((List.range g.Y.m).filter fun b => erased.contains (g.Y.disk t b))

/-- `read_long_multi` (`vdev_raid.rs:1250-1386`), of `n` LBAs from `u` on. -/
def readLongMulti (g : Geom) (f : Nat) (dec : Decoder) (u n : Nat) (fill : CR → Buf)
    (res : Nat → Res) : List (Option Buf) :=
  let s := u / g.slbas
  let stripes := (u + n - 1) / g.slbas - s + 1
  ((combinations f (List.range g.Y.n)).filter fun erased =>
    (longFailures g s stripes res).all erased.contains).map fun erased =>
      ((List.range' s stripes).mapM (longMultiStripe g dec s stripes fill erased)).map fun l =>
        (l.flatten.drop (u % g.slbas * g.bpl)).take (n * g.bpl)

/-- `read_long` (`vdev_raid.rs:2234-2257`), in an array with `nf` absent children.  `none` is
`Err(EINTEGRITY)`. -/
def readLong (g : Geom) (f : Nat) (dec : Decoder) (nf u n : Nat) (fill : CR → Buf)
    (res : Nat → Res) : Option (List (Option Buf)) :=
  let s := u / g.slbas
  if f ≤ nf then none
  else if s = (u + n - 1) / g.slbas then
    some (readLongOne g f dec u n (fun b => fill ⟨g.Y.disk s b, g.Y.off s b * g.col, g.col⟩)
      fun b => res (g.Y.disk s b))
  else some (readLongMulti g f dec u n fill res)

end Verif.Raid
