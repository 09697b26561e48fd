import Verif.PrimeS.Model

/-! # Model of the chunk iterator: prime_s.rs:363-508

The vector `o`, indexed by disk, is a function on disks: it is indexed with
results of `rem_euclid(n)` only, so it is never out of range.  Its elements and
`stripe`, which are `i16`s bounded by the number of rows and of stripes in a
repetition, are unbounded here. -/

namespace Verif.PrimeS

/-- `PrimeSIter`, prime_s.rs:365-379. -/
structure Iter where
  a : Int
  f : Int
  depth : Int
  endId : ChunkId
  id : ChunkId
  m : Int
  n : Int
  o : Int → Int
  r : Int
  stripe : Int
  stripeIter : Int
  y : Int
  z : Int

/-- `o[disk] += 1`. -/
def bump (o : Int → Int) (disk : Int) : Int → Int := fun d => if d = disk then o d + 1 else o d

/-- The inner loop of `new`, prime_s.rs:400-405. -/
def bumpStripe (L : PrimeS) (y : Int) (o : Int → Int) (s : Nat) (cnt : Nat) : Int → Int :=
  (List.range cnt).foldl (fun o (b : Nat) => bump o (((s * L.m + b) * y) % L.n)) o

/-- The loops of `new`, prime_s.rs:397-406. -/
def bumpStripes (L : PrimeS) (y b : Int) (sz : Nat) (o : Int → Int) : Int → Int :=
  (List.range (sz + 1)).foldl
    (fun o (s : Nat) => bumpStripe L y o s (if s = sz then b.toNat else L.k.toNat)) o

/-- `PrimeSIter::new`, prime_s.rs:388-419. -/
def Iter.new (w : Bool) (L : PrimeS) (start endId : ChunkId) : Option Iter := do
  let cli ← id2locInt w L start
  let sz := cli.s % L.n
  let b ← offsetWithinStripe w start cli.a cli.s L.m
  let o0 := L.k * cli.z
  let o := bumpStripes L cli.y b sz.toNat (fun _ => o0)
  some { a := cli.a, f := L.f, depth := L.depth, endId, id := start, m := L.m, n := L.n, o,
         r := cli.r, stripe := cli.s, stripeIter := sz, y := cli.y, z := cli.z }

/-- `next_elem`, prime_s.rs:421-430. -/
def Iter.nextElem (w : Bool) (it : Iter) : Option Chunkloc := do
  let b ← offsetWithinStripe w it.id it.a it.stripe it.m
  let disk := ((it.stripe * it.m + b) * it.y) % it.n
  some ⟨disk, it.o disk + it.r * it.depth⟩

/-- The state update of `next`, prime_s.rs:462-506. -/
def Iter.advance (it : Iter) (disk : Int) : Iter :=
  match it.id with
  | .data i =>
    if it.a < (it.stripe + 1) * it.m - 1 then
      { it with o := bump it.o disk, a := it.a + 1, id := .data (i + 1) }
    else
      { it with o := bump it.o disk, a := it.stripe * it.m, id := .parity (i - (it.m - 1)) 0 }
  | .parity a i =>
    if i < it.f - 1 then { it with o := bump it.o disk, id := .parity a (i + 1) }
    else if it.stripeIter = it.n - 1 then
      if it.z = it.n - 1 - 1 then
        { it with stripeIter := 0, o := fun _ => 0, a := 0, r := it.r + 1, stripe := 0, y := 1, z := 0,
                  id := .data (a + it.m) }
      else
        { it with stripeIter := 0, a := it.a + it.m, o := bump it.o disk, z := it.z + 1,
                  stripe := it.stripe + 1, y := (it.z + 1) % (it.n - 1) + 1, id := .data (a + it.m) }
    else
      { it with a := it.a + it.m, o := bump it.o disk, stripeIter := it.stripeIter + 1,
                stripe := it.stripe + 1, id := .data (a + it.m) }

/-- What `next` does: panic, end of the iteration, or an item. -/
inductive Next where
  | panic
  | done
  | item (id : ChunkId) (loc : Chunkloc) (it : Iter)

/-- `next`, prime_s.rs:454-508. -/
def Iter.next (w : Bool) (it : Iter) : Next :=
  if it.id = it.endId then .done
  else match it.nextElem w with
    | none => .panic
    | some loc => .item it.id loc (it.advance loc.disk)

/-- Collecting the items of an iterator; `none` if `next` panics or there are at
least `fuel` items. -/
def Iter.collect (w : Bool) : Nat → Iter → Option (List (ChunkId × Chunkloc))
  | 0, _ => none
  | fuel + 1, it =>
    match it.next w with
    | .panic => none
    | .done => some []
    | .item id loc it' => (Iter.collect w fuel it').map ((id, loc) :: ·)

end Verif.PrimeS
