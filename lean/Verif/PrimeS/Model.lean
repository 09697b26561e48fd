/-!
# Model of the PRIME-S declustering layout: `bfffs-core/src/raid/prime_s.rs`

All Rust integers are `Int`.  Where the code computes in `i16` and the result
can overflow for a legal geometry, the model checks the range: if it overflows
the result is `none` (a panic) in builds with overflow checks and debug
assertions, and wraps around in builds without (`w = true`).  The remaining
computations are in `i32`, `u8` or `u64` and stay in range for `n ≤ 215`; they
are unbounded here.  `rem_euclid` is `%`; `/` is used on nonnegative operands
only.
-/

namespace Verif.PrimeS

/-- An `i16` result; `w`: overflow wraps around. -/
def i16 (w : Bool) (x : Int) : Option Int :=
  if -32768 ≤ x ∧ x ≤ 32767 then some x
  else if w then some (x.bmod 65536) else none

/-- The `while` loop of `invmod`, prime_s.rs:39-47; returns `(t, r)`. -/
def invmodLoop (t r newt newr : Int) : Int × Int :=
  if h : 0 < newr then
    have : (r - newr * (r / newr)).toNat < newr.toNat := by
      have h1 := Int.emod_add_mul_ediv r newr
      have h2 := Int.emod_nonneg r (show newr ≠ 0 by omega)
      have h3 := Int.emod_lt_of_pos r h
      omega
    invmodLoop newt newr (t - newt * (r / newr)) (r - newr * (r / newr))
  else (t, r)
termination_by newr.toNat

/-- `invmod`, prime_s.rs:27-55.  `none` is the `debug_assert` at 49. -/
def invmod (a n : Int) : Option Int :=
  let p := invmodLoop 0 n 1 a
  if p.2 = 1 then some (if p.1 < 0 then p.1 + n else p.1) else none

/-- The loop of `is_prime`, prime_s.rs:66-72. -/
def primeLoop (n i : Nat) : Bool :=
  if h : i * i ≤ n then
    if n % i = 0 ∨ n % (i + 2) = 0 then false else primeLoop n (i + 6)
  else true
termination_by n + 6 - i
decreasing_by
  have : i ≤ i * i := Nat.le_mul_self i
  omega

/-- `is_prime`, prime_s.rs:58-74.  (`i * i` overflows an `i16` for arguments above
32041, which `new` rejects anyway.) -/
def isPrime (n : Int) : Bool :=
  if n ≤ 1 then false
  else if n ≤ 3 then true
  else if n % 2 = 0 ∨ n % 3 = 0 then false
  else primeLoop n.toNat 5

/-- `ChunkId`, declust.rs:31-40. -/
inductive ChunkId where
  | data (id : Int)
  | parity (id i : Int)
  deriving DecidableEq, Repr

/-- `ChunkId::address`, declust.rs:48-52. -/
def ChunkId.address : ChunkId → Int
  | .data id => id
  | .parity id _ => id

/-- `Chunkloc`, declust.rs:61-68. -/
structure Chunkloc where
  disk : Int
  offset : Int
  deriving DecidableEq, Repr

/-- `PrimeS`, prime_s.rs:121-152. -/
structure PrimeS where
  n : Int
  k : Int
  m : Int
  mInv : Int
  f : Int
  datachunks : Int
  stripes : Int
  depth : Int
  deriving DecidableEq, Repr

/-- `PrimeS::new`, prime_s.rs:166-182. -/
def new (w : Bool) (n k f : Int) : Option PrimeS := do
  if isPrime n = true ∧ n ≤ 215 ∧ 1 < k ∧ k ≤ n ∧ 0 < f ∧ f < k then
    let depth ← i16 w (k * (n - 1))
    let m := k - f
    let mInv ← invmod m n
    let stripes := n * (n - 1)
    let datachunks := stripes * m
    some ⟨n, k, m, mInv % 256, f, datachunks, stripes, depth⟩
  else none

/-- `ChunklocInt`, prime_s.rs:78-89. -/
structure ChunklocInt where
  a : Int
  r : Int
  s : Int
  y : Int
  z : Int

/-- `id2loc_int` and `id2rep_and_iter`, prime_s.rs:185-214. -/
def id2locInt (w : Bool) (L : PrimeS) (id : ChunkId) : Option ChunklocInt := do
  let a := id.address % L.datachunks
  let r := id.address / L.datachunks
  let z := (id.address % L.datachunks) / (L.m * L.n)
  let s := a / L.m
  let s ← i16 w s
  let y := z % (L.n - 1) + 1
  some ⟨a, r, s, y, z⟩

/-- `cb_stripe` of prime_s.rs:234-236. -/
def cbStripe (L : PrimeS) (disk yInv j : Int) : Int := ((disk * yInv - j) * L.mInv - 1) % L.n

/-- `offset_within_iteration`, prime_s.rs:221-240. -/
def offsetWithinIteration (L : PrimeS) (cli : ChunklocInt) (b disk : Int) : Option Int := do
  let s := cli.s
  let yInv ← invmod cli.y L.n
  let o0 := (s * L.m + b).tdiv L.n
  let o1 := L.f * cli.z
  let o2 := (List.range L.f.toNat).foldl
    (fun acc (j : Nat) => (if s % L.n > cbStripe L disk yInv j then 1 else 0) + acc) (0 : Int)
  some (o0 + o1 + o2)

/-- `offset_within_stripe`, prime_s.rs:249-257. -/
def offsetWithinStripe (w : Bool) (id : ChunkId) (a s m : Int) : Option Int :=
  match id with
  | .data _ => do
    let sm ← i16 w (s * m)
    some ((a - sm) % 256)
  | .parity _ i => some ((m + i) % 256)

/-- The conversion `as u64` of prime_s.rs:288. -/
def toU64 (x : Int) : Int := x % 2 ^ 64

/-- `id2loc`, prime_s.rs:277-290.  The sum of two `u64`s is not wrapped. -/
def id2loc (w : Bool) (L : PrimeS) (id : ChunkId) : Option Chunkloc := do
  let cli ← id2locInt w L id
  let b ← offsetWithinStripe w id cli.a cli.s L.m
  let disk := ((cli.s * L.m + b) * cli.y) % L.n
  let o3 := cli.r * L.depth
  let o ← offsetWithinIteration L cli b disk
  some ⟨disk, toU64 o + o3⟩

/-- The bit set of prime_s.rs:319-323, as the increasing list of its members. -/
def stripesOnDisk (L : PrimeS) (disk yInv : Int) : List Nat :=
  (List.range L.n.toNat).filter (fun x =>
    ((List.range L.k.toNat).map (fun (i : Nat) => ((disk * yInv - i) * L.mInv) % L.n)).contains (x : Int))

/-- `loc2id`, prime_s.rs:298-341. -/
def loc2id (w : Bool) (L : PrimeS) (loc : Chunkloc) : Option ChunkId := do
  let r := loc.offset / L.depth
  let offset := loc.offset % L.depth
  let z := offset / L.k
  let y := z % (L.n - 1) + 1
  let yInv ← invmod y L.n
  let offsetInIter := offset - L.k * z
  let s0 ← (stripesOnDisk L loc.disk yInv)[offsetInIter.toNat]?
  let nz ← i16 w (L.n * z)
  let s ← i16 w (s0 + nz)
  let b := (loc.disk * yInv - s * L.m) % L.n
  let o := r * L.datachunks
  if b ≥ L.m then some (.parity (o + s * L.m) (b - L.m))
  else some (.data (o + s * L.m + b))

end Verif.PrimeS
