import Verif.Raid.Model

/-!
# What a RAID zone should hold, and what its disks should receive
-/

namespace Verif.Raid

open Verif.Bytes

/-- `b` followed by zeros up to a multiple of `a`. -/
def padTo (a : Nat) (b : Buf) : Buf := b ++ zeros ((a - b.length % a) % a)

/-- What a user does to an open zone: append data at the next LBA, or flush. -/
inductive Op
  | write (b : Buf)
  | flush

/-- The contents of the zone.  Every write is padded to a whole LBA and a flush pads to a whole
stripe. -/
def specStep (g : Geom) (data : Buf) : Op → Buf
  | .write b => data ++ padTo g.bpl b
  | .flush => padTo g.stripe data

def specRun (g : Geom) (ops : List Op) : Buf := ops.foldl (specStep g) []

/-- Column `b` of the stripe with which `x` starts. -/
def column (g : Geom) (x : Buf) (b : Nat) : Buf :=
  if b < g.Y.m then (x.drop (b * g.col)).take g.col
  else (g.enc ((List.range g.Y.m).map fun i => (x.drop (i * g.col)).take g.col)).getD (b - g.Y.m) []

/-- The chunks of the `N` stripes that `x` fills, from stripe `S` of the array on, each at its
place. -/
def stripeChunks (g : Geom) (S : Nat) (x : Buf) (N : Nat) : List CW :=
  (List.range N).flatMap fun t => (List.range g.Y.k).map fun b =>
    ⟨g.Y.disk (S + t) b, g.Y.off (S + t) b * g.col, column g (x.drop (t * g.stripe)) b⟩

/-- The single bytes that a list of child writes writes: disk, address, value. -/
def bytesOf (ws : List CW) : List (Nat × Nat × UInt8) :=
  ws.flatMap fun w => w.data.mapIdx fun i v => (w.disk, w.addr + i, v)

/-- Each disk gets its bytes in increasing order. -/
def Ordered (ws : List CW) : Prop := ws.Pairwise fun w w' => w.disk = w'.disk →
  ∀ i < w.data.length, ∀ j < w'.data.length, w.addr + i < w'.addr + j

/-- The zone as the code runs it: its stripe buffer and all the writes its children got. -/
structure St where
  sb : StripeBuffer
  log : List CW

def step (g : Geom) (st : St) : Op → Option St
  | .write b => (writeAt g st.sb b (st.sb.nextLba g)).map fun r => ⟨r.1, st.log ++ r.2⟩
  | .flush => (flushZone g st.sb).map fun r => ⟨r.1, st.log ++ r.2.2⟩

def run (g : Geom) (st : St) (ops : List Op) : Option St := ops.foldlM (step g) st

/-- A zone just opened, starting with stripe `Z` of the array. -/
def opened (g : Geom) (Z : Nat) : St := ⟨⟨[], Z * g.slbas⟩, []⟩

/-- What the code relies on: a lawful layout, sizes that are not zero, a codec that makes one
column per parity chunk. -/
structure Geom.Lawful (g : Geom) : Prop where
  layout : g.Y.Lawful
  cs : 0 < g.cs
  bpl : 0 < g.bpl
  zr : 0 < g.zr
  zr_bpl : g.bpl ∣ g.zr
  enc_len : ∀ cols, (g.enc cols).length = g.Y.k - g.Y.m
  enc_col : ∀ cols, cols.length = g.Y.m → (∀ c ∈ cols, c.length = g.col) →
    ∀ c ∈ g.enc cols, c.length = g.col

end Verif.Raid
