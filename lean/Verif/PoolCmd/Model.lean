import Verif.PrimeS.Model

/-!
# The vdev specification of `bfffs pool create`

bfffs/src/pool_create_parser.lalrpop, bfffs/src/bin/bfffs/pool_create_ast.rs, and `pool::Create` and
`Builder` of bfffs/src/bin/bfffs/main.rs.

The parser LALRPOP generates is an LR(1) automaton; here it is written as recursive descent over the
same tokens, with one token of lookahead.
-/

namespace Verif.PoolCmd

abbrev Str := List Char

/-! ### Lexer -/

/-- The terminals of the grammar, pool_create_parser.lalrpop:8-20 -/
inductive Tok where
  | mirror
  | raid
  | num (s : Str)
  | disk (s : Str)
  deriving DecidableEq, Repr

/-- `\s`, what LALRPOP's lexer skips between tokens: the characters with Unicode's White_Space. -/
def isWs (c : Char) : Bool :=
  let n := c.toNat
  (9 ≤ n && n ≤ 13) || n == 32 || n == 0x85 || n == 0xa0 || n == 0x1680 ||
  (0x2000 ≤ n && n ≤ 0x200a) || n == 0x2028 || n == 0x2029 || n == 0x202f || n == 0x205f || n == 0x3000

/-- `[/a-zA-Z]`, pool_create_parser.lalrpop:11 -/
def diskStart (c : Char) : Bool :=
  c == '/' || (97 ≤ c.toNat && c.toNat ≤ 122) || (65 ≤ c.toNat && c.toNat ≤ 90)

/-- `[^ \t\n]`, pool_create_parser.lalrpop:11 -/
def diskCont (c : Char) : Bool := !(c == ' ' || c == '\t' || c == '\n')

/-- `[0-9]`, pool_create_parser.lalrpop:8 -/
def isDig (c : Char) : Bool := 48 ≤ c.toNat && c.toNat ≤ 57

def kwMirror : Str := ['m', 'i', 'r', 'r', 'o', 'r']
def kwRaid : Str := ['r', 'a', 'i', 'd']

/-- A match of the disk regex; the literals, when they match as much, come first. -/
def word (s : Str) : Tok :=
  if s = kwMirror then .mirror else if s = kwRaid then .raid else .disk s

/-- LALRPOP's lexer: the longest match at each position; `none` is an invalid token.  The first
character decides which terminal may match. -/
def lex (s : Str) : Option (List Tok) :=
  match s with
  | [] => some []
  | c :: cs =>
    if isWs c then lex cs
    else if diskStart c then
      (lex (cs.dropWhile diskCont)).map (word (c :: cs.takeWhile diskCont) :: ·)
    else if isDig c then
      (lex (cs.dropWhile isDig)).map (.num (c :: cs.takeWhile isDig) :: ·)
    else none
termination_by s.length
decreasing_by
  all_goals simp only [List.length_cons]
  · omega
  · have := (List.dropWhile_suffix diskCont (l := cs)).length_le
    omega
  · have := (List.dropWhile_suffix isDig (l := cs)).length_le
    omega

/-! ### Parser -/

/-- pool_create_ast.rs:12-16 `RaidChild` -/
inductive RaidChild where
  | disk (d : Str)
  | mirror (ds : List Str)
  deriving DecidableEq, Repr

/-- pool_create_ast.rs:18-30 `Raid`, `Tlv` -/
inductive Tlv where
  | raid (k f : Nat) (vdevs : List RaidChild)
  | mirror (ds : List Str)
  | disk (d : Str)
  deriving DecidableEq, Repr

/-- The value of a string of digits. -/
def value (s : Str) : Nat := s.foldl (fun n c => n * 10 + (c.toNat - 48)) 0

/-- `i16::from_str(..).unwrap()`, pool_create_parser.lalrpop:8; `none` is a panic. -/
def num (s : Str) : Option Nat := if value s ≤ 32767 then some (value s) else none

/-- `Disk+`, as long as there are disks: the disks and what follows them. -/
def disks : List Tok → List Str × List Tok
  | .disk d :: ts => ((d :: (disks ts).1), (disks ts).2)
  | ts => ([], ts)

theorem disks_length (ts : List Tok) : (disks ts).2.length ≤ ts.length := by
  fun_induction disks ts with
  | case1 d ts ih => simp only [List.length_cons]; omega
  | case2 ts => exact Nat.le_refl _

/-- `Mirror+`, pool_create_parser.lalrpop:14-16, as long as there are mirrors. -/
def mirrors (ts : List Tok) : Option (List (List Str) × List Tok) :=
  match ts with
  | .mirror :: ts =>
    match (disks ts).1 with
    | [] => none
    | d :: ds => (mirrors (disks ts).2).map fun r => ((d :: ds) :: r.1, r.2)
  | ts => some ([], ts)
termination_by ts.length
decreasing_by
  have := disks_length ts
  simp only [List.length_cons]
  omega

theorem mirrors_length (ts : List Tok) {r} (h : mirrors ts = some r) : r.2.length ≤ ts.length := by
  fun_induction mirrors ts generalizing r with
  | case1 ts hd => cases h
  | case2 ts d ds hd ih =>
    cases hm : mirrors (disks ts).2 with
    | none => rw [hm] at h; cases h
    | some q =>
      rw [hm] at h
      cases h
      have := ih hm
      have := disks_length ts
      simp only [List.length_cons]
      omega
  | case3 ts => cases h; exact Nat.le_refl _

/-- The children of a RAID, pool_create_parser.lalrpop:19-26. -/
def children (ts : List Tok) : Option (List RaidChild × List Tok) :=
  match ts with
  | .disk _ :: _ => some ((disks ts).1.map .disk, (disks ts).2)
  | .mirror :: _ => (mirrors ts).map fun r => (r.1.map .mirror, r.2)
  | _ => none

theorem children_length (ts : List Tok) {r} (h : children ts = some r) : r.2.length ≤ ts.length := by
  unfold children at h
  split at h
  · cases h; exact disks_length _
  · rename_i ts
    cases hm : mirrors (.mirror :: ts) with
    | none => rw [hm] at h; cases h
    | some q => rw [hm] at h; cases h; exact mirrors_length _ hm
  · cases h

/-- `Raid+`, pool_create_parser.lalrpop:18-27, to the end of the input. -/
def raids (ts : List Tok) : Option (List Tlv) :=
  match ts with
  | [] => some []
  | .raid :: .num k :: .num f :: ts =>
    match num k, num f with
    | some k, some f =>
      match _h : children ts with
      | some (cs, rest) => (raids rest).map (.raid k f cs :: ·)
      | none => none
    | _, _ => none
  | _ => none
termination_by ts.length
decreasing_by
  have := children_length ts (by assumption)
  simp only [List.length_cons] at *
  omega

/-- `Pool`, pool_create_parser.lalrpop:29-42 -/
def pool (ts : List Tok) : Option (List Tlv) :=
  match ts with
  | .disk _ :: _ => if (disks ts).2 = [] then some ((disks ts).1.map .disk) else none
  | .mirror :: _ =>
    match mirrors ts with
    | some (ms, []) => some (ms.map .mirror)
    | _ => none
  | .raid :: _ => raids ts
  | _ => none

/-- `PoolParser::parse` -/
def parse (s : Str) : Option (List Tlv) := (lex s).bind pool

/-- `self.vdev.join(" ")`, main.rs:681 -/
def joinSp : List Str → Str
  | [] => []
  | [a] => a
  | a :: as => a ++ ' ' :: joinSp as

/-! ### Building the pool -/

/-- How a step ends: it panics or exits, or it waits for ever. -/
inductive Out (α : Type) where
  | ok (a : α)
  | fail
  | hang
  deriving DecidableEq, Repr

/-- The files and devices there are: which one a path leads to, and its size. -/
abbrev Devs := Str → Option (Nat × Nat)

/-- A mirror: the paths it was made of, and its size. -/
structure Mirror where
  paths : List Str
  size : Nat
  deriving DecidableEq, Repr

/-- A cluster: the RAID parameters and the mirrors. -/
structure Cluster where
  k : Nat
  f : Nat
  mirrors : List Mirror
  deriving DecidableEq, Repr

/-- main.rs:707-713 `Builder`, and the devices that have been opened. -/
structure Builder where
  clusters : List Cluster
  mirrors : List Mirror
  held : List Nat
  deriving DecidableEq, Repr

/-- vdev_block.rs:773-813 `VdevBlock::create`, for each path of mirror.rs:382-394 `Mirror::create`.
Devices are opened with `O_EXLOCK` and without `O_NONBLOCK`, so opening one that is open already
waits for it to be closed. -/
def openAll (dv : Devs) : List Str → List Nat → Out (List Nat × List Nat)
  | [], held => .ok ([], held)
  | p :: ps, held =>
    match dv p with
    | none => .fail
    | some (id, size) =>
      if id ∈ held then .hang
      else
        match openAll dv ps (id :: held) with
        | .ok (sizes, held) => .ok (size :: sizes, held)
        | .fail => .fail
        | .hang => .hang

/-- main.rs:744-747 `Builder::create_mirror`, and mirror.rs:449-488 `Mirror::new`: all of one size.
(Zones are all of the size given, or of the default size.) -/
def createMirror (dv : Devs) (b : Builder) (paths : List Str) : Out Builder :=
  match openAll dv paths b.held with
  | .ok (sizes, held) =>
    match sizes with
    | [] => .fail
    | size :: sizes =>
      if ∀ x ∈ sizes, x = size then
        .ok { b with mirrors := b.mirrors ++ [⟨paths, size⟩], held := held }
      else .fail
  | .fail => .fail
  | .hang => .hang

/-- raid/mod.rs:179-190 `raid::create`, vdev_raid.rs:603-705 `VdevRaid::create`, `new`: a single
mirror, or a geometry the layout can do, with mirrors of one size. -/
def raidOk (w : Bool) (k f : Nat) (ms : List Mirror) : Prop :=
  if ms.length = 1 then k = 1 ∧ f = 0
  else
    (PrimeS.new w (Int.bmod ms.length 65536) k f).isSome = true ∧
    ∀ x ∈ ms, ∀ y ∈ ms, x.size = y.size

instance (w : Bool) (k f : Nat) (ms : List Mirror) : Decidable (raidOk w k f ms) := by
  unfold raidOk; infer_instance

/-- main.rs:759-764 `Builder::create_cluster`; `w` as in `Verif.PrimeS`. -/
def createCluster (w : Bool) (b : Builder) (k f : Nat) : Out Builder :=
  if raidOk w k f b.mirrors then
    .ok { b with mirrors := [], clusters := b.clusters ++ [⟨k, f, b.mirrors⟩] }
  else .fail

/-- The paths a child of a RAID stands for, main.rs:687-694. -/
def RaidChild.paths : RaidChild → List Str
  | .disk d => [d]
  | .mirror ds => ds

/-- main.rs:686-695: one mirror for each child of a RAID. -/
def createMirrors (dv : Devs) : Builder → List RaidChild → Out Builder
  | b, [] => .ok b
  | b, c :: cs =>
    match createMirror dv b c.paths with
    | .ok b => createMirrors dv b cs
    | .fail => .fail
    | .hang => .hang

/-- main.rs:684-700: one top-level vdev. -/
def addTlv (w : Bool) (dv : Devs) (b : Builder) : Tlv → Out Builder
  | .raid k f vdevs =>
    match createMirrors dv b vdevs with
    | .ok b => createCluster w b k f
    | .fail => .fail
    | .hang => .hang
  | .mirror ds =>
    match createMirror dv b ds with
    | .ok b => createCluster w b 1 0
    | .fail => .fail
    | .hang => .hang
  | .disk d =>
    match createMirror dv b [d] with
    | .ok b => createCluster w b 1 0
    | .fail => .fail
    | .hang => .hang

/-- main.rs:683-701 -/
def addAll (w : Bool) (dv : Devs) : Builder → List Tlv → Out Builder
  | b, [] => .ok b
  | b, t :: ts =>
    match addTlv w dv b t with
    | .ok b => addAll w dv b ts
    | .fail => .fail
    | .hang => .hang

/-- main.rs:673-704 `Create::main`, up to formatting: the clusters of the new pool. -/
def create (w : Bool) (dv : Devs) (vdev : List Str) : Out (List Cluster) :=
  match parse (joinSp vdev) with
  | none => .fail
  | some spec =>
    match addAll w dv ⟨[], [], []⟩ spec with
    | .ok b => .ok b.clusters
    | .fail => .fail
    | .hang => .hang

end Verif.PoolCmd
