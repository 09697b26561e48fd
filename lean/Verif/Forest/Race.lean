import Verif.Forest.Props

/-!
# Overlapping opens

`Inner::open_filesystem` (database.rs:223-239) looks the tree up in memory, then in the forest, and
then puts it into memory; each part is one step here, so that others may run in between.  A tree in
memory is an object of its own (`Arc<ITree>`): the table `opened` holds a reference to it, and so does
every caller that opened it.
-/

namespace Verif.Forest.Race

open Verif (OMap)
open Verif.Property (Str Prp PName Source)

/-- Trees in memory by reference, and the table from identifier to reference. -/
structure State (D : Type) where
  forest : OMap (Value D)
  opened : OMap Nat
  heap : List (Fs D)
  deriving DecidableEq, Repr

/-- Where a caller of `open_filesystem` stands. -/
inductive Pc (D : Type) where
  | idle
  /-- It did not find the tree in memory and has read it from the forest (`get_tree`). -/
  | loaded (id : Nat) (tod : Fs D)
  /-- It has a reference. -/
  | has (id : Nat) (ref : Nat)
  | failed
  deriving DecidableEq, Repr

variable {D : Type}

/-- database.rs:229-235: look in memory, else read the forest. -/
def load (s : State D) (id : Nat) : Pc D :=
  match s.opened.get id with
  | some r => .has id r
  | none =>
    match getTree s.forest id with
    | .ok tod => .loaded id tod
    | _ => .failed

/-- database.rs:204-220 `new_filesystem`: the new tree goes into the table unless there is one
(`entry().or_insert`); the caller gets the new tree in any case. -/
def finish (s : State D) : Pc D → State D × Pc D
  | .loaded id tod =>
    let r := s.heap.length
    ({ s with
        heap := s.heap ++ [tod]
        opened := if (s.opened.get id).isSome then s.opened else s.opened.insert id r },
     .has id r)
  | p => (s, p)

/-- A change made through a reference, as by the closure of `fswrite`. -/
def write (s : State D) (p : Pc D) (w : Fs D → Fs D) : State D :=
  match p with
  | .has _ r => { s with heap := s.heap.modify r w }
  | _ => s

/-- What a caller reads through its reference. -/
def read (s : State D) : Pc D → Option (Fs D)
  | .has _ r => s.heap[r]?
  | _ => none

/-- database.rs:744-751: the trees of the table are stored in the forest. -/
def sync (s : State D) : State D × Res Unit :=
  let r := syncTrees s.forest
    (s.opened.filterMap fun x => (s.heap[x.2]?).map fun t => (x.1, t))
  ({ s with forest := r.1 }, r.2)

/-- database.rs:179-184: the rest of `destroy_fs`, after opening the tree. -/
def unlinkFs (e : Env D) (s : State D) (parent : Option Nat) (id : Nat) (name : Str) :
    State D × Res Unit :=
  match unlink e s.forest parent id name with
  | (f, .ok _) =>
    ({ s with
        forest := f
        opened := s.opened.remove id }, .ok ())
  | (f, r) => ({ s with forest := f }, r)

/-- Opening without interruption. -/
def openNow (s : State D) (id : Nat) : State D × Pc D := finish s (load s id)

/-- What others may do while a file system is open, if opens are not interrupted. -/
inductive Op (D : Type) where
  | openFs (id : Nat)
  | write (p : Pc D) (w : Fs D → Fs D)
  | sync

def step (s : State D) : Op D → State D
  | .openFs id => (openNow s id).1
  | .write p w => Race.write s p w
  | .sync => (Race.sync s).1

/-! ## C41, C42: the violations -/

/-- A pool with its root and "tank/a", nothing in memory. -/
def start : State Nat :=
  { forest := [(key 0 0, .tree none ⟨[], 1⟩), (key 0 (toy.hash ['a']), .ent 1 ['a']),
      (key 1 0, .tree (some 0) ⟨[], 1⟩)]
    opened := []
    heap := [] }

/-- Those are the file systems of a pool just created and imported. -/
example : start.forest = (reopen (Forest.sync (createFs toy (createFs toy ⟨[], [], []⟩ toy.pool).1
    (full toy [['a']])).1).1).forest := by
  decide +kernel

/-- Violation of C41: two callers open a file system at the same time, both before it is in memory.
The second to finish gets a tree of its own.  What it writes is not seen by the first, and a sync
that returns success does not store it. -/
theorem C41_overlapping_opens_lose_write :
    let p1 := load start 1
    let p2 := load start 1
    let (s, p1) := finish start p1
    let (s, p2) := finish s p2
    let s := write s p2 (fun t => { t with data := 42 })
    read s p2 = some ⟨[], 42⟩ ∧ read s p1 = some ⟨[], 1⟩ ∧ (sync s).2 = .ok () ∧
      getTree (sync s).1.forest 1 = .ok ⟨[], 1⟩ := by
  decide +kernel

/-- Violation of C42: a file system is destroyed while another caller is opening it.  Its tree is left
in memory, no sync succeeds any more, and when a new file system gets its identifier, whoever opens
that finds the contents of the destroyed one. -/
theorem C42_open_during_destroy :
    let p1 := load start 1
    let (s, _) := openNow start 1
    let (s, r) := unlinkFs toy s (some 0) 1 ['a']
    let (s, _) := finish s p1
    let t := insertTree toy s.forest (some 0) ['b'] ⟨[], 0⟩
    r = .ok () ∧ (sync s).2 = .err .enoent ∧ t.2 = .ok 1 ∧
      getTree t.1 1 = .ok ⟨[], 0⟩ ∧
      read { s with forest := t.1 } (openNow { s with forest := t.1 } 1).2 = some ⟨[], 1⟩ := by
  decide +kernel

/-! ## The repaired claim: uninterrupted opens share one tree -/

theorem load_of_opened {s : State D} {id r : Nat} (h : s.opened.get id = some r) :
    load s id = .has id r := by
  simp [load, h]

theorem step_opened (s : State D) (op : Op D) {id r : Nat} (h : s.opened.get id = some r) :
    (step s op).opened.get id = some r := by
  cases op with
  | openFs i =>
    simp only [step, openNow]
    unfold load
    cases hi : s.opened.get i with
    | some r' => exact h
    | none =>
      dsimp only
      cases getTree s.forest i with
      | ok tod =>
        simp only [finish, hi, Option.isSome_none, Bool.false_eq_true, if_false]
        rw [OMap.get_insert, if_neg, h]
        rintro rfl
        rw [h] at hi; cases hi
      | err _ => exact h
      | panic => exact h
  | write p w =>
    simp only [step, write]
    split <;> exact h
  | sync => exact h

/-- If opens are not interrupted, everyone who opens a file system gets the same tree, whatever
happens between the opens. -/
theorem C41_uninterrupted_opens_share (s : State D) (id r : Nat) (ops : List (Op D))
    (h : (openNow s id).2 = .has id r) :
    (openNow (ops.foldl step (openNow s id).1) id).2 = .has id r := by
  have h0 : (openNow s id).1.opened.get id = some r := by
    unfold openNow load at h ⊢
    cases hi : s.opened.get id with
    | some r' =>
      rw [hi] at h
      simp only [finish, Pc.has.injEq, true_and] at h ⊢
      rw [hi, h]
    | none =>
      rw [hi] at h
      dsimp only at h ⊢
      cases ht : getTree s.forest id with
      | ok tod =>
        rw [ht] at h
        simp only [finish, Pc.has.injEq, true_and] at h ⊢
        simp [hi, OMap.get_insert, h]
      | err _ => rw [ht] at h; simp [finish] at h
      | panic => rw [ht] at h; simp [finish] at h
  have h1 : (ops.foldl step (openNow s id).1).opened.get id = some r := by
    generalize (openNow s id).1 = s' at h0
    induction ops generalizing s' with
    | nil => exact h0
    | cons op ops ih => exact ih _ (step_opened s' op h0)
  generalize ops.foldl step (openNow s id).1 = s' at h1
  rw [openNow, load_of_opened h1]
  rfl

/-- Non-vacuity: an open, a write through it and a sync, and the next one to open reads what was
written. -/
example : (openNow start 1).2 = .has 1 0 ∧
    let s := step (step (openNow start 1).1 (.write (.has 1 0) fun t => { t with data := 42 })) .sync
    read s (openNow s 1).2 = some ⟨[], 42⟩ ∧ getTree s.forest 1 = .ok ⟨[], 42⟩ := by
  decide +kernel

end Verif.Forest.Race
