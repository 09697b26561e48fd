import Verif.Tree.Stream

/-!
# Evaluating insertions

`insertInt` recurses on a pair, which the kernel does not unfold.  Here is the same function as two
nested structural recursions, so that examples can be computed.
-/

namespace Verif.Tree

variable {V : Type}

/-- The loop of `insertInt` at one level; `go` inserts into a child. -/
def insertLoop (L : Limits) (seq : Bool) (txg h : Nat)
    (go : Node V h → Nat → V → Option (Node V h × Option V)) :
    (fuel : Nat) → Node V (h + 1) → Nat → V → Option (Node V (h + 1) × Option V)
  | 0, _, _, _ => none
  | fuel + 1, n, k, v =>
    let i := position n k
    (n[i]?).bind fun e =>
      let n := if k < e.1 then putKey h n i k else n
      (xlock txg h n i).bind fun (n, child) =>
        if shouldSplit L h child k then
          (split L seq h child).bind fun (l, k', r) =>
            let n := putKids h n i l
            let n := putInfo h n i fun m => { m with start := startTxg txg h l, stop := txg + 1 }
            let new : Child (Sub V h) :=
              { info := { start := startTxg txg h r, stop := txg + 1, addr := none, mark := false }
                kids := r }
            insertLoop L seq txg h go fuel (n.insertIdx (i + 1) (k', new)) k v
        else
          let n := if h = 0 then putInfo h n i fun m => { m with start := txg, stop := txg + 1 }
            else n
          (go child k v).map fun (child, old) => (putKids h n i child, old)

def insertS (L : Limits) (seq : Bool) (txg : Nat) :
    (h : Nat) → (fuel : Nat) → Node V h → Nat → V → Option (Node V h × Option V)
  | 0, _, n, k, v => some (OMap.insert n k v, OMap.get n k)
  | h + 1, fuel, n, k, v => insertLoop L seq txg h (insertS L seq txg h 2) fuel n k v

theorem insertS_eq (L : Limits) (seq : Bool) (txg : Nat) : ∀ (h fuel : Nat) (n : Node V h) (k : Nat)
    (v : V), insertInt L seq txg h fuel n k v = insertS L seq txg h fuel n k v := by
  intro h
  induction h with
  | zero => intro fuel n k v; simp [insertInt, insertS]
  | succ h ih =>
    intro fuel
    induction fuel with
    | zero => intro n k v; simp [insertInt, insertS, insertLoop]
    | succ fuel ihf =>
      intro n k v
      simp only [insertS] at ihf ⊢
      rw [insertInt, insertLoop]
      simp only [ih, ihf]

/-- `Tree.insert` with `insertS`. -/
def Tree.insertS (L : Limits) (seq : Bool) (txg : Nat) (t : Tree V) (k : Nat) (v : V) :
    Option (Tree V × Option V) :=
  let t := t.xlockRoot txg
  if shouldSplit L t.h t.root k then
    (split L seq t.h t.root).bind fun (l, k', r) =>
      let old : Child (Sub V t.h) :=
        { info := { start := startTxg txg t.h l, stop := txg + 1, addr := none, mark := false }
          kids := l }
      let new : Child (Sub V t.h) :=
        { info := { start := startTxg txg t.h r, stop := txg + 1, addr := none, mark := false }
          kids := r }
      (Tree.insertS.go L seq txg (t.h + 1) 2 [(0, old), (k', new)] k v).map fun (n, o) =>
        ({ h := t.h + 1, info := t.info, root := n }, o)
  else
    let info := if t.h = 0 then { t.info with start := txg, stop := txg + 1 } else t.info
    (Tree.insertS.go L seq txg t.h 2 t.root k v).map fun (n, o) => ({ h := t.h, info, root := n }, o)
where
  go (L : Limits) (seq : Bool) (txg h fuel : Nat) (n : Node V h) (k : Nat) (v : V) :=
    Verif.Tree.insertS L seq txg h fuel n k v

theorem Tree.insertS_eq (L : Limits) (seq : Bool) (txg : Nat) (t : Tree V) (k : Nat) (v : V) :
    t.insert L seq txg k v = t.insertS L seq txg k v := by
  simp only [Tree.insert, Tree.insertS, Tree.insertS.go, Verif.Tree.insertS_eq]

/-- The children of a node in `flushR`. -/
def flushLoop (txg h : Nat) (deeper : Nat → Node V h → Nat × Node V h) :
    Nat → Node V (h + 1) → Nat × Node V (h + 1)
  | next, [] => (next, [])
  | next, (k, c) :: cs =>
    match c.info.addr with
    | some _ =>
      let r := flushLoop txg h deeper next cs
      (r.1, (k, c) :: r.2)
    | none =>
      let p := deeper next c.kids
      let c' : Child (Sub V h) :=
        { info := { c.info with
            start := startTxg txg h p.2, stop := txg + 1, addr := some { pba := p.1, txg } }
          kids := p.2 }
      let r := flushLoop txg h deeper (p.1 + 1) cs
      (r.1, (k, c') :: r.2)

/-- `flushR` by recursion on the height. -/
def flushS (txg : Nat) : (h : Nat) → (next : Nat) → Node V h → Nat × Node V h
  | 0, next, n => (next, n)
  | h + 1, next, n => flushLoop txg h (flushS txg h) next n

theorem flushS_eq (txg : Nat) : ∀ (h next : Nat) (n : Node V h),
    flushR txg h next n = flushS txg h next n := by
  intro h
  induction h with
  | zero => intro next n; simp [flushR, flushS]
  | succ h ih =>
    intro next n
    simp only [flushS]
    induction n generalizing next with
    | nil => simp [flushR, flushLoop]
    | cons x cs ihn =>
      obtain ⟨k, c⟩ := x
      rw [flushR, flushLoop]
      simp only [ih, ihn]
      cases c.info.addr <;> rfl

/-- `Tree.flush` with `flushS`. -/
def Tree.flushS (txg next : Nat) (t : Tree V) : Tree V :=
  match t.info.addr with
  | some _ => t
  | none =>
    let p := Verif.Tree.flushS txg t.h next t.root
    { h := t.h
      info := { t.info with
        start := startTxg txg t.h p.2, stop := txg + 1, addr := some { pba := p.1, txg } }
      root := p.2 }

theorem Tree.flushS_eq (txg next : Nat) (t : Tree V) : t.flush txg next = t.flushS txg next := by
  simp only [Tree.flush, Tree.flushS, Verif.Tree.flushS_eq]
  cases t.info.addr <;> rfl

/-- `run` without the results, by recursion on the height. -/
def runS (L : Limits) (seq : Bool) (t : Tree V) : List (Op V) → Option (Tree V)
  | [] => some t
  | .insert txg k v :: ops => (t.insertS L seq txg k v).bind fun p => runS L seq p.1 ops
  | .flush txg next :: ops => runS L seq (t.flushS txg next) ops
  | op :: ops => (step L seq t op).bind fun p => runS L seq p.1 ops

theorem runS_eq (L : Limits) (seq : Bool) : ∀ (ops : List (Op V)) (t : Tree V),
    (run L seq t ops).map (·.1) = runS L seq t ops := by
  intro ops
  induction ops with
  | nil => intro t; rfl
  | cons op ops ih =>
    intro t
    have h : (run L seq t (op :: ops)).map (·.1) =
        (step L seq t op).bind fun p => runS L seq p.1 ops := by
      simp only [run]
      cases step L seq t op with
      | none => rfl
      | some p => simp [← ih, Option.map_map, Function.comp_def]
    rw [h]
    cases op with
    | insert txg k v =>
      simp only [step, runS, Tree.insertS_eq]
      cases t.insertS L seq txg k v <;> rfl
    | flush txg next => simp only [step, runS, Tree.flushS_eq, Option.bind_some]
    | _ => rfl

end Verif.Tree
