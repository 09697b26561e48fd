import Verif.TreeCredit.Lemmas

namespace Verif.TreeCredit
open Verif.WriteBack (isplit split halve take extend)

def CellOk (p : Params) : Cell → Prop
  | .disk m => m.Sorted ∧ m.length ≤ p.maxLeaf ∧ ∀ a ∈ m, a.2 ≤ p.maxSpace
  | .mem l => LeafOk p l
  | .writing m c => LeafOk p ⟨m, c⟩

def Even (c : Int) : Prop := ∃ q, c = 2 * q

/-- What a call has in hand at each stage, if it was given what it needs. -/
def Enough (e : Env) (p : Params) : Task → Prop
  | .insert _ v c => e.funded = true → 2 * ((oneLeaf p + p.kvs + v : Nat) : Int) ≤ c
  | .insertAt _ v c _ => e.funded = true → 2 * ((p.kvs + v : Nat) : Int) ≤ c
  | .remove _ c => e.funded = true → 2 * ((2 * oneLeaf p : Nat) : Int) ≤ c
  | .removeAt _ c _ => e.funded = true → 2 * (oneLeaf p : Int) ≤ c
  | .removeSib _ c _ _ => e.funded = true → 0 ≤ c
  | .removeFixed _ c _ => e.funded = true → 0 ≤ c
  | .rangeDelete c rc g n => g - 2 * (n * oneLeaf p : Nat) ≤ c + rc.getD 0 ∧
      (e.funded = true → 2 * ((3 * oneLeaf p : Nat) : Int) ≤ g) ∧ (e.narrow = true → n ≤ 3)

def TaskEven : Task → Prop
  | .rangeDelete c rc _ _ => Even c ∧ Even (rc.getD 0)
  | x => Even x.credit

structure Inv (e : Env) (p : Params) (d : Int) (s : Sys) : Prop where
  cells : s.cells.Sorted
  tasks : s.tasks.Sorted
  cell : ∀ i x, s.cells.get i = some x → CellOk p x
  even : ∀ t x, s.tasks.get t = some x → TaskEven x
  enough : ∀ t x, s.tasks.get t = some x → Enough e p x
  conserved : s.supply + leafCredit s + taskCredit s + d = s.capacity
  supply : e.funded = true → e.narrow = true → 0 ≤ s.supply

theorem leafCredit_eq (s : Sys) : leafCredit s = OMap.total Cell.credit s.cells := rfl
theorem taskCredit_eq (s : Sys) : taskCredit s = OMap.total Task.credit s.tasks := rfl

theorem Inv.cast {e : Env} {p : Params} {d d' : Int} {s : Sys} (h : Inv e p d s) (hd : d = d') :
    Inv e p d' s := hd ▸ h

def oldCell (s : Sys) (i : Nat) : Int := ((s.cells.get i).map Cell.credit).getD 0
def oldTask (s : Sys) (t : Nat) : Int := ((s.tasks.get t).map Task.credit).getD 0

theorem Inv.setCell {e : Env} {p : Params} {d : Int} {s : Sys} (h : Inv e p d s) (i : Nat)
    (x : Option Cell) (hx : ∀ y, x = some y → CellOk p y) :
    Inv e p (d + oldCell s i - (x.map Cell.credit).getD 0) (s.setCell i x) := by
  have hc := h.conserved
  rw [leafCredit_eq] at hc
  cases x with
  | none =>
    have ht := OMap.total_remove h.cells Cell.credit i
    refine ⟨h.cells.remove i, h.tasks, ?_, h.even, h.enough, ?_, h.supply⟩
    · intro j y hy
      rw [show (s.setCell i none).cells = s.cells.remove i from rfl, OMap.get_remove] at hy
      split at hy
      · cases hy
      · exact h.cell j y hy
    · rw [leafCredit_eq]
      simp only [Sys.setCell, taskCredit, oldCell, Option.map_none, Option.getD_none] at *
      omega
  | some y =>
    have ht := OMap.total_insert h.cells Cell.credit i y
    refine ⟨h.cells.insert i y, h.tasks, ?_, h.even, h.enough, ?_, h.supply⟩
    · intro j z hz
      rw [show (s.setCell i (some y)).cells = s.cells.insert i y from rfl, OMap.get_insert] at hz
      split at hz
      · cases hz; exact hx _ rfl
      · exact h.cell j z hz
    · rw [leafCredit_eq]
      simp only [Sys.setCell, taskCredit, oldCell, Option.map_some, Option.getD_some] at *
      omega

theorem Inv.setTask {e : Env} {p : Params} {d : Int} {s : Sys} (h : Inv e p d s) (t : Nat)
    (x : Option Task) (hx : ∀ y, x = some y → TaskEven y ∧ Enough e p y) :
    Inv e p (d + oldTask s t - (x.map Task.credit).getD 0) (s.setTask t x) := by
  have hc := h.conserved
  rw [taskCredit_eq] at hc
  cases x with
  | none =>
    have ht := OMap.total_remove h.tasks Task.credit t
    have hg : ∀ {j y}, (s.setTask t none).tasks.get j = some y → s.tasks.get j = some y := by
      intro j y hy
      rw [show (s.setTask t none).tasks = s.tasks.remove t from rfl, OMap.get_remove] at hy
      split at hy
      · cases hy
      · exact hy
    refine ⟨h.cells, h.tasks.remove t, h.cell, fun j y hy => h.even j y (hg hy),
      fun j y hy => h.enough j y (hg hy), ?_, h.supply⟩
    rw [taskCredit_eq]
    simp only [Sys.setTask, leafCredit, oldTask, Option.map_none, Option.getD_none] at *
    omega
  | some y =>
    have ht := OMap.total_insert h.tasks Task.credit t y
    have hg : ∀ {j z}, (s.setTask t (some y)).tasks.get j = some z →
        TaskEven z ∧ Enough e p z := by
      intro j z hz
      rw [show (s.setTask t (some y)).tasks = s.tasks.insert t y from rfl, OMap.get_insert] at hz
      split at hz
      · cases hz; exact hx _ rfl
      · exact ⟨h.even j z hz, h.enough j z hz⟩
    refine ⟨h.cells, h.tasks.insert t y, h.cell, fun j z hz => (hg hz).1,
      fun j z hz => (hg hz).2, ?_, h.supply⟩
    rw [taskCredit_eq]
    simp only [Sys.setTask, leafCredit, oldTask, Option.map_some, Option.getD_some] at *
    omega

theorem CellOk.nonneg {p : Params} {x : Cell} (h : CellOk p x) : 0 ≤ x.credit := by
  cases x with
  | disk m => exact Int.le_refl 0
  | mem l => have := h.exact; show 0 ≤ l.credit; omega
  | writing m c => have := h.exact; show 0 ≤ c; simp only at this; omega

theorem Enough.nonneg {e : Env} {p : Params} {x : Task} (h : Enough e p x)
    (hf : e.funded = true) (hn : e.narrow = true) : 0 ≤ x.credit := by
  cases x with
  | insert k v c => have := h hf; show 0 ≤ c; omega
  | insertAt k v c i => have := h hf; show 0 ≤ c; omega
  | remove k c => have := h hf; show 0 ≤ c; omega
  | removeAt k c i => have := h hf; show 0 ≤ c; omega
  | removeSib k c i j => exact h hf
  | removeFixed k c i => exact h hf
  | rangeDelete c rc g n =>
    have h1 := h.1; have h2 := h.2.1 hf; have h3 := h.2.2 hn
    have := Nat.mul_le_mul_right (oneLeaf p) h3
    show 0 ≤ c + rc.getD 0
    omega

theorem total_nonneg_of {V : Type} {m : OMap V} (hs : m.Sorted) (f : V → Int)
    (h : ∀ k x, m.get k = some x → 0 ≤ f x) : 0 ≤ OMap.total f m := by
  have h' : ∀ y ∈ m, 0 ≤ f y.2 := fun y hy => h y.1 y.2 (OMap.get_of_mem hs hy)
  clear h hs
  induction m with
  | nil => simp [OMap.total]
  | cons x m ih =>
    have h1 := ih (fun y hy => h' y (by simp [hy]))
    have h2 := h' x (by simp)
    simp only [OMap.total, List.map_cons, List.sum_cons] at *
    omega

theorem Inv.leaf_nonneg {e : Env} {p : Params} {d : Int} {s : Sys} (h : Inv e p d s) :
    0 ≤ leafCredit s :=
  total_nonneg_of h.cells _ fun k x hx => (h.cell k x hx).nonneg

theorem Inv.task_nonneg {e : Env} {p : Params} {d : Int} {s : Sys} (h : Inv e p d s)
    (hf : e.funded = true) (hn : e.narrow = true) : 0 ≤ taskCredit s :=
  total_nonneg_of h.tasks _ fun k x hx => (h.enough k x hx).nonneg hf hn

/-- The result of a step: a good state; and no panic if the calls were funded
and the disks work. -/
structure Good (e : Env) (p : Params) (d : Int) (r : Option Sys) : Prop where
  inv : ∀ s', r = some s' → Inv e p d s'
  safe : e.ioErrors = false → e.funded = true → e.narrow = true → r ≠ none

theorem Good.of {e : Env} {p : Params} {d : Int} {s : Sys} (h : Inv e p d s) :
    Good e p d (some s) := ⟨fun s' hs => by cases hs; exact h, fun _ _ _ => by simp⟩

theorem Inv.repay {e : Env} {p : Params} {c : Int} {s : Sys} (h : Inv e p c s)
    (hc : e.funded = true → e.narrow = true → 0 ≤ c) : Good e p 0 (repay s c) := by
  unfold TreeCredit.repay
  split
  · rename_i h0; exact Good.of (h.cast h0)
  · split
    · refine Good.of ⟨h.cells, h.tasks, h.cell, h.even, h.enough, ?_, ?_⟩
      · have := h.conserved
        simp only [leafCredit, taskCredit] at *; omega
      · intro hf hn
        have := hc hf hn; have := h.supply hf hn
        simp only; omega
    · rename_i hlt
      refine ⟨(by intro s' hs; cases hs), fun _ hf hn => ?_⟩
      exfalso
      have := h.conserved; have := h.leaf_nonneg; have := h.task_nonneg hf hn
      omega

theorem Good.bind_drop {e : Env} {p : Params} {d : Int} {r : Option Sys} (h : Good e p d r)
    {c : Int} (hc : c = 0) : Good e p d (r.bind fun s' => dropCredit s' c) := by
  have : (r.bind fun s' => dropCredit s' c) = r := by
    cases r with
    | none => rfl
    | some s => simp [dropCredit, hc]
  rw [this]; exact h

theorem Inv.drop {e : Env} {p : Params} {d : Int} {s : Sys} (h : Inv e p d s)
    {c : Int} (hc : c = 0) : Good e p d (dropCredit s c) := by
  unfold dropCredit; rw [if_pos hc]; exact Good.of h

theorem Inv.dropIo {e : Env} {p : Params} {c : Int} {s : Sys} (h : Inv e p c s)
    (hio : e.ioErrors = true) : Good e p 0 (dropCredit s c) := by
  unfold dropCredit
  split
  · rename_i hc; exact Good.of (h.cast hc)
  · exact ⟨(by intro s' hs; cases hs), fun h0 => by rw [hio] at h0; cases h0⟩

theorem oldCell_of {s : Sys} {i : Nat} {x : Cell} (h : s.cells.get i = some x) :
    oldCell s i = x.credit := by simp [oldCell, h]

theorem oldCell_none {s : Sys} {i : Nat} (h : s.cells.get i = none) : oldCell s i = 0 := by
  simp [oldCell, h]

theorem oldTask_of {s : Sys} {t : Nat} {x : Task} (h : s.tasks.get t = some x) :
    oldTask s t = x.credit := by simp [oldTask, h]

theorem oldTask_none {s : Sys} {t : Nat} (h : s.tasks.get t = none) : oldTask s t = 0 := by
  simp [oldTask, h]

theorem oldCell_setCell_ne {s : Sys} {i j : Nat} {x : Option Cell} (h : j ≠ i) :
    oldCell (s.setCell i x) j = oldCell s j := by
  cases x with
  | none =>
    show (((s.cells.remove i).get j).map _).getD 0 = _
    rw [OMap.get_remove, if_neg h]; rfl
  | some y =>
    show (((s.cells.insert i y).get j).map _).getD 0 = _
    rw [OMap.get_insert, if_neg h]; rfl

@[simp] theorem oldTask_setCell (s : Sys) (i t : Nat) (x : Option Cell) :
    oldTask (s.setCell i x) t = oldTask s t := by cases x <;> rfl

theorem even_two (n : Nat) : Even (2 * n) := ⟨n, rfl⟩

theorem Even.sub {a : Int} (h : Even a) (b : Int) : Even (a - 2 * b) := by
  obtain ⟨q, rfl⟩ := h; exact ⟨q - b, by omega⟩

theorem Even.add {a b : Int} (h : Even a) (h' : Even b) : Even (a + b) := by
  obtain ⟨q, rfl⟩ := h; obtain ⟨r, rfl⟩ := h'; exact ⟨q + r, by omega⟩

theorem Even.take {a : Int} (h : Even a) : take a = (0, a) := by
  obtain ⟨q, hq⟩ := h; exact take_even hq

theorem halve_eq (c : Int) : (halve c).1 + (halve c).2 = c := by
  simp only [halve, isplit]; omega

theorem Even.halve {c : Int} (h : Even c) : Even (halve c).1 ∧ Even (halve c).2 := by
  obtain ⟨q, rfl⟩ := h
  simp only [WriteBack.halve, isplit]
  exact ⟨⟨q - 2 * q / 4, by omega⟩, ⟨2 * q / 4, by omega⟩⟩

theorem disk_le {p : Params} {m : OMap Nat} (h : CellOk p (.disk m)) :
    bytes p.kvs m ≤ oneLeaf p := bytes_le h.2.1 h.2.2

theorem disk_mem {p : Params} {m : OMap Nat} (h : CellOk p (.disk m)) :
    CellOk p (.mem ⟨m, 2 * (bytes p.kvs m : Int)⟩) := ⟨h.1, h.2.1, rfl⟩

end Verif.TreeCredit
