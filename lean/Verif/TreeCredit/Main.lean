import Verif.TreeCredit.Steps

namespace Verif.TreeCredit
open Verif.WriteBack (isplit split halve take extend)
variable {e : Env} {p : Params} {s : Sys}

/-- The task changes, nothing else. -/
theorem Inv.move (h : Inv e p 0 s) {t : Nat} {x y : Task} (ht : s.tasks.get t = some x)
    (hc : y.credit = x.credit) (he : TaskEven y) (hy : Enough e p y) :
    Inv e p 0 (s.setTask t (some y)) := by
  refine (h.setTask t (some y) (by intro z hz; cases hz; exact ⟨he, hy⟩)).cast ?_
  rw [oldTask_of ht]; simp; omega

/-- A leaf is read from disk and made dirty. -/
theorem Inv.fetch (h : Inv e p 0 s) {t i : Nat} {m : OMap Nat} {x y : Task}
    (ht : s.tasks.get t = some x) (hi : s.cells.get i = some (.disk m))
    (hc : y.credit = x.credit - 2 * (bytes p.kvs m : Int)) (he : TaskEven y)
    (hy : Enough e p y) :
    Inv e p 0 ((s.setCell i (some (.mem ⟨m, 2 * (bytes p.kvs m : Int)⟩))).setTask t (some y)) := by
  have h1 := h.setCell i (some (.mem ⟨m, 2 * (bytes p.kvs m : Int)⟩))
    (by intro z hz; cases hz; exact disk_mem (h.cell i _ hi))
  refine (h1.setTask t (some y) (by intro z hz; cases hz; exact ⟨he, hy⟩)).cast ?_
  rw [oldTask_setCell, oldTask_of ht, oldCell_of hi]
  simp [Cell.credit]; omega

/-- Two leaves share what they hold. -/
theorem Inv.pair (h : Inv e p 0 s) {i j : Nat} {l o : Leaf} {x y : Option Cell} (hij : i ≠ j)
    (hi : s.cells.get i = some (.mem l)) (hj : s.cells.get j = some (.mem o))
    (hx : ∀ z, x = some z → CellOk p z) (hy : ∀ z, y = some z → CellOk p z)
    (hc : (x.map Cell.credit).getD 0 + (y.map Cell.credit).getD 0 = l.credit + o.credit) :
    Inv e p 0 ((s.setCell i x).setCell j y) := by
  refine ((h.setCell i x hx).setCell j y hy).cast ?_
  rw [oldCell_setCell_ne (Ne.symm hij), oldCell_of hi, oldCell_of hj]
  simp only [Cell.credit]; omega

theorem fixRight_ok {l sib : Leaf} (hp : p.Ok) (hl : LeafOk p l) (ho : LeafOk p sib)
    (hd : l.items.length ≤ p.minLeaf) (hlt : ∀ a ∈ l.items, ∀ b ∈ sib.items, a.1 < b.1) :
    ∃ l' o', fixRight p l sib = some (l', o') ∧ LeafOk p l' ∧ (∀ o, o' = some o → LeafOk p o) ∧
      l'.credit + (o'.map Leaf.credit).getD 0 = l.credit + sib.credit := by
  unfold fixRight
  split
  · rename_i hlen
    obtain ⟨m, hm, hok, hc, _⟩ := merge_ok hl ho hlen hlt
    exact ⟨m, none, by simp [hm], hok, by simp, by simpa using hc⟩
  · rename_i hlen
    obtain ⟨l', o', hm, hok, hok', hc, _⟩ := takeLow_ok hp hl ho hd hlen hlt
    exact ⟨l', some o', by simp [hm], hok, by intro o ho; cases ho; exact hok', by simpa using hc⟩

theorem fixLeft_ok {l sib : Leaf} (hp : p.Ok) (hl : LeafOk p l) (ho : LeafOk p sib)
    (hd : l.items.length ≤ p.minLeaf) (hlt : ∀ a ∈ sib.items, ∀ b ∈ l.items, a.1 < b.1) :
    ∃ l' o', fixLeft p l sib = some (l', o') ∧ (∀ o, l' = some o → LeafOk p o) ∧ LeafOk p o' ∧
      (l'.map Leaf.credit).getD 0 + o'.credit = l.credit + sib.credit := by
  unfold fixLeft
  split
  · rename_i hlen
    obtain ⟨m, hm, hok, hc, _⟩ := merge_ok ho hl hlen hlt
    exact ⟨none, m, by simp [hm], by simp, hok, by simp; omega⟩
  · rename_i hlen
    obtain ⟨l', o', hm, hok, hok', hc, _⟩ := takeHigh_ok hp hl ho hd hlen hlt
    exact ⟨some l', o', by simp [hm], by intro o ho; cases ho; exact hok, hok', by simpa using hc⟩

theorem map_mem_credit (o : Option Leaf) :
    ((o.map Cell.mem).map Cell.credit).getD 0 = (o.map Leaf.credit).getD 0 := by
  cases o <;> rfl

theorem map_mem_ok {o : Option Leaf} (h : ∀ x, o = some x → LeafOk p x) :
    ∀ z, o.map Cell.mem = some z → CellOk p z := by
  intro z hz
  cases o with
  | none => cases hz
  | some x => cases hz; exact h x rfl

theorem mem_ok {l : Leaf} (h : LeafOk p l) : ∀ z, some (Cell.mem l) = some z → CellOk p z := by
  intro z hz; cases hz; exact h

theorem Inv.fixR (h : Inv e p 0 s) (hp : p.Ok) {i j : Nat} {l sib : Leaf} (hij : i ≠ j)
    (hi : s.cells.get i = some (.mem l)) (hj : s.cells.get j = some (.mem sib))
    (hd : l.items.length ≤ p.minLeaf) (hlt : ∀ a ∈ l.items, ∀ b ∈ sib.items, a.1 < b.1) :
    ∃ r, fixRight p l sib = some r ∧
      Inv e p 0 ((s.setCell i (some (.mem r.1))).setCell j (r.2.map .mem)) := by
  obtain ⟨l', o', hr, h1, h2, h3⟩ := fixRight_ok hp (h.cell i _ hi) (h.cell j _ hj) hd hlt
  refine ⟨_, hr, h.pair hij hi hj (mem_ok h1) (map_mem_ok h2) ?_⟩
  rw [map_mem_credit]; exact h3

theorem Inv.fixL (h : Inv e p 0 s) (hp : p.Ok) {i j : Nat} {l sib : Leaf} (hij : i ≠ j)
    (hi : s.cells.get i = some (.mem l)) (hj : s.cells.get j = some (.mem sib))
    (hd : l.items.length ≤ p.minLeaf) (hlt : ∀ a ∈ sib.items, ∀ b ∈ l.items, a.1 < b.1) :
    ∃ r, fixLeft p l sib = some r ∧
      Inv e p 0 ((s.setCell i (r.1.map .mem)).setCell j (some (.mem r.2))) := by
  obtain ⟨l', o', hr, h1, h2, h3⟩ := fixLeft_ok hp (h.cell i _ hi) (h.cell j _ hj) hd hlt
  refine ⟨_, hr, h.pair hij hi hj (map_mem_ok h1) (mem_ok h2) ?_⟩
  rw [map_mem_credit]; exact h3

@[simp] theorem tasks_setCell (s : Sys) (i : Nat) (x : Option Cell) :
    (s.setCell i x).tasks = s.tasks := by cases x <;> rfl

theorem Inv.borrow (h : Inv e p 0 s) {t n : Nat} {y : Task} (ht : s.tasks.get t = none)
    (hn : 2 * (n : Int) ≤ s.supply) (hc : y.credit = 2 * n) (he : TaskEven y)
    (hy : Enough e p y) :
    Inv e p 0 ({ s with supply := s.supply - 2 * n }.setTask t (some y)) := by
  have h1 : Inv e p (2 * n) { s with supply := s.supply - 2 * n } := by
    refine ⟨h.cells, h.tasks, h.cell, h.even, h.enough, ?_, ?_⟩
    · have := h.conserved
      simp only [leafCredit, taskCredit] at *; omega
    · intro _ _; simp only; omega
  refine (h1.setTask t (some y) (by intro z hz; cases hz; exact ⟨he, hy⟩)).cast ?_
  rw [oldTask_none (s := { s with supply := s.supply - 2 * n }) ht]; simp; omega

theorem kvs_le_oneLeaf (hp : p.Ok) : p.kvs ≤ oneLeaf p := by
  have h1 := hp.pos
  have h2 := Nat.mul_le_mul_right (p.kvs + p.maxSpace) h1
  unfold oneLeaf; omega

/-- What `credit_requirements` says, with the size of the value, is enough for an
insertion. -/
theorem needInsert_le (hp : p.Ok) (v : Nat) : needInsert p v ≤ reqInsert p + v := by
  have := kvs_le_oneLeaf hp
  unfold needInsert reqInsert; omega

/-- Every step keeps the books, and does not panic if the calls are funded and
the disks work. -/
theorem step_good (hp : p.Ok) {r : Option Sys} (h : Inv e p 0 s)
    (hs : Step e p s r) : Good e p 0 r := by
  cases hs with
  | callInsert t k v n h1 h2 h3 =>
    refine Good.of (h.borrow h1 h2 rfl (even_two n) (fun hf => ?_))
    have := h3 hf; simp only [needInsert] at this; omega
  | callRemove t k n h1 h2 h3 =>
    refine Good.of (h.borrow h1 h2 rfl (even_two n) (fun hf => ?_))
    have := h3 hf; simp only [reqRemove] at this; omega
  | callRangeDelete t n h1 h2 h3 =>
    refine Good.of (h.borrow h1 h2 (by simp [Task.credit])
      ⟨even_two n, ⟨0, rfl⟩⟩ ⟨by simp, fun hf => ?_, fun _ => by omega⟩)
    have := h3 hf; simp only [reqRangeDelete] at this; omega
  | @insertMem k v c l t i h1 h2 =>
    have hev := h.even t _ h1
    refine Good.of (h.move h1 rfl hev (fun hf => ?_))
    have := h.enough t _ h1 hf; omega
  | @insertDisk k v c m t i h1 h2 =>
    rw [acredit_eq]
    have hle := disk_le (h.cell i _ h2)
    refine Good.of (h.fetch h1 h2 rfl (Even.sub (h.even t _ h1) _) (fun hf => ?_))
    have := h.enough t _ h1 hf; omega
  | @insertSplit k v c l t i j n at' h1 h2 h3 h4 h5 h6 h7 h8 =>
    obtain ⟨l1, l2, hr, ho1, ho2, hc, _⟩ := leafSplit_ok (h.cell i _ h2) h6
    rw [hr]
    have hij : j ≠ i := by intro hji; rw [hji, h2] at h3; cases h3
    have hA : Inv e p 0 ((s.setCell i (some (.mem l1))).setCell j (some (.mem l2))) := by
      refine ((h.setCell i _ (mem_ok ho1)).setCell j _ (mem_ok ho2)).cast ?_
      rw [oldCell_setCell_ne hij, oldCell_of h2, oldCell_none h3]
      simp [Cell.credit]; omega
    have hev := h.even t _ h1
    have hen := h.enough t _ h1
    rw [← tasks_setCell s i, ← tasks_setCell (Sys.setCell s i _) j] at h1
    exact Good.of (hA.move h1 rfl hev hen)
  | @insertLeaf k v c l t i h1 h2 h3 =>
    obtain ⟨q, hq⟩ := h.even t _ h1
    obtain ⟨l', x, hr, hok, hx, hxl, _⟩ := leafInsert_ok (h.cell i _ h2) hq h3
    rw [show leafInsert p.kvs l k v c = some (l', x) from hr]
    refine Inv.repay (((h.setCell i _ (mem_ok hok)).setTask t none (by simp)).cast ?_) ?_
    · rw [oldTask_setCell, oldTask_of h1, oldCell_of h2]
      simp only [Task.credit] at hx
      simp [Cell.credit, Task.credit]; omega
    · intro hf _
      have := h.enough t _ h1 hf
      have := kvs_le_oneLeaf hp
      simp only [Task.credit] at hxl
      omega
  | @removeMem k c l t i h1 h2 =>
    have hev := h.even t _ h1
    refine Good.of (h.move h1 rfl hev (fun hf => ?_))
    have := h.enough t _ h1 hf; omega
  | @removeDisk k c m t i h1 h2 =>
    rw [acredit_eq]
    have hle := disk_le (h.cell i _ h2)
    refine Good.of (h.fetch h1 h2 rfl (Even.sub (h.even t _ h1) _) (fun hf => ?_))
    have := h.enough t _ h1 hf; omega
  | @sibMem k c l t i j h1 h2 =>
    have hev := h.even t _ h1
    refine Good.of (h.move h1 rfl hev (fun hf => ?_))
    have := h.enough t _ h1 hf; omega
  | @sibDisk k c m t i j h1 h2 =>
    rw [acredit_eq]
    have hle := disk_le (h.cell j _ h2)
    refine Good.of (h.fetch h1 h2 rfl (Even.sub (h.even t _ h1) _) (fun hf => ?_))
    have := h.enough t _ h1 hf; omega
  | @removeFixR k c l sib t i j at' h1 hij h2 h3 h4 h5 h6 =>
    obtain ⟨r, hr, hA⟩ := h.fixR hp hij h2 h3 h4 h5
    rw [hr]
    have hev := h.even t _ h1
    have hen := h.enough t _ h1
    rw [← tasks_setCell s i, ← tasks_setCell (Sys.setCell s i _) j] at h1
    exact Good.of (hA.move h1 rfl hev hen)
  | @removeFixL k c l sib t i j at' h1 hij h2 h3 h4 h5 h6 =>
    obtain ⟨r, hr, hA⟩ := h.fixL hp hij h2 h3 h4 h5
    rw [hr]
    have hev := h.even t _ h1
    have hen := h.enough t _ h1
    rw [← tasks_setCell s i, ← tasks_setCell (Sys.setCell s i _) j] at h1
    exact Good.of (hA.move h1 rfl hev hen)
  | @removeLeaf k c l t i h1 h2 =>
    have ht : oldTask s t = c := by
      rcases h1 with h1 | h1 <;> exact oldTask_of h1
    have hc : e.funded = true → 0 ≤ c := by
      intro hf
      rcases h1 with h1 | h1
      · have := h.enough t _ h1 hf; omega
      · exact h.enough t _ h1 hf
    obtain ⟨l', x, hr, hok, hx, hx0, _⟩ := leafRemove_ok (h.cell i _ h2) k
    rw [hr]
    refine Inv.repay (((h.setCell i _ (mem_ok hok)).setTask t none (by simp)).cast ?_) ?_
    · rw [oldTask_setCell, ht, oldCell_of h2]
      simp [Cell.credit, extend]; omega
    · intro hf _
      have := hc hf
      simp only [extend]; omega
  | @rdHalve c g n t h1 =>
    have := halve_eq c
    have he := h.even t _ h1
    have hen := h.enough t _ h1
    refine Good.of (h.move h1 (by simp [Task.credit]; omega) (Even.halve he.1) ⟨?_, hen.2⟩)
    have := hen.1
    simp at this ⊢; omega
  | @rdJoin c rc g n t h1 =>
    have he := h.even t _ h1
    have hen := h.enough t _ h1
    refine Good.of (h.move h1 (by simp [Task.credit, extend])
      ⟨Even.add he.1 he.2, ⟨0, rfl⟩⟩ ⟨?_, hen.2⟩)
    have := hen.1
    simpa [extend] using this
  | @rdDisk c g rc n m t i h1 h2 h3 =>
    rw [acredit_eq]
    have hle := disk_le (h.cell i _ h2)
    have he := h.even t _ h1
    have hen := h.enough t _ h1
    refine Good.of (h.fetch h1 h2 (by simp [Task.credit]; omega) ⟨Even.sub he.1 _, he.2⟩
      ⟨?_, hen.2.1, fun hn => by have := h3 hn; omega⟩)
    have := hen.1
    rw [Nat.add_mul]
    simp only at *; omega
  | @rdDiskR c rc g n m t i h1 h2 h3 =>
    rw [acredit_eq]
    have hle := disk_le (h.cell i _ h2)
    have he := h.even t _ h1
    have hen := h.enough t _ h1
    refine Good.of (h.fetch h1 h2 (by simp [Task.credit]; omega) ⟨he.1, Even.sub he.2 _⟩
      ⟨?_, hen.2.1, fun hn => by have := h3 hn; omega⟩)
    have := hen.1
    rw [Nat.add_mul]
    simp only [Option.getD_some] at *; omega
  | @rdDelete c g rc n l t i f h1 h2 =>
    obtain ⟨l', x, hr, hok, hx, hx0, _⟩ := leafRangeDelete_ok (h.cell i _ h2) f
    rw [hr]
    refine Inv.repay ((h.setCell i _ (mem_ok hok)).cast ?_) (fun _ _ => hx0)
    rw [oldCell_of h2]
    simp [Cell.credit]; omega
  | @rdEmpty c g rc n l t i h1 h2 h3 =>
    have hx := LeafOk.exact (h.cell i _ h2)
    have h0 : l.credit = 0 := by rw [hx, h3]; simp [bytes]
    refine Inv.drop ((h.setCell i none (by simp)).cast ?_) h0
    rw [oldCell_of h2]; simp [Cell.credit, h0]
  | @rdPurgeMem c g rc n l t i h1 h2 =>
    have hok := h.cell i _ h2
    obtain ⟨l', x, hr, hok', hx, hx0, _⟩ := leafRangeDelete_ok hok (fun _ => true)
    have key : ∀ (l' : Leaf) (x : Int), LeafOk p l' → x = l.credit - l'.credit → 0 ≤ x →
        Good e p 0 ((repay (s.setCell i none) (extend x (take l'.credit).2)).bind
          fun s' => dropCredit s' (take l'.credit).1) := by
      intro l' x hok' hx hx0
      have hex := hok'.exact
      rw [take_even hex]
      refine Good.bind_drop (Inv.repay ((h.setCell i none (by simp)).cast ?_) ?_) rfl
      · rw [oldCell_of h2]; simp [Cell.credit, extend]; omega
      · intro _ _; simp only [extend]; omega
    by_cases hnf : p.needsFlush = true
    · rw [if_pos hnf, hr]; exact key l' x hok' hx hx0
    · rw [if_neg hnf]; exact key l 0 hok (by omega) (by omega)
  | @rdPurgeDisk c g rc n m t i h1 h2 =>
    have hA : Inv e p 0 (s.setCell i none) := by
      refine (h.setCell i none (by simp)).cast ?_
      rw [oldCell_of h2]; simp [Cell.credit]
    have key : Good e p 0 ((dropCredit (s.setCell i none) 0).bind fun s' => dropCredit s' 0) :=
      Good.bind_drop (Inv.drop hA rfl) rfl
    by_cases hnf : p.needsFlush = true
    · rw [if_pos hnf, leafRangeDeleteU_disk]; exact key
    · rw [if_neg hnf]; exact key
  | @rdFixR c g rc n l sib t i j h1 hij h2 h3 h4 h5 =>
    obtain ⟨r, hr, hA⟩ := h.fixR hp hij h2 h3 h4 h5
    rw [hr]; exact Good.of hA
  | @rdFixL c g rc n l sib t i j h1 hij h2 h3 h4 h5 =>
    obtain ⟨r, hr, hA⟩ := h.fixL hp hij h2 h3 h4 h5
    rw [hr]; exact Good.of hA
  | newLeaf j h1 =>
    refine Good.of ((h.setCell j _ (mem_ok ⟨by simp [OMap.Sorted], by simp, by simp [bytes]⟩)).cast ?_)
    rw [oldCell_none h1]; simp [Cell.credit]
  | @rdEnd c g n t h1 =>
    refine Inv.repay ((h.setTask t none (by simp)).cast ?_) ?_
    · rw [oldTask_of h1]; simp [Task.credit]
    · intro hf hn
      simpa [Task.credit] using (h.enough t _ h1).nonneg hf hn
  | @flushStart l i h1 =>
    have hok : LeafOk p l := h.cell i _ h1
    have hex := hok.exact
    rw [take_even hex]
    refine Inv.drop ((h.setCell i (some (.writing l.items l.credit))
      (by intro z hz; cases hz; exact hok)).cast ?_) rfl
    rw [oldCell_of h1]; simp [Cell.credit]
  | @flushDone m m' c i h1 h2 h3 =>
    have hok : LeafOk p ⟨m, c⟩ := h.cell i _ h1
    have hex := hok.exact
    rw [take_even (c := c) hex]
    have hlen : m'.length = m.length := by
      have := congrArg List.length h2; simpa using this
    have hsort : OMap.Sorted m' := by
      have hm : List.Pairwise (· < ·) (m.map (·.1)) := List.pairwise_map.2 hok.sorted
      rw [← h2] at hm
      exact List.pairwise_map.1 hm
    refine Good.bind_drop (Inv.repay ((h.setCell i (some (.disk m')) ?_).cast ?_) ?_) rfl
    · intro z hz; cases hz
      exact ⟨hsort, by rw [hlen]; exact hok.len, h3⟩
    · rw [oldCell_of h1]; simp [Cell.credit]
    · intro _ _; simp only at hex; simp only; omega
  | @dropLeaf l i h1 =>
    have hok : LeafOk p l := h.cell i _ h1
    have hex := hok.exact
    rw [take_even hex]
    refine Good.bind_drop (Inv.repay ((h.setCell i none (by simp)).cast ?_) ?_) rfl
    · rw [oldCell_of h1]; simp [Cell.credit]
    · intro _ _; simp only; omega
  | readFails t h1 h2 =>
    refine Inv.dropIo ((h.setTask t none (by simp)).cast ?_) h1
    rw [oldTask_of h2]; simp
  | writeFails i h1 h2 =>
    refine Inv.dropIo ((h.setCell i none (by simp)).cast ?_) h1
    rw [oldCell_of h2]; simp [Cell.credit]

theorem fresh_inv {s₀ : Sys} (h : Fresh p s₀) : Inv e p 0 s₀ := by
  have hl : leafCredit s₀ = 0 := by
    have h' : ∀ x ∈ s₀.cells, x.2.credit = 0 := by
      intro x hx
      obtain ⟨m, hm, _⟩ := h.disk x.1 x.2 (OMap.get_of_mem h.sorted hx)
      rw [hm]; rfl
    unfold leafCredit
    generalize s₀.cells = cs at h'
    induction cs with
    | nil => rfl
    | cons x cs ih =>
      have h1 := h' x (by simp)
      have h2 := ih (fun y hy => h' y (by simp [hy]))
      simp only [List.map_cons, List.sum_cons, h1, h2]; rfl
  obtain ⟨n, hn⟩ := h.even
  refine ⟨h.sorted, by rw [h.tasks]; simp [OMap.Sorted], ?_, ?_, ?_, ?_, ?_⟩
  · intro i x hx
    obtain ⟨m, hm, h1, h2, h3⟩ := h.disk i x hx
    rw [hm]; exact ⟨h1, h2, h3⟩
  · intro t x hx; rw [h.tasks] at hx; cases hx
  · intro t x hx; rw [h.tasks] at hx; cases hx
  · rw [hl, h.supply]; unfold taskCredit; rw [h.tasks]; simp
  · intro _ _; rw [h.supply, hn]; omega

theorem reach_inv (hp : p.Ok) {s₀ : Sys} (hf : Fresh p s₀) (h : Reach e p s₀ s) :
    Inv e p 0 s := by
  induction h with
  | init => exact fresh_inv hf
  | step _ hs ih => exact (step_good hp ih hs).inv _ rfl

theorem cell_dirty {x : Cell} (h : CellOk p x) : x.credit = 2 * (x.dirty p.kvs : Int) := by
  cases x with
  | disk m => rfl
  | mem l => exact h.exact
  | writing m c => exact h.exact

theorem Inv.leaf_dirty {d : Int} (h : Inv e p d s) :
    leafCredit s = 2 * (dirtyBytes p.kvs s : Int) := by
  have h' : ∀ x ∈ s.cells, x.2.credit = 2 * (x.2.dirty p.kvs : Int) :=
    fun x hx => cell_dirty (h.cell x.1 x.2 (OMap.get_of_mem h.cells hx))
  unfold leafCredit dirtyBytes
  clear h
  generalize s.cells = cs at h'
  induction cs with
  | nil => rfl
  | cons x cs ih =>
    have h1 := h' x (by simp)
    have h2 := ih (fun y hy => h' y (by simp [hy]))
    simp only [List.map_cons, List.sum_cons]; omega

end Verif.TreeCredit
