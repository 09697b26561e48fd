import Verif.TreeCredit.Main

/-!
# C73: the writeback credit of a tree

Amounts of credit are doubled (writeback.rs 28): `2 * bytes`.
-/

namespace Verif.TreeCredit
open Verif.WriteBack (isplit split halve take extend)
variable {e : Env} {p : Params} {s₀ s : Sys}

/-- Every leaf that is dirty in memory carries exactly the credit that its
items need: no more, so that no part of the cache is wasted, and no less.  The
same goes for a leaf that is being written. -/
theorem C73_exact (hp : p.Ok) (hf : Fresh p s₀) (h : Reach e p s₀ s) (i : Nat) (x : Cell)
    (hx : s.cells.get i = some x) : x.credit = 2 * (x.dirty p.kvs : Int) :=
  cell_dirty ((reach_inv hp hf h).cell i x hx)

/-- Credit is neither made nor lost: what the bank has, what is with the
leaves and what the calls in progress have in hand add up to the capacity. -/
theorem C73_conserved (hp : p.Ok) (hf : Fresh p s₀) (h : Reach e p s₀ s) :
    s.supply + leafCredit s + taskCredit s = s.capacity := by
  have := (reach_inv hp hf h).conserved; omega

/-- When no call is in progress, the bank lacks exactly what the dirty data
needs; and when all is on disk, it has everything back. -/
theorem C73_quiet (hp : p.Ok) (hf : Fresh p s₀) (h : Reach e p s₀ s) (hq : s.tasks = []) :
    s.supply + 2 * (dirtyBytes p.kvs s : Int) = s.capacity ∧
      ((∀ i x, s.cells.get i = some x → ∃ m, x = .disk m) → s.supply = s.capacity) := by
  have hi := reach_inv hp hf h
  have h1 := hi.conserved
  have h2 := hi.leaf_dirty
  have h3 : taskCredit s = 0 := by unfold taskCredit; rw [hq]; rfl
  refine ⟨by omega, fun hd => ?_⟩
  have h0 : dirtyBytes p.kvs s = 0 := by
    have h' : ∀ x ∈ s.cells, x.2.dirty p.kvs = 0 := by
      intro x hx
      obtain ⟨m, hm⟩ := hd x.1 x.2 (OMap.get_of_mem hi.cells hx)
      rw [hm]; rfl
    unfold dirtyBytes
    generalize s.cells = cs at h'
    induction cs with
    | nil => rfl
    | cons y cs ih =>
      have h1 := h' y (by simp)
      have h2 := ih (fun z hz => h' z (by simp [hz]))
      simp only [List.map_cons, List.sum_cons]; omega
  omega

/-- Whatever the shape of the tree and the order of events, as long as callers
bring what `credit_requirements` says, disks do not fail and no range deletion
meets more than three clean leaves: no credit is dropped, no assertion about
credit fails and none of the leaf operations panics.

Missing for the full claim: disk errors and wide range deletions, see
`C73_read_error_panics`, `C73_write_error_panics` and
`C73_range_delete_overdraws`. -/
theorem C73_no_panic_partial (hp : p.Ok) (hf : Fresh p s₀) (h : Reach ⟨false, true, true⟩ p s₀ s) :
    ¬ Step ⟨false, true, true⟩ p s none :=
  fun hs => (step_good hp (reach_inv hp hf h) hs).safe rfl rfl rfl rfl

/-- Under the same conditions the dirty data never exceeds the capacity of the
writeback cache, the bank is never overdrawn, and no call ever runs out of
credit. -/
theorem C73_bounded_partial (hp : p.Ok) (hf : Fresh p s₀)
    (h : Reach ⟨e.ioErrors, true, true⟩ p s₀ s) :
    0 ≤ s.supply ∧ (∀ t x, s.tasks.get t = some x → 0 ≤ x.credit) ∧
      2 * (dirtyBytes p.kvs s : Int) ≤ s.capacity := by
  have hi := reach_inv hp hf h
  have h1 := hi.supply rfl rfl
  have h2 := hi.conserved
  have h3 := hi.leaf_dirty
  have h4 := hi.task_nonneg rfl rfl
  exact ⟨h1, fun t x hx => (hi.enough t x hx).nonneg rfl rfl, by omega⟩

/-- `credit_requirements` is what insertions and removals need: a call that
brought it still has enough for each leaf it may yet have to dirty. -/
theorem C73_requirements (hp : p.Ok) (hf : Fresh p s₀)
    (h : Reach ⟨e.ioErrors, true, e.narrow⟩ p s₀ s) (t : Nat) :
    (∀ k v c i, s.tasks.get t = some (.insertAt k v c i) → 2 * ((p.kvs + v : Nat) : Int) ≤ c) ∧
    (∀ k c i m j, s.tasks.get t = some (.removeAt k c i) → s.cells.get j = some (.disk m) →
      2 * (bytes p.kvs m : Int) ≤ c) ∧
    (∀ k v c m j, s.tasks.get t = some (.insert k v c) → s.cells.get j = some (.disk m) →
      2 * ((bytes p.kvs m + p.kvs + v : Nat) : Int) ≤ c) := by
  have hi := reach_inv hp hf h
  have hk := kvs_le_oneLeaf hp
  refine ⟨?_, ?_, ?_⟩
  · intro k v c i ht
    have := hi.enough t _ ht rfl; omega
  · intro k c i m j ht hj
    have := hi.enough t _ ht rfl
    have := disk_le (hi.cell j _ hj); omega
  · intro k v c m j ht hj
    have := hi.enough t _ ht rfl
    have := disk_le (hi.cell j _ hj); omega

/-- A range deletion spends no more than one full leaf's worth for each clean
leaf that it dirties. -/
theorem C73_range_delete (hp : p.Ok) (hf : Fresh p s₀) (h : Reach e p s₀ s) (t : Nat) {c g : Int}
    {rc : Option Int} {n : Nat} (ht : s.tasks.get t = some (.rangeDelete c rc g n)) :
    g - 2 * ((n * (p.maxLeaf * (p.kvs + p.maxSpace)) : Nat) : Int) ≤ c + rc.getD 0 :=
  ((reach_inv hp hf h).enough t _ ht).1

/-! ## Examples -/

theorem Reach.step' {r : Option Sys} (h : Reach e p s₀ s) (hs : Step e p s r) {s' : Sys}
    (hr : r = some s') : Reach e p s₀ s' := .step h (hr ▸ hs)

/-- Leaves of one to two items, 1 byte for each pair, at most 3 bytes
allocated. -/
def pEx : Params := ⟨1, 1, 2, 3, true⟩
/-- A tree with two full leaves on disk. -/
def sEx : Sys := ⟨200, 200, [(0, .disk [(1, 3), (5, 2)]), (1, .disk [(7, 3), (8, 3)])], []⟩

theorem pEx_ok : pEx.Ok := ⟨by decide, by decide⟩

theorem sEx_fresh : Fresh pEx sEx := by
  refine ⟨rfl, rfl, ⟨100, rfl⟩, by simp [OMap.Sorted, sEx], ?_⟩
  intro i x hx
  simp only [sEx, OMap.get] at hx
  split at hx
  · cases hx; exact ⟨_, rfl, by simp [OMap.Sorted], by decide, by decide⟩
  · split at hx
    · cases hx; exact ⟨_, rfl, by simp [OMap.Sorted], by decide, by decide⟩
    · cases hx

/-- An insertion dirties a leaf and splits it while a removal waits; the removal
empties the new leaf; the other leaf is being written. -/
example : ∃ s, Reach ⟨false, true, true⟩ pEx sEx s ∧
    s.cells = [(0, .writing [(1, 3), (3, 4)] 18), (1, .disk [(7, 3), (8, 3)]),
      (2, .mem ⟨[], 0⟩)] ∧ s.supply = 182 ∧ s.tasks = [] := by
  have r := Reach.init (e := ⟨false, true, true⟩) (p := pEx) (s₀ := sEx)
  have r := r.step' (.callInsert 0 3 4 20 (by decide) (by decide) (by decide)) rfl
  have r := r.step' (.callRemove 1 5 16 (by decide) (by decide) (by decide)) rfl
  have r := r.step' (.insertDisk 0 0 (k := 3) (v := 4) (c := 40) (m := [(1, 3), (5, 2)]) rfl rfl) rfl
  have r := r.step' (.insertSplit 0 0 2 1 0 (k := 3) (v := 4) (c := 26)
    (l := ⟨[(1, 3), (5, 2)], 14⟩) rfl rfl rfl rfl (by decide) (by decide) (by decide) (.inl rfl)) rfl
  have r := r.step' (.insertLeaf 0 0 (k := 3) (v := 4) (c := 26) (l := ⟨[(1, 3)], 8⟩) rfl rfl
    (.inr (by decide))) rfl
  have r := r.step' (.removeMem 1 2 (k := 5) (c := 32) (l := ⟨[(5, 2)], 6⟩) rfl rfl) rfl
  have r := r.step' (.removeLeaf 1 2 (k := 5) (c := 32) (l := ⟨[(5, 2)], 6⟩) (.inl rfl) rfl) rfl
  have r := r.step' (.flushStart 0 (l := ⟨[(1, 3), (3, 4)], 18⟩) rfl) rfl
  exact ⟨_, r, rfl, rfl, rfl⟩

/-- A removal finds its leaf short, reads the sibling and merges the two; the
leaf is written and all credit is back in the bank. -/
example : ∃ s, Reach ⟨false, true, true⟩ pEx
    ⟨200, 200, [(0, .disk [(1, 3)]), (1, .disk [(7, 3)])], []⟩ s ∧
    s.cells = [(0, .disk [(7, 0)])] ∧ s.supply = 200 ∧ s.tasks = [] := by
  have r := Reach.init (e := ⟨false, true, true⟩) (p := pEx)
    (s₀ := ⟨200, 200, [(0, .disk [(1, 3)]), (1, .disk [(7, 3)])], []⟩)
  have r := r.step' (.callRemove 0 1 16 (by decide) (by decide) (by decide)) rfl
  have r := r.step' (.removeDisk 0 0 (k := 1) (c := 32) (m := [(1, 3)]) rfl rfl) rfl
  have r := r.step' (.sibDisk 0 0 1 (k := 1) (c := 24) (m := [(7, 3)]) rfl rfl) rfl
  have r := r.step' (.removeFixR 0 0 1 0 (k := 1) (c := 16) (l := ⟨[(1, 3)], 8⟩)
    (sib := ⟨[(7, 3)], 8⟩) rfl (by decide) rfl rfl (by decide) (by decide) (.inl rfl)) rfl
  have r := r.step' (.removeLeaf 0 0 (k := 1) (c := 16) (l := ⟨[(1, 3), (7, 3)], 16⟩)
    (.inr rfl) rfl) rfl
  have r := r.step' (.flushStart 0 (l := ⟨[(7, 3)], 8⟩) rfl) rfl
  have r := r.step' (.flushDone 0 (m := [(7, 3)]) (m' := [(7, 0)]) (c := 8) rfl rfl
    (by decide)) rfl
  exact ⟨_, r, rfl, rfl, rfl⟩

/-- A range deletion that goes down both sides of a cut, and mends what it
left. -/
example : ∃ s, Reach ⟨false, true, true⟩ pEx sEx s ∧
    s.cells = [(0, .mem ⟨[(1, 3), (8, 3)], 16⟩)] ∧ s.supply = 184 ∧ s.tasks = [] := by
  have r := Reach.init (e := ⟨false, true, true⟩) (p := pEx) (s₀ := sEx)
  have r := r.step' (.callRangeDelete 0 24 (by decide) (by decide) (by decide)) rfl
  have r := r.step' (.rdHalve 0 (c := 48) (g := 48) (n := 0) rfl) rfl
  have r := r.step' (.rdDisk 0 0 (c := 24) (g := 48) (rc := some 24) (n := 0)
    (m := [(1, 3), (5, 2)]) rfl rfl (by decide)) rfl
  have r := r.step' (.rdDiskR 0 1 (c := 10) (g := 48) (rc := 24) (n := 1)
    (m := [(7, 3), (8, 3)]) rfl rfl (by decide)) rfl
  have r := r.step' (.rdDelete 0 0 (fun k => 2 ≤ k && k < 8) (c := 10) (g := 48) (rc := some 8)
    (n := 2) (l := ⟨[(1, 3), (5, 2)], 14⟩) rfl rfl) rfl
  have r := r.step' (.rdDelete 0 1 (fun k => 2 ≤ k && k < 8) (c := 10) (g := 48) (rc := some 8)
    (n := 2) (l := ⟨[(7, 3), (8, 3)], 16⟩) rfl rfl) rfl
  have r := r.step' (.rdJoin 0 (c := 10) (rc := 8) (g := 48) (n := 2) rfl) rfl
  have r := r.step' (.rdFixR 0 0 1 (c := 18) (g := 48) (rc := none) (n := 2)
    (l := ⟨[(1, 3)], 8⟩) (sib := ⟨[(8, 3)], 8⟩) rfl (by decide) rfl rfl (by decide)
    (by decide)) rfl
  have r := r.step' (.rdEnd 0 (c := 18) (g := 48) (n := 2) rfl) rfl
  exact ⟨_, r, rfl, rfl, rfl⟩

/-! ## Where the code falls short -/

/-- If a node cannot be read, the call does not fail with an error: its credit
is dropped with its future, and the daemon panics. -/
theorem C73_read_error_panics : ∃ s, Reach ⟨true, true, true⟩ pEx sEx s ∧
    Step ⟨true, true, true⟩ pEx s none := by
  have r := Reach.init (e := ⟨true, true, true⟩) (p := pEx) (s₀ := sEx)
  have r := r.step' (.callInsert 0 3 4 20 (by decide) (by decide) (by decide)) rfl
  exact ⟨_, r, .readFails (x := .insert 3 4 40) 0 rfl rfl⟩

/-- Likewise if a leaf cannot be written. -/
theorem C73_write_error_panics : ∃ s, Reach ⟨true, true, true⟩ pEx sEx s ∧ s.tasks = [] ∧
    Step ⟨true, true, true⟩ pEx s none := by
  have r := Reach.init (e := ⟨true, true, true⟩) (p := pEx) (s₀ := sEx)
  have r := r.step' (.callInsert 0 1 4 20 (by decide) (by decide) (by decide)) rfl
  have r := r.step' (.insertDisk 0 0 (k := 1) (v := 4) (c := 40) (m := [(1, 3), (5, 2)]) rfl rfl) rfl
  have r := r.step' (.insertLeaf 0 0 (k := 1) (v := 4) (c := 26) (l := ⟨[(1, 3), (5, 2)], 14⟩)
    rfl rfl (.inl (by decide))) rfl
  have r := r.step' (.flushStart 0 (l := ⟨[(1, 4), (5, 2)], 16⟩) rfl) rfl
  exact ⟨_, r, rfl, .writeFails (m := [(1, 4), (5, 2)]) (c := 16) 0 rfl rfl⟩

/-- Leaves of two to four items. -/
def pEx4 : Params := ⟨1, 2, 4, 0, true⟩

/-- Five full leaves on disk. -/
def sEx4 : Sys := ⟨28, 28, [
  (0, .disk [(1, 0), (2, 0), (3, 0), (4, 0)]), (1, .disk [(5, 0), (6, 0), (7, 0), (8, 0)]),
  (2, .disk [(9, 0), (10, 0), (11, 0), (12, 0)]),
  (3, .disk [(13, 0), (14, 0), (15, 0), (16, 0)]),
  (4, .disk [(20, 0), (21, 0), (22, 0), (23, 0)])], []⟩

/-- A range deletion can have to dirty four full leaves: the one at each end of
the range, and a sibling of each.  `credit_requirements().range_delete` covers
three; the credit of the deleted items has been given back by then (mod.rs
1623-1627).  Deleting 6..12 the call ends up with less than nothing; and when
somebody else has meanwhile borrowed what it gave back, so does the bank. -/
theorem C73_range_delete_overdraws : pEx4.Ok ∧ Fresh pEx4 sEx4 ∧
    ∃ s s', Reach ⟨false, true, false⟩ pEx4 sEx4 s ∧ Reach ⟨false, true, false⟩ pEx4 sEx4 s' ∧
      (∃ c g n, s.tasks.get 0 = some (.rangeDelete c none g n) ∧ c < 0) ∧
      s'.tasks.get 0 = none ∧ s'.supply < 0 := by
  refine ⟨⟨by decide, by decide⟩, ⟨rfl, rfl, ⟨14, rfl⟩, by simp [OMap.Sorted, sEx4], ?_⟩, ?_⟩
  · intro i x hx
    simp only [sEx4, OMap.get] at hx
    repeat' split at hx
    all_goals first
      | (cases hx; exact ⟨_, rfl, by simp [OMap.Sorted], by decide, by decide⟩)
      | cases hx
  have r := Reach.init (e := ⟨false, true, false⟩) (p := pEx4) (s₀ := sEx4)
  have r := r.step' (.callRangeDelete 0 12 (by decide) (by decide) (by decide)) rfl
  have r := r.step' (.rdHalve 0 (c := 24) (g := 24) (n := 0) rfl) rfl
  have r := r.step' (.rdDisk 0 1 (c := 12) (g := 24) (rc := some 12) (n := 0)
    (m := [(5, 0), (6, 0), (7, 0), (8, 0)]) rfl rfl (by decide)) rfl
  have r := r.step' (.rdDiskR 0 2 (c := 4) (g := 24) (rc := 12) (n := 1)
    (m := [(9, 0), (10, 0), (11, 0), (12, 0)]) rfl rfl (by decide)) rfl
  have r := r.step' (.rdDelete 0 1 (fun k => 6 ≤ k && k < 12) (c := 4) (g := 24) (rc := some 4)
    (n := 2) (l := ⟨[(5, 0), (6, 0), (7, 0), (8, 0)], 8⟩) rfl rfl) rfl
  have r := r.step' (.rdDelete 0 2 (fun k => 6 ≤ k && k < 12) (c := 4) (g := 24) (rc := some 4)
    (n := 2) (l := ⟨[(9, 0), (10, 0), (11, 0), (12, 0)], 8⟩) rfl rfl) rfl
  have r := r.step' (.rdJoin 0 (c := 4) (rc := 4) (g := 24) (n := 2) rfl) rfl
  have r := r.step' (.rdDisk 0 0 (c := 8) (g := 24) (rc := none) (n := 2)
    (m := [(1, 0), (2, 0), (3, 0), (4, 0)]) rfl rfl (by decide)) rfl
  have r := r.step' (.rdFixL 0 1 0 (c := 0) (g := 24) (rc := none) (n := 3)
    (l := ⟨[(5, 0)], 2⟩) (sib := ⟨[(1, 0), (2, 0), (3, 0), (4, 0)], 8⟩) rfl (by decide) rfl rfl
    (by decide) (by decide)) rfl
  have r := r.step' (.rdDisk 0 3 (c := 0) (g := 24) (rc := none) (n := 3)
    (m := [(13, 0), (14, 0), (15, 0), (16, 0)]) rfl rfl (by decide)) rfl
  have r := r.step' (.rdFixR 0 2 3 (c := -8) (g := 24) (rc := none) (n := 4)
    (l := ⟨[(12, 0)], 2⟩) (sib := ⟨[(13, 0), (14, 0), (15, 0), (16, 0)], 8⟩) rfl (by decide) rfl rfl
    (by decide) (by decide)) rfl
  have r' := r.step' (.callInsert 1 20 0 8 (by decide) (by decide) (by decide)) rfl
  have r' := r'.step' (.rdEnd 0 (c := -8) (g := 24) (n := 4) rfl) rfl
  exact ⟨_, _, r, r', ⟨_, _, _, rfl, by decide⟩, rfl, by decide⟩

end Verif.TreeCredit
