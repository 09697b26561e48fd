import Verif.Reserve.Plain
import Verif.TreeCredit.Props
import Verif.WriteBack.Props

/-!
# C79: calls reserve enough credit for all they do

`Runs S Q p c p' c' l`: a call with program `p` that borrowed `c` bytes of credit is now at `p'` with
`c'` left, and `l` lists its insertions, removals and range deletions with what each got.  Other calls
run at the same time: whenever this one looks at the tree, it finds any tree in `Q`.
-/

namespace Verif.Reserve
open Verif.Isol

variable {H : Hash} {S : Sizes} {rs : Nat → Nat} {c : Call} {p : Prog} {k : Nat} {l : Ledger}
variable {Q : Store → Prop}

/-- The tree operations of a call are those of `Verif.Isol`, no more and no less. -/
theorem C79_same_steps {p p' : Prog} {m m' : Store} :
    Step p m p' m' ↔ ∃ a, StepA p m a p' m' := ⟨step_act, fun ⟨_, h⟩ => h.step⟩

theorem sum_unit (l : Ledger) :
    (l.map fun e => unit e.1).sum = 2 * inserts l + 3 * clears l + 2 * removes l := by
  induction l with
  | nil => rfl
  | cons e l ih =>
    obtain ⟨a, g⟩ := e
    rw [List.map_cons, List.sum_cons, ih]
    cases a <;>
      simp only [unit, inserts, clears, removes, List.countP_cons, if_true, Bool.false_eq_true, if_false] <;>
      omega

theorem asked_eq (l : Ledger) :
    asked S l = S.leaf * (2 * inserts l + 3 * clears l + 2 * removes l) + inserted S l := by
  rw [← sum_unit]
  induction l with
  | nil => rfl
  | cons e l ih =>
    obtain ⟨a, g⟩ := e
    simp only [asked] at ih
    simp only [asked, List.map_cons, List.sum_cons, ih]
    cases a <;> simp only [want, unit, inserted, Nat.mul_add] <;> omega

theorem credit_eq (r : Reservation) :
    r.credit S = S.leaf * (2 * r.ninsert + 3 * r.nrange + 2 * r.nremove) + r.bytes := by
  have h1 : r.ninsert * (2 * S.leaf) = S.leaf * (2 * r.ninsert) := by
    rw [Nat.mul_comm, Nat.mul_comm 2 S.leaf, Nat.mul_assoc]
  have h2 : r.nrange * (3 * S.leaf) = S.leaf * (3 * r.nrange) := by
    rw [Nat.mul_comm, Nat.mul_comm 3 S.leaf, Nat.mul_assoc]
  have h3 : r.nremove * (2 * S.leaf) = S.leaf * (2 * r.nremove) := by
    rw [Nat.mul_comm, Nat.mul_comm 2 S.leaf, Nat.mul_assoc]
  simp only [Reservation.credit, Nat.mul_add, h1, h2, h3]

/-- **C79, operations.**  Whatever the tree holds (names may collide) and whatever else happens at the
same time, no call but `link` and `unlink` makes more tree operations than it reserved.  (An insertion
and a removal count as two leaves, a range deletion as three, as in `credit_requirements`.)

Missing for the full property: `link` and `unlink`, see `C79_link_unfunded` and
`C79_unlink_unfunded`; and the deletion of unlinked files at mount, see `C79_mount_unfunded`. -/
theorem C79_operations_partial (hl : c.isLink = false) (hu : isUnlink c = false)
    (h : Runs S (Sized rs) (c.prog H) ((reserve (rs (fileOf c)) c).credit S) p k l) :
    2 * inserts l + 3 * clears l + 2 * removes l ≤
      2 * (reserve (rs (fileOf c)) c).ninsert + 3 * (reserve (rs (fileOf c)) c).nrange +
        2 * (reserve (rs (fileOf c)) c).nremove := by
  obtain ⟨n, _, h2⟩ := h.within (call_unit hl hu)
  rw [sum_unit] at h2
  simp only [Reservation.units] at h2
  omega

/-- **C79, what is missing at the most.**  All that such a call can be short of, taken together, is space
for the values that it inserts, beyond the bytes that it reserved for them. -/
theorem C79_short_of_values_partial (hl : c.isLink = false) (hu : isUnlink c = false)
    (h : Runs S (Sized rs) (c.prog H) ((reserve (rs (fileOf c)) c).credit S) p k l) :
    short S l ≤ inserted S l - (reserve (rs (fileOf c)) c).bytes := by
  have h1 := h.left.2.2
  have h2 := Nat.mul_le_mul_left S.leaf (C79_operations_partial hl hu h)
  rw [asked_eq, credit_eq] at h1
  omega

/-- **C79, without collisions.**  If no two names in the tree have the same hash, then no call but `link`
is short of more than the few bytes of `unpaid`: one or two inodes, and the records at the ends of a
hole.  The calls for which that is nothing get all they ask for.

Missing for the full property: `link` (`C79_link_unfunded`), collisions (`C79_unlink_unfunded`), and
those bytes (`C79_inode_unpaid`). -/
theorem C79_short_partial (hl : c.isLink = false) (hs : Small S c)
    (h : Runs S (Plain H rs) (c.prog H) ((reserve (rs (fileOf c)) c).credit S) p k l) :
    short S l ≤ unpaid S (rs (fileOf c)) c ∧
    (unpaid S (rs (fileOf c)) c = 0 → ∀ e ∈ l, e.2 = want S e.1) := by
  have hw := call_want (H := H) (rs := rs) hl hs
  obtain ⟨n, _, h2⟩ := h.within hw
  have h3 := h.left.2.2
  change asked S l + n ≤ _ at h2
  refine ⟨by omega, fun h0 e he => ?_⟩
  rw [h0] at hw
  have h4 := ((h.each hw hw.cuts).2 e he).1
  have h5 : ∀ {p k l}, Runs S (Plain H rs) (c.prog H) ((reserve (rs (fileOf c)) c).credit S) p k l →
      ∀ e ∈ l, e.2 ≤ want S e.1 := by
    intro p k l h
    induction h with
    | start => simp
    | look _ _ _ ih => exact ih
    | act _ _ _ ih =>
      intro e he
      rcases List.mem_append.1 he with he | he
      · exact ih e he
      · cases List.mem_singleton.1 he; exact Nat.min_le_left _ _
  have := h5 h e he
  omega

/-- **C79, no operation goes without.**  If moreover those bytes are less than one leaf, every operation of
every call but `link` gets what it needs: removals and range deletions all of it, insertions enough
for the biggest leaf and the new item.  That is just what C73 asks of callers so that no credit is ever
overdrawn (`Verif.TreeCredit.Step`, `funded`). -/
theorem C79_funded_partial (hl : c.isLink = false) (hs : Small S c) (P : TreeCredit.Params)
    (hx : S.leaf = TreeCredit.oneLeaf P) (hk : S.kvs = P.kvs)
    (hu : unpaid S (rs (fileOf c)) c + S.kvs ≤ S.leaf)
    (h : Runs S (Plain H rs) (c.prog H) ((reserve (rs (fileOf c)) c).credit S) p k l) :
    ∀ e ∈ l, match e.1 with
      | .insert v => TreeCredit.needInsert P (alloc S v) ≤ e.2
      | .remove => TreeCredit.reqRemove P ≤ e.2
      | .clear => TreeCredit.reqRangeDelete P ≤ e.2 := by
  have hw := call_want (H := H) (rs := rs) hl hs
  have hc := call_cuts (H := H) (rs := rs) hl hs (by omega)
  intro e he
  obtain ⟨h1, h2⟩ := (h.each hw hc).2 e he
  obtain ⟨a, g⟩ := e
  cases a with
  | insert v =>
    simp only [want] at h1
    simp only [TreeCredit.needInsert]; omega
  | remove => have := h2 trivial; simp only [want] at this; simp only [TreeCredit.reqRemove]; omega
  | clear => have := h2 trivial; simp only [want] at this; simp only [TreeCredit.reqRangeDelete]; omega

/-! ## The code falls short -/

/-- What an operation gets is what it asks for, or what those before it left. -/
theorem runs_nth {p₀ : Prog} {c₀ : Nat} (h : Runs S Q p₀ c₀ p k l) {i : Nat} {e : Act × Nat}
    (hi : l[i]? = some e) : e.2 = min (want S e.1) (c₀ - asked S (l.take i)) := by
  induction h generalizing i with
  | start => simp at hi
  | look _ _ _ ih => exact ih hi
  | @act p p' c l m m' a hr _ _ ih =>
    by_cases hlt : i < l.length
    · rw [List.getElem?_append_left hlt] at hi
      rw [List.take_append_of_le_length (by omega)]
      exact ih hi
    · rw [List.getElem?_append_right (by omega)] at hi
      obtain ⟨h1, h2⟩ : i - l.length < 1 ∧ e = (a, min (want S a) c) := by
        cases hj : i - l.length with
        | zero => rw [hj] at hi; simp at hi; exact ⟨by omega, hi.symm⟩
        | succ n => rw [hj] at hi; simp at hi
      subst h2
      have : i = l.length := by omega
      subst this
      rw [List.take_left, ← hr.left.1]

theorem asked_ge (l : Ledger) : l.length * (2 * S.leaf) ≤ asked S l := by
  induction l with
  | nil => simp [asked]
  | cons e l ih =>
    have : 2 * S.leaf ≤ want S e.1 := by cases e.1 <;> simp only [want] <;> omega
    simp only [asked, List.map_cons, List.sum_cons, List.length_cons, Nat.succ_mul] at *
    omega

/-- Once the reserved operations are made, the others get nothing. -/
theorem nothing_left {p₀ : Prog} {n : Nat} (h : Runs S Q p₀ (n * (2 * S.leaf)) p k l) {i : Nat}
    (hn : n ≤ i) {e : Act × Nat} (hi : l[i]? = some e) : e.2 = 0 := by
  rw [runs_nth h hi]
  have hlen : i < l.length := (List.getElem?_eq_some_iff.1 hi).1
  have h1 := asked_ge (S := S) (l.take i)
  rw [List.length_take, Nat.min_eq_left (by omega)] at h1
  have h2 : n * (2 * S.leaf) ≤ i * (2 * S.leaf) := Nat.mul_le_mul_right _ hn
  omega

/-- The sizes of an example. -/
def sEx : Sizes := ⟨100, 4, 20, 8, 8, id⟩
/-- A hash function with few values: names of the same length collide. -/
def hEx : Hash := ⟨List.length, fun _ n => n.length, id⟩
/-- A directory, number 1, with a file `a` (number 2), whose record size is 4. -/
def mEx : Store := fun k =>
  if k = inodeKey 1 then some (.inode ⟨3, 0, 0, 0, .dir⟩)
  else if k = inodeKey 2 then some (.inode ⟨1, 6, 6, 0, .reg 4⟩)
  else if k = direntKey hEx 1 [97] then some (.dirent ⟨2, false, [97]⟩)
  else if k = extentKey 2 0 then some (.extent [1, 2, 3, 4])
  else if k = extentKey 2 4 then some (.extent [5, 6])
  else none

/-- The first step that a program can make (the left one of a join first). -/
def stepF : Prog → Store → Option (Option Act × Prog × Store)
  | .ret _, _ => none
  | .get k f, m => some (none, f (m k), m)
  | .insert k v f, m => some (some (.insert v), f (m k), m.set k (some v))
  | .remove k f, m => some (some .remove, f (m k), m.set k none)
  | .scan _ _ _, _ => none
  | .clear lo hi p, m => some (some .clear, p, m.clear lo hi)
  | .join p q f, m =>
    match stepF p m with
    | some (a, p', m') => some (a, .join p' q f, m')
    | none =>
      match stepF q m with
      | some (a, q', m') => some (a, .join p q' f, m')
      | none =>
        match p, q with
        | .ret (.ok a), .ret (.ok b) => some (none, f a b, m)
        | _, _ => none

theorem stepF_step {p p' : Prog} {m m' : Store} {a : Option Act} (h : stepF p m = some (a, p', m')) :
    StepA p m a p' m' := by
  induction p generalizing p' a m' with
  | ret => cases h
  | get => cases h; exact .get
  | insert => cases h; exact .insert
  | remove => cases h; exact .remove
  | scan => cases h
  | clear => cases h; exact .clear
  | join p q f h1 h2 _ =>
    unfold stepF at h
    split at h
    · rename_i hp; cases h; exact .left (h1 hp)
    · split at h
      · rename_i hq; cases h; exact .right (h2 hq)
      · split at h
        · cases h; exact .both
        · cases h

/-- Running a program for a while; others always put the tree back as it was. -/
def runF (S : Sizes) (m : Store) : Nat → Prog → Nat → Ledger → Ledger
  | 0, _, _, l => l
  | n + 1, p, c, l =>
    match stepF p m with
    | none => l
    | some (none, p', _) => runF S m n p' c l
    | some (some a, p', _) => runF S m n p' (c - want S a) (l ++ [(a, min (want S a) c)])

theorem runF_runs {p₀ : Prog} {c₀ : Nat} {m : Store} (hm : Q m) (n : Nat) {p : Prog} {c : Nat}
    {l : Ledger} (h : Runs S Q p₀ c₀ p c l) :
    ∃ p' c', Runs S Q p₀ c₀ p' c' (runF S m n p c l) := by
  induction n generalizing p c l with
  | zero => exact ⟨p, c, h⟩
  | succ n ih =>
    unfold runF
    split
    · exact ⟨p, c, h⟩
    · rename_i hs; exact ih (h.look hm (stepF_step hs))
    · rename_i hs; exact ih (h.act hm (stepF_step hs))

/-- **C79 fails for `link`.**  It reserves two insertions and makes four: the third and the fourth, in
whatever order they come, never get anything at all, whatever the tree holds. -/
theorem C79_link_unfunded (parent ino : Nat) (name : Name) (r : Nat)
    (h : Runs S Q ((Call.link parent ino name).prog H) ((reserve r (.link parent ino name)).credit S) p k l)
    {i : Nat} (hi : 2 ≤ i) {e : Act × Nat} (he : l[i]? = some e) : e.2 = 0 :=
  nothing_left (n := 2) (by simpa [reserve, Reservation.credit] using h) hi he

/-- It does come to that. -/
theorem C79_link_example : ∃ p k l, Runs sEx (fun _ => True) ((Call.link 1 2 [98, 99]).prog hEx)
      ((reserve 4 (.link 1 2 [98, 99])).credit sEx) p k l ∧
    l.map (·.2) = [220, 180, 0, 0] ∧ l.map (fun e => want sEx e.1) = [220, 202, 220, 220] := by
  obtain ⟨p, k, h⟩ := runF_runs (S := sEx) (Q := fun _ => True) (m := mEx) trivial 20
    (Runs.start (p₀ := (Call.link 1 2 [98, 99]).prog hEx)
      (c₀ := (reserve 4 (.link 1 2 [98, 99])).credit sEx))
  exact ⟨p, k, _, h, by decide +kernel, by decide +kernel⟩

/-- Two names that collide. -/
def mCol : Store := mEx.set (direntKey hEx 1 [97])
  (some (.dirents [⟨2, false, [97]⟩, ⟨3, false, [98]⟩]))

/-- **C79 fails for `unlink`.**  Its fifth operation never gets anything; and there is one if the name
shares its hash with another one, and the file is open. -/
theorem C79_unlink_unfunded (parent : Nat) (known : Option Nat) (name : Name) (r : Nat)
    (h : Runs S Q ((Call.unlink parent known name).prog H)
      ((reserve r (.unlink parent known name)).credit S) p k l)
    {i : Nat} (hi : 4 ≤ i) {e : Act × Nat} (he : l[i]? = some e) : e.2 = 0 :=
  nothing_left (n := 4) (by
    have : (reserve r (.unlink parent known name)).credit S = 4 * (2 * S.leaf) := by
      simp only [reserve, Reservation.credit]; omega
    rwa [this] at h) hi he

theorem C79_unlink_example : ∃ p k l, Runs sEx (fun _ => True) ((Call.unlink 1 (some 2) [97]).prog hEx)
      ((reserve 4 (.unlink 1 (some 2) [97])).credit sEx) p k l ∧
    l.map (·.2) = [200, 201, 200, 199, 0] ∧
    l.map (fun e => want sEx e.1) = [200, 201, 200, 220, 220] := by
  obtain ⟨p, k, h⟩ := runF_runs (S := sEx) (Q := fun _ => True) (m := mCol) trivial 20
    (Runs.start (p₀ := (Call.unlink 1 (some 2) [97]).prog hEx)
      (c₀ := (reserve 4 (.unlink 1 (some 2) [97])).credit sEx))
  exact ⟨p, k, _, h, by decide +kernel, by decide +kernel⟩

/-- Only range deletions. -/
theorem mount_clears {n : Nat} (h : Runs S Q mountProg n p k l) : ∀ e ∈ l, e.1 = .clear := by
  let w : Act → Nat := fun a => if a = .clear then 0 else 1
  have del : ∀ is, Within w Q (deleteDying is) 0 := by
    intro is
    induction is with
    | nil => exact within_clear (n' := 0) trivial (Nat.le_refl _)
    | cons i is ih => exact within_clear ih (Nat.le_refl _)
  have hw : Within w Q mountProg 0 := by
    refine within_scan fun l => ?_
    split
    · trivial
    · exact del _
  obtain ⟨n, _, h2⟩ := h.within hw
  intro e he
  have : ∀ l : Ledger, (l.map fun e => w e.1).sum ≤ 0 → ∀ e ∈ l, e.1 = .clear := by
    intro l
    induction l with
    | nil => simp
    | cons x l ih =>
      intro hl e he
      simp only [List.map_cons, List.sum_cons] at hl
      rcases List.mem_cons.1 he with rfl | he
      · have : w e.1 = 0 := by omega
        simp only [w] at this
        split at this
        · assumption
        · omega
      · exact ih (by omega) e he
  exact this l (by omega) e he

/-- **C79 fails at mount.**  If there are files to delete, all but the first of the range deletions, which
are at least two, get nothing. -/
theorem C79_mount_unfunded (h : Runs S Q mountProg (mountReserve.credit S) p k l)
    {i : Nat} (hi : 1 ≤ i) {e : Act × Nat} (he : l[i]? = some e) : e.2 = 0 := by
  have hc := mount_clears h
  rw [runs_nth h he]
  have hlen : i < l.length := (List.getElem?_eq_some_iff.1 he).1
  have h1 : mountReserve.credit S = 3 * S.leaf := by simp [mountReserve, Reservation.credit]
  cases l with
  | nil => simp at hlen
  | cons x l =>
    cases i with
    | zero => omega
    | succ i =>
      have : want S x.1 = 3 * S.leaf := by rw [hc x (by simp)]; rfl
      simp only [List.take_succ_cons, asked, List.map_cons, List.sum_cons, this]
      omega

/-- A tree with one item. -/
theorem items_single (k : Nat) (v : Val) {lo hi : Nat} (h1 : lo ≤ k) (h2 : k < hi) :
    Store.items (fun k' => if k' = k then some v else none) lo hi = [(k, v)] := by
  have none_of : ∀ a n, (k < a ∨ a + n ≤ k) → (List.range' a n).filterMap
      (fun k' => ((if k' = k then some v else none : Option Val)).map (Prod.mk k')) = [] := by
    intro a n h
    rw [List.filterMap_eq_nil_iff]
    intro x hx
    rw [List.mem_range'_1] at hx
    rw [if_neg (by omega)]; rfl
  have e : List.range' lo (hi - lo) = List.range' lo (k - lo) ++ k :: List.range' (k + 1) (hi - k - 1) := by
    rw [show hi - lo = (k - lo) + (1 + (hi - k - 1)) from by omega, ← List.range'_append,
      ← List.range'_append]
    simp only [Nat.one_mul, List.range'_one]
    rw [show lo + (k - lo) = k from by omega]
    rfl
  unfold Store.items
  rw [e, List.filterMap_append, none_of _ _ (.inr (by omega)), List.filterMap_cons, none_of _ _ (.inl (Nat.lt_succ_self k))]
  simp

/-- With one file to delete. -/
theorem C79_mount_example : ∃ p k, Runs sEx (fun _ => True) mountProg (mountReserve.credit sEx) p k
    [(.clear, 300), (.clear, 0)] := by
  have r := Runs.start (S := sEx) (Q := fun _ => True) (p₀ := mountProg) (c₀ := mountReserve.credit sEx)
  have r := r.look (m := fun k => if k = key 0 5 2 then some (.dying 2) else none) trivial .scan
  rw [items_single _ _ (by decide) (by decide)] at r
  have r := r.act (m := mEx) trivial .clear
  have r := r.act (m := mEx) trivial .clear
  exact ⟨_, _, r⟩

/-- **C79: inodes are not paid for.**  Changing the attributes of a file takes one insertion, and it is
always short of the space of the inode. -/
theorem C79_inode_unpaid (ino : Nat) (attr : Option Nat) (r : Nat)
    (h : Runs S Q ((Call.setattr ino none attr).prog H)
      ((reserve r (.setattr ino none attr)).credit S) p k l) :
    l = [] ∨ short S l = S.inode := by
  have key : (p = (Call.setattr ino none attr).prog H ∧ l = []) ∨
      ((∃ i, p = .insert (inodeKey ino) (.inode i) fun _ => .ok .unit) ∧ l = []) ∨
      ((∃ o, p = .ret o) ∧ (l = [] ∨ ∃ i g, l = [(.insert (.inode i), g)])) := by
    induction h with
    | start => exact .inl ⟨rfl, rfl⟩
    | look hr hm hs ih =>
      rcases ih with ⟨rfl, rfl⟩ | ⟨⟨i, rfl⟩, rfl⟩ | ⟨⟨o, rfl⟩, _⟩
      · cases hs
        dsimp only
        split
        · rw [Option.getD_none, if_neg (Nat.lt_irrefl _)]
          exact .inr (.inl ⟨⟨_, rfl⟩, rfl⟩)
        · exact .inr (.inr ⟨⟨_, rfl⟩, .inl rfl⟩)
      · cases hs
      · cases hs
    | act hr hm hs ih =>
      rcases ih with ⟨rfl, rfl⟩ | ⟨⟨i, rfl⟩, rfl⟩ | ⟨⟨o, rfl⟩, _⟩
      · cases hs
      · cases hs
        exact .inr (.inr ⟨⟨_, rfl⟩, .inr ⟨_, _, rfl⟩⟩)
      · cases hs
  rcases key with ⟨_, rfl⟩ | ⟨_, rfl⟩ | ⟨_, rfl | ⟨i, g, rfl⟩⟩
  · exact .inl rfl
  · exact .inl rfl
  · exact .inl rfl
  · right
    rw [h.left.2.2]
    simp [asked, want, alloc, reserve, Reservation.credit]

/-! ## Calls that reserve more than there is -/

theorem sum_ge_nth {f : WriteBack.Thread → Int} {l : List WriteBack.Thread} (h : ∀ t ∈ l, 0 ≤ f t) :
    0 ≤ (l.map f).sum := by
  induction l with
  | nil => simp
  | cons x l ih =>
    have := h x (by simp)
    have := ih fun t ht => h t (by simp [ht])
    simp only [List.map_cons, List.sum_cons]; omega

/-- The bank never has the credit for a request beyond its capacity, so that whoever asks for it waits
for ever (or trips the assertion of writeback.rs 224 in a debug build).  (Both writeback.rs 232 and
198 compare the supply with the request, doubled.) -/
theorem C79_never_granted (cap n : Nat) (sched : List WriteBack.Action) (s : WriteBack.St)
    (h : WriteBack.run (WriteBack.init cap n) sched = some s) (size : Nat) (hs : cap < size) :
    s.supply < 2 * size := by
  have hi := WriteBack.inv_run (WriteBack.inv_init cap n) h
  have hc := WriteBack.C01_conservation cap n sched s h
  have mem : ∀ t ∈ s.threads, ∃ i : Nat, s.threads[i]? = some t := fun t ht => by
    obtain ⟨i, hi', e⟩ := List.getElem_of_mem ht
    exact ⟨i, by simp [List.getElem?_eq_getElem hi', e]⟩
  have h1 : 0 ≤ WriteBack.lent s := sum_ge_nth fun t ht => by
    obtain ⟨i, hti⟩ := mem t ht
    exact (hi.helds i t hti).1
  have h2 : 0 ≤ WriteBack.granted s := sum_ge_nth fun t ht => by
    obtain ⟨i, hti⟩ := mem t ht
    have := (hi.amts i t hti).1
    cases hp : t.pc <;> simp_all [WriteBack.sent, WriteBack.PC.amt]
  have h3 : 0 ≤ WriteBack.inFlight s := sum_ge_nth fun t ht => by
    obtain ⟨i, hti⟩ := mem t ht
    have := (hi.amts i t hti).1
    cases hp : t.pc <;> simp_all [WriteBack.tent, WriteBack.PC.amt]
  have h4 := hi.leak
  simp only [WriteBack.available] at hc
  omega

/-- **C79: big writes hang.**  With the default writeback cache, a write of 24 records or more reserves
more than there is; for records of 4 KiB that is 96 KiB.  `bfffsd` accepts writes of 16 MiB. -/
theorem C79_big_write_never_granted (hleaf : fsMaxLeaf * fsMaxSpace ≤ S.leaf) (ino off : Nat)
    (data : List Nat) (r : Nat) (hn : 24 ≤ nrecs off data.length r) (n : Nat)
    (sched : List WriteBack.Action) (s : WriteBack.St)
    (h : WriteBack.run (WriteBack.init defaultWriteback n) sched = some s) :
    s.supply < 2 * ((reserve r (.write ino off data)).credit S : Nat) := by
  refine C79_never_granted _ n sched s h _ ?_
  have h1 : fsMaxLeaf * fsMaxSpace = 2763520 := by decide
  rw [h1] at hleaf
  rw [credit_eq]
  generalize hx : 2 * (reserve r (.write ino off data)).ninsert +
    3 * (reserve r (.write ino off data)).nrange + 2 * (reserve r (.write ino off data)).nremove = x
  have h2 : 98 ≤ x := by rw [← hx]; simp only [reserve]; omega
  have h3 : 2763520 * 98 ≤ S.leaf * x := Nat.mul_le_mul hleaf h2
  simp only [defaultWriteback]; omega

example : nrecs 0 131072 4096 = 32 ∧ nrecs 100 16777216 131072 = 129 := by decide

/-- All other calls reserve less, if leaves are of at most 4 MiB and names and attributes of at most 64 MiB;
and so do writes of up to 7 records of 1 MiB or less. -/
theorem C79_fits_partial (hleaf : S.leaf ≤ 4194304) (r : Nat)
    (hname : (reserve r c).bytes ≤ 67108864)
    (hw : ∀ ino off data, c = .write ino off data → nrecs off data.length r ≤ 7) :
    (reserve r c).credit S ≤ defaultWriteback := by
  have key : 2 * (reserve r c).ninsert + 3 * (reserve r c).nrange + 2 * (reserve r c).nremove ≤ 30 := by
    cases c with
    | write ino off data => have := hw ino off data rfl; simp only [reserve]; omega
    | setattr ino size attr => simp only [reserve]; split <;> simp
    | read ino off len atime => simp only [reserve]; split <;> simp
    | _ => simp [reserve]
  rw [credit_eq]
  have := Nat.mul_le_mul hleaf key
  simp only [defaultWriteback]; omega

/-! ## Examples -/

/-- A hash function by which some names do not collide. -/
def hP : Hash := ⟨fun n => if n = [97] then 1 else if n = dot then 2 else if n = dotdot then 3 else 4,
  fun _ _ => 0, id⟩

/-- A directory, number 1, with a file `a` (number 2), whose record size is 4. -/
def mP : Store := fun k =>
  if k = inodeKey 1 then some (.inode ⟨3, 0, 0, 0, .dir⟩)
  else if k = inodeKey 2 then some (.inode ⟨1, 6, 6, 0, .reg 4⟩)
  else if k = direntKey hP 1 [97] then some (.dirent ⟨2, false, [97]⟩)
  else if k = extentKey 2 0 then some (.extent [1, 2, 3, 4])
  else if k = extentKey 2 4 then some (.extent [5, 6])
  else none

theorem hP_name (n : Name) : hP.name n < 5 := by
  simp only [hP]; repeat' split
  all_goals omega

theorem mP_cases {k : Nat} {v : Val} (h : mP k = some v) :
    (k = inodeKey 1 ∧ v = .inode ⟨3, 0, 0, 0, .dir⟩) ∨ (k = inodeKey 2 ∧ v = .inode ⟨1, 6, 6, 0, .reg 4⟩) ∨
    (k = direntKey hP 1 [97] ∧ v = .dirent ⟨2, false, [97]⟩) ∨
    (k = extentKey 2 0 ∧ v = .extent [1, 2, 3, 4]) ∨ (k = extentKey 2 4 ∧ v = .extent [5, 6]) := by
  unfold mP at h
  split at h
  · cases h; exact .inl ⟨‹_›, rfl⟩
  split at h
  · cases h; exact .inr (.inl ⟨‹_›, rfl⟩)
  split at h
  · cases h; exact .inr (.inr (.inl ⟨‹_›, rfl⟩))
  split at h
  · cases h; exact .inr (.inr (.inr (.inl ⟨‹_›, rfl⟩)))
  split at h
  · cases h; exact .inr (.inr (.inr (.inr ⟨‹_›, rfl⟩)))
  · cases h

theorem mP_plain : Plain hP (fun _ => 4) mP := by
  have h97 : hP.name [97] = 1 := rfl
  constructor
  · intro ino i r h hr
    rcases mP_cases h with ⟨_, e⟩ | ⟨_, e⟩ | ⟨_, e⟩ | ⟨_, e⟩ | ⟨_, e⟩ <;> cases e <;> cases hr
    exact ⟨rfl, by decide⟩
  · intro ino n v h
    have hn := hP_name n
    rcases mP_cases h with ⟨e, _⟩ | ⟨e, _⟩ | ⟨e, rfl⟩ | ⟨e, _⟩ | ⟨e, _⟩ <;>
      simp only [direntKey, inodeKey, extentKey, key, h97] at e
    · omega
    · omega
    · refine ⟨_, rfl, ?_⟩
      have h1 : hP.name n = 1 := by omega
      simp only [hP] at h1
      split at h1
      · rename_i h2; exact h2.symm
      · repeat' split at h1
        all_goals omega
    · omega
    · omega
  · intro ino ns n v h
    rcases mP_cases h with ⟨e, _⟩ | ⟨e, _⟩ | ⟨e, _⟩ | ⟨e, _⟩ | ⟨e, _⟩ <;>
      simp only [xattrKey, direntKey, inodeKey, extentKey, key, h97] at e <;> simp only [hP] at e <;> omega
  · intro ino off b h
    rcases mP_cases h with ⟨_, e⟩ | ⟨_, e⟩ | ⟨_, e⟩ | ⟨_, e⟩ | ⟨_, e⟩ <;> cases e <;> decide

/-- Writing across a record boundary: all get what they ask for, but for the inode. -/
example : ∃ p k l, Runs sEx (Plain hP fun _ => 4) ((Call.write 2 2 [7, 8, 9]).prog hP)
      ((reserve 4 (.write 2 2 [7, 8, 9])).credit sEx) p k l ∧
    l.map (fun e => want sEx e.1) = [200, 268, 200, 266, 220] ∧ l.map (·.2) = [200, 268, 200, 266, 202] := by
  obtain ⟨p, k, h⟩ := runF_runs (S := sEx) mP_plain 20
    (Runs.start (p₀ := (Call.write 2 2 [7, 8, 9]).prog hP)
      (c₀ := (reserve 4 (.write 2 2 [7, 8, 9])).credit sEx))
  exact ⟨p, k, _, h, by decide +kernel, by decide +kernel⟩

/-- Removing the file, while it is open. -/
example : ∃ p k l, Runs sEx (Plain hP fun _ => 4) ((Call.unlink 1 (some 2) [97]).prog hP)
      ((reserve 4 (.unlink 1 (some 2) [97])).credit sEx) p k l ∧
    l.map (fun e => want sEx e.1) = [200, 200, 220, 220] ∧ l.map (·.2) = [200, 200, 220, 180] := by
  obtain ⟨p, k, h⟩ := runF_runs (S := sEx) mP_plain 20
    (Runs.start (p₀ := (Call.unlink 1 (some 2) [97]).prog hP)
      (c₀ := (reserve 4 (.unlink 1 (some 2) [97])).credit sEx))
  exact ⟨p, k, _, h, by decide +kernel, by decide +kernel⟩

/-- The sizes of the example meet the conditions of `C79_funded_partial`. -/
example : Small sEx (.deallocate 2 1 4) ∧ unpaid sEx 4 (.write 2 2 [7, 8, 9]) + sEx.kvs ≤ sEx.leaf ∧
    sEx.leaf = TreeCredit.oneLeaf ⟨4, 2, 5, 16, true⟩ :=
  ⟨⟨by decide, by decide, by intros; contradiction⟩, by decide, by decide⟩

end Verif.Reserve
