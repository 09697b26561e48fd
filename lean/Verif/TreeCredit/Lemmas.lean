import Verif.TreeCredit.Spec

namespace Verif.TreeCredit
open Verif.WriteBack (isplit split halve take extend)

theorem bytes_append (kvs : Nat) (a b : OMap Nat) :
    bytes kvs (a ++ b) = bytes kvs a + bytes kvs b := by
  induction a with
  | nil => simp [bytes]
  | cons x a ih => obtain ⟨k, v⟩ := x; simp [bytes, ih]; omega

theorem wbSpace_eq (kvs : Nat) (m : OMap Nat) : wbSpace kvs m = bytes kvs m := by
  induction m with
  | nil => simp [wbSpace, bytes]
  | cons x m ih =>
    obtain ⟨k, v⟩ := x
    simp only [wbSpace, List.map_cons, List.sum_cons, List.length_cons, bytes] at *
    rw [Nat.add_mul]; omega

theorem space_eq (kvs : Nat) (m : OMap Nat) :
    (m.map (·.2)).sum + m.length * kvs = bytes kvs m := wbSpace_eq kvs m

theorem bytes_eq_total (kvs : Nat) (m : OMap Nat) :
    (bytes kvs m : Int) = OMap.total (fun a : Nat => (a : Int) + kvs) m := by
  induction m with
  | nil => simp [bytes, OMap.total]
  | cons x m ih =>
    obtain ⟨k, v⟩ := x
    simp only [OMap.total, List.map_cons, List.sum_cons, bytes] at *
    omega

theorem bytes_filter (kvs : Nat) (m : OMap Nat) (f : Nat → Bool) :
    bytes kvs (m.filter (fun e => f e.1)) + bytes kvs (m.filter (fun e => !f e.1)) =
      bytes kvs m := by
  induction m with
  | nil => simp [bytes]
  | cons x m ih =>
    obtain ⟨k, v⟩ := x
    simp only [List.filter_cons]
    cases hk : f k <;> simp [bytes] <;> omega

theorem bytes_le {kvs M n : Nat} {m : OMap Nat} (hl : m.length ≤ n) (hM : ∀ a ∈ m, a.2 ≤ M) :
    bytes kvs m ≤ n * (kvs + M) := by
  refine Nat.le_trans ?_ (Nat.mul_le_mul_right _ hl)
  clear hl
  induction m with
  | nil => simp [bytes]
  | cons x m ih =>
    obtain ⟨k, v⟩ := x
    have h1 := ih (fun a ha => hM a (by simp [ha]))
    have h2 := hM (k, v) (by simp)
    simp only at h2
    simp only [bytes, List.length_cons, Nat.add_mul]
    omega

theorem bytes_insert {kvs : Nat} {m : OMap Nat} (h : m.Sorted) (k v : Nat) :
    bytes kvs (m.insert k v) + oldSpace kvs m k = bytes kvs m + v + kvs := by
  have h1 := OMap.total_insert h (fun a : Nat => (a : Int) + kvs) k v
  rw [← bytes_eq_total, ← bytes_eq_total] at h1
  unfold oldSpace
  cases hg : m.get k <;> simp [hg] at h1 ⊢ <;> omega

theorem bytes_remove {kvs : Nat} {m : OMap Nat} (h : m.Sorted) (k : Nat) :
    bytes kvs (m.remove k) + oldSpace kvs m k = bytes kvs m := by
  have h1 := OMap.total_remove h (fun a : Nat => (a : Int) + kvs) k
  rw [← bytes_eq_total, ← bytes_eq_total] at h1
  unfold oldSpace
  cases hg : m.get k <;> simp [hg] at h1 ⊢ <;> omega

theorem length_insert_le (m : OMap Nat) (k v : Nat) :
    (m.insert k v).length ≤ m.length + 1 := by
  induction m with
  | nil => simp [OMap.insert]
  | cons x m ih =>
    obtain ⟨a, w⟩ := x
    unfold OMap.insert
    split
    · simp
    · split <;> simp <;> omega

theorem length_insert_mem {m : OMap Nat} (h : m.Sorted) {k : Nat} (v : Nat) (hk : m.get k ≠ none) :
    (m.insert k v).length = m.length := by
  induction m with
  | nil => simp at hk
  | cons x m ih =>
    obtain ⟨a, w⟩ := x
    unfold OMap.insert
    split
    · rename_i hlt
      exfalso
      apply hk
      unfold OMap.get
      rw [if_neg (by omega)]
      exact OMap.get_none_of_lt h (by omega)
    · split
      · simp
      · rename_i hne
        unfold OMap.get at hk
        rw [if_neg (by omega)] at hk
        simp [ih h.tail hk]

/-- A leaf with the credit it needs, sorted and not too long. -/
structure LeafOk (p : Params) (l : Leaf) : Prop where
  sorted : l.items.Sorted
  len : l.items.length ≤ p.maxLeaf
  exact : l.credit = 2 * (bytes p.kvs l.items : Int)

theorem accredited_of {kvs : Nat} {l : Leaf} (h : l.credit = 2 * (bytes kvs l.items : Int)) :
    accredited kvs l = true := by
  unfold accredited
  rw [wbSpace_eq, h]
  simp

theorem leafInsert_ok {p : Params} {l : Leaf} (hl : LeafOk p l) {k v : Nat} {c q : Int}
    (hc : c = 2 * q) (hs : l.items.get k ≠ none ∨ l.items.length < p.maxLeaf) :
    ∃ l' e, leafInsert p.kvs l k v c = some (l', e) ∧ LeafOk p l' ∧
      e = c + l.credit - l'.credit ∧ c - 2 * (v + p.kvs : Nat) ≤ e ∧
      l'.items = l.items.insert k v := by
  have hb := bytes_insert (kvs := p.kvs) hl.sorted k v
  have hx := hl.exact
  refine ⟨⟨l.items.insert k v, 2 * (bytes p.kvs (l.items.insert k v) : Int)⟩,
    c + 2 * (oldSpace p.kvs l.items k : Int) - 2 * (v + p.kvs : Nat), ?_, ⟨hl.sorted.insert k v, ?_, rfl⟩,
    ?_, ?_, rfl⟩
  · unfold leafInsert
    rw [if_pos (accredited_of hx)]
    have h1 : (isplit (extend l.credit c)
      (c / 2 + (oldSpace p.kvs l.items k : Int) - ((v + p.kvs : Nat) : Int))).1 =
        2 * (bytes p.kvs (l.items.insert k v) : Int) := by
      simp only [isplit, extend]; omega
    have h2 : (isplit (extend l.credit c)
      (c / 2 + (oldSpace p.kvs l.items k : Int) - ((v + p.kvs : Nat) : Int))).2 =
        c + 2 * (oldSpace p.kvs l.items k : Int) - 2 * (v + p.kvs : Nat) := by
      simp only [isplit, extend]; omega
    simp only [h1, h2]
    rw [if_pos (accredited_of rfl)]
  · rcases hs with hs | hs
    · rw [length_insert_mem hl.sorted v hs]; exact hl.len
    · exact Nat.le_trans (length_insert_le ..) (by omega)
  · simp only; omega
  · omega

theorem split_exact {c : Int} {a b : Nat} (h : c = 2 * ((a + b : Nat) : Int)) :
    split c b = (2 * (a : Int), 2 * (b : Int)) := by
  have h1 : min (b : Int) (c / 2) = b := by omega
  have h2 : c - 2 * (a : Int) = 2 * (b : Int) := by omega
  have h3 : c - (b : Int) * 2 = 2 * (a : Int) := by omega
  simp only [split, isplit, h1, h3, h2]

theorem take_even {c q : Int} (h : c = 2 * q) : take c = (0, c) := by
  have h1 : c / 2 = q := by omega
  simp only [take, isplit, h1]
  rw [Prod.mk.injEq]; constructor <;> omega

theorem leafRemove_ok {p : Params} {l : Leaf} (hl : LeafOk p l) (k : Nat) :
    ∃ l' e, leafRemove p.kvs l k = some (l', e) ∧ LeafOk p l' ∧
      e = l.credit - l'.credit ∧ 0 ≤ e ∧ l'.items = l.items.remove k := by
  have hb := bytes_remove (kvs := p.kvs) hl.sorted k
  have hx := hl.exact
  refine ⟨⟨l.items.remove k, 2 * (bytes p.kvs (l.items.remove k) : Int)⟩,
    2 * (oldSpace p.kvs l.items k : Int), ?_, ⟨hl.sorted.remove k, ?_, rfl⟩, ?_, ?_, rfl⟩
  · unfold leafRemove
    rw [if_pos (accredited_of hx)]
    rw [split_exact (a := bytes p.kvs (l.items.remove k)) (by omega)]
    simp only
    rw [if_pos (accredited_of rfl)]
  · exact Nat.le_trans (List.length_filter_le ..) hl.len
  · simp only; omega
  · omega

theorem leafRangeDelete_ok {p : Params} {l : Leaf} (hl : LeafOk p l) (f : Nat → Bool) :
    ∃ l' e, leafRangeDelete p.kvs l f = some (l', e) ∧ LeafOk p l' ∧
      e = l.credit - l'.credit ∧ 0 ≤ e ∧ l'.items = l.items.filter (fun x => !f x.1) := by
  have hb := bytes_filter p.kvs l.items f
  have hx := hl.exact
  refine ⟨⟨l.items.filter (fun x => !f x.1),
      2 * (bytes p.kvs (l.items.filter (fun x => !f x.1)) : Int)⟩,
    2 * (bytes p.kvs (l.items.filter (fun x => f x.1)) : Int), ?_,
    ⟨hl.sorted.filter _, ?_, rfl⟩, ?_, ?_, rfl⟩
  · unfold leafRangeDelete leafRangeDeleteU
    rw [if_pos (accredited_of hx)]
    simp only [space_eq]
    rw [split_exact (a := bytes p.kvs (l.items.filter (fun x => !f x.1))) (by omega)]
    simp only
    rw [if_pos (accredited_of rfl)]
  · exact Nat.le_trans (List.length_filter_le ..) hl.len
  · simp only; omega
  · omega

/-- `range_delete_unaccredited` of everything in a leaf from disk yields no
credit. -/
theorem leafRangeDeleteU_disk (kvs : Nat) (m : OMap Nat) :
    leafRangeDeleteU kvs ⟨m, 0⟩ (fun _ => true) = some (⟨[], 0⟩, 0) := by
  have h1 : ∀ n : Nat, split 0 n = (0, 0) := by
    intro n
    have : min (n : Int) (0 / 2) = 0 := by omega
    simp only [split, isplit, this]; rfl
  unfold leafRangeDeleteU
  simp only [h1]
  have h2 : (m.filter fun _ => !true) = [] := by simp
  rw [h2, if_pos (by simp [accredited, wbSpace])]

theorem leafSplit_ok {p : Params} {l : Leaf} (hl : LeafOk p l) {n : Nat}
    (hn : n < l.items.length) :
    ∃ l1 l2, leafSplit p.kvs l n = some (l1, l2) ∧ LeafOk p l1 ∧ LeafOk p l2 ∧
      l.credit = l1.credit + l2.credit ∧ l1.items ++ l2.items = l.items := by
  have hb := bytes_append p.kvs (l.items.take n) (l.items.drop n)
  rw [List.take_append_drop] at hb
  have hx := hl.exact
  have hlen := hl.len
  refine ⟨⟨l.items.take n, 2 * (bytes p.kvs (l.items.take n) : Int)⟩,
    ⟨l.items.drop n, 2 * (bytes p.kvs (l.items.drop n) : Int)⟩, ?_,
    ⟨hl.sorted.sublist (List.take_sublist ..), ?_, rfl⟩,
    ⟨hl.sorted.sublist (List.drop_sublist ..), ?_, rfl⟩, ?_, by simp⟩
  · unfold leafSplit
    rw [if_pos (accredited_of hx), if_pos hn]
    simp only [wbSpace_eq]
    rw [split_exact (a := bytes p.kvs (l.items.take n)) (by omega)]
    simp only [extend, Int.zero_add]
    rw [if_pos (by rw [accredited_of rfl, accredited_of rfl]; rfl)]
  · simp only [List.length_take]; omega
  · simp only [List.length_drop]; omega
  · simp only; omega

theorem sorted_append {a b : OMap Nat} (ha : a.Sorted) (hb : b.Sorted)
    (h : ∀ x ∈ a, ∀ y ∈ b, x.1 < y.1) : OMap.Sorted (a ++ b) :=
  List.pairwise_append.2 ⟨ha, hb, h⟩

theorem merge_ok {p : Params} {l o : Leaf} (hl : LeafOk p l) (ho : LeafOk p o)
    (hlen : l.items.length + o.items.length ≤ p.maxLeaf)
    (hlt : ∀ a ∈ l.items, ∀ b ∈ o.items, a.1 < b.1) :
    ∃ m, merge l o = some m ∧ LeafOk p m ∧ m.credit = l.credit + o.credit ∧
      m.items = l.items ++ o.items := by
  refine ⟨⟨l.items ++ o.items, l.credit + o.credit⟩, ?_, ⟨sorted_append hl.sorted ho.sorted hlt,
    by simpa using hlen, ?_⟩, rfl, rfl⟩
  · unfold merge
    rw [take_even ho.exact]
    simp [extend]
  · have := hl.exact; have := ho.exact
    simp only [bytes_append]; omega

theorem takeLow_ok {p : Params} {l o : Leaf} (hp : p.Ok) (hl : LeafOk p l) (ho : LeafOk p o)
    (hd : l.items.length ≤ p.minLeaf) (hlen : ¬ l.items.length + o.items.length ≤ p.maxLeaf)
    (hlt : ∀ a ∈ l.items, ∀ b ∈ o.items, a.1 < b.1) :
    ∃ l' o', takeLow p.kvs l o = some (l', o') ∧ LeafOk p l' ∧ LeafOk p o' ∧
      l'.credit + o'.credit = l.credit + o.credit ∧
      l'.items ++ o'.items = l.items ++ o.items := by
  have hfit := hp.fit
  have hpos := hp.pos
  have hol := ho.len
  generalize hn : max 1 ((o.items.length - l.items.length) / 2) = n
  have hb := bytes_append p.kvs (o.items.take n) (o.items.drop n)
  rw [List.take_append_drop] at hb
  have h1 := hl.exact
  have h2 := ho.exact
  refine ⟨⟨l.items ++ o.items.take n, l.credit + 2 * (bytes p.kvs (o.items.take n) : Int)⟩,
    ⟨o.items.drop n, 2 * (bytes p.kvs (o.items.drop n) : Int)⟩, ?_, ⟨?_, ?_, ?_⟩,
    ⟨ho.sorted.sublist (List.drop_sublist ..), ?_, rfl⟩, ?_, ?_⟩
  · unfold takeLow
    rw [if_neg (by omega)]
    simp only [hn, space_eq]
    rw [if_pos (by omega), split_exact (a := bytes p.kvs (o.items.drop n)) (by omega)]
    rfl
  · exact sorted_append hl.sorted (ho.sorted.sublist (List.take_sublist ..))
      (fun a ha b hb => hlt a ha b (List.mem_of_mem_take hb))
  · simp only [List.length_append, List.length_take]; omega
  · simp only [bytes_append]; omega
  · simp only [List.length_drop]; omega
  · simp only; omega
  · simp

theorem takeHigh_ok {p : Params} {l o : Leaf} (hp : p.Ok) (hl : LeafOk p l) (ho : LeafOk p o)
    (hd : l.items.length ≤ p.minLeaf) (hlen : ¬ o.items.length + l.items.length ≤ p.maxLeaf)
    (hlt : ∀ a ∈ o.items, ∀ b ∈ l.items, a.1 < b.1) :
    ∃ l' o', takeHigh p.kvs l o = some (l', o') ∧ LeafOk p l' ∧ LeafOk p o' ∧
      l'.credit + o'.credit = l.credit + o.credit ∧
      o'.items ++ l'.items = o.items ++ l.items := by
  have hfit := hp.fit
  have hpos := hp.pos
  have hol := ho.len
  generalize hn : o.items.length - max 1 ((o.items.length - l.items.length) / 2) = n
  have hb := bytes_append p.kvs (o.items.take n) (o.items.drop n)
  rw [List.take_append_drop] at hb
  have h1 := hl.exact
  have h2 := ho.exact
  refine ⟨⟨o.items.drop n ++ l.items, l.credit + 2 * (bytes p.kvs (o.items.drop n) : Int)⟩,
    ⟨o.items.take n, 2 * (bytes p.kvs (o.items.take n) : Int)⟩, ?_, ⟨?_, ?_, ?_⟩,
    ⟨ho.sorted.sublist (List.take_sublist ..), ?_, rfl⟩, ?_, ?_⟩
  · unfold takeHigh
    rw [if_neg (by omega)]
    simp only [hn, space_eq]
    rw [if_pos (by omega), split_exact (a := bytes p.kvs (o.items.take n)) (by omega)]
    rfl
  · exact sorted_append (ho.sorted.sublist (List.drop_sublist ..)) hl.sorted
      (fun a ha b hb => hlt a (List.mem_of_mem_drop ha) b hb)
  · simp only [List.length_append, List.length_drop]; omega
  · simp only [bytes_append]; omega
  · simp only [List.length_take]; omega
  · simp only; omega
  · simp only [← List.append_assoc, List.take_append_drop]

theorem acredit_eq (kvs : Nat) (m : OMap Nat) (c : Int) :
    acredit kvs m c = (⟨m, 2 * (bytes kvs m : Int)⟩, c - 2 * (bytes kvs m : Int)) := by
  simp only [acredit, isplit, wbSpace_eq, Prod.mk.injEq, Leaf.mk.injEq, true_and]
  constructor <;> omega

end Verif.TreeCredit
