/-!
# Ordered maps

The interface of `tree::Tree` (bfffs-core/src/tree/tree/mod.rs: get 1097,
insert 1260, remove 2097, range 1448, range_delete 1478) as used by the upper
layers: a finite map with natural-number keys, kept as a list sorted by key.
(FSKey is a `u128`, RID a `u64`, PBA is encoded as one number.)  That the
B+tree itself implements this interface is the subject of C38.
-/

namespace Verif

abbrev OMap (V : Type u) := List (Nat × V)

namespace OMap
variable {V : Type u}

/-- `Tree::get` -/
def get (m : OMap V) (k : Nat) : Option V :=
  match m with
  | [] => none
  | (k', v) :: m => if k' = k then some v else get m k

/-- `Tree::insert`; the value it returns is the old `get m k`. -/
def insert (m : OMap V) (k : Nat) (v : V) : OMap V :=
  match m with
  | [] => [(k, v)]
  | (k', v') :: m =>
    if k < k' then (k, v) :: (k', v') :: m
    else if k = k' then (k, v) :: m
    else (k', v') :: insert m k v

/-- `Tree::remove`; the value it returns is the old `get m k`. -/
def remove (m : OMap V) (k : Nat) : OMap V := m.filter (fun e => e.1 ≠ k)

/-- `Tree::range(lo..hi)` -/
def range (m : OMap V) (lo hi : Nat) : OMap V := m.filter (fun e => lo ≤ e.1 ∧ e.1 < hi)

/-- `Tree::range(lo..)` -/
def rangeFrom (m : OMap V) (lo : Nat) : OMap V := m.filter (fun e => lo ≤ e.1)

/-- `Tree::range_delete(lo..hi)` -/
def rangeDelete (m : OMap V) (lo hi : Nat) : OMap V := m.filter (fun e => ¬ (lo ≤ e.1 ∧ e.1 < hi))

/-- `Tree::range_delete(lo..)` -/
def rangeDeleteFrom (m : OMap V) (lo : Nat) : OMap V := m.filter (fun e => ¬ lo ≤ e.1)

/-- `Tree::last_key` -/
def lastKey (m : OMap V) : Option Nat := m.getLast?.map (·.1)

/-- Keys strictly increase along the list. -/
def Sorted (m : OMap V) : Prop := m.Pairwise (fun a b => a.1 < b.1)

/-- Total of `f` over all values. -/
def total (f : V → Int) (m : OMap V) : Int := (m.map fun e => f e.2).sum

@[simp] theorem get_nil (k : Nat) : get ([] : OMap V) k = none := rfl

theorem get_insert (m : OMap V) (k : Nat) (v : V) (k' : Nat) :
    get (insert m k v) k' = if k' = k then some v else get m k' := by
  induction m with
  | nil => simp [insert, get, eq_comm]
  | cons e m ih =>
    obtain ⟨a, w⟩ := e
    simp only [insert]
    split
    · simp only [get]; grind
    · split
      · simp only [get]; grind
      · simp only [get, ih]; grind

theorem get_filter (m : OMap V) (p : Nat → Bool) (k : Nat) :
    get (m.filter (fun e => p e.1)) k = if p k then get m k else none := by
  induction m with
  | nil => simp
  | cons e m ih =>
    obtain ⟨a, w⟩ := e
    simp only [List.filter_cons]
    split
    · simp only [get, ih]; grind
    · rw [ih]; simp only [get]; grind

theorem get_remove (m : OMap V) (k k' : Nat) :
    get (remove m k) k' = if k' = k then none else get m k' := by
  have := get_filter m (fun x => decide (x ≠ k)) k'
  rw [remove, this]; grind

theorem get_rangeDelete (m : OMap V) (lo hi k : Nat) :
    get (rangeDelete m lo hi) k = if lo ≤ k ∧ k < hi then none else get m k := by
  have := get_filter m (fun x => decide (¬ (lo ≤ x ∧ x < hi))) k
  rw [rangeDelete, this]; grind

theorem get_rangeDeleteFrom (m : OMap V) (lo k : Nat) :
    get (rangeDeleteFrom m lo) k = if lo ≤ k then none else get m k := by
  have := get_filter m (fun x => decide (¬ lo ≤ x)) k
  rw [rangeDeleteFrom, this]; grind

theorem get_range (m : OMap V) (lo hi k : Nat) :
    get (range m lo hi) k = if lo ≤ k ∧ k < hi then get m k else none := by
  have := get_filter m (fun x => decide (lo ≤ x ∧ x < hi)) k
  rw [range, this]; grind

theorem get_rangeFrom (m : OMap V) (lo k : Nat) :
    get (rangeFrom m lo) k = if lo ≤ k then get m k else none := by
  have := get_filter m (fun x => decide (lo ≤ x)) k
  rw [rangeFrom, this]; grind

theorem sorted_nil : Sorted ([] : OMap V) := List.Pairwise.nil

theorem Sorted.filter {m : OMap V} (h : Sorted m) (p : Nat × V → Bool) :
    Sorted (m.filter p) := List.Pairwise.filter _ h

theorem Sorted.remove {m : OMap V} (h : Sorted m) (k : Nat) : Sorted (OMap.remove m k) :=
  h.filter _
theorem Sorted.range {m : OMap V} (h : Sorted m) (lo hi : Nat) : Sorted (OMap.range m lo hi) :=
  h.filter _
theorem Sorted.rangeFrom {m : OMap V} (h : Sorted m) (lo : Nat) : Sorted (OMap.rangeFrom m lo) :=
  h.filter _
theorem Sorted.rangeDelete {m : OMap V} (h : Sorted m) (lo hi : Nat) :
    Sorted (OMap.rangeDelete m lo hi) := h.filter _
theorem Sorted.rangeDeleteFrom {m : OMap V} (h : Sorted m) (lo : Nat) :
    Sorted (OMap.rangeDeleteFrom m lo) := h.filter _

theorem mem_insert {m : OMap V} {k : Nat} {v : V} {e : Nat × V} (h : e ∈ insert m k v) :
    e = (k, v) ∨ e ∈ m := by
  induction m with
  | nil => simp [insert] at h; exact Or.inl h
  | cons x m ih =>
    obtain ⟨a, w⟩ := x
    simp only [insert] at h
    split at h
    · simp at h ⊢; exact h
    · split at h
      · simp at h ⊢; rcases h with h | h
        · exact Or.inl h
        · exact Or.inr (Or.inr h)
      · simp at h ⊢
        rcases h with h | h
        · exact Or.inr (Or.inl h)
        · rcases ih h with h | h
          · exact Or.inl h
          · exact Or.inr (Or.inr h)

theorem Sorted.insert {m : OMap V} (h : Sorted m) (k : Nat) (v : V) :
    Sorted (OMap.insert m k v) := by
  induction m with
  | nil => simp [OMap.insert, Sorted]
  | cons e m ih =>
    obtain ⟨a, w⟩ := e
    simp only [Sorted, List.pairwise_cons] at h
    simp only [OMap.insert]
    split
    · rename_i hk
      simp only [Sorted, List.pairwise_cons]
      refine ⟨?_, h.1, h.2⟩
      intro x hx
      simp at hx
      rcases hx with rfl | hx
      · exact hk
      · exact Nat.lt_trans hk (h.1 x hx)
    · split
      · rename_i hk
        subst hk
        simp only [Sorted, List.pairwise_cons]
        exact ⟨h.1, h.2⟩
      · simp only [Sorted, List.pairwise_cons]
        refine ⟨?_, ih h.2⟩
        intro x hx
        rcases mem_insert hx with rfl | hx
        · simp; omega
        · exact h.1 x hx

theorem get_of_mem {m : OMap V} (h : Sorted m) {k : Nat} {v : V} (hm : (k, v) ∈ m) :
    get m k = some v := by
  induction m with
  | nil => simp at hm
  | cons e m ih =>
    obtain ⟨a, w⟩ := e
    simp only [Sorted, List.pairwise_cons] at h
    simp only [get]
    simp at hm
    rcases hm with ⟨rfl, rfl⟩ | hm
    · simp
    · have := h.1 _ hm
      simp at this
      rw [if_neg (by omega)]
      exact ih h.2 hm

theorem mem_of_get {m : OMap V} {k : Nat} {v : V} (h : get m k = some v) : (k, v) ∈ m := by
  induction m with
  | nil => simp at h
  | cons e m ih =>
    obtain ⟨a, w⟩ := e
    simp only [get] at h
    split at h
    · simp_all
    · simp [ih h]

theorem mem_iff_get {m : OMap V} (h : Sorted m) {k : Nat} {v : V} :
    (k, v) ∈ m ↔ get m k = some v := ⟨get_of_mem h, mem_of_get⟩

theorem get_none_of_lt {m : OMap V} {k a : Nat} {w : V} (h : Sorted ((a, w) :: m)) (hk : k ≤ a) :
    get m k = none := by
  cases hg : get m k with
  | none => rfl
  | some v =>
    have := mem_of_get hg
    simp only [Sorted, List.pairwise_cons] at h
    have := h.1 _ this
    simp at this; omega

theorem Sorted.tail {m : OMap V} {e : Nat × V} (h : Sorted (e :: m)) : Sorted m :=
  (List.pairwise_cons.1 h).2

/-- Two sorted maps with the same lookups are equal. -/
theorem ext {m n : OMap V} (hm : Sorted m) (hn : Sorted n) (h : ∀ k, get m k = get n k) :
    m = n := by
  induction m generalizing n with
  | nil =>
    cases n with
    | nil => rfl
    | cons e n => obtain ⟨a, w⟩ := e; have := h a; simp [get] at this
  | cons e m ih =>
    obtain ⟨a, w⟩ := e
    cases n with
    | nil => have := h a; simp [get] at this
    | cons e' n =>
      obtain ⟨b, x⟩ := e'
      have hab : a = b := by
        rcases Nat.lt_trichotomy a b with hlt | heq | hgt
        · have := h a
          simp [get, get_none_of_lt hn (show a ≤ b by omega), show ¬ b = a by omega] at this
        · exact heq
        · have := h b
          simp [get, get_none_of_lt hm (show b ≤ a by omega), show ¬ a = b by omega] at this
      subst hab
      have h1 := h a
      simp [get] at h1
      subst h1
      congr 1
      apply ih hm.tail hn.tail
      intro k
      have := h k
      simp only [get] at this
      by_cases hk : a = k
      · subst hk
        rw [get_none_of_lt hm (Nat.le_refl _), get_none_of_lt hn (Nat.le_refl _)]
      · simpa [hk] using this

theorem total_insert {m : OMap V} (h : Sorted m) (f : V → Int) (k : Nat) (v : V) :
    total f (insert m k v) = total f m - ((get m k).map f).getD 0 + f v := by
  induction m with
  | nil => simp [total, insert]
  | cons e m ih =>
    obtain ⟨a, w⟩ := e
    simp only [insert]
    split
    · rename_i hk
      have : get ((a, w) :: m) k = none := by
        simp only [get]; rw [if_neg (by omega)]; exact get_none_of_lt h (by omega)
      rw [this]; simp [total]; omega
    · split
      · rename_i hk; subst hk; simp [total, get]; omega
      · rename_i h1 h2
        have := ih h.tail
        simp only [total, List.map_cons, List.sum_cons] at this ⊢
        rw [this]
        simp only [get, if_neg (Ne.symm h2)]
        omega

theorem total_filter_add (m : OMap V) (f : V → Int) (p : Nat × V → Bool) :
    total f (m.filter p) + total f (m.filter (fun e => !p e)) = total f m := by
  induction m with
  | nil => rfl
  | cons e m ih =>
    simp only [total] at ih ⊢
    cases hp : p e
    · simp only [List.filter_cons, hp]; simp; omega
    · simp only [List.filter_cons, hp]; simp; omega

theorem total_rangeDelete (m : OMap V) (f : V → Int) (lo hi : Nat) :
    total f (rangeDelete m lo hi) = total f m - total f (range m lo hi) := by
  have h := total_filter_add m f (fun e => decide (lo ≤ e.1 ∧ e.1 < hi))
  have e : rangeDelete m lo hi = m.filter (fun e => !decide (lo ≤ e.1 ∧ e.1 < hi)) := by
    simp only [rangeDelete, decide_not]
  rw [e, range]; omega

theorem total_rangeDeleteFrom (m : OMap V) (f : V → Int) (lo : Nat) :
    total f (rangeDeleteFrom m lo) = total f m - total f (rangeFrom m lo) := by
  have h := total_filter_add m f (fun e => decide (lo ≤ e.1))
  have e : rangeDeleteFrom m lo = m.filter (fun e => !decide (lo ≤ e.1)) := by
    simp only [rangeDeleteFrom, decide_not]
  rw [e, rangeFrom]; omega

theorem remove_of_none {m : OMap V} {k : Nat} (h : get m k = none) : remove m k = m := by
  simp only [remove, List.filter_eq_self]
  intro e he
  simp
  intro hk
  induction m with
  | nil => simp at he
  | cons x m ih =>
    obtain ⟨a, w⟩ := x
    simp only [get] at h
    split at h
    · simp at h
    · simp at he
      rcases he with rfl | he
      · exact absurd hk (by assumption)
      · exact ih h he

theorem total_remove {m : OMap V} (h : Sorted m) (f : V → Int) (k : Nat) :
    total f (remove m k) = total f m - ((get m k).map f).getD 0 := by
  induction m with
  | nil => rfl
  | cons e m ih =>
    obtain ⟨a, w⟩ := e
    have ih := ih h.tail
    simp only [remove, List.filter_cons, get]
    by_cases hk : a = k
    · subst hk
      have h1 := remove_of_none (get_none_of_lt h (Nat.le_refl a))
      simp only [remove] at h1
      simp only [ne_eq, not_true_eq_false, decide_false, Bool.false_eq_true, if_false, if_pos]
      rw [h1]; simp [total]; omega
    · simp only [remove, total] at ih
      simp only [total, if_neg hk]
      simp [hk]
      simp at ih
      omega

/-- Inserting over a removed key is the same as inserting. -/
theorem insert_remove {m : OMap V} (h : Sorted m) (k : Nat) (v : V) :
    insert (remove m k) k v = insert m k v := by
  apply ext ((h.remove k).insert k v) (h.insert k v)
  intro j
  rw [get_insert, get_insert, get_remove]
  grind

theorem total_nonneg {m : OMap V} (f : V → Int) (hf : ∀ v, 0 ≤ f v) : 0 ≤ total f m := by
  induction m with
  | nil => simp [total]
  | cons e m ih => have := hf e.2; simp [total] at *; omega

end OMap
end Verif
