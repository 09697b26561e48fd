import Verif.Cache.Model

/-! # The doubly linked list inside the hash map represents a list of entries -/

namespace Verif.Cache

variable {K V : Type} [DecidableEq K]

/-! ## Hash map lemmas -/

variable {E : Type}

theorem HMap.get_erase (m : HMap K E) (k k' : K) :
    HMap.get (HMap.erase m k) k' = if k = k' then none else HMap.get m k' := by
  induction m with
  | nil => simp [HMap.erase, HMap.get]
  | cons p m ih =>
    obtain ⟨q, e⟩ := p
    unfold HMap.erase at ih ⊢
    by_cases h : q = k
    · simp only [List.filter_cons, h, ne_eq, not_true_eq_false, decide_false, Bool.false_eq_true,
        if_false, ih]
      by_cases h' : k = k' <;> simp [HMap.get, h']
    · simp only [List.filter_cons, h, ne_eq, not_false_eq_true, decide_true, if_true, HMap.get, ih]
      by_cases h1 : q = k' <;> by_cases h2 : k = k' <;> simp [h1, h2] <;> grind

theorem HMap.get_put (m : HMap K E) (k k' : K) (e : E) :
    HMap.get (HMap.put m k e) k' = if k = k' then some e else HMap.get m k' := by
  unfold HMap.put
  by_cases h : k = k' <;> simp [HMap.get, HMap.get_erase, h]

def HMap.NodupKeys (m : HMap K E) : Prop := (m.map Prod.fst).Nodup

theorem HMap.get_eq_none (m : HMap K E) (k : K) : HMap.get m k = none ↔ k ∉ m.map Prod.fst := by
  induction m with
  | nil => simp [HMap.get]
  | cons p m ih => obtain ⟨q, e⟩ := p; simp only [HMap.get]; split <;> simp_all <;> grind

theorem HMap.nodup_erase {m : HMap K E} (h : HMap.NodupKeys m) (k : K) :
    HMap.NodupKeys (HMap.erase m k) := by
  unfold HMap.NodupKeys HMap.erase at *
  exact h.sublist ((List.filter_sublist).map _)

theorem HMap.nodup_put {m : HMap K E} (h : HMap.NodupKeys m) (k : K) (e : E) :
    HMap.NodupKeys (HMap.put m k e) := by
  unfold HMap.NodupKeys HMap.put
  simp only [List.map_cons, List.nodup_cons]
  refine ⟨?_, HMap.nodup_erase h k⟩
  simp [HMap.erase]

theorem HMap.length_erase_none {m : HMap K E} {k : K} (hg : HMap.get m k = none) :
    (HMap.erase m k).length = m.length := by
  rw [HMap.get_eq_none] at hg
  unfold HMap.erase
  rw [List.filter_eq_self.mpr]
  intro p hp
  simp only [ne_eq, decide_not, Bool.not_eq_eq_eq_not, Bool.not_true, decide_eq_false_iff_not]
  intro h
  exact hg (h ▸ List.mem_map_of_mem hp)

theorem HMap.length_erase_some {m : HMap K E} {k : K} {e : E} (h : HMap.NodupKeys m)
    (hg : HMap.get m k = some e) : (HMap.erase m k).length + 1 = m.length := by
  induction m with
  | nil => simp [HMap.get] at hg
  | cons p m ih =>
    obtain ⟨q, e'⟩ := p
    simp only [HMap.NodupKeys, List.map_cons, List.nodup_cons] at h
    simp only [HMap.get] at hg
    by_cases hq : q = k
    · subst hq
      have := HMap.length_erase_none (m := m) (k := q) ((HMap.get_eq_none m q).mpr h.1)
      simp only [HMap.erase, List.filter_cons, ne_eq, not_true_eq_false, decide_false,
        Bool.false_eq_true, if_false, List.length_cons] at this ⊢
      omega
    · rw [if_neg hq] at hg
      have := ih h.2 hg
      simp only [HMap.erase, List.filter_cons, ne_eq, hq, not_false_eq_true, decide_true,
        if_true, List.length_cons] at this ⊢
      omega

theorem HMap.length_put_none {m : HMap K E} {k : K} (e : E) (hg : HMap.get m k = none) :
    (HMap.put m k e).length = m.length + 1 := by
  simp [HMap.put, HMap.length_erase_none hg]

theorem HMap.length_put_some {m : HMap K E} {k : K} {e : E} (e' : E) (h : HMap.NodupKeys m)
    (hg : HMap.get m k = some e) : (HMap.put m k e').length = m.length := by
  simp [HMap.put, HMap.length_erase_some h hg]

/-! ## Linked lists -/

/-- The key of the first entry, or `n`. -/
def firstKey (l : List (K × V)) (n : Option K) : Option K :=
  match l with
  | [] => n
  | (k, _) :: _ => some k

/-- The key of the last entry, or `p`. -/
def lastKey (p : Option K) : List (K × V) → Option K
  | [] => p
  | (k, _) :: l => lastKey (some k) l

/-- The linked-list entry that `k` has in the list `l` (most recently used
first), preceded by `p` and followed by `n`. -/
def ent (p : Option K) (l : List (K × V)) (n : Option K) (k : K) : Option (Entry K V) :=
  match l with
  | [] => none
  | (k0, v) :: l => if k0 = k then some ⟨v, firstKey l n, p⟩ else ent (some k0) l n k

def keys (l : List (K × V)) : List K := l.map Prod.fst

omit [DecidableEq K] in
theorem firstKey_append (a b : List (K × V)) (n : Option K) :
    firstKey (a ++ b) n = firstKey a (firstKey b n) := by
  cases a <;> rfl

omit [DecidableEq K] in
theorem lastKey_append (p : Option K) (a b : List (K × V)) :
    lastKey p (a ++ b) = lastKey (lastKey p a) b := by
  induction a generalizing p with
  | nil => rfl
  | cons q a ih => obtain ⟨k, v⟩ := q; exact ih _

theorem ent_append (p : Option K) (a b : List (K × V)) (n : Option K) (k : K) :
    ent p (a ++ b) n k = (ent p a (firstKey b n) k).or (ent (lastKey p a) b n k) := by
  induction a generalizing p with
  | nil => simp [ent, lastKey]
  | cons q a ih =>
    obtain ⟨k0, v⟩ := q
    simp only [List.cons_append, ent, lastKey, firstKey_append]
    split
    · simp
    · exact ih _

theorem ent_eq_none (p : Option K) (l : List (K × V)) (n : Option K) (k : K) :
    ent p l n k = none ↔ k ∉ keys l := by
  induction l generalizing p with
  | nil => simp [ent, keys]
  | cons q l ih =>
    obtain ⟨k0, v⟩ := q
    simp only [ent, keys, List.map_cons, List.mem_cons] at *
    split
    · rename_i h; simp [h]
    · rename_i h; rw [ih]; grind

omit [DecidableEq K] in
theorem lastKey_mem {a : List (K × V)} {p : Option K} {k : K} (h : lastKey p a = some k) :
    p = some k ∨ k ∈ keys a := by
  induction a generalizing p with
  | nil => exact Or.inl h
  | cons q a ih =>
    obtain ⟨k0, v⟩ := q
    simp only [lastKey] at h
    rcases ih h with h | h
    · right; simp only [Option.some.injEq] at h; subst h; simp [keys]
    · right; simp only [keys, List.map_cons, List.mem_cons] at h ⊢; exact Or.inr h

omit [DecidableEq K] in
theorem firstKey_mem {a : List (K × V)} {n : Option K} {k : K} (h : firstKey a n = some k) :
    (a = [] ∧ n = some k) ∨ k ∈ keys a := by
  cases a with
  | nil => exact Or.inl ⟨rfl, h⟩
  | cons q a => right; simp [firstKey] at h; simp [keys, h]

/-- Changing what follows the list changes only its last entry. -/
theorem ent_next {p : Option K} {a : List (K × V)} (hn : (keys a).Nodup) (n n' : Option K) (k : K) :
    ent p a n' k = if lastKey none a = some k
      then (ent p a n k).map (fun e => { e with lru := n' }) else ent p a n k := by
  induction a generalizing p with
  | nil => simp [ent]
  | cons q a ih =>
    obtain ⟨k0, v⟩ := q
    simp only [keys, List.map_cons, List.nodup_cons] at hn
    simp only [ent, lastKey]
    cases a with
    | nil => simp only [lastKey, Option.some.injEq, firstKey, ent]; split <;> simp
    | cons q' a =>
      by_cases h : k0 = k
      · subst h
        simp only [if_true, firstKey, Option.map_some]
        rw [if_neg]
        intro hc
        obtain ⟨k1, v1⟩ := q'
        rcases lastKey_mem (p := none) (a := (k1, v1) :: a) (by simpa [lastKey] using hc) with h | h
        · cases h
        · exact hn.1 h
      · simp only [if_neg h]
        have := ih (p := some k0) hn.2
        obtain ⟨k1, v1⟩ := q'
        exact this

/-- Changing what precedes the list changes only its first entry. -/
theorem ent_prev {a : List (K × V)} (p p' n : Option K) (k : K) :
    ent p' a n k = if firstKey a none = some k
      then (ent p a n k).map (fun e => { e with mru := p' }) else ent p a n k := by
  cases a with
  | nil => simp [ent]
  | cons q a =>
    obtain ⟨k0, v⟩ := q
    simp only [ent, firstKey, Option.some.injEq]
    split <;> simp

def total (sz : V → Nat) (l : List (K × V)) : Nat := (l.map (fun p => sz p.2)).sum

/-- The cache `c` holds exactly the entries `l`, most recently used first. -/
structure Rep (sz : V → Nat) (c : Lru K V) (l : List (K × V)) : Prop where
  nodup : (keys l).Nodup
  get : ∀ k, HMap.get c.store k = ent none l none k
  mru : c.mru = firstKey l none
  lru : c.lru = lastKey none l
  size : c.size = total sz l
  snodup : HMap.NodupKeys c.store
  length : c.store.length = l.length

theorem modify_some {m : HMap K E} {k : K} {e : E} (h : HMap.get m k = some e) (f : E → E) :
    HMap.modify m k f = some (HMap.put m k (f e)) := by
  simp [HMap.modify, h]

omit [DecidableEq K] in
theorem mem_split {l : List (K × V)} {k : K} (h : k ∈ keys l) :
    ∃ a v b, l = a ++ (k, v) :: b := by
  simp only [keys, List.mem_map] at h
  obtain ⟨⟨k', v⟩, hm, rfl⟩ := h
  obtain ⟨a, b, rfl⟩ := List.append_of_mem hm
  exact ⟨a, v, b, rfl⟩

theorem ent_split {a b : List (K × V)} {k : K} {v : V} (hn : (keys (a ++ (k, v) :: b)).Nodup) :
    ent none (a ++ (k, v) :: b) none k = some ⟨v, firstKey b none, lastKey none a⟩ := by
  rw [ent_append]
  have : ent none a (firstKey ((k, v) :: b) none) k = none := by
    rw [ent_eq_none]
    simp only [keys, List.map_append, List.map_cons, List.nodup_append] at hn
    intro h
    exact hn.2.2 k h k (by simp) rfl
  rw [this]; simp [ent]

theorem modifyOpt_spec {m : HMap K (Entry K V)} {o : Option K} {f : Entry K V → Entry K V}
    (hm : HMap.NodupKeys m) (ho : ∀ z, o = some z → HMap.get m z ≠ none) :
    ∃ m', modifyOpt m o f = some m' ∧ HMap.NodupKeys m' ∧ m'.length = m.length ∧
      ∀ k, HMap.get m' k = if o = some k then (HMap.get m k).map f else HMap.get m k := by
  cases o with
  | none => exact ⟨m, rfl, hm, rfl, by simp⟩
  | some z =>
    cases hg : HMap.get m z with
    | none => exact absurd hg (ho z rfl)
    | some e =>
      refine ⟨HMap.put m z (f e), modify_some hg f, HMap.nodup_put hm _ _,
        HMap.length_put_some _ hm hg, ?_⟩
      intro k
      rw [HMap.get_put]
      by_cases h : z = k
      · subst h; simp [hg]
      · simp [h]

omit [DecidableEq K] in
theorem total_append (sz : V → Nat) (a b : List (K × V)) :
    total sz (a ++ b) = total sz a + total sz b := by
  simp [total]

omit [DecidableEq K] in
theorem total_cons (sz : V → Nat) (k : K) (v : V) (b : List (K × V)) :
    total sz ((k, v) :: b) = sz v + total sz b := by
  simp [total]

omit [DecidableEq K] in
theorem lastKey_none {a : List (K × V)} {p : Option K} : lastKey p a = none ↔ p = none ∧ a = [] := by
  induction a generalizing p with
  | nil => simp [lastKey]
  | cons q a ih => obtain ⟨k, v⟩ := q; simp [lastKey, ih]

/-- The removal of the middle of a list. -/
theorem remove_rep {sz : V → Nat} {c : Lru K V} {a b : List (K × V)} {k : K} {v : V}
    (h : Rep sz c (a ++ (k, v) :: b)) :
    ∃ c', remove sz c k = some (c', some v) ∧ Rep sz c' (a ++ b) ∧ c'.capacity = c.capacity := by
  have hn := h.nodup
  have hka : k ∉ keys a := by
    simp only [keys, List.map_append, List.map_cons, List.nodup_append] at hn
    exact fun h => hn.2.2 k h k (by simp) rfl
  have hkb : k ∉ keys b := by
    simp only [keys, List.map_append, List.map_cons, List.nodup_append, List.nodup_cons] at hn
    exact hn.2.1.1
  have hna : (keys a).Nodup := by
    simp only [keys, List.map_append, List.map_cons, List.nodup_append] at hn; exact hn.1
  have hab : ∀ x, x ∈ keys a → x ∉ keys b := by
    simp only [keys, List.map_append, List.map_cons, List.nodup_append] at hn
    exact fun x hx hb => hn.2.2 x hx x (List.mem_cons_of_mem _ hb) rfl
  have hg : HMap.get c.store k = some ⟨v, firstKey b none, lastKey none a⟩ := by
    rw [h.get, ent_split hn]
  have hget : ∀ x, HMap.get (HMap.erase c.store k) x =
      if k = x then none else (ent none a (some k) x).or (ent (some k) b none x) := by
    intro x
    rw [HMap.get_erase, h.get, ent_append]
    by_cases hx : k = x
    · simp [hx]
    · simp [hx, firstKey, ent]
  have hl : ∀ z, lastKey none a = some z → z ∈ keys a := fun z hz => by
    have := lastKey_mem hz; simpa using this
  have hf : ∀ z, firstKey b none = some z → z ∈ keys b := fun z hz => by
    have := firstKey_mem hz; simpa using this
  have ia : ∀ {p n : Option K} {x}, x ∈ keys a → ∃ e, ent p a n x = some e := by
    intro p n x hx
    cases h' : ent p a n x with
    | none => exact absurd hx ((ent_eq_none _ _ _ _).mp h')
    | some e => exact ⟨e, rfl⟩
  have ib : ∀ {p n : Option K} {x}, x ∈ keys b → ∃ e, ent p b n x = some e := by
    intro p n x hx
    cases h' : ent p b n x with
    | none => exact absurd hx ((ent_eq_none _ _ _ _).mp h')
    | some e => exact ⟨e, rfl⟩
  have hne : ∀ x, x ∈ keys a → k ≠ x := fun x hx hk => hka (hk ▸ hx)
  have hneb : ∀ x, x ∈ keys b → k ≠ x := fun x hx hk => hkb (hk ▸ hx)
  obtain ⟨m1, e1, n1, l1, g1⟩ := modifyOpt_spec (o := lastKey none a)
    (f := fun e => { e with lru := firstKey b none }) (HMap.nodup_erase h.snodup k) (by
      intro z hz
      rw [hget, if_neg (hne z (hl z hz))]
      obtain ⟨e, he⟩ := ia (p := none) (n := some k) (hl z hz)
      simp [he])
  obtain ⟨m2, e2, n2, l2, g2⟩ := modifyOpt_spec (o := firstKey b none)
    (f := fun e => { e with mru := lastKey none a }) n1 (by
      intro z hz
      have hzb := hf z hz
      rw [g1, hget, if_neg (hneb z hzb)]
      obtain ⟨e, he⟩ := ib (p := some k) (n := none) hzb
      have : ent none a (some k) z = none := (ent_eq_none _ _ _ _).mpr (fun ha => hab z ha hzb)
      rw [this]
      simp only [Option.none_or, he]
      split <;> simp)
  refine ⟨⟨c.capacity, if b = [] then lastKey none a else c.lru,
    if a = [] then firstKey b none else c.mru, c.size - sz v, m2⟩, ?_, ⟨?_, ?_, ?_, ?_, ?_, n2, ?_⟩, rfl⟩
  · have hmru : c.mru = firstKey (a ++ (k, v) :: b) none := h.mru
    have hlru : c.lru = lastKey none (a ++ (k, v) :: b) := h.lru
    unfold remove
    rw [hg]
    simp only [e1, e2, Option.bind_eq_bind, Option.bind_some]
    have hm : relinkEnd (lastKey none a) c.mru (firstKey b none) k =
        some (if a = [] then firstKey b none else c.mru) := by
      cases ha : lastKey none a with
      | none =>
        have := (lastKey_none.mp ha).2
        subst this
        simp [hmru, firstKey, relinkEnd]
      | some z =>
        have : a ≠ [] := by rintro rfl; simp [lastKey] at ha
        simp [this, relinkEnd]
    have hlr : relinkEnd (firstKey b none) c.lru (lastKey none a) k =
        some (if b = [] then lastKey none a else c.lru) := by
      cases b with
      | nil => simp [hlru, lastKey_append, lastKey, firstKey, relinkEnd]
      | cons q b => simp [firstKey, relinkEnd]
    simp [hm, hlr]
  · simp only [keys, List.map_append, List.map_cons, List.nodup_append, List.nodup_cons] at hn ⊢
    exact ⟨hn.1, hn.2.1.2, fun x hx y hy => hn.2.2 x hx y (List.mem_cons_of_mem _ hy)⟩
  · intro x
    show HMap.get m2 x = _
    rw [g2, g1, hget, ent_append]
    by_cases hx : k = x
    · subst hx
      have h1 := (ent_eq_none none a (firstKey b none) k).mpr hka
      have h2 := (ent_eq_none (lastKey none a) b none k).mpr hkb
      simp [h1, h2]
    · simp only [if_neg hx]
      by_cases hxa : x ∈ keys a
      · have hxb := hab x hxa
        have hnf : firstKey b none ≠ some x := fun hc => hxb (hf x hc)
        rw [if_neg hnf]
        have hb1 := fun p n => (ent_eq_none (V := V) p b n x).mpr hxb
        rw [hb1, hb1, ent_next hna (some k) (firstKey b none) x]
        by_cases hz : lastKey none a = some x <;> simp [hz]
      · have hnl : lastKey none a ≠ some x := fun hc => hxa (hl x hc)
        rw [if_neg hnl]
        have ha1 := fun p n => (ent_eq_none (V := V) p a n x).mpr hxa
        rw [ha1, ha1, ent_prev (some k) (lastKey none a) none x]
        simp
  · have hmru : c.mru = firstKey (a ++ (k, v) :: b) none := h.mru
    cases a with
    | nil => simp
    | cons q a => simp [hmru, firstKey]
  · have hlru : c.lru = lastKey none (a ++ (k, v) :: b) := h.lru
    cases b with
    | nil => simp
    | cons q b => obtain ⟨k1, v1⟩ := q; simp [hlru, lastKey_append, lastKey]
  · have := h.size
    simp only [total_append, total_cons] at this ⊢
    omega
  · have hlen := h.length
    have := HMap.length_erase_some h.snodup hg
    simp only [List.length_append, List.length_cons] at hlen ⊢
    omega

end Verif.Cache
