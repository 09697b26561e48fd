import Verif.Tree.Spec

/-!
# Lemmas about nodes: order, contents and the edits at one index
-/

namespace Verif.Tree

variable {V : Type} {α : Type}

/-! ## Chains -/

theorem Below.mono {k : Nat} {a b : Option Nat} (h : Below k a)
    (hab : ∀ x, Below x a → Below x b) : Below k b := hab k h

theorem chain_congr {P Q : Nat → Option Nat → α → Prop} {lo hi} {l : List (Nat × α)}
    (h : ∀ a b e, P a b e → Q a b e) (hc : Chain P lo hi l) : Chain Q lo hi l := by
  induction l generalizing lo with
  | nil => trivial
  | cons e es ih => exact ⟨hc.1, hc.2.1, h _ _ _ hc.2.2.1, ih hc.2.2.2⟩

theorem chain_mono {P : Nat → Option Nat → α → Prop}
    (hP : ∀ a b c e, (∀ x, Below x b → Below x c) → P a b e → P a c e)
    {lo lo' hi hi'} {l : List (Nat × α)} (hlo : lo' ≤ lo) (hhi : ∀ x, Below x hi → Below x hi')
    (hc : Chain P lo hi l) : Chain P lo' hi' l := by
  induction l generalizing lo lo' with
  | nil => trivial
  | cons e es ih =>
    refine ⟨Nat.le_trans hlo hc.1, hhi _ hc.2.1, ?_, ih (Nat.le_refl _) hc.2.2.2⟩
    cases es with
    | nil => exact hP _ _ _ _ hhi hc.2.2.1
    | cons f fs => exact hc.2.2.1

theorem bounded_mono : ∀ (h : Nat) {lo lo' : Nat} {hi hi' : Option Nat} {c : Sub V h},
    lo' ≤ lo → (∀ x, Below x hi → Below x hi') → Bounded h lo hi c → Bounded h lo' hi' c
  | 0, _, _, _, _, _, _, _, _ => trivial
  | h + 1, _, _, _, _, _, hlo, hhi, hc =>
    ⟨hc.1, chain_mono (P := Bounded h)
      (fun _ _ _ _ hbc hp => bounded_mono h (Nat.le_refl _) hbc hp) hlo hhi hc.2⟩

theorem bounded_hi {h : Nat} {lo : Nat} {hi hi' : Option Nat} {c : Sub V h}
    (hhi : ∀ x, Below x hi → Below x hi') (hc : Bounded h lo hi c) : Bounded h lo hi' c :=
  bounded_mono h (Nat.le_refl _) hhi hc

theorem chain_wide {h : Nat} {lo lo' hi hi'} {l : List (Nat × Sub V h)} (hlo : lo' ≤ lo)
    (hhi : ∀ x, Below x hi → Below x hi') (hc : Chain (Bounded h) lo hi l) :
    Chain (Bounded h) lo' hi' l :=
  chain_mono (P := Bounded h) (fun _ _ _ _ hbc hp => bounded_hi hbc hp) hlo hhi hc

theorem chain_mem {P : Nat → Option Nat → α → Prop} {lo hi} {l : List (Nat × α)}
    (hc : Chain P lo hi l) : ∀ e ∈ l, lo ≤ e.1 ∧ Below e.1 hi := by
  induction l generalizing lo with
  | nil => simp
  | cons e es ih =>
    intro x hx
    rcases List.mem_cons.mp hx with rfl | hx
    · exact ⟨hc.1, hc.2.1⟩
    · have := ih hc.2.2.2 x hx
      exact ⟨by have := hc.1; omega, this.2⟩

theorem nextKey_append_cons (l : List (Nat × α)) (e : Nat × α) (es : List (Nat × α)) (hi) :
    nextKey (l ++ e :: es) hi = nextKey l (some e.1) := by
  cases l <;> rfl

/-- A chain may be raised to its own first key. -/
theorem chain_raise {P : Nat → Option Nat → α → Prop} {lo hi} {e : Nat × α} {es}
    (hc : Chain P lo hi (e :: es)) : Chain P e.1 hi (e :: es) :=
  ⟨Nat.le_refl _, hc.2⟩

theorem chain_append_cons {P : Nat → Option Nat → α → Prop} {lo hi} {l : List (Nat × α)}
    {e : Nat × α} {es : List (Nat × α)} :
    Chain P lo hi (l ++ e :: es) ↔
      Chain P lo (some e.1) l ∧ lo ≤ e.1 ∧ Chain P e.1 hi (e :: es) := by
  induction l generalizing lo with
  | nil =>
    constructor
    · intro h; exact ⟨trivial, h.1, Nat.le_refl _, h.2⟩
    · rintro ⟨_, h1, h2⟩; exact ⟨h1, h2.2⟩
  | cons x xs ih =>
    simp only [List.cons_append, Chain, nextKey_append_cons] at *
    constructor
    · rintro ⟨h1, h2, h3, h4⟩
      have h5 := ih.mp h4
      refine ⟨⟨h1, ?_, h3, h5.1⟩, by omega, h5.2.2⟩
      have := h5.2.1
      show x.1 < e.1
      omega
    · rintro ⟨⟨h1, h2, h3, h4⟩, h5, h6⟩
      have h2 : x.1 < e.1 := h2
      refine ⟨h1, ?_, h3, ih.mpr ⟨h4, by omega, h6⟩⟩
      have := h6.2.1
      revert this
      cases hi with
      | none => intro _; trivial
      | some u => intro h; exact Nat.lt_trans h2 h

/-- Splitting a chain before a nonempty tail. -/
theorem chain_append {P : Nat → Option Nat → α → Prop} {lo hi} {l r : List (Nat × α)}
    (hr : r ≠ []) : Chain P lo hi (l ++ r) ↔
      Chain P lo (nextKey r hi) l ∧ (∀ k, nextKey r hi = some k → lo ≤ k ∧ Chain P k hi r) := by
  cases r with
  | nil => exact absurd rfl hr
  | cons e es =>
    rw [chain_append_cons]
    simp only [nextKey, Option.some.injEq]
    constructor
    · rintro ⟨h1, h2, h3⟩; refine ⟨h1, ?_⟩; rintro _ rfl; exact ⟨h2, h3⟩
    · rintro ⟨h1, h2⟩; exact ⟨h1, h2 _ rfl⟩

/-! ## Contents -/

theorem itemsOf_zero (e : Nat × Sub V 0) : itemsOf 0 e = [e] := rfl

theorem itemsOf_succ (h : Nat) (e : Nat × Sub V (h + 1)) : itemsOf (h + 1) e = items h e.2.kids :=
  rfl

theorem items_nil (h : Nat) : items h ([] : Node V h) = [] := rfl

theorem items_cons (h : Nat) (e : Nat × Sub V h) (n : Node V h) :
    items h (e :: n) = itemsOf h e ++ items h n := by simp [items]

theorem items_append (h : Nat) (a b : Node V h) : items h (a ++ b) = items h a ++ items h b := by
  simp [items]

theorem items_zero (n : Node V 0) : items 0 n = n := by
  induction n with
  | nil => rfl
  | cons e es ih => rw [items_cons, itemsOf_zero, ih]; rfl

/-- All keys of a node lie within its bounds, and are sorted. -/
theorem items_bound : ∀ (h : Nat) {lo hi} {n : Node V h}, Chain (Bounded h) lo hi n →
    (∀ x ∈ items h n, lo ≤ x.1 ∧ Below x.1 hi) ∧ OMap.Sorted (items h n) := by
  intro h
  induction h with
  | zero =>
    intro lo hi n hc
    rw [items_zero]
    refine ⟨chain_mem hc, ?_⟩
    induction n generalizing lo with
    | nil => exact List.Pairwise.nil
    | cons e es ih =>
      refine List.Pairwise.cons ?_ (ih hc.2.2.2)
      intro x hx
      have := (chain_mem hc.2.2.2 x hx).1
      omega
  | succ h ihh =>
    intro lo hi n hc
    induction n generalizing lo with
    | nil => exact ⟨by simp [items_nil], List.Pairwise.nil⟩
    | cons e es ih =>
      have h1 := ihh hc.2.2.1.2
      have h2 := ih hc.2.2.2
      rw [items_cons, itemsOf_succ]
      have hnext : ∀ x, Below x (nextKey es hi) → Below x hi := by
        intro x hx
        cases es with
        | nil => exact hx
        | cons f fs =>
          have h3 : Below f.1 hi := hc.2.2.2.2.1
          have hx : x < f.1 := hx
          cases hi with
          | none => trivial
          | some u => exact Nat.lt_trans hx h3
      constructor
      · intro x hx
        rcases List.mem_append.mp hx with hx | hx
        · exact ⟨Nat.le_trans hc.1 (h1.1 x hx).1, hnext _ (h1.1 x hx).2⟩
        · exact ⟨by have := hc.1; have := (h2.1 x hx).1; omega, (h2.1 x hx).2⟩
      · refine List.pairwise_append.mpr ⟨h1.2, h2.2, ?_⟩
        intro x hx y hy
        have ha := (h1.1 x hx).2
        cases es with
        | nil => simp [items_nil] at hy
        | cons f fs =>
          have ha : x.1 < f.1 := ha
          have hb := (ihh_bound hc.2.2.2 ih hy)
          omega
where
  ihh_bound {h : Nat} {k : Nat} {hi} {f : Nat × Sub V (h + 1)} {fs : Node V (h + 1)} {y : Nat × V}
      (hc : Chain (Bounded (h + 1)) k hi (f :: fs))
      (ih : ∀ {lo : Nat}, Chain (Bounded (h + 1)) lo hi (f :: fs) →
        (∀ x ∈ items (h + 1) (f :: fs), lo ≤ x.1 ∧ Below x.1 hi) ∧
        OMap.Sorted (items (h + 1) (f :: fs)))
      (hy : y ∈ items (h + 1) (f :: fs)) : f.1 ≤ y.1 :=
    ((ih (chain_raise hc)).1 y hy).1

theorem items_key {h : Nat} {lo hi} {n : Node V h} (hc : Chain (Bounded h) lo hi n)
    {x : Nat × V} (hx : x ∈ items h n) : lo ≤ x.1 ∧ Below x.1 hi :=
  (items_bound h hc).1 x hx

/-! ## Lists of pairs seen as maps -/

theorem get_append (a b : OMap V) (k : Nat) :
    OMap.get (a ++ b) k = (OMap.get a k).or (OMap.get b k) := by
  induction a with
  | nil => simp
  | cons e es ih =>
    obtain ⟨x, v⟩ := e
    simp only [List.cons_append, OMap.get]
    split
    · rfl
    · exact ih

theorem get_none {m : OMap V} {k : Nat} (h : ∀ x ∈ m, x.1 ≠ k) : OMap.get m k = none := by
  induction m with
  | nil => rfl
  | cons e es ih =>
    obtain ⟨x, v⟩ := e
    simp only [OMap.get]
    rw [if_neg (h _ (List.mem_cons_self ..))]
    exact ih fun y hy => h y (List.mem_cons_of_mem _ hy)

theorem get_mid {a m b : OMap V} {k : Nat} (ha : ∀ x ∈ a, x.1 < k) (hb : ∀ x ∈ b, k < x.1) :
    OMap.get (a ++ (m ++ b)) k = OMap.get m k := by
  rw [get_append, get_append, get_none fun x hx => by have := ha x hx; omega,
    get_none (m := b) fun x hx => by have := hb x hx; omega]
  simp

theorem insert_left {a m : OMap V} {k : Nat} {v : V} (ha : ∀ x ∈ a, x.1 < k) :
    OMap.insert (a ++ m) k v = a ++ OMap.insert m k v := by
  induction a with
  | nil => rfl
  | cons e es ih =>
    obtain ⟨x, w⟩ := e
    have h1 : x < k := ha _ (List.mem_cons_self ..)
    simp only [List.cons_append, OMap.insert]
    rw [if_neg (by omega), if_neg (by omega), ih fun y hy => ha y (List.mem_cons_of_mem _ hy)]

theorem insert_right {m b : OMap V} {k : Nat} {v : V} (hb : ∀ x ∈ b, k < x.1) :
    OMap.insert (m ++ b) k v = OMap.insert m k v ++ b := by
  induction m with
  | nil =>
    cases b with
    | nil => rfl
    | cons e es =>
      obtain ⟨x, w⟩ := e
      have h1 : k < x := hb _ (List.mem_cons_self ..)
      simp only [List.nil_append, OMap.insert, List.cons_append]
      rw [if_pos h1]
  | cons e es ih =>
    obtain ⟨x, w⟩ := e
    simp only [List.cons_append, OMap.insert]
    split
    · rfl
    · split
      · rfl
      · rw [ih]; rfl

theorem insert_mid {a m b : OMap V} {k : Nat} {v : V} (ha : ∀ x ∈ a, x.1 < k)
    (hb : ∀ x ∈ b, k < x.1) :
    OMap.insert (a ++ (m ++ b)) k v = a ++ (OMap.insert m k v ++ b) := by
  rw [insert_left ha, insert_right hb]

theorem filter_id {m : OMap V} {p : Nat × V → Bool} (h : ∀ x ∈ m, p x = true) :
    m.filter p = m := List.filter_eq_self.mpr h

theorem remove_mid {a m b : OMap V} {k : Nat} (ha : ∀ x ∈ a, x.1 < k)
    (hb : ∀ x ∈ b, k < x.1) :
    OMap.remove (a ++ (m ++ b)) k = a ++ (OMap.remove m k ++ b) := by
  unfold OMap.remove
  rw [List.filter_append, List.filter_append, filter_id (m := a), filter_id (m := b)]
  · intro x hx; have := hb x hx; simp; omega
  · intro x hx; have := ha x hx; simp; omega

/-! ## Finding a child -/

theorem position_spec {P : Nat → Option Nat → α → Prop} {lo hi} {n : List (Nat × α)}
    (hc : Chain P lo hi n) (hn : n ≠ []) (k : Nat) :
    ∃ pre e post, n = pre ++ e :: post ∧ position n k = pre.length ∧
      (pre = [] ∨ e.1 ≤ k) ∧ (∀ x ∈ post, k < x.1) := by
  induction n generalizing lo with
  | nil => exact absurd rfl hn
  | cons e es ih =>
    by_cases hek : e.1 ≤ k
    · cases es with
      | nil => exact ⟨[], e, [], rfl, by simp [position, hek], Or.inl rfl, by simp⟩
      | cons f fs =>
        by_cases hf : f.1 ≤ k
        · obtain ⟨pre, e', post, h1, h2, h3, h4⟩ := ih hc.2.2.2 (by simp)
          refine ⟨e :: pre, e', post, by rw [h1]; rfl, ?_, Or.inr ?_, h4⟩
          · simp only [position, List.takeWhile_cons, hek, hf, decide_true, if_true,
              List.length_cons] at h2 ⊢
            omega
          · rcases h3 with h3 | h3
            · subst h3
              simp only [List.nil_append, List.cons.injEq] at h1
              rw [← h1.1]; exact hf
            · exact h3
        · refine ⟨[], e, f :: fs, rfl, ?_, Or.inl rfl, ?_⟩
          · simp [position, hek, hf]
          · intro x hx
            have := (chain_mem (chain_raise hc.2.2.2) x hx).1
            omega
    · refine ⟨[], e, es, rfl, ?_, Or.inl rfl, ?_⟩
      · simp [position, hek]
      · intro x hx
        have := (chain_mem hc.2.2.2 x hx).1
        omega

/-! ## Edits at one index -/

theorem getElem?_mid (pre : List α) (e : α) (post : List α) :
    (pre ++ e :: post)[pre.length]? = some e := by simp

theorem set_mid (pre : List α) (e f : α) (post : List α) :
    (pre ++ e :: post).set pre.length f = pre ++ f :: post := by simp

theorem eraseIdx_mid (pre : List α) (e : α) (post : List α) :
    (pre ++ e :: post).eraseIdx pre.length = pre ++ post := by
  induction pre with
  | nil => rfl
  | cons x xs ih => simp only [List.cons_append, List.length_cons, List.eraseIdx_cons_succ, ih]

theorem insertIdx_mid (pre : List α) (e f : α) (post : List α) :
    (pre ++ e :: post).insertIdx (pre.length + 1) f = pre ++ e :: f :: post := by
  induction pre with
  | nil => cases post <;> rfl
  | cons x xs ih =>
    simp only [List.cons_append, List.length_cons, List.insertIdx_succ_cons, ih]

/-- An element of an interior node. -/
abbrev el {h : Nat} (k : Nat) (info : Meta) (kids : Node V h) : Nat × Sub V (h + 1) :=
  (k, ({ info, kids } : Child (Sub V h)))

/-- The metadata of an element. -/
abbrev inf {h : Nat} (e : Nat × Sub V (h + 1)) : Meta := e.2.info

/-- The node an element points to. -/
abbrev kid {h : Nat} (e : Nat × Sub V (h + 1)) : Node V h := e.2.kids

/-- What `xlock` does to the metadata of a child. -/
def lockInfo (txg : Nat) {h : Nat} (e : Nat × Sub V (h + 1)) : Meta :=
  match (inf e).addr with
  | none => { inf e with stop := txg + 1 }
  | some _ => { inf e with stop := txg + 1, addr := none, start := startTxg txg h (kid e) }

theorem xlock_mid (txg h : Nat) (pre : Node V (h + 1)) (e : Nat × Sub V (h + 1))
    (post : Node V (h + 1)) :
    xlock txg h (pre ++ e :: post) pre.length =
      some (pre ++ el e.1 (lockInfo txg e) (kid e) :: post, kid e) := by
  unfold xlock lockInfo
  rw [getElem?_mid]
  simp only [Option.map_some]
  rw [set_mid]
  rfl

theorem putKids_mid (h : Nat) (pre : Node V (h + 1)) (e : Nat × Sub V (h + 1))
    (post : Node V (h + 1)) (n : Node V h) :
    putKids h (pre ++ e :: post) pre.length n = pre ++ el e.1 (inf e) n :: post := by
  unfold putKids
  rw [getElem?_mid]
  simp only
  rw [set_mid]

theorem putInfo_mid (h : Nat) (pre : Node V (h + 1)) (e : Nat × Sub V (h + 1))
    (post : Node V (h + 1)) (f : Meta → Meta) :
    putInfo h (pre ++ e :: post) pre.length f = pre ++ el e.1 (f (inf e)) (kid e) :: post := by
  unfold putInfo
  rw [getElem?_mid]
  simp only
  rw [set_mid]

theorem putKey_mid (h : Nat) (pre : Node V (h + 1)) (e : Nat × Sub V (h + 1))
    (post : Node V (h + 1)) (k' : Nat) :
    putKey h (pre ++ e :: post) pre.length k' = pre ++ el k' (inf e) (kid e) :: post := by
  unfold putKey
  rw [getElem?_mid]
  simp only
  rw [set_mid]
  rfl

/-- The order around one child. -/
theorem chain_mid {h : Nat} {lo hi} {pre post : Node V h} {e : Nat × Sub V h} :
    Chain (Bounded h) lo hi (pre ++ e :: post) ↔
      Chain (Bounded h) lo (some e.1) pre ∧ lo ≤ e.1 ∧ Below e.1 hi ∧
        Bounded h e.1 (nextKey post hi) e.2 ∧ Chain (Bounded h) (e.1 + 1) hi post := by
  rw [chain_append_cons]
  constructor
  · rintro ⟨h1, h2, h3⟩; exact ⟨h1, h2, h3.2⟩
  · rintro ⟨h1, h2, h3⟩; exact ⟨h1, h2, Nat.le_refl _, h3⟩

/-- The keys left and right of the child that `k` leads to. -/
theorem items_around {h : Nat} {lo hi} {pre post : Node V h} {e : Nat × Sub V h} {k : Nat}
    (hc : Chain (Bounded h) lo hi (pre ++ e :: post)) (h1 : pre = [] ∨ e.1 ≤ k)
    (h2 : ∀ x ∈ post, k < x.1) :
    (∀ x ∈ items h pre, x.1 < k) ∧ (∀ x ∈ items h post, k < x.1) := by
  have hm := chain_mid.mp hc
  constructor
  · intro x hx
    rcases h1 with rfl | h1
    · simp [items_nil] at hx
    · have : x.1 < e.1 := (items_key hm.1 hx).2
      omega
  · intro x hx
    cases post with
    | nil => simp [items_nil] at hx
    | cons f fs =>
      have h3 := h2 f (List.mem_cons_self ..)
      have := (items_key (chain_raise hm.2.2.2.2) hx).1
      omega

theorem items_mid {h : Nat} (pre post : Node V h) (e : Nat × Sub V h) :
    items h (pre ++ e :: post) = items h pre ++ (itemsOf h e ++ items h post) := by
  rw [items_append, items_cons]

/-! ## Lookup -/

theorem getR_spec : ∀ (h : Nat) {lo hi} {n : Node V h} (k : Nat), Chain (Bounded h) lo hi n →
    (h ≠ 0 → n ≠ []) → getR h n k = some (OMap.get (items h n) k)
  | 0, _, _, n, k, _, _ => by rw [items_zero]; rfl
  | h + 1, lo, hi, n, k, hc, hn => by
    obtain ⟨pre, e, post, rfl, hp, h1, h2⟩ := position_spec hc (hn (by omega)) k
    have ha := items_around hc h1 h2
    have hm := chain_mid.mp hc
    simp only [getR]
    rw [hp, getElem?_mid]
    simp only [Option.bind_some]
    rw [getR_spec h k hm.2.2.2.1.2 (fun _ => hm.2.2.2.1.1), items_mid, get_mid ha.1 ha.2]
    rfl

theorem lastKey_append {a b : OMap V} (h : b ≠ []) :
    OMap.lastKey (a ++ b) = OMap.lastKey b := by
  unfold OMap.lastKey
  rw [List.getLast?_append]
  cases hb : b.getLast? with
  | none => exact absurd (List.getLast?_eq_none_iff.mp hb) h
  | some x => rfl

theorem items_ne_nil : ∀ (h : Nat) {lo hi} {n : Node V h}, Chain (Bounded h) lo hi n → n ≠ [] →
    items h n ≠ []
  | 0, _, _, n, _, hn => by rw [items_zero]; exact hn
  | h + 1, _, _, [], _, hn => absurd rfl hn
  | h + 1, _, _, e :: es, hc, _ => by
    rw [items_cons, itemsOf_succ]
    have := items_ne_nil h hc.2.2.1.2 hc.2.2.1.1
    simp [this]

theorem lastKeyR_spec : ∀ (h : Nat) {lo hi} {n : Node V h}, Chain (Bounded h) lo hi n →
    (h ≠ 0 → n ≠ []) → lastKeyR h n = some (OMap.lastKey (items h n))
  | 0, _, _, n, _, _ => by rw [items_zero]; rfl
  | h + 1, lo, hi, n, hc, hn => by
    have hn := hn (by omega)
    have hlast : n = n.dropLast ++ n.getLast hn :: [] := (List.dropLast_concat_getLast hn).symm
    generalize n.dropLast = pre at hlast
    generalize n.getLast hn = e at hlast
    subst hlast
    have hm := chain_mid.mp hc
    simp only [lastKeyR]
    rw [show (pre ++ [e]).length - 1 = pre.length by simp, getElem?_mid]
    simp only [Option.bind_some]
    rw [lastKeyR_spec h hm.2.2.2.1.2 (fun _ => hm.2.2.2.1.1), items_mid, lastKey_append]
    · simp [items_nil, itemsOf_succ]
    · have := items_ne_nil h hm.2.2.2.1.2 hm.2.2.2.1.1
      simp [itemsOf_succ, items_nil, this]

end Verif.Tree
