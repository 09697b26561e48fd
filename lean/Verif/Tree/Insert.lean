import Verif.Tree.Lemmas

/-!
# Insertion
-/

namespace Verif.Tree

variable {V : Type}

/-- All nodes from here down have between `m` (of their height) and the maximum number of
elements: `FilledSub` if `m` is the minimum, `NotOver` if it is 0. -/
def SizedSub (m : Nat → Nat) (L : Limits) : (h : Nat) → Sub V h → Prop
  | 0, _ => True
  | h + 1, c => m h ≤ c.kids.length ∧ c.kids.length ≤ L.max h ∧ ∀ e ∈ c.kids, SizedSub m L h e.2

theorem filled_iff (L : Limits) : ∀ (h : Nat) (c : Sub V h), FilledSub L h c ↔ SizedSub L.min L h c
  | 0, _ => Iff.rfl
  | h + 1, c => by
    simp only [FilledSub, SizedSub]
    refine and_congr Iff.rfl (and_congr Iff.rfl ?_)
    exact forall_congr' fun e => imp_congr Iff.rfl (filled_iff L h e.2)

theorem notOver_iff (L : Limits) : ∀ (h : Nat) (c : Sub V h),
    NotOver L h c ↔ SizedSub (fun _ => 0) L h c
  | 0, _ => Iff.rfl
  | h + 1, c => by
    simp only [NotOver, SizedSub, Nat.zero_le, true_and]
    refine and_congr Iff.rfl ?_
    exact forall_congr' fun e => imp_congr Iff.rfl (notOver_iff L h e.2)

theorem Limits.Ok.min_pos {L : Limits} (hL : L.Ok) (h : Nat) : 1 ≤ L.min h := by
  cases h with
  | zero => exact hL.leaf_pos
  | succ h => have := hL.int_two; show 1 ≤ L.minInt; omega

theorem Limits.Ok.two {L : Limits} (hL : L.Ok) (h : Nat) : 2 * L.min h ≤ L.max h := by
  cases h with
  | zero => exact hL.leaf
  | succ h => exact hL.int

/-- Splitting a full node gives two nodes that are neither too small nor full. -/
theorem split_spec {L : Limits} (hL : L.Ok) (seq : Bool) {h : Nat} {n : Node V h}
    (hn : L.max h ≤ n.length) : ∃ l x r, split L seq h n = some (l, x.1, x :: r) ∧
      n = l ++ x :: r ∧ L.min h ≤ l.length ∧ L.min h ≤ r.length + 1 ∧
      (n.length ≤ L.max h → l.length < L.max h ∧ r.length + 1 < L.max h) := by
  have h1 := hL.min_pos h
  have h2 := hL.two h
  unfold split
  rw [if_neg (by omega)]
  simp only
  generalize hleft : (if seq then n.length - L.min h else (n.length + 1) / 2) = left
  have hle : L.min h ≤ left ∧ left + L.min h ≤ n.length := by
    subst hleft; split <;> omega
  cases hd : n.drop left with
  | nil =>
    have := congrArg List.length hd
    simp only [List.length_drop, List.length_nil] at this
    omega
  | cons x r =>
    have hlen : (n.take left).length = left := by simp; omega
    have hr := congrArg List.length hd
    simp only [List.length_drop, List.length_cons] at hr
    refine ⟨n.take left, x, r, rfl, ?_, by omega, by omega, fun _ => by omega⟩
    rw [← hd, List.take_append_drop]

theorem shouldSplit_full {L : Limits} : ∀ {h : Nat} {n : Node V h} {k : Nat},
    shouldSplit L h n k = true → L.max h ≤ n.length
  | 0, n, k, hs => by
    simp only [shouldSplit, Bool.and_eq_true, decide_eq_true_eq] at hs
    exact hs.2
  | h + 1, n, k, hs => by
    simp only [shouldSplit, decide_eq_true_eq] at hs
    exact hs

theorem shouldSplit_false {L : Limits} : ∀ {h : Nat} {n : Node V h} {k : Nat},
    n.length < L.max h → shouldSplit L h n k = false
  | 0, n, k, hs => by
    have hs : n.length < L.maxLeaf := hs
    simp only [shouldSplit, Bool.and_eq_false_iff, decide_eq_false_iff_not]
    right; omega
  | h + 1, n, k, hs => by
    have hs : n.length < L.maxInt := hs
    simp only [shouldSplit, decide_eq_false_iff_not]
    omega

/-- Lowering the key of the first child. -/
theorem lower_mid {h : Nat} {lo hi} {pre post : Node V (h + 1)} {e : Nat × Sub V (h + 1)} {k : Nat}
    (hc : Chain (Bounded (h + 1)) lo hi (pre ++ e :: post)) (h1 : pre = [] ∨ e.1 ≤ k)
    (hlo : lo ≤ k) :
    (if k < e.1 then putKey h (pre ++ e :: post) pre.length k else pre ++ e :: post) =
      pre ++ el (Nat.min e.1 k) (inf e) (kid e) :: post ∧
    Chain (Bounded (h + 1)) lo hi (pre ++ el (Nat.min e.1 k) (inf e) (kid e) :: post) ∧
    (pre = [] ∨ Nat.min e.1 k ≤ k) ∧ Nat.min e.1 k ≤ k := by
  have hm := chain_mid.mp hc
  by_cases hk : k < e.1
  · have hmin : Nat.min e.1 k = k := Nat.min_eq_right (by omega)
    rcases h1 with rfl | h1
    · rw [if_pos hk, putKey_mid, hmin]
      refine ⟨rfl, ?_, Or.inl rfl, Nat.le_refl _⟩
      refine chain_mid.mpr ⟨trivial, hlo, ?_, ?_, ?_⟩
      · have hb := hm.2.2.1
        cases hi with
        | none => trivial
        | some u => exact Nat.lt_trans hk hb
      · exact bounded_mono (h + 1) (lo := e.1) (Nat.le_of_lt hk) (fun _ h => h) hm.2.2.2.1
      · exact chain_wide (by show k + 1 ≤ e.1 + 1; omega) (fun _ h => h) hm.2.2.2.2
    · omega
  · have hmin : Nat.min e.1 k = e.1 := Nat.min_eq_left (by omega)
    rw [if_neg hk, hmin]
    exact ⟨rfl, hc, Or.inr (by omega), by omega⟩

/-- The result of splitting one child. -/
theorem split_mid {h : Nat} {lo hi} {pre post : Node V (h + 1)} {k0 : Nat} {i0 i1 i2 : Meta}
    {l r : Node V h} {x : Nat × Sub V h} (hl : l ≠ [])
    (hc : Chain (Bounded (h + 1)) lo hi (pre ++ el k0 i0 (l ++ x :: r) :: post)) :
    Chain (Bounded (h + 1)) lo hi (pre ++ el k0 i1 l :: el x.1 i2 (x :: r) :: post) ∧
    items (h + 1) (pre ++ el k0 i1 l :: el x.1 i2 (x :: r) :: post) =
      items (h + 1) (pre ++ el k0 i0 (l ++ x :: r) :: post) := by
  have hm := chain_mid.mp hc
  obtain ⟨hp, hlo, hhi, ⟨_, hb⟩, hpost⟩ := hm
  have hb2 := chain_append_cons.mp hb
  have hx : k0 < x.1 := by
    cases l with
    | nil => exact absurd rfl hl
    | cons y ys =>
      have := hb2.1.1
      have h2 : y.1 < x.1 := hb2.1.2.1
      simp only at this
      omega
  have hxhi : Below x.1 (nextKey post hi) := hb2.2.2.2.1
  have hxhi' : Below x.1 hi := by
    cases post with
    | nil => exact hxhi
    | cons f fs =>
      have : Below f.1 hi := hpost.2.1
      have hxhi : x.1 < f.1 := hxhi
      cases hi with
      | none => trivial
      | some u => exact Nat.lt_trans hxhi this
  constructor
  · refine chain_mid.mpr ⟨hp, hlo, hhi, ⟨hl, hb2.1⟩, hx, hxhi', ⟨by simp, hb2.2.2⟩, ?_⟩
    cases post with
    | nil => trivial
    | cons f fs =>
      have hxhi : x.1 < f.1 := hxhi
      exact ⟨hxhi, hpost.2⟩
  · simp only [items_append, items_cons, itemsOf_succ, List.append_assoc]

/-- Replacing the contents of the child that `k` leads to. -/
theorem replace_mid {h : Nat} {lo hi} {pre post : Node V (h + 1)} {k0 : Nat} {i0 i1 : Meta}
    {n n' : Node V h} (hn : n' ≠ [])
    (hc : Chain (Bounded (h + 1)) lo hi (pre ++ el k0 i0 n :: post))
    (hc' : Chain (Bounded h) k0 (nextKey post hi) n') :
    Chain (Bounded (h + 1)) lo hi (pre ++ el k0 i1 n' :: post) := by
  have hm := chain_mid.mp hc
  exact chain_mid.mpr ⟨hm.1, hm.2.1, hm.2.2.1, ⟨hn, hc'⟩, hm.2.2.2.2⟩

/-- Inserting into a sorted leaf keeps it sorted and within its bounds. -/
theorem chain_insert {lo hi} {n : OMap V} {k : Nat} {v : V}
    (hc : Chain (Bounded (V := V) 0) lo hi n) (hlo : lo ≤ k) (hhi : Below k hi) :
    Chain (Bounded (V := V) 0) lo hi (OMap.insert n k v) := by
  induction n generalizing lo with
  | nil => exact ⟨hlo, hhi, trivial, trivial⟩
  | cons e es ih =>
    obtain ⟨x, w⟩ := e
    simp only [OMap.insert]
    split
    · next h => exact ⟨hlo, hhi, trivial, h, hc.2.1, trivial, hc.2.2.2⟩
    · split
      · next h => subst h; exact ⟨hlo, hhi, trivial, hc.2.2.2⟩
      · next h1 h2 =>
        exact ⟨hc.1, hc.2.1, trivial, ih hc.2.2.2 (by show x + 1 ≤ k; omega)⟩

theorem insert_ne_nil (n : OMap V) (k : Nat) (v : V) : OMap.insert n k v ≠ [] := by
  cases n with
  | nil => simp [OMap.insert]
  | cons e es =>
    obtain ⟨x, w⟩ := e
    simp only [OMap.insert]
    split
    · simp
    · split <;> simp

theorem below_next {h : Nat} {lo hi} {post : Node V h} {k : Nat}
    (hk : Below k hi) (h2 : ∀ x ∈ post, k < x.1) (_ : Chain (Bounded h) lo hi post) :
    Below k (nextKey post hi) := by
  cases post with
  | nil => exact hk
  | cons f fs => exact h2 f (List.mem_cons_self ..)

/-- If insertion returns, the node is in order and has the new item. -/
theorem insertInt_order {L : Limits} (hL : L.Ok) (seq : Bool) (txg : Nat) :
    ∀ (h fuel : Nat) {lo hi} {n n' : Node V h} {k : Nat} {v : V} {old : Option V},
      Chain (Bounded h) lo hi n → (h ≠ 0 → n ≠ []) → lo ≤ k → Below k hi →
      insertInt L seq txg h fuel n k v = some (n', old) →
      Chain (Bounded h) lo hi n' ∧ n' ≠ [] ∧ items h n' = OMap.insert (items h n) k v ∧
        old = OMap.get (items h n) k := by
  intro h
  induction h with
  | zero =>
    intro fuel lo hi n n' k v old hc _ hlo hhi hr
    simp only [insertInt, Option.some.injEq, Prod.mk.injEq] at hr
    obtain ⟨rfl, rfl⟩ := hr
    rw [items_zero, items_zero]
    exact ⟨chain_insert hc hlo hhi, insert_ne_nil _ _ _, rfl, rfl⟩
  | succ h ihh =>
    intro fuel
    induction fuel with
    | zero => intro lo hi n n' k v old _ _ _ _ hr; simp [insertInt] at hr
    | succ fuel ihf =>
      intro lo hi n n' k v old hc hn hlo hhi hr
      obtain ⟨pre, e, post, rfl, hp, h1, h2⟩ := position_spec hc (hn (by omega)) k
      obtain ⟨hput, hc1, h1', hk0⟩ := lower_mid hc h1 hlo
      unfold insertInt at hr
      simp only [hp, getElem?_mid, Option.bind_some, hput, xlock_mid] at hr
      have hitems : items (h + 1) (pre ++ el (Nat.min e.1 k) (inf e) (kid e) :: post) =
          items (h + 1) (pre ++ e :: post) := by simp only [items_mid, itemsOf_succ]
      generalize Nat.min e.1 k = k0 at *
      split at hr
      · next hs =>
        obtain ⟨l, x, r, hsp, hkid, hl1, hl2, _⟩ :=
          split_spec hL seq (shouldSplit_full hs)
        have hl : l ≠ [] := by
          have := hL.min_pos h
          intro h0; rw [h0] at hl1; simp at hl1; omega
        simp only [hsp, Option.bind_some, putKids_mid, putInfo_mid, insertIdx_mid] at hr
        rw [hkid] at hc1 hitems
        have h3 := fun i1 i2 => split_mid (i1 := i1) (i2 := i2) hl hc1
        have h4 := ihf (h3 _ _).1 (by simp) hlo hhi hr
        rw [(h3 _ _).2, hitems] at h4
        exact h4
      · next hs =>
        have hb := chain_mid.mp hc1
        have hk1 : Below k (nextKey post hi) := below_next hhi h2 hb.2.2.2.2
        have ha := items_around hc1 h1' h2
        cases hrec : insertInt L seq txg h 2 (kid e) k v with
        | none => rw [hrec] at hr; simp at hr
        | some p =>
          obtain ⟨m, o⟩ := p
          rw [hrec] at hr
          simp only [Option.map_some, Option.some.injEq, Prod.mk.injEq] at hr
          obtain ⟨hr, rfl⟩ := hr
          have ih := ihh 2 hb.2.2.2.1.2 (fun _ => hb.2.2.2.1.1) hk0 hk1 hrec
          have hres : ∃ i, n' = pre ++ el k0 i m :: post := by
            rw [← hr]
            split
            · exact ⟨_, by rw [putInfo_mid, putKids_mid]⟩
            · exact ⟨_, by rw [putKids_mid]⟩
          obtain ⟨i, rfl⟩ := hres
          refine ⟨replace_mid ih.2.1 hc1 ih.1, by simp, ?_, ?_⟩
          · rw [← hitems, items_mid, items_mid, insert_mid ha.1 ha.2, itemsOf_succ, itemsOf_succ,
              ih.2.2.1]
          · rw [← hitems, items_mid, get_mid ha.1 ha.2]
            exact ih.2.2.2

/-! ## Sizes -/

theorem length_insert_le (n : OMap V) (k : Nat) (v : V) :
    n.length ≤ (OMap.insert n k v).length ∧ (OMap.insert n k v).length ≤ n.length + 1 := by
  induction n with
  | nil => simp [OMap.insert]
  | cons e es ih =>
    obtain ⟨x, w⟩ := e
    simp only [OMap.insert]
    split
    · simp
    · split
      · simp
      · simp only [List.length_cons]; omega

theorem length_insert_some {n : OMap V} {k : Nat} {v : V} {lo hi}
    (hc : Chain (Bounded (V := V) 0) lo hi n) (hk : (OMap.get n k).isSome) :
    (OMap.insert n k v).length = n.length := by
  induction n generalizing lo with
  | nil => simp at hk
  | cons e es ih =>
    obtain ⟨x, w⟩ := e
    simp only [OMap.insert]
    simp only [OMap.get] at hk
    split
    · next h =>
      rw [if_neg (by omega), get_none fun y hy => ?_] at hk
      · simp at hk
      · have := (chain_mem hc.2.2.2 y hy).1
        simp only at this
        omega
    · split
      · simp
      · next h1 h2 =>
        rw [if_neg (by omega)] at hk
        simp only [List.length_cons, ih hc.2.2.2 hk]

/-- Where a key is found. -/
theorem position_mid {α} {pre post : List (Nat × α)} {e : Nat × α} {k : Nat}
    (h0 : ∀ x ∈ pre, x.1 ≤ k) (h1 : pre = [] ∨ e.1 ≤ k) (h2 : ∀ x ∈ post, k < x.1) :
    position (pre ++ e :: post) k = pre.length := by
  unfold position
  rw [List.takeWhile_append_of_pos (by simpa using h0)]
  have hpost : post.takeWhile (fun e => decide (e.1 ≤ k)) = [] := by
    cases post with
    | nil => rfl
    | cons f fs =>
      have := h2 f (List.mem_cons_self ..)
      rw [List.takeWhile_cons, if_neg]
      simp; omega
  rw [List.takeWhile_cons]
  split
  · rw [hpost]; simp
  · next hek =>
    rcases h1 with rfl | h1
    · rfl
    · simp [h1] at hek

/-- One level of insertion, if the child need not be split. -/
theorem insert_step {m : Nat → Nat} {L : Limits} {seq : Bool} {txg : Nat} {h : Nat} {k : Nat} {v : V}
    {pre post : Node V (h + 1)} {e : Nat × Sub V (h + 1)} (fuel : Nat)
    (hpos : position (pre ++ e :: post) k = pre.length)
    (hs : shouldSplit L h (kid e) k = false)
    (hrec : ∃ n' old, insertInt L seq txg h 2 (kid e) k v = some (n', old) ∧
      (kid e).length ≤ n'.length ∧ n'.length ≤ L.max h ∧ ∀ x ∈ n', SizedSub m L h x.2)
    (hz : ∀ x ∈ pre ++ e :: post, SizedSub m L (h + 1) x.2) :
    ∃ n' old, insertInt L seq txg (h + 1) (fuel + 1) (pre ++ e :: post) k v = some (n', old) ∧
      n'.length = (pre ++ e :: post).length ∧ ∀ x ∈ n', SizedSub m L (h + 1) x.2 := by
  obtain ⟨c, old, hr, hc1, hc2, hc3⟩ := hrec
  have hput : ∃ k0, (if k < e.1 then putKey h (pre ++ e :: post) pre.length k
      else pre ++ e :: post) = pre ++ el k0 (inf e) (kid e) :: post := by
    split
    · exact ⟨k, putKey_mid _ _ _ _ _⟩
    · exact ⟨e.1, rfl⟩
  obtain ⟨k0, hput⟩ := hput
  have hres : ∃ i, insertInt L seq txg (h + 1) (fuel + 1) (pre ++ e :: post) k v =
      some (pre ++ el k0 i c :: post, old) := by
    unfold insertInt
    simp only [hpos, getElem?_mid, Option.bind_some, hput, xlock_mid]
    rw [if_neg (by simp [hs]), hr]
    simp only [Option.map_some]
    split
    · exact ⟨_, by rw [putInfo_mid, putKids_mid]⟩
    · exact ⟨_, by rw [putKids_mid]⟩
  obtain ⟨i, hres⟩ := hres
  refine ⟨_, _, hres, by simp, ?_⟩
  intro x hx
  have he : SizedSub m L (h + 1) e.2 := hz e (by simp)
  rcases List.mem_append.mp hx with hx | hx
  · exact hz x (by simp [hx])
  · rcases List.mem_cons.mp hx with rfl | hx
    · exact ⟨Nat.le_trans he.1 hc1, hc2, hc3⟩
    · exact hz x (by simp [hx])

theorem leaf_len {L : Limits} {n : OMap V} {k : Nat} {v : V} {lo hi}
    (hc : Chain (Bounded (V := V) 0) lo hi n) (hlen : n.length ≤ L.max 0)
    (hs : shouldSplit (V := V) L 0 n k = false) : (OMap.insert n k v).length ≤ L.max 0 := by
  cases hg : OMap.get n k with
  | some w => rw [length_insert_some hc (by simp [hg])]; exact hlen
  | none =>
    have hs : ((OMap.get n k).isNone && decide (L.maxLeaf ≤ n.length)) = false := hs
    simp only [hg, Option.isNone_none, Bool.true_and, decide_eq_false_iff_not,
      Nat.not_le] at hs
    have := (length_insert_le n k v).2
    show _ ≤ L.maxLeaf
    omega

/-- Insertion into a node that is not full returns, and respects the size limits. -/
theorem insertInt_sized {m : Nat → Nat} {L : Limits} (hL : L.Ok) (hm : ∀ h, m h ≤ L.min h)
    (seq : Bool) (txg : Nat) :
    ∀ (h : Nat) {lo hi} {n : Node V h} {k : Nat} {v : V}, Chain (Bounded h) lo hi n →
      (h ≠ 0 → n ≠ []) → lo ≤ k → n.length ≤ L.max h → shouldSplit L h n k = false →
      (∀ e ∈ n, SizedSub m L h e.2) →
      ∃ n' old, insertInt L seq txg h 2 n k v = some (n', old) ∧ n.length ≤ n'.length ∧
        n'.length ≤ L.max h ∧ ∀ e ∈ n', SizedSub m L h e.2 := by
  intro h
  induction h with
  | zero =>
    intro lo hi n k v hc _ hlo hlen hs _
    exact ⟨_, _, by simp only [insertInt]; rfl, (length_insert_le (V := V) n k v).1,
      leaf_len hc hlen hs, fun _ _ => trivial⟩
  | succ h ih =>
    intro lo hi n k v hc hn hlo hlen hs hz
    obtain ⟨pre, e, post, rfl, hp, h1, h2⟩ := position_spec hc (hn (by omega)) k
    obtain ⟨hput, hc1, h1', hk0⟩ := lower_mid hc h1 hlo
    have he : SizedSub m L (h + 1) e.2 := hz e (by simp)
    have hb := chain_mid.mp hc1
    by_cases hsp : shouldSplit L h (kid e) k = true
    · -- split the child
      have hfull := shouldSplit_full hsp
      obtain ⟨l, x, r, hsplit, hkid, hl1, hl2, hl3⟩ := split_spec hL seq hfull
      have hl3 := hl3 he.2.1
      have hmin := hL.min_pos h
      have hl : l ≠ [] := by
        intro h0; rw [h0] at hl1; simp at hl1; omega
      have hlt : (pre ++ e :: post).length < L.max (h + 1) := by
        simp only [shouldSplit, decide_eq_false_iff_not, Nat.not_le] at hs
        exact hs
      generalize hk0e : Nat.min e.1 k = k0 at *
      rw [hkid] at hc1
      have hres : ∃ i1 i2, insertInt L seq txg (h + 1) 2 (pre ++ e :: post) k v =
          insertInt L seq txg (h + 1) 1 (pre ++ el k0 i1 l :: el x.1 i2 (x :: r) :: post) k v := by
        conv => enter [1, i1, 1, i2, 1]; unfold insertInt
        simp only [hp, getElem?_mid, Option.bind_some, hput, xlock_mid, hsp, if_true, hsplit,
          putKids_mid, putInfo_mid, insertIdx_mid]
        exact ⟨_, _, rfl⟩
      obtain ⟨i1, i2, hres⟩ := hres
      rw [hres]
      have hc2 := (split_mid (i1 := i1) (i2 := i2) hl hc1).1
      have hmem : ∀ y ∈ l ++ x :: r, SizedSub m L h y.2 := by
        rw [← hkid]; exact he.2.2
      have hz2 : ∀ y ∈ pre ++ el k0 i1 l :: el x.1 i2 (x :: r) :: post,
          SizedSub m L (h + 1) y.2 := by
        intro y hy
        have hmh := hm h
        simp only [List.mem_append, List.mem_cons] at hy
        rcases hy with hy | rfl | rfl | hy
        · exact hz y (by simp [hy])
        · refine ⟨Nat.le_trans hmh hl1, Nat.le_of_lt hl3.1, fun y hy => hmem y (by simp [hy])⟩
        · refine ⟨?_, ?_, fun y hy => hmem y (List.mem_append_right _ hy)⟩
          · show m h ≤ (x :: r).length
            simp only [List.length_cons]; omega
          · show (x :: r).length ≤ L.max h
            simp only [List.length_cons]; omega
        · exact hz y (by simp [hy])
      have hprek : ∀ y ∈ pre, y.1 ≤ k := by
        intro y hy
        have : y.1 < k0 := (chain_mem hb.1 y hy).2
        omega
      have hb2 := chain_append_cons.mp hc2
      by_cases hx : x.1 ≤ k
      · have hpos : position ((pre ++ [el k0 i1 l]) ++ el x.1 i2 (x :: r) :: post) k =
            (pre ++ [el k0 i1 l]).length := by
          apply position_mid
          · intro y hy
            rcases List.mem_append.mp hy with hy | hy
            · exact hprek y hy
            · simp only [List.mem_singleton] at hy; subst hy; exact hk0
          · exact Or.inr hx
          · exact h2
        have hc3 := hb2.2.2.2.2.2.2.2.1
        have hrec := ih (v := v) hc3.2 (fun _ => by simp) hx
          (show (x :: r).length ≤ L.max h by simp only [List.length_cons]; omega)
          (shouldSplit_false (by simp only [List.length_cons]; omega))
          (fun y hy => hmem y (List.mem_append_right _ hy))
        obtain ⟨n', old, hr, hlen', hsz⟩ := insert_step (seq := seq) (txg := txg) (v := v) 0 hpos
          (shouldSplit_false (show (x :: r).length < L.max h by
            simp only [List.length_cons]; omega)) hrec
          (by simpa using hz2)
        refine ⟨n', old, by simpa using hr, ?_, ?_, hsz⟩ <;>
          (simp only [List.length_append, List.length_cons, List.length_nil] at hlen' hlt ⊢; omega)
      · have hpos : position (pre ++ el k0 i1 l :: el x.1 i2 (x :: r) :: post) k = pre.length := by
          apply position_mid hprek (Or.inr hk0)
          intro y hy
          rcases List.mem_cons.mp hy with rfl | hy
          · show k < x.1; omega
          · exact h2 y hy
        have hrec := ih (v := v) hb2.2.2.2.2.1.2 (fun _ => hl) hk0 (Nat.le_of_lt hl3.1)
          (shouldSplit_false hl3.1) (fun y hy => hmem y (by simp [hy]))
        obtain ⟨n', old, hr, hlen', hsz⟩ := insert_step (seq := seq) (txg := txg) (v := v) 0 hpos
          (shouldSplit_false hl3.1) hrec hz2
        refine ⟨n', old, hr, ?_, ?_, hsz⟩ <;>
          (simp only [List.length_append, List.length_cons] at hlen' hlt ⊢; omega)
    · have hsp : shouldSplit L h (kid e) k = false := by simpa using hsp
      have hrec := ih (v := v) hb.2.2.2.1.2 (fun _ => hb.2.2.2.1.1) hk0 he.2.1 hsp he.2.2
      obtain ⟨n', old, hr, hlen', hsz⟩ := insert_step (seq := seq) (txg := txg) (v := v) 1 hp hsp
        hrec hz
      exact ⟨n', old, hr, by omega, by omega, hsz⟩

end Verif.Tree
