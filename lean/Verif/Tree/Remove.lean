import Verif.Tree.Insert

/-!
# Fixing an underfull child, and removal
-/

namespace Verif.Tree

variable {V : Type}

/-- The possible results of `fix_int` for child `a` between `pre` and `post`. -/
inductive Fixed (L : Limits) {h : Nat} : Node V (h + 1) → Nat × Sub V (h + 1) → Node V (h + 1) →
    Node V (h + 1) × Nat × Nat → Prop where
  | mergeR (pre a s post i) (hmax : (kid a).length + (kid s).length ≤ L.max h) :
    Fixed L pre a (s :: post) (pre ++ el a.1 i (kid a ++ kid s) :: post, 0, 1)
  | stealR (pre a s post n l x r i1 i2) (hmax : L.max h < (kid a).length + (kid s).length)
    (hn : keysToShare (kid a).length (kid s).length = some n)
    (heq : kid a ++ kid s = l ++ x :: r) (hl : l.length = (kid a).length + n)
    (hr : r.length + 1 + n = (kid s).length) :
    Fixed L pre a (s :: post) (pre ++ el a.1 i1 l :: el x.1 i2 (x :: r) :: post, 0, 0)
  | mergeL (pre s a i) (hmax : (kid a).length + (kid s).length ≤ L.max h) :
    Fixed L (pre ++ [s]) a [] (pre ++ [el s.1 i (kid s ++ kid a)], 1, 0)
  | stealL (pre s a n l x r i1 i2) (hmax : L.max h < (kid a).length + (kid s).length)
    (hn : keysToShare (kid a).length (kid s).length = some n)
    (heq : kid s ++ kid a = l ++ x :: r) (hl : l.length + n = (kid s).length)
    (hr : r.length + 1 = (kid a).length + n) :
    Fixed L (pre ++ [s]) a [] (pre ++ [el s.1 i1 l, el x.1 i2 (x :: r)], 0, 0)

theorem keysToShare_bound {a b n : Nat} (h : keysToShare a b = some n) :
    a ≤ b ∧ 1 ≤ n ∧ (2 * n ≤ b - a ∨ n = 1) ∧ b - a ≤ 2 * n + 1 := by
  unfold keysToShare at h
  split at h
  · simp at h
  · simp only [Option.some.injEq] at h
    have h1 : Nat.max 1 ((b - a) / 2) = if 1 ≤ (b - a) / 2 then (b - a) / 2 else 1 := by
      show max _ _ = _
      rw [Nat.max_def]
    rw [h1] at h
    split at h <;> omega

theorem xlock_next (txg h : Nat) (pre : Node V (h + 1)) (a s : Nat × Sub V (h + 1))
    (post : Node V (h + 1)) :
    xlock txg h (pre ++ a :: s :: post) (pre.length + 1) =
      some (pre ++ a :: el s.1 (lockInfo txg s) (kid s) :: post, kid s) := by
  have := xlock_mid txg h (pre ++ [a]) s post
  simpa using this

theorem putKids_next (h : Nat) (pre : Node V (h + 1)) (a s : Nat × Sub V (h + 1))
    (post : Node V (h + 1)) (n : Node V h) :
    putKids h (pre ++ a :: s :: post) (pre.length + 1) n =
      pre ++ a :: el s.1 (inf s) n :: post := by
  have := putKids_mid h (pre ++ [a]) s post n
  simpa using this

theorem putKey_next (h : Nat) (pre : Node V (h + 1)) (a s : Nat × Sub V (h + 1))
    (post : Node V (h + 1)) (k : Nat) :
    putKey h (pre ++ a :: s :: post) (pre.length + 1) k =
      pre ++ a :: el k (inf s) (kid s) :: post := by
  have := putKey_mid h (pre ++ [a]) s post k
  simpa using this

theorem putInfo_next (h : Nat) (pre : Node V (h + 1)) (a s : Nat × Sub V (h + 1))
    (post : Node V (h + 1)) (f : Meta → Meta) :
    putInfo h (pre ++ a :: s :: post) (pre.length + 1) f =
      pre ++ a :: el s.1 (f (inf s)) (kid s) :: post := by
  have := putInfo_mid h (pre ++ [a]) s post f
  simpa using this

theorem eraseIdx_next {α : Type} (pre : List α) (a s : α) (post : List α) :
    (pre ++ a :: s :: post).eraseIdx (pre.length + 1) = pre ++ a :: post := by
  have := eraseIdx_mid (pre ++ [a]) s post
  simpa using this

theorem firstKey_drop {α} {n : List (Nat × α)} {i k : Nat} (h : firstKey (n.drop i) = some k) :
    ∃ x r, n.drop i = x :: r ∧ k = x.1 ∧ n = n.take i ++ x :: r ∧ r.length + 1 + i = n.length := by
  cases hd : n.drop i with
  | nil => rw [hd] at h; simp [firstKey] at h
  | cons x r =>
    rw [hd] at h
    have hlen := congrArg List.length hd
    simp only [List.length_drop, List.length_cons] at hlen
    refine ⟨x, r, rfl, ?_, ?_, by omega⟩
    · simp [firstKey] at h; exact h.symm
    · rw [← hd, List.take_append_drop]

theorem takeLowKeys_spec {α} {a b a' b' : List (Nat × α)} (h : takeLowKeys a b = some (a', b')) :
    ∃ n, keysToShare a.length b.length = some n ∧ n ≤ b.length ∧ a' = a ++ b.take n ∧
      b' = b.drop n := by
  unfold takeLowKeys at h
  cases hn : keysToShare a.length b.length with
  | none => rw [hn] at h; simp at h
  | some n =>
    rw [hn] at h
    simp only [Option.bind_some] at h
    split at h
    · simp at h
    · simp only [Option.some.injEq, Prod.mk.injEq] at h
      exact ⟨n, rfl, by omega, h.1.symm, h.2.symm⟩

theorem takeHighKeys_spec {α} {a b a' b' : List (Nat × α)} (h : takeHighKeys a b = some (a', b')) :
    ∃ n, keysToShare a.length b.length = some n ∧ n ≤ b.length ∧
      a' = b.drop (b.length - n) ++ a ∧ b' = b.take (b.length - n) := by
  unfold takeHighKeys at h
  cases hn : keysToShare a.length b.length with
  | none => rw [hn] at h; simp at h
  | some n =>
    rw [hn] at h
    simp only [Option.bind_some] at h
    split at h
    · simp at h
    · simp only [Option.some.injEq, Prod.mk.injEq] at h
      exact ⟨n, rfl, by omega, h.1.symm, h.2.symm⟩

theorem fixInt_right {L : Limits} {txg h : Nat} {pre post : Node V (h + 1)}
    {a s : Nat × Sub V (h + 1)} {r}
    (hr : fixInt L txg h (pre ++ a :: s :: post) pre.length (kid a) = some r) :
    Fixed L pre a (s :: post) r := by
  unfold fixInt at hr
  rw [if_neg (by simp only [List.length_append, List.length_cons]; omega),
    if_pos (by simp only [List.length_append, List.length_cons]; omega)] at hr
  simp only [xlock_next, Option.bind_some] at hr
  split at hr
  · next hmrg =>
    simp only [merge, putKids_mid, putInfo_mid, eraseIdx_next, Option.some.injEq] at hr
    rw [← hr]
    exact .mergeR pre a s post _ (by simpa [canMerge] using hmrg)
  · next hmrg =>
    have hmrg : L.max h < (kid a).length + (kid s).length := by
      simpa [canMerge] using hmrg
    cases ht : takeLowKeys (kid a) (kid s) with
    | none => rw [ht] at hr; simp at hr
    | some p =>
      obtain ⟨c', s'⟩ := p
      rw [ht] at hr
      simp only [Option.bind_some] at hr
      obtain ⟨n, hn, hle, rfl, rfl⟩ := takeLowKeys_spec ht
      cases hk : firstKey ((kid s).drop n) with
      | none => rw [hk] at hr; simp at hr
      | some k =>
        obtain ⟨x, q, hd, rfl, heq, hlen⟩ := firstKey_drop hk
        rw [hk, hd] at hr
        simp only [Option.map_some, putKids_mid, putKids_next, putKey_next, putInfo_next,
          putInfo_mid, Option.some.injEq] at hr
        rw [← hr]
        refine .stealR pre a s post n _ x q _ _ hmrg hn ?_ ?_ (by omega)
        · rw [List.append_assoc, ← heq]
        · show (kid a ++ (kid s).take n).length = _
          rw [List.length_append, List.length_take]; omega

theorem fixInt_left {L : Limits} {txg h : Nat} {pre : Node V (h + 1)}
    {s a : Nat × Sub V (h + 1)} {r}
    (hr : fixInt L txg h (pre ++ [s, a]) (pre.length + 1) (kid a) = some r) :
    Fixed L (pre ++ [s]) a [] r := by
  unfold fixInt at hr
  rw [if_neg (by simp), if_neg (by simp)] at hr
  simp only [Nat.add_sub_cancel, xlock_mid, Option.bind_some] at hr
  split at hr
  · next hmrg =>
    simp only [merge, putKids_mid, putInfo_mid, eraseIdx_next, Option.some.injEq] at hr
    rw [← hr]
    refine .mergeL pre s a _ ?_
    simp only [canMerge, decide_eq_true_eq] at hmrg
    omega
  · next hmrg =>
    have hmrg : L.max h < (kid a).length + (kid s).length := by
      simp only [canMerge, decide_eq_true_eq] at hmrg
      omega
    cases ht : takeHighKeys (kid a) (kid s) with
    | none => rw [ht] at hr; simp at hr
    | some p =>
      obtain ⟨c', s'⟩ := p
      rw [ht] at hr
      simp only [Option.bind_some] at hr
      obtain ⟨n, hn, hle, rfl, rfl⟩ := takeHighKeys_spec ht
      cases hk : firstKey ((kid s).drop ((kid s).length - n) ++ kid a) with
      | none => rw [hk] at hr; simp at hr
      | some k =>
        cases hc : (kid s).drop ((kid s).length - n) ++ kid a with
        | nil => rw [hc] at hk; simp [firstKey] at hk
        | cons x q =>
          rw [hc] at hk
          simp only [firstKey, List.head?_cons, Option.map_some, Option.some.injEq] at hk
          subst hk
          have hlen := congrArg List.length hc
          simp only [List.length_append, List.length_drop, List.length_cons] at hlen
          rw [hc] at hr
          simp only [firstKey, List.head?_cons, Option.map_some, putKids_mid, putKids_next,
            putKey_next, putInfo_next, putInfo_mid, Option.some.injEq] at hr
          rw [← hr]
          refine .stealL pre s a n _ x q _ _ hmrg hn ?_ ?_ (by omega)
          · rw [← hc, ← List.append_assoc, List.take_append_drop]
          · show ((kid s).take ((kid s).length - n)).length + n = _
            rw [List.length_take]; omega

/-- What `fix_int` returns. -/
theorem fixInt_cases {L : Limits} {txg h : Nat} {pre post : Node V (h + 1)}
    {a : Nat × Sub V (h + 1)} {r}
    (hr : fixInt L txg h (pre ++ a :: post) pre.length (kid a) = some r) :
    Fixed L pre a post r := by
  cases post with
  | cons s post => exact fixInt_right hr
  | nil =>
    rcases List.eq_nil_or_concat pre with rfl | ⟨pre, s, rfl⟩
    · simp [fixInt] at hr
    · rw [List.concat_eq_append] at *
      apply fixInt_left (txg := txg)
      simpa using hr

/-- `fix_int` returns if there is a sibling and the child is small enough. -/
theorem fixInt_total {L : Limits} {txg h : Nat} {pre post : Node V (h + 1)}
    {a : Nat × Sub V (h + 1)} (hlen : 2 ≤ (pre ++ a :: post).length)
    (ha : 2 * (kid a).length ≤ L.max h + 1) (hL : 2 ≤ L.max h) :
    ∃ r, fixInt L txg h (pre ++ a :: post) pre.length (kid a) = some r := by
  cases post with
  | cons s post =>
    unfold fixInt
    rw [if_neg (by omega), if_pos (by simp)]
    simp only [xlock_next, Option.bind_some]
    split
    · exact ⟨_, rfl⟩
    · next hmrg =>
      have hmrg : L.max h < (kid a).length + (kid s).length := by
        simpa [canMerge] using hmrg
      have hk : keysToShare (kid a).length (kid s).length =
          some (Nat.max 1 (((kid s).length - (kid a).length) / 2)) := by
        unfold keysToShare; rw [if_neg (by omega)]
      have hb := keysToShare_bound hk
      unfold takeLowKeys
      rw [hk]
      simp only [Option.bind_some]
      generalize Nat.max 1 (((kid s).length - (kid a).length) / 2) = n at *
      rw [if_neg (by omega)]
      cases hd : (kid s).drop n with
      | nil =>
        have := congrArg List.length hd
        simp only [List.length_drop, List.length_nil] at this
        omega
      | cons x q => simp [firstKey]
  | nil =>
    rcases List.eq_nil_or_concat pre with rfl | ⟨pre, s, rfl⟩
    · simp at hlen
    · unfold fixInt
      rw [if_neg (by omega), if_neg (by simp)]
      have : pre ++ [s] ++ [a] = pre ++ s :: a :: [] := by simp
      simp only [List.concat_eq_append, this, List.length_append, List.length_cons,
        List.length_nil, Nat.zero_add, Nat.add_sub_cancel, xlock_mid, Option.bind_some]
      split
      · exact ⟨_, rfl⟩
      · next hmrg =>
        have hmrg : L.max h < (kid a).length + (kid s).length := by
          simp only [canMerge, decide_eq_true_eq] at hmrg
          omega
        have hk : keysToShare (kid a).length (kid s).length =
            some (Nat.max 1 (((kid s).length - (kid a).length) / 2)) := by
          unfold keysToShare; rw [if_neg (by omega)]
        have hb := keysToShare_bound hk
        unfold takeHighKeys
        rw [hk]
        simp only [Option.bind_some]
        generalize Nat.max 1 (((kid s).length - (kid a).length) / 2) = n at *
        rw [if_neg (by omega)]
        cases hd : (kid s).drop ((kid s).length - n) ++ kid a with
        | nil =>
          have := congrArg List.length hd
          simp only [List.length_append, List.length_drop, List.length_nil] at this
          omega
        | cons x q => simp [firstKey]

/-- Merging two neighbours. -/
theorem merge_mid {h : Nat} {lo hi} {pre post : Node V (h + 1)} {a s : Nat × Sub V (h + 1)}
    (i : Meta) (hc : Chain (Bounded (h + 1)) lo hi (pre ++ a :: s :: post)) :
    Chain (Bounded (h + 1)) lo hi (pre ++ el a.1 i (kid a ++ kid s) :: post) ∧
    items (h + 1) (pre ++ el a.1 i (kid a ++ kid s) :: post) =
      items (h + 1) (pre ++ a :: s :: post) := by
  obtain ⟨hp, hlo, hhi, ⟨hane, hab⟩, hs⟩ := chain_mid.mp hc
  obtain ⟨hs1, hs2, ⟨hsne, hsb⟩, hs4⟩ := hs
  have hab : Chain (Bounded h) a.1 (some s.1) (kid a) := hab
  have hcat : Chain (Bounded h) a.1 (nextKey post hi) (kid a ++ kid s) := by
    have hsb : Chain (Bounded h) s.1 (nextKey post hi) (kid s) := hsb
    have hsne : kid s ≠ [] := hsne
    cases hks : kid s with
    | nil => exact absurd hks hsne
    | cons x xs =>
      rw [hks] at hsb
      refine chain_append_cons.mpr ⟨?_, ?_, chain_raise hsb⟩
      · exact chain_wide (hi := some s.1) (Nat.le_refl _)
          (fun y (hy : y < s.1) => (Nat.lt_of_lt_of_le hy hsb.1 : y < x.1)) hab
      · have := hsb.1; omega
  constructor
  · refine chain_mid.mpr ⟨hp, hlo, hhi, ⟨?_, hcat⟩, ?_⟩
    · intro h0; exact hane (List.append_eq_nil_iff.mp h0).1
    · exact chain_wide (by show a.1 + 1 ≤ s.1 + 1; omega) (fun _ h => h) hs4
  · simp only [items_append, items_cons, itemsOf_succ, List.append_assoc]

/-- `fix_int` changes neither the order nor the contents. -/
theorem Fixed.order {L : Limits} (hL : L.Ok) {h : Nat} {pre post : Node V (h + 1)}
    {a : Nat × Sub V (h + 1)} {r : Node V (h + 1) × Nat × Nat} (hf : Fixed L pre a post r)
    {lo hi} (hc : Chain (Bounded (h + 1)) lo hi (pre ++ a :: post)) :
    Chain (Bounded (h + 1)) lo hi r.1 ∧ items (h + 1) r.1 = items (h + 1) (pre ++ a :: post) ∧
      r.1 ≠ [] := by
  cases hf with
  | mergeR _ _ s post i _ =>
    have := merge_mid i hc
    exact ⟨this.1, this.2, by simp⟩
  | stealR _ _ s post n l x q i1 i2 hmax hn heq hl hq =>
    have h1 := merge_mid (inf a) hc
    rw [heq] at h1
    have hb := keysToShare_bound hn
    have h2 := split_mid (i1 := i1) (i2 := i2) (l := l) (by
      intro h0; rw [h0] at hl; simp at hl; omega) h1.1
    exact ⟨h2.1, h2.2.trans h1.2, by simp⟩
  | mergeL pre s _ i _ =>
    have hc' : Chain (Bounded (h + 1)) lo hi (pre ++ s :: a :: []) := by simpa using hc
    have := merge_mid i hc'
    exact ⟨this.1, by simpa using this.2, by simp⟩
  | stealL pre s _ n l x q i1 i2 hmax hn heq hl hq =>
    have hc' : Chain (Bounded (h + 1)) lo hi (pre ++ s :: a :: []) := by simpa using hc
    have h1 := merge_mid (inf s) hc'
    rw [heq] at h1
    have hb := keysToShare_bound hn
    have hm := hL.two h
    have hm1 := hL.min_pos h
    have h2 := split_mid (i1 := i1) (i2 := i2) (l := l) (by
      intro h0; rw [h0] at hl; simp at hl; omega) h1.1
    exact ⟨h2.1, by simpa using h2.2.trans h1.2, by simp⟩

/-! ## Removal -/

theorem chain_filter {lo hi} {n : Node V 0} (p : Nat × Sub V 0 → Bool)
    (hc : Chain (Bounded (V := V) 0) lo hi n) : Chain (Bounded (V := V) 0) lo hi (n.filter p) := by
  induction n generalizing lo with
  | nil => trivial
  | cons e es ih =>
    rw [List.filter_cons]
    split
    · exact ⟨hc.1, hc.2.1, trivial, ih hc.2.2.2⟩
    · exact chain_wide (Nat.le_trans hc.1 (Nat.le_succ _)) (fun _ h => h) (ih hc.2.2.2)

theorem position_chain {h : Nat} {lo hi} {pre post : Node V h} {e : Nat × Sub V h} {k : Nat}
    (hc : Chain (Bounded h) lo hi (pre ++ e :: post)) (h1 : pre = [] ∨ e.1 ≤ k)
    (h2 : ∀ x ∈ post, k < x.1) : position (pre ++ e :: post) k = pre.length := by
  refine position_mid ?_ h1 h2
  intro x hx
  rcases h1 with rfl | h1
  · simp at hx
  · have : x.1 < e.1 := (chain_mem (chain_mid.mp hc).1 x hx).2
    omega

/-- After `fix_int`, the key leads to the child that was fixed, which has grown. -/
theorem Fixed.find {L : Limits} {h : Nat} {pre post : Node V (h + 1)}
    {a : Nat × Sub V (h + 1)} {r : Node V (h + 1) × Nat × Nat} (hf : Fixed L pre a post r)
    {lo hi} (hc : Chain (Bounded (h + 1)) lo hi (pre ++ a :: post)) {k : Nat}
    (h1 : pre = [] ∨ a.1 ≤ k) (h2 : ∀ x ∈ post, k < x.1) :
    ∃ pre' e' post', r.1 = pre' ++ e' :: post' ∧ (pre' = [] ∨ e'.1 ≤ k) ∧
      (∀ x ∈ post', k < x.1) ∧ (kid a).length < (kid e').length := by
  have hm := chain_mid.mp hc
  cases hf with
  | mergeR _ _ s post i _ =>
    refine ⟨pre, _, post, rfl, h1, fun x hx => h2 x (by simp [hx]), ?_⟩
    have : kid s ≠ [] := hm.2.2.2.2.2.2.1.1
    have := List.length_pos_iff.mpr this
    simp only [kid, List.length_append] at *
    omega
  | stealR _ _ s post n l x q i1 i2 hmax hn heq hl hq =>
    refine ⟨pre, _, _, rfl, h1, ?_, ?_⟩
    · intro y hy
      rcases List.mem_cons.mp hy with rfl | hy
      · have h3 := h2 s (by simp)
        have hx : x ∈ kid s := by
          have h4 := congrArg (List.drop (kid a).length) heq
          rw [List.drop_left, List.drop_append_of_le_length (by omega)] at h4
          rw [h4]; simp
        have := (chain_mem hm.2.2.2.2.2.2.1.2 x hx).1
        show k < x.1
        omega
      · exact h2 y (by simp [hy])
    · have := keysToShare_bound hn
      show _ < l.length
      omega
  | mergeL pre s _ i _ =>
    have hc' : Chain (Bounded (h + 1)) lo hi (pre ++ s :: a :: []) := by simpa using hc
    have hm' := chain_mid.mp hc'
    have hak : a.1 ≤ k := by
      rcases h1 with h1 | h1
      · simp at h1
      · exact h1
    refine ⟨pre, _, [], rfl, Or.inr ?_, by simp, ?_⟩
    · have : s.1 + 1 ≤ a.1 := hm'.2.2.2.2.1
      show s.1 ≤ k
      omega
    · have : kid s ≠ [] := hm'.2.2.2.1.1
      have := List.length_pos_iff.mpr this
      show _ < (kid s ++ kid a).length
      simp only [List.length_append]
      omega
  | stealL pre s _ n l x q i1 i2 hmax hn heq hl hq =>
    have hc' : Chain (Bounded (h + 1)) lo hi (pre ++ s :: a :: []) := by simpa using hc
    have hm' := chain_mid.mp hc'
    have hak : a.1 ≤ k := by
      rcases h1 with h1 | h1
      · simp at h1
      · exact h1
    have hk := keysToShare_bound hn
    refine ⟨pre ++ [el s.1 i1 l], el x.1 i2 (x :: q), [], by simp, Or.inr ?_, by simp, ?_⟩
    · have hx : x ∈ kid s := by
        have h4 := congrArg (fun z => (List.drop l.length z).head?) heq
        simp only [List.drop_left, List.head?_cons] at h4
        rw [List.drop_append_of_le_length (by omega)] at h4
        have hd : (kid s).drop l.length ≠ [] := by
          intro h0
          have := congrArg List.length h0
          simp only [List.length_drop, List.length_nil] at this
          omega
        cases hds : (kid s).drop l.length with
        | nil => exact absurd hds hd
        | cons y ys =>
          rw [hds] at h4
          simp at h4
          subst h4
          exact List.mem_of_mem_drop (by rw [hds]; simp)
      have hx2 : x.1 < a.1 := (chain_mem hm'.2.2.2.1.2 x hx).2
      show x.1 ≤ k
      omega
    · show _ < (x :: q).length
      simp only [List.length_cons]
      omega

/-- If removal returns, the item is gone and the node is still in order.  The node does not
become empty if it had more than one element or is not a leaf. -/
theorem removeR_order {L : Limits} (hL : L.Ok) (txg : Nat) :
    ∀ (h : Nat) {lo hi} {n n' : Node V h} {k : Nat} {old : Option V},
      Chain (Bounded h) lo hi n → (h ≠ 0 → n ≠ []) →
      removeR L txg h n k = some (n', old) →
      Chain (Bounded h) lo hi n' ∧ (h ≠ 0 ∨ 1 < n.length → n' ≠ []) ∧
        items h n' = OMap.remove (items h n) k ∧ old = OMap.get (items h n) k := by
  intro h
  induction h with
  | zero =>
    intro lo hi n n' k old hc _ hr
    simp only [removeR, Option.some.injEq, Prod.mk.injEq] at hr
    obtain ⟨rfl, rfl⟩ := hr
    rw [items_zero, items_zero]
    refine ⟨chain_filter _ hc, fun hlen => ?_, rfl, rfl⟩
    exact remove_ne_nil hc (hlen.resolve_left (fun h => h rfl))
  | succ h ih =>
    intro lo hi n n' k old hc hn hr
    have step : ∀ {pre post : Node V (h + 1)} {e : Nat × Sub V (h + 1)} {i : Meta}
        {m : Node V h} {o : Option V}, Chain (Bounded (h + 1)) lo hi (pre ++ e :: post) →
        (pre = [] ∨ e.1 ≤ k) → (∀ x ∈ post, k < x.1) → (h ≠ 0 ∨ 1 < (kid e).length) →
        removeR L txg h (kid e) k = some (m, o) →
        Chain (Bounded (h + 1)) lo hi (pre ++ el e.1 i m :: post) ∧
        items (h + 1) (pre ++ el e.1 i m :: post) =
          OMap.remove (items (h + 1) (pre ++ e :: post)) k ∧
        o = OMap.get (items (h + 1) (pre ++ e :: post)) k := by
      intro pre post e i m o hc h1 h2 hlen hrec
      have hb := chain_mid.mp hc
      have ha := items_around hc h1 h2
      have h3 := ih hb.2.2.2.1.2 (fun _ => hb.2.2.2.1.1) hrec
      refine ⟨replace_mid (i0 := inf e) (n := kid e) (h3.2.1 hlen) hc h3.1, ?_, ?_⟩
      · rw [items_mid, items_mid, remove_mid ha.1 ha.2, itemsOf_succ, itemsOf_succ, h3.2.2.1]
      · rw [items_mid, get_mid ha.1 ha.2]; exact h3.2.2.2
    obtain ⟨pre, e, post, rfl, hp, h1, h2⟩ := position_spec hc (hn (by omega)) k
    have hcl : Chain (Bounded (h + 1)) lo hi (pre ++ el e.1 (lockInfo txg e) (kid e) :: post) :=
      chain_mid.mpr (by have := chain_mid.mp hc; exact this)
    have hil : items (h + 1) (pre ++ el e.1 (lockInfo txg e) (kid e) :: post) =
      items (h + 1) (pre ++ e :: post) := by simp only [items_mid, itemsOf_succ]
    have hpl := position_chain hcl h1 h2
    simp only [removeR] at hr
    simp only [hp, xlock_mid, Option.bind_some, hpl] at hr
    have hemp : 1 ≤ (kid e).length := List.length_pos_iff.mpr (chain_mid.mp hc).2.2.2.1.1
    split at hr
    · cases hf : fixInt L txg h (pre ++ el e.1 (lockInfo txg e) (kid e) :: post) pre.length
          (kid e) with
      | none => rw [hf] at hr; simp at hr
      | some r =>
        obtain ⟨n1, b, f⟩ := r
        have hfc := fixInt_cases (a := el e.1 (lockInfo txg e) (kid e)) hf
        have hfo := hfc.order hL hcl
        obtain ⟨pre', e', post', hn1, h1', h2', hlen⟩ := hfc.find hcl h1 h2
        simp only at hn1 hfo
        subst hn1
        have hp' := position_chain hfo.1 h1' h2'
        rw [hf] at hr
        simp only [Option.bind_some, hp', xlock_mid] at hr
        cases hrec : removeR L txg h (kid e') k with
        | none => rw [hrec] at hr; simp at hr
        | some q =>
          obtain ⟨m, o⟩ := q
          rw [hrec] at hr
          simp only [Option.map_some, putKids_mid, Option.some.injEq, Prod.mk.injEq] at hr
          obtain ⟨rfl, rfl⟩ := hr
          have hlen' : 1 < (kid e').length := Nat.lt_of_le_of_lt hemp hlen
          have h3 := step (i := inf (el e'.1 (lockInfo txg e') (kid e'))) hfo.1 h1' h2'
            (Or.inr hlen') hrec
          rw [hfo.2.1, hil] at h3
          exact ⟨h3.1, fun _ => by simp, h3.2⟩
    · next hd =>
      cases hrec : removeR L txg h (kid e) k with
      | none => rw [hrec] at hr; simp at hr
      | some q =>
        obtain ⟨m, o⟩ := q
        rw [hrec] at hr
        simp only [Option.map_some, putKids_mid, Option.some.injEq, Prod.mk.injEq] at hr
        obtain ⟨rfl, rfl⟩ := hr
        have hmin := hL.min_pos h
        have hlen' : 1 < (kid e).length := by
          simp only [inDanger, decide_eq_true_eq] at hd
          omega
        have h3 := step (i := inf (el e.1 (lockInfo txg e) (kid e))) hc h1 h2 (Or.inr hlen') hrec
        exact ⟨h3.1, fun _ => by simp, h3.2⟩
where
  remove_ne_nil {n : OMap V} {k : Nat} {lo hi} (hc : Chain (Bounded (V := V) 0) lo hi n)
      (hlen : 1 < n.length) : OMap.remove n k ≠ [] := by
    match n, hc, hlen with
    | (x, v) :: (y, w) :: es, hc, _ =>
      have hxy : x + 1 ≤ y := hc.2.2.2.1
      simp only [OMap.remove, List.filter_cons]
      by_cases h1 : x = k
      · rw [if_neg (by simp [h1]), if_pos (by simp; omega)]; simp
      · rw [if_pos (by simp [h1])]; simp

/-! ## Sizes -/

/-- `fix_int` leaves every child with an acceptable size, if only the fixed one was too small. -/
theorem Fixed.filled {L : Limits} (hL : L.Ok) {h : Nat} {pre post : Node V (h + 1)}
    {a : Nat × Sub V (h + 1)} {r : Node V (h + 1) × Nat × Nat} (hf : Fixed L pre a post r)
    (hpre : ∀ x ∈ pre, FilledSub L (h + 1) x.2) (hpost : ∀ x ∈ post, FilledSub L (h + 1) x.2)
    (ha : ∀ x ∈ kid a, FilledSub L h x.2) (hlen : 2 * (kid a).length ≤ L.max h + 1) :
    (∀ x ∈ r.1, FilledSub L (h + 1) x.2) ∧ (pre ++ a :: post).length ≤ r.1.length + 1 ∧
      r.1.length ≤ (pre ++ a :: post).length := by
  have hmin := hL.min_pos h
  have htwo := hL.two h
  cases hf with
  | mergeR _ _ s post i hmax =>
    have hs : FilledSub L (h + 1) s.2 := hpost s (by simp)
    refine ⟨?_, by simp; omega, by simp⟩
    intro x hx
    simp only [List.mem_append, List.mem_cons] at hx
    rcases hx with hx | rfl | hx
    · exact hpre x hx
    · have hs1 : L.min h ≤ (kid s).length := hs.1
      refine ⟨?_, ?_, ?_⟩
      · show L.min h ≤ (kid a ++ kid s).length
        rw [List.length_append]; omega
      · show (kid a ++ kid s).length ≤ _
        rw [List.length_append]; omega
      · intro y hy
        rcases List.mem_append.mp hy with hy | hy
        · exact ha y hy
        · exact hs.2.2 y hy
    · exact hpost x (by simp [hx])
  | stealR _ _ s post n l z q i1 i2 hmax hn heq hl hq =>
    have hs : FilledSub L (h + 1) s.2 := hpost s (by simp)
    have hk := keysToShare_bound hn
    have hs2 : (kid s).length ≤ L.max h := hs.2.1
    have hall : ∀ y ∈ l ++ z :: q, FilledSub L h y.2 := by
      rw [← heq]
      intro y hy
      rcases List.mem_append.mp hy with hy | hy
      · exact ha y hy
      · exact hs.2.2 y hy
    refine ⟨?_, by simp, by simp⟩
    intro x hx
    simp only [List.mem_append, List.mem_cons] at hx
    rcases hx with hx | rfl | rfl | hx
    · exact hpre x hx
    · refine ⟨?_, ?_, fun y hy => hall y (List.mem_append_left _ hy)⟩
      · show L.min h ≤ l.length
        omega
      · show l.length ≤ _
        omega
    · refine ⟨?_, ?_, fun y hy => hall y (List.mem_append_right _ hy)⟩
      · show L.min h ≤ (z :: q).length
        rw [List.length_cons]; omega
      · show (z :: q).length ≤ _
        rw [List.length_cons]; omega
    · exact hpost x (by simp [hx])
  | mergeL pre s _ i hmax =>
    have hs : FilledSub L (h + 1) s.2 := hpre s (by simp)
    refine ⟨?_, by simp, by simp⟩
    intro x hx
    simp only [List.mem_append, List.mem_singleton] at hx
    rcases hx with hx | rfl
    · exact hpre x (by simp [hx])
    · have hs1 : L.min h ≤ (kid s).length := hs.1
      refine ⟨?_, ?_, ?_⟩
      · show L.min h ≤ (kid s ++ kid a).length
        rw [List.length_append]; omega
      · show (kid s ++ kid a).length ≤ _
        rw [List.length_append]; omega
      · intro y hy
        rcases List.mem_append.mp hy with hy | hy
        · exact hs.2.2 y hy
        · exact ha y hy
  | stealL pre s _ n l z q i1 i2 hmax hn heq hl hq =>
    have hs : FilledSub L (h + 1) s.2 := hpre s (by simp)
    have hk := keysToShare_bound hn
    have hs2 : (kid s).length ≤ L.max h := hs.2.1
    have hall : ∀ y ∈ l ++ z :: q, FilledSub L h y.2 := by
      rw [← heq]
      intro y hy
      rcases List.mem_append.mp hy with hy | hy
      · exact hs.2.2 y hy
      · exact ha y hy
    refine ⟨?_, by simp, by simp⟩
    intro x hx
    simp only [List.mem_append, List.mem_cons, List.not_mem_nil, or_false] at hx
    rcases hx with hx | rfl | rfl
    · exact hpre x (by simp [hx])
    · refine ⟨?_, ?_, fun y hy => hall y (List.mem_append_left _ hy)⟩
      · show L.min h ≤ l.length
        omega
      · show l.length ≤ _
        omega
    · refine ⟨?_, ?_, fun y hy => hall y (List.mem_append_right _ hy)⟩
      · show L.min h ≤ (z :: q).length
        rw [List.length_cons]; omega
      · show (z :: q).length ≤ _
        rw [List.length_cons]; omega

theorem length_remove {n : OMap V} {k : Nat} {lo hi} (hc : Chain (Bounded (V := V) 0) lo hi n) :
    n.length ≤ (OMap.remove n k).length + 1 ∧ (OMap.remove n k).length ≤ n.length := by
  induction n generalizing lo with
  | nil => simp [OMap.remove]
  | cons e es ih =>
    obtain ⟨x, v⟩ := e
    have ih := ih hc.2.2.2
    simp only [OMap.remove, List.filter_cons] at *
    by_cases hx : x = k
    · rw [if_neg (by simp [hx])]
      have : es.filter (fun e => decide (e.1 ≠ k)) = es := by
        apply filter_id
        intro y hy
        have := (chain_mem hc.2.2.2 y hy).1
        simp only at this
        simp; omega
      rw [this]
      simp
    · rw [if_pos (by simp [hx])]
      simp only [List.length_cons]
      omega

/-- Removal returns, and respects the size limits. -/
theorem removeR_filled {L : Limits} (hL : L.Ok) (txg : Nat) :
    ∀ (h : Nat) {lo hi} {n : Node V h} {k : Nat}, Chain (Bounded h) lo hi n →
      (h ≠ 0 → 2 ≤ n.length) → (∀ e ∈ n, FilledSub L h e.2) →
      ∃ n' old, removeR L txg h n k = some (n', old) ∧ n.length ≤ n'.length + 1 ∧
        n'.length ≤ n.length ∧ ∀ e ∈ n', FilledSub L h e.2 := by
  intro h
  induction h with
  | zero =>
    intro lo hi n k hc _ _
    exact ⟨_, _, rfl, (length_remove hc).1, (length_remove hc).2, fun _ _ => trivial⟩
  | succ h ih =>
    intro lo hi n k hc hn hz
    have hlen2 := hn (by omega)
    obtain ⟨pre, e, post, rfl, hp, h1, h2⟩ := position_spec hc
      (by intro h0; rw [h0] at hlen2; simp at hlen2) k
    have hcl : Chain (Bounded (h + 1)) lo hi (pre ++ el e.1 (lockInfo txg e) (kid e) :: post) :=
      chain_mid.mpr (by have := chain_mid.mp hc; exact this)
    have hpl := position_chain hcl h1 h2
    have he : FilledSub L (h + 1) e.2 := hz e (by simp)
    have he1 : L.min h ≤ (kid e).length := he.1
    have he2 : (kid e).length ≤ L.max h := he.2.1
    have hmin := hL.min_pos h
    have htwo := hL.two h
    have hmi : h ≠ 0 → 2 ≤ L.min h := by
      intro h0
      cases h with
      | zero => exact absurd rfl h0
      | succ h => exact hL.int_two
    simp only [removeR, hp, xlock_mid, Option.bind_some, hpl]
    have step : ∀ {pre post : Node V (h + 1)} {e : Nat × Sub V (h + 1)} {i : Meta},
        Chain (Bounded (h + 1)) lo hi (pre ++ e :: post) →
        L.min h < (kid e).length → (∀ x ∈ pre ++ e :: post, FilledSub L (h + 1) x.2) →
        ∃ n' old, (removeR L txg h (kid e) k).map (fun x : Node V h × Option V =>
            (putKids h (pre ++ el e.1 i (kid e) :: post) pre.length x.1, x.2)) = some (n', old) ∧
          n'.length = (pre ++ e :: post).length ∧ ∀ x ∈ n', FilledSub L (h + 1) x.2 := by
      intro pre post e i hc hgt hz
      have he : FilledSub L (h + 1) e.2 := hz e (by simp)
      have hb := chain_mid.mp hc
      obtain ⟨m, o, hr, hm1, hm2, hm3⟩ := ih (k := k) hb.2.2.2.1.2
        (fun h0 => by have := hmi h0; show 2 ≤ (kid e).length; omega) he.2.2
      refine ⟨_, _, by rw [hr]; simp only [Option.map_some]; rfl, ?_, ?_⟩
      · rw [putKids_mid]; simp
      · rw [putKids_mid]
        intro x hx
        simp only [List.mem_append, List.mem_cons] at hx
        rcases hx with hx | rfl | hx
        · exact hz x (by simp [hx])
        · have hm1 : (kid e).length ≤ m.length + 1 := hm1
          have hm2 : m.length ≤ (kid e).length := hm2
          have he2 : (kid e).length ≤ L.max h := he.2.1
          exact ⟨by show L.min h ≤ m.length; omega, by show m.length ≤ _; omega, hm3⟩
        · exact hz x (by simp [hx])
    split
    · next hd =>
      have hd : (kid e).length ≤ L.min h := by simpa [inDanger] using hd
      obtain ⟨r, hf⟩ := fixInt_total (L := L) (txg := txg) (pre := pre) (post := post)
        (a := el e.1 (lockInfo txg e) (kid e)) (by simpa using hlen2)
        (by show 2 * (kid e).length ≤ _; omega) (by omega)
      obtain ⟨n1, b, f⟩ := r
      have hfc := fixInt_cases hf
      have hfo := hfc.order hL hcl
      obtain ⟨pre', e', post', hn1, h1', h2', hlt⟩ := hfc.find hcl h1 h2
      have hff := hfc.filled hL (fun x hx => hz x (by simp [hx])) (fun x hx => hz x (by simp [hx]))
        he.2.2 (by show 2 * (kid e).length ≤ _; omega)
      simp only at hn1 hfo hff
      subst hn1
      have hp' := position_chain hfo.1 h1' h2'
      have hf : fixInt L txg h (pre ++ el e.1 (lockInfo txg e) (kid e) :: post) pre.length (kid e)
        = some (pre' ++ e' :: post', b, f) := hf
      simp only [hf, Option.bind_some, hp', xlock_mid]
      have hlt : (kid e).length < (kid e').length := hlt
      obtain ⟨n', old, hr, hlen, hz'⟩ := step (i := lockInfo txg e') hfo.1 (by omega) hff.1
      refine ⟨n', old, hr, ?_, ?_, hz'⟩ <;>
        (simp only [List.length_append, List.length_cons] at hlen hff ⊢; omega)
    · next hd =>
      have hd : L.min h < (kid e).length := by simpa [inDanger] using hd
      obtain ⟨n', old, hr, hlen, hz'⟩ := step (i := lockInfo txg e) hc hd hz
      exact ⟨n', old, hr, by omega, by omega, hz'⟩

end Verif.Tree
