import Verif.Tree.Stream

/-!
# Range deletion returns, and no operation makes a node too large
-/

namespace Verif.Tree

variable {V : Type} {α : Type}

/-- No node below these elements is too large. -/
abbrev Small (L : Limits) (h : Nat) (n : Node V h) : Prop :=
  ∀ e ∈ n, SizedSub (fun _ => 0) L h e.2

/-! ## Positions -/

theorem takeWhile_mono {p q : α → Bool} (hpq : ∀ x, p x = true → q x = true) (l : List α) :
    (l.takeWhile p).length ≤ (l.takeWhile q).length := by
  induction l with
  | nil => simp
  | cons a as ih =>
    by_cases hp : p a = true
    · rw [List.takeWhile_cons_of_pos hp, List.takeWhile_cons_of_pos (hpq a hp)]
      simpa using ih
    · rw [List.takeWhile_cons_of_neg hp]; simp

theorem position_mono (cs : List (Nat × α)) {s t : Nat} (h : s ≤ t) :
    position cs s ≤ position cs t := by
  unfold position
  have := takeWhile_mono (p := fun e : Nat × α => decide (e.1 ≤ s)) (q := fun e => decide (e.1 ≤ t))
    (fun x hx => by simp only [decide_eq_true_eq] at *; omega) cs
  omega

theorem position_lt {cs : List (Nat × α)} (hne : cs ≠ []) (t : Nat) : position cs t < cs.length := by
  unfold position
  have h1 := List.length_pos_iff.mpr hne
  have h2 : (cs.takeWhile (fun e => decide (e.1 ≤ t))).length ≤ cs.length :=
    (List.takeWhile_prefix _).length_le
  omega

/-- The child whose key is above `t` is not the one that `t` leads to. -/
theorem position_key {P : Nat → Option Nat → α → Prop} {lo hi} {cs : List (Nat × α)}
    (hc : Chain P lo hi cs) {key : Nat} (hk : firstKey cs = some key) {s t : Nat} (hs : key ≤ s)
    (hst : s < t) {c : Nat × α} (hct : cs[position cs t]? = some c) (hkt : c.1 = t) :
    position cs s < position cs t := by
  have hm := position_mono cs (Nat.le_of_lt hst)
  refine Nat.lt_of_le_of_ne hm fun heq => ?_
  obtain ⟨pre, e, post, hcs, hp, h1, -⟩ := position_spec' hc hk hs
  rw [← heq, hp, hcs, getElem?_mid] at hct
  simp only [Option.some.injEq] at hct
  subst hct
  omega

/-! ## The first pass -/

/-- A range that `range_delete` takes on, and that `BTreeMap::range` would accept. -/
structure Proper (s e : Bnd Nat) : Prop where
  nonempty : rangeIsEmpty s e = false
  sane : btreeRangePanics s e = false

/-- What `getCut` returns. -/
structure CutOk (len : Nat) (cut : Cut) : Prop where
  last : cut.last ≤ len
  left : ∀ i, cut.left = some i → i < len
  right : ∀ i, cut.right = some i → i < len
  order : ∀ i, cut.left = some i → cut.right = some i ∨
    (cut.first ≤ cut.last ∧ ∀ j, cut.right = some j → i < j)
  order' : cut.left = none → cut.first ≤ cut.last

theorem getCut_total {h : Nat} {lo ub} {cs : Node V (h + 1)} {s e : Bnd Nat} (hp : Proper s e)
    (hc : Chain (Bounded (h + 1)) lo ub cs) (hne : cs ≠ []) :
    ∃ cut, getCut cs s e ub = some cut ∧ CutOk cs.length cut := by
  obtain ⟨key, hkey⟩ : ∃ key, firstKey cs = some key := by
    cases cs with
    | nil => exact absurd rfl hne
    | cons c cs => exact ⟨c.1, rfl⟩
  have hlt := fun t => position_lt hne t
  have hpos := List.length_pos_iff.mpr hne
  -- the start
  have hstart : ∃ a, startBound cs key s = some a ∧
      (a = .incl 0 ∨
        (∃ t, s = .incl t ∧ key ≤ t ∧ a = .incl (position cs t)) ∨
        (∃ t, (s = .incl t ∨ s = .excl t) ∧ key ≤ t ∧ a = .excl (position cs t))) := by
    cases s with
    | unb => exact ⟨_, rfl, Or.inl rfl⟩
    | incl t =>
      simp only [startBound]
      split
      · exact ⟨_, rfl, Or.inl rfl⟩
      · rw [List.getElem?_eq_getElem (hlt t)]
        simp only [Option.map_some]
        refine ⟨_, rfl, ?_⟩
        split
        · exact Or.inr (Or.inl ⟨t, rfl, by omega, rfl⟩)
        · exact Or.inr (Or.inr ⟨t, Or.inl rfl, by omega, rfl⟩)
    | excl t =>
      simp only [startBound]
      split
      · exact ⟨_, rfl, Or.inl rfl⟩
      · exact ⟨_, rfl, Or.inr (Or.inr ⟨t, Or.inr rfl, by omega, rfl⟩)⟩
  -- the end
  have hstop : ∃ b, stopBound cs ub e = some b ∧
      ((b = .excl cs.length ∧ (e = .unb)) ∨
        (∃ t, (e = .incl t ∨ e = .excl t) ∧ b = .excl (position cs t + 1)) ∨
        (∃ t, (e = .incl t ∨ e = .excl t) ∧ b = .incl (position cs t)) ∨
        (∃ t c, e = .excl t ∧ cs[position cs t]? = some c ∧ c.1 = t ∧
          b = .excl (position cs t))) := by
    cases e with
    | unb => exact ⟨_, rfl, Or.inl ⟨rfl, rfl⟩⟩
    | incl t =>
      simp only [stopBound]
      split
      · exact ⟨_, rfl, Or.inr (Or.inl ⟨t, Or.inl rfl, rfl⟩)⟩
      · exact ⟨_, rfl, Or.inr (Or.inr (Or.inl ⟨t, Or.inl rfl, rfl⟩))⟩
    | excl t =>
      simp only [stopBound]
      split
      · exact ⟨_, rfl, Or.inr (Or.inl ⟨t, Or.inr rfl, rfl⟩)⟩
      · rw [List.getElem?_eq_getElem (hlt t)]
        simp only [Option.map_some]
        refine ⟨_, rfl, ?_⟩
        split
        · next hk =>
          exact Or.inr (Or.inr (Or.inr ⟨t, _, rfl, List.getElem?_eq_getElem (hlt t), hk, rfl⟩))
        · exact Or.inr (Or.inr (Or.inl ⟨t, Or.inr rfl, rfl⟩))
  obtain ⟨a, ha, ha'⟩ := hstart
  obtain ⟨b, hb, hb'⟩ := hstop
  -- the ends of the range are in order
  have hle : ∀ t u, (s = .incl t ∨ s = .excl t) → (e = .incl u ∨ e = .excl u) → t ≤ u := by
    have h1 := hp.nonempty
    intro t u hs he
    rcases hs with rfl | rfl <;> rcases he with rfl | rfl <;>
      simp only [rangeIsEmpty, decide_eq_false_iff_not] at h1 <;> omega
  have hlt' : ∀ t u, (s = .incl t ∨ s = .excl t) → e = .excl u → t < u := by
    have h1 := hp.nonempty
    have h2 := hp.sane
    intro t u hs he
    rcases hs with rfl | rfl <;> subst he <;>
      simp only [rangeIsEmpty, btreeRangePanics, decide_eq_false_iff_not] at h1 h2 <;> omega
  unfold getCut
  rw [hkey]
  simp only [Option.bind_some, ha, hb]
  rcases ha' with rfl | ⟨t, hs, hkt, rfl⟩ | ⟨t, hs, hkt, rfl⟩
  · -- from the first child on
    rcases hb' with ⟨rfl, -⟩ | ⟨u, he, rfl⟩ | ⟨u, he, rfl⟩ | ⟨u, c, he, hcu, hku, rfl⟩
    · exact ⟨_, rfl, by simp, by simp, by simp, by simp, by simp⟩
    · have := hlt u
      exact ⟨_, rfl, by simp; omega, by simp, by simp, by simp, by simp⟩
    · have := hlt u
      exact ⟨_, rfl, by simp; omega, by simp, by simpa using this, by simp, by simp⟩
    · have := hlt u
      exact ⟨_, rfl, by simp; omega, by simp, by simp, by simp, by simp⟩
  · -- from a child on
    have h1 := hlt t
    rcases hb' with ⟨rfl, -⟩ | ⟨u, he, rfl⟩ | ⟨u, he, rfl⟩ | ⟨u, c, he, hcu, hku, rfl⟩
    · exact ⟨_, rfl, by simp, by simp, by simp, by simp, by simp; omega⟩
    · have := hlt u
      have := position_mono cs (hle t u (Or.inl hs) he)
      exact ⟨_, rfl, by simp; omega, by simp, by simp, by simp, by simp; omega⟩
    · have := hlt u
      have := position_mono cs (hle t u (Or.inl hs) he)
      exact ⟨_, rfl, by simp; omega, by simp, by simp; omega, by simp, by simp; omega⟩
    · have := hlt u
      have := position_mono cs (hle t u (Or.inl hs) (Or.inr he))
      exact ⟨_, rfl, by simp; omega, by simp, by simp, by simp, by simp; omega⟩
  · -- from within a child
    have h1 := hlt t
    rcases hb' with ⟨rfl, -⟩ | ⟨u, he, rfl⟩ | ⟨u, he, rfl⟩ | ⟨u, c, he, hcu, hku, rfl⟩
    · exact ⟨_, rfl, by simp, by simpa using h1, by simp, by simp; omega, by simp⟩
    · have := hlt u
      have := position_mono cs (hle t u hs he)
      exact ⟨_, rfl, by simp; omega, by simpa using h1, by simp, by simp; omega, by simp⟩
    · have h2 := hlt u
      have h3 := position_mono cs (hle t u hs he)
      refine ⟨_, rfl, by simp; omega, by simpa using h1, by simpa using h2, ?_, by simp⟩
      simp only [Option.some.injEq]
      intro i hi
      subst hi
      rcases Nat.lt_or_eq_of_le h3 with h4 | h4
      · exact Or.inr ⟨h4, fun j hj => by omega⟩
      · exact Or.inl h4.symm
    · have h2 := hlt u
      have h3 := position_key hc hkey hkt (hlt' t u hs he) hcu hku
      exact ⟨_, rfl, by simp; omega, by simpa using h1, by simp, by simp; omega, by simp⟩

theorem child_at {h : Nat} {lo ub} {n : Node V (h + 1)} (hc : Chain (Bounded (h + 1)) lo ub n)
    {i : Nat} (hi : i < n.length) : ∃ e, n[i]? = some e ∧ kid e ≠ [] ∧
      Chain (Bounded h) e.1 (ubAfter n ub i) (kid e) ∧ Below e.1 (ubAfter n ub i) := by
  obtain ⟨pre, post, hn, hlen⟩ := mid_of_getElem? (List.getElem?_eq_getElem hi)
  generalize n[i] = e at hn
  subst hn hlen
  have hm := chain_mid.mp hc
  refine ⟨e, getElem?_mid .., hm.2.2.2.1.1, ?_, ?_⟩
  · rw [ubAfter_mid]; exact hm.2.2.2.1.2
  · rw [ubAfter_mid]; exact nextKey_below hc

theorem small_el {L : Limits} {h : Nat} {k : Nat} {i : Meta} {c : Node V h}
    (hlen : c.length ≤ L.max h) (hc : Small L h c) : SizedSub (fun _ => 0) L (h + 1) (el k i c).2 :=
  ⟨Nat.zero_le _, hlen, hc⟩

theorem small_mid {L : Limits} {h : Nat} {pre post : Node V h} {e f : Nat × Sub V h}
    (hn : Small L h (pre ++ e :: post)) (hf : SizedSub (fun _ => 0) L h f.2) :
    Small L h (pre ++ f :: post) := by
  intro x hx
  simp only [List.mem_append, List.mem_cons] at hx
  rcases hx with hx | rfl | hx
  · exact hn x (by simp [hx])
  · exact hf
  · exact hn x (by simp [hx])

theorem small_sub {L : Limits} {h : Nat} {n m : Node V h} (hn : Small L h n)
    (hm : ∀ x ∈ m, x ∈ n) : Small L h m := fun x hx => hn x (hm x hx)

theorem putInfo_small {L : Limits} {h : Nat} {n : Node V (h + 1)} {i : Nat} {f : Meta → Meta}
    (hn : Small L (h + 1) n) : Small L (h + 1) (putInfo h n i f) ∧
      (putInfo h n i f).length = n.length := by
  cases he : n[i]? with
  | none => unfold putInfo; rw [he]; exact ⟨hn, rfl⟩
  | some e =>
    obtain ⟨pre, post, rfl, rfl⟩ := mid_of_getElem? he
    rw [putInfo_mid]
    refine ⟨small_mid hn ?_, by simp⟩
    have := hn e (by simp)
    exact this

theorem setMark_small {L : Limits} {h : Nat} {n : Node V (h + 1)} {i : Nat} {d : Bool}
    (hn : Small L (h + 1) n) : Small L (h + 1) (setMark h n i d) ∧
      (setMark h n i d).length = n.length := by
  unfold setMark
  split
  · exact putInfo_small hn
  · exact ⟨hn, rfl⟩

theorem eraseIdx_small {L : Limits} {h : Nat} {n : Node V h} {i : Nat}
    (hn : Small L h n) : Small L h (n.eraseIdx i) ∧ (n.eraseIdx i).length ≤ n.length :=
  ⟨small_sub hn fun _ hx => List.mem_of_mem_eraseIdx hx, (List.eraseIdx_sublist ..).length_le⟩

/-- One edge of the cut. -/
theorem edge_total {L : Limits} {txg h : Nat} {s e : Bnd Nat} {nk : Option Nat}
    {n : Node V (h + 1)} {i : Nat} {c : Nat × Sub V (h + 1)} (hi : n[i]? = some c)
    (hne : kid c ≠ [])
    (ih : ∃ n' d, pass1 L txg s e h nk (kid c) = some (n', d) ∧ n'.length ≤ (kid c).length ∧
      (Small L h (kid c) → Small L h n')) :
    ∃ n' d len, ((xlockNc txg h n i).bind fun x : Node V (h + 1) × Node V h =>
      (pass1 L txg s e h nk x.2).map fun y : Node V h × Bool =>
        (putKids h x.1 i y.1, some (({ idx := i, danger := y.2 } : Edge), y.1.length))) =
        some (n', some (({ idx := i, danger := d } : Edge), len)) ∧
      n'.length = n.length ∧ (∀ j, j ≠ i → n'[j]? = n[j]?) ∧
      (Small L (h + 1) n → Small L (h + 1) n') := by
  obtain ⟨c', d, hp, hlen, hsm⟩ := ih
  obtain ⟨pre, post, rfl, rfl⟩ := mid_of_getElem? hi
  have hx : ∃ k m, xlockNc txg h (pre ++ c :: post) pre.length =
      some (pre ++ el k m (kid c) :: post, kid c) := by
    unfold xlockNc
    rw [getElem?_mid]
    simp only [Option.bind_some]
    split
    · exact ⟨c.1, _, by rw [set_mid]⟩
    · cases hk : kid c with
      | nil => exact absurd hk hne
      | cons y ys =>
        have hk' : c.2.kids = y :: ys := hk
        simp only [hk', firstKey, List.head?_cons, Option.map_some, set_mid]
        exact ⟨y.1, _, rfl⟩
  obtain ⟨k, m, hx⟩ := hx
  refine ⟨pre ++ el k m c' :: post, d, c'.length, ?_, by simp, ?_, ?_⟩
  · rw [hx]
    simp only [Option.bind_some, hp, Option.map_some, putKids_mid]
  · intro j hj
    rcases Nat.lt_or_gt_of_ne hj with h1 | h1
    · rw [List.getElem?_append_left h1, List.getElem?_append_left h1]
    · rw [List.getElem?_append_right (by omega), List.getElem?_append_right (by omega)]
      obtain ⟨q, hq⟩ : ∃ q, j - pre.length = q + 1 := ⟨j - pre.length - 1, by omega⟩
      rw [hq]; rfl
  · intro hn
    have hc := hn c (by simp)
    refine small_mid hn (small_el (Nat.le_trans hlen hc.2.1) (hsm hc.2.2))

theorem pass1Join_total {L : Limits} {h : Nat} {cut : Cut} {n : Node V (h + 1)}
    (l r : Option (Edge × Nat)) (h1 : cut.first ≤ cut.last) (h2 : cut.last ≤ n.length) :
    ∃ n' d, pass1.pass1Join L h cut n l r = some (n', d) ∧ n'.length ≤ n.length ∧
      (Small L (h + 1) n → Small L (h + 1) n') := by
  unfold pass1.pass1Join purge
  rw [if_neg (by omega)]
  simp only [Option.map_some]
  have hq : ∀ q : Node V (h + 1), q = n.take cut.first ++ n.drop cut.last →
      q.length ≤ n.length ∧ (Small L (h + 1) n → Small L (h + 1) q) := by
    intro q hq
    subst hq
    refine ⟨by simp; omega, fun hn => small_sub hn fun x hx => ?_⟩
    rcases List.mem_append.mp hx with hx | hx
    · exact List.mem_of_mem_take hx
    · exact List.mem_of_mem_drop hx
  generalize n.take cut.first ++ n.drop cut.last = q at hq
  have hq0 := hq q rfl
  refine ⟨_, _, rfl, ?_⟩
  have hers : ∀ {m : Node V (h + 1)} (i : Nat), (m.length ≤ n.length ∧
      (Small L (h + 1) n → Small L (h + 1) m)) → ((m.eraseIdx i).length ≤ n.length ∧
      (Small L (h + 1) n → Small L (h + 1) (m.eraseIdx i))) := fun i hm =>
    ⟨Nat.le_trans (List.eraseIdx_sublist ..).length_le hm.1, fun hn => (eraseIdx_small (hm.2 hn)).1⟩
  have hmrk : ∀ {m : Node V (h + 1)} (i : Nat) (d : Bool), (m.length ≤ n.length ∧
      (Small L (h + 1) n → Small L (h + 1) m)) → ((setMark h m i d).length ≤ n.length ∧
      (Small L (h + 1) n → Small L (h + 1) (setMark h m i d))) := fun i d hm =>
    ⟨by rw [setMark_length]; exact hm.1, fun hn => (setMark_small (hm.2 hn)).1⟩
  rcases l with _ | ⟨ed, _ | len⟩ <;> rcases r with _ | ⟨ed', _ | len'⟩
  · exact hq0
  · exact hers _ hq0
  · exact hmrk _ _ hq0
  · exact hers _ hq0
  · exact hers _ (hers _ hq0)
  · exact hmrk _ _ (hers _ hq0)
  · exact hmrk _ _ hq0
  · exact hers _ (hmrk _ _ hq0)
  · exact hmrk _ _ (hmrk _ _ hq0)
where
  setMark_length {h : Nat} {n : Node V (h + 1)} {i : Nat} {d : Bool} :
      (setMark h n i d).length = n.length := by
    unfold setMark
    split
    · unfold putInfo
      split <;> simp
    · rfl

/-- The first pass returns and makes no node larger. -/
theorem pass1_total (L : Limits) (txg : Nat) {s e : Bnd Nat} (hpr : Proper s e) :
    ∀ (h : Nat) {lo ub} {n : Node V h}, Chain (Bounded h) lo ub n → (h ≠ 0 → n ≠ []) →
      ∃ n' d, pass1 L txg s e h ub n = some (n', d) ∧ n'.length ≤ n.length ∧
        (Small L h n → Small L h n') := by
  intro h
  induction h with
  | zero =>
    intro lo ub n hc _
    refine ⟨_, _, by simp only [pass1, hpr.sane]; rfl, List.length_filter_le .., fun _ _ _ => trivial⟩
  | succ h ih =>
    intro lo ub n hc hn
    have hn := hn (by omega)
    obtain ⟨cut, hcut, hok⟩ := getCut_total (e := e) hpr hc hn
    have ihc : ∀ {c : Nat × Sub V (h + 1)} {nk}, kid c ≠ [] → Chain (Bounded h) c.1 nk (kid c) →
        ∃ n' d, pass1 L txg s e h nk (kid c) = some (n', d) ∧ n'.length ≤ (kid c).length ∧
          (Small L h (kid c) → Small L h n') := fun h1 h2 => ih h2 (fun _ => h1)
    simp only [pass1, hcut, Option.bind_some]
    cases hleft : cut.left with
    | some i =>
      have hil := hok.left i hleft
      obtain ⟨c, hc1, hc2, hc3, hc4⟩ := child_at hc hil
      simp only
      by_cases hsame : cut.right = some i
      · rw [if_pos hsame]
        obtain ⟨c', d, hp, hlen, hsm⟩ := ihc hc2 hc3
        obtain ⟨pre, post, rfl, rfl⟩ := mid_of_getElem? hc1
        rw [xlock_mid]
        simp only [Option.bind_some, hp, Option.map_some, eraseIdx_mid, putKids_mid]
        split
        · refine ⟨_, _, rfl, by simp, fun hn => small_sub hn fun x hx => ?_⟩
          simp only [List.mem_append, List.mem_cons] at hx ⊢
          rcases hx with hx | hx
          · exact Or.inl hx
          · exact Or.inr (Or.inr hx)
        · refine ⟨_, _, rfl, ?_, fun hn => (setMark_small (small_mid hn ?_)).1⟩
          · rw [pass1Join_total.setMark_length]; simp
          · have hc := hn c (by simp)
            exact small_el (Nat.le_trans hlen hc.2.1) (hsm hc.2.2)
      · rw [if_neg hsame]
        have hord := (hok.order i hleft).resolve_left hsame
        obtain ⟨n1, d1, len1, he1, hn1, hj1, hs1⟩ := edge_total hc1 hc2 (ihc hc2 hc3)
        rw [he1]
        simp only [Option.bind_some]
        cases hright : cut.right with
        | none =>
          simp only [Option.bind_some]
          obtain ⟨n', d, a, b, c⟩ := pass1Join_total (L := L) (n := n1)
            (some (({ idx := i, danger := d1 } : Edge), len1)) none hord.1
            (by rw [hn1]; exact hok.last)
          exact ⟨n', d, a, by omega, fun hn => c (hs1 hn)⟩
        | some j =>
          have hij := hord.2 j hright
          have hjl := hok.right j hright
          obtain ⟨f, hf1, hf2, hf3, hf4⟩ := child_at hc hjl
          rw [← hj1 j (by omega)] at hf1
          obtain ⟨n2, d2, len2, he2, hn2, hj2, hs2⟩ := edge_total hf1 hf2 (ihc hf2 hf3)
          simp only
          rw [he2]
          simp only [Option.bind_some]
          obtain ⟨n', d, a, b, c⟩ := pass1Join_total (L := L) (n := n2)
            (some (({ idx := i, danger := d1 } : Edge), len1))
            (some (({ idx := j, danger := d2 } : Edge), len2)) hord.1
            (by rw [hn2, hn1]; exact hok.last)
          exact ⟨n', d, a, by omega, fun hn => c (hs2 (hs1 hn))⟩
    | none =>
      have hord := hok.order' hleft
      simp only [Option.bind_some]
      cases hright : cut.right with
      | none =>
        simp only [Option.bind_some]
        exact pass1Join_total (L := L) none none hord hok.last
      | some j =>
        have hjl := hok.right j hright
        obtain ⟨f, hf1, hf2, hf3, hf4⟩ := child_at hc hjl
        obtain ⟨n2, d2, len2, he2, hn2, hj2, hs2⟩ := edge_total hf1 hf2 (ihc hf2 hf3)
        simp only
        rw [he2]
        simp only [Option.bind_some]
        obtain ⟨n', d, a, b, c⟩ := pass1Join_total (L := L) (n := n2) none
          (some (({ idx := j, danger := d2 } : Edge), len2)) hord
          (by rw [hn2]; exact hok.last)
        exact ⟨n', d, a, by omega, fun hn => c (hs2 hn)⟩

end Verif.Tree
