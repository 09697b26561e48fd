import Verif.Tree.FixTotal

/-!
# Histories with range deletions
-/

namespace Verif.Tree

variable {V : Type}

/-- No node of the tree is too large. -/
structure Tree.Slim (L : Limits) (t : Tree V) : Prop where
  root : t.root.length ≤ L.max t.h
  small : Small L t.h t.root

theorem empty_slim (L : Limits) : (Tree.empty : Tree V).Slim L :=
  ⟨Nat.zero_le _, fun _ he => absurd he List.not_mem_nil⟩

theorem slim_iff (L : Limits) (t : Tree V) : t.Slim L ↔
    t.root.length ≤ L.max t.h ∧ ∀ e ∈ t.root, NotOver L t.h e.2 :=
  ⟨fun h => ⟨h.root, fun e he => (notOver_iff L _ _).mpr (h.small e he)⟩,
    fun h => ⟨h.1, fun e he => (notOver_iff L _ _).mp (h.2 e he)⟩⟩

/-! ## Range deletion -/

theorem mergeDown_slim {L : Limits} (txg : Nat) : ∀ (h : Nat) (info : Meta) (n : Node V h),
    n.length ≤ L.max h → Small L h n → (mergeDown txg h info n).Slim L
  | 0, info, n, h1, h2 => ⟨h1, h2⟩
  | h + 1, info, [], _, _ => by simp only [mergeDown]; exact ⟨Nat.zero_le _, fun _ he => absurd he List.not_mem_nil⟩
  | h + 1, info, [(k, c)], _, h2 => by
    simp only [mergeDown]
    have := h2 (k, c) (by simp)
    exact mergeDown_slim txg h c.info c.kids this.2.1 this.2.2
  | h + 1, info, a :: b :: es, h1, h2 => by
    simp only [mergeDown]
    exact ⟨h1, h2⟩

theorem unmark_small {L : Limits} : ∀ (h : Nat) {n : Node V h}, Small L h n →
    Small L h (unmark h n) ∧ (unmark h n).length = n.length := by
  intro h
  induction h with
  | zero => intro n hn; exact ⟨hn, rfl⟩
  | succ h ih =>
    intro n hn
    refine ⟨fun x hx => ?_, by simp [unmark]⟩
    simp only [unmark, List.mem_map] at hx
    obtain ⟨e, he, rfl⟩ := hx
    have := hn e he
    obtain ⟨i1, i2⟩ := ih this.2.2
    exact ⟨Nat.zero_le _, by show (unmark h e.2.kids).length ≤ _; rw [i2]; exact this.2.1, i1⟩

theorem rangeDelete_total {L : Limits} (hL : L.Roomy) (txg : Nat) {t : Tree V} (ht : t.Ordered)
    {s e : Bnd Nat} (hp : rangeIsEmpty s e = false → btreeRangePanics s e = false) :
    ∃ t', t.rangeDelete L txg s e = some t' ∧ (t.Slim L → t'.Slim L) := by
  unfold Tree.rangeDelete
  by_cases hemp : rangeIsEmpty s e = true
  · rw [if_pos hemp]
    exact ⟨t, rfl, fun h => h⟩
  · rw [if_neg hemp]
    have hemp : rangeIsEmpty s e = false := by simpa using hemp
    have hpr : Proper s e := ⟨hemp, hp hemp⟩
    simp only [Tree.xlockRoot]
    have hu := unmark_spec t.h ht.1
    have hune : t.h ≠ 0 → unmark t.h t.root ≠ [] := fun h0 h => by
      have := hu.2.2; rw [h] at this
      exact ht.2 h0 (List.length_eq_zero_iff.mp this.symm)
    obtain ⟨n, d, h1, hlen1, hsm1⟩ := pass1_total L txg hpr t.h hu.1 hune
    have hp1 := pass1_order L txg s e t.h hu.1 hune h1
    rw [h1]
    simp only [Option.bind_some]
    have hm1 := mergeDown_spec txg t.h { t.info with stop := txg + 1, addr := none } n hp1.1
    have hms : t.Slim L → (mergeDown txg t.h { t.info with stop := txg + 1, addr := none } n).Slim L := by
      intro hs
      obtain ⟨a, b⟩ := unmark_small t.h hs.small
      exact mergeDown_slim txg _ _ _ (by have := hs.root; omega) (hsm1 a)
    generalize mergeDown txg t.h { t.info with stop := txg + 1, addr := none } n = t1 at *
    have hp2 : ∃ n2, pass2R L txg t1.h t1.root = some n2 ∧ n2.length ≤ t1.root.length ∧
        (Small L t1.h t1.root → Small L t1.h n2) := by
      by_cases hne : t1.root = []
      · have h0 : t1.h = 0 := Classical.byContradiction fun h0 => hm1.1.2 h0 hne
        obtain ⟨h, info, r⟩ := t1
        simp only at h0 hne ⊢
        subst h0 hne
        exact ⟨[], rfl, Nat.le_refl _, fun h => h⟩
      · exact pass2R_total hL txg t1.h hm1.1.1 hne
    obtain ⟨n2, h3, h4, h5⟩ := hp2
    rw [h3]
    simp only [Option.map_some]
    refine ⟨_, rfl, fun hs => ?_⟩
    have := hms hs
    exact mergeDown_slim txg _ _ _ (Nat.le_trans h4 this.root) (h5 this.small)

/-- The one kind of range that `range_delete` takes on although it is empty makes the first pass
panic. -/
theorem pass1_insane (L : Limits) (txg : Nat) (k : Nat) :
    ∀ (h : Nat) {lo ub} {n : Node V h}, Chain (Bounded h) lo ub n → (h ≠ 0 → n ≠ []) →
      pass1 L txg (.excl k) (.excl k) h ub n = none := by
  intro h
  induction h with
  | zero => intro lo ub n _ _; simp [pass1, btreeRangePanics]
  | succ h ih =>
    intro lo ub n hc hn
    have hn := hn (by omega)
    have ihc : ∀ {i}, i < n.length → ∃ e, n[i]? = some e ∧
        pass1 L txg (.excl k) (.excl k) h (ubAfter n ub i) (kid e) = none := by
      intro i hi
      obtain ⟨e, h1, h2, h3, -⟩ := child_at hc hi
      exact ⟨e, h1, ih h3 (fun _ => h2)⟩
    have hedge : ∀ {i}, i < n.length →
        ((xlockNc txg h n i).bind fun x : Node V (h + 1) × Node V h =>
          (pass1 L txg (.excl k) (.excl k) h (ubAfter n ub i) x.2).map
            fun y : Node V h × Bool => (putKids h x.1 i y.1,
              some (({ idx := i, danger := y.2 } : Edge), y.1.length))) = none := by
      intro i hi
      obtain ⟨e, h1, h2⟩ := ihc hi
      cases hx : xlockNc txg h n i with
      | none => rfl
      | some q =>
        have : q.2 = kid e := by
          unfold xlockNc at hx
          rw [h1] at hx
          simp only [Option.bind_some] at hx
          split at hx
          · simp only [Option.some.injEq] at hx; rw [← hx]
          · obtain ⟨y, -, rfl⟩ := Option.map_eq_some_iff.mp hx; rfl
        simp only [Option.bind_some, this, h2, Option.map_none]
    simp only [pass1]
    cases hg : getCut n (.excl k) (.excl k) ub with
    | none => rfl
    | some cut =>
      simp only [Option.bind_some]
      obtain ⟨key, a, b, hkey, ha, hb, hcut⟩ := getCut_spec hg
      have hkl := position_lt hn k
      simp only [startBound] at ha
      simp only [stopBound] at hb
      have hright : ∀ {j}, a = .incl 0 → b = .incl j → j < n.length → ∃ cut', cut = cut' ∧
          cut.left = none ∧ cut.right = some j := by
        intro j h1 h2 _
        subst h1 h2
        simp only [cutOf, Option.some.injEq] at hcut
        exact ⟨cut, rfl, by rw [← hcut], by rw [← hcut]⟩
      split at ha
      · next hlt =>
        -- the range starts below the node
        simp only [Option.some.injEq] at ha
        subst ha
        obtain ⟨c, cs, rfl⟩ : ∃ c cs, n = c :: cs := by
          cases n with
          | nil => exact absurd rfl hn
          | cons c cs => exact ⟨c, cs, rfl⟩
        simp only [firstKey, List.head?_cons, Option.map_some, Option.some.injEq] at hkey
        subst hkey
        have hbey : beyond ub k = false := by
          cases ub with
          | none => rfl
          | some u =>
            have : c.1 < u := hc.2.1
            simp only [beyond, decide_eq_false_iff_not]
            omega
        rw [hbey] at hb
        simp only [Bool.false_eq_true, if_false] at hb
        have hp0 : position (c :: cs) k = 0 := by
          unfold position
          rw [List.takeWhile_cons_of_neg (by simp; omega)]
          rfl
        rw [hp0] at hb
        simp only [List.getElem?_cons_zero, Option.map_some] at hb
        rw [if_neg (by omega)] at hb
        simp only [Option.some.injEq] at hb
        subst hb
        simp only [cutOf, Option.some.injEq] at hcut
        subst hcut
        simp only [Option.bind_some]
        rw [hedge (by simp)]
        rfl
      · simp only [Option.some.injEq] at ha
        subst ha
        have hl : cut.left = some (position n k) := by
          cases b with
          | unb => simp [cutOf] at hcut
          | incl j => simp only [cutOf, Option.some.injEq] at hcut; rw [← hcut]
          | excl j => simp only [cutOf, Option.some.injEq] at hcut; rw [← hcut]
        simp only [hl]
        split
        · obtain ⟨e, h1, h2⟩ := ihc hkl
          cases hx : xlock txg h n (position n k) with
          | none => rfl
          | some q =>
            obtain ⟨pre, e', post, hn', hlen, rfl⟩ := xlock_some hx
            have : e' = e := by
              rw [← hlen] at h1
              conv at h1 => lhs; arg 1; rw [hn']
              rw [getElem?_mid] at h1
              simpa using h1
            subst this
            simp only [Option.bind_some, h2, Option.map_none]
        · rw [hedge hkl]
          rfl

theorem rangeDelete_slim {L : Limits} (hL : L.Roomy) {txg : Nat} {t t' : Tree V} (ht : t.Ordered)
    (hs : t.Slim L) {s e : Bnd Nat} (hr : t.rangeDelete L txg s e = some t') : t'.Slim L := by
  by_cases hp : rangeIsEmpty s e = false → btreeRangePanics s e = false
  · obtain ⟨t1, h1, h2⟩ := rangeDelete_total hL txg ht hp
    rw [hr] at h1
    simp only [Option.some.injEq] at h1
    subst h1
    exact h2 hs
  · exfalso
    have : ∃ k, s = .excl k ∧ e = .excl k := by
      cases s <;> cases e <;> simp [rangeIsEmpty, btreeRangePanics] at hp ⊢ <;> omega
    obtain ⟨k, rfl, rfl⟩ := this
    unfold Tree.rangeDelete at hr
    rw [if_neg (by simp [rangeIsEmpty])] at hr
    have hu := unmark_spec t.h ht.1
    have := pass1_insane L txg k t.h hu.1 (fun h0 h => by
      have := hu.2.2; rw [h] at this
      exact ht.2 h0 (List.length_eq_zero_iff.mp this.symm))
    simp only [Tree.xlockRoot, this, Option.bind_none] at hr
    cases hr

/-! ## Removal from a tree that may be thin -/

/-- Removal returns if the node has a choice of children. -/
theorem removeR_small {L : Limits} (hL : L.Ok) (txg : Nat) :
    ∀ (h : Nat) {lo hi} {n : Node V h} {k : Nat}, Chain (Bounded h) lo hi n →
      (h ≠ 0 → 2 ≤ n.length) →
      ∃ n' old, removeR L txg h n k = some (n', old) ∧ n.length ≤ n'.length + 1 ∧
        n'.length ≤ n.length ∧ (Small L h n → Small L h n') := by
  intro h
  induction h with
  | zero =>
    intro lo hi n k hc _
    exact ⟨_, _, rfl, (length_remove hc).1, (length_remove hc).2, fun _ _ _ => trivial⟩
  | succ h ih =>
    intro lo hi n k hc hn
    have hlen2 := hn (by omega)
    obtain ⟨pre, e, post, rfl, hp, h1, h2⟩ := position_spec hc
      (by intro h0; rw [h0] at hlen2; simp at hlen2) k
    have hcl : Chain (Bounded (h + 1)) lo hi (pre ++ el e.1 (lockInfo txg e) (kid e) :: post) :=
      chain_mid.mpr (by have := chain_mid.mp hc; exact this)
    have hpl := position_chain hcl h1 h2
    have hemp : 1 ≤ (kid e).length := List.length_pos_iff.mpr (chain_mid.mp hc).2.2.2.1.1
    have hmin := hL.min_pos h
    have htwo := hL.two h
    have hmi : h ≠ 0 → 2 ≤ L.min h := by
      intro h0
      cases h with
      | zero => exact absurd rfl h0
      | succ h => exact hL.int_two
    simp only [removeR, hp, xlock_mid, Option.bind_some, hpl]
    have step : ∀ {pre post : Node V (h + 1)} {e : Nat × Sub V (h + 1)} {i : Meta},
        Chain (Bounded (h + 1)) lo hi (pre ++ e :: post) → (h ≠ 0 → 2 ≤ (kid e).length) →
        ∃ n' old, (removeR L txg h (kid e) k).map (fun x : Node V h × Option V =>
            (putKids h (pre ++ el e.1 i (kid e) :: post) pre.length x.1, x.2)) = some (n', old) ∧
          n'.length = (pre ++ e :: post).length ∧
          (Small L (h + 1) (pre ++ e :: post) → Small L (h + 1) n') := by
      intro pre post e i hc hgt
      have hb := chain_mid.mp hc
      obtain ⟨m, o, hr, hm1, hm2, hm3⟩ := ih (k := k) hb.2.2.2.1.2 hgt
      refine ⟨_, _, by rw [hr]; simp only [Option.map_some]; rfl, ?_, ?_⟩
      · rw [putKids_mid]; simp
      · rw [putKids_mid]
        intro hs
        have he := hs e (by simp)
        exact small_mid hs (small_el (Nat.le_trans hm2 he.2.1) (hm3 he.2.2))
    split
    · next hd =>
      have hd : (kid e).length ≤ L.min h := by simpa [inDanger] using hd
      have hsz : 2 * (kid e).length ≤ L.max h + 1 := by omega
      obtain ⟨r, hf⟩ := fixInt_total (L := L) (txg := txg) (pre := pre) (post := post)
        (a := el e.1 (lockInfo txg e) (kid e)) (by simpa using hlen2) hsz (by omega)
      obtain ⟨n1, b, f⟩ := r
      have hfc := fixInt_cases hf
      have hfo := hfc.order hL hcl
      obtain ⟨pre', e', post', hn1, h1', h2', hlt⟩ := hfc.find hcl h1 h2
      obtain ⟨-, -, -, -, -, hb1, -, hl1, -, -, hsm1⟩ := hfc.grown hL hcl hsz
      have hma : b + f ≤ 1 := by cases hfc <;> simp
      simp only at hn1 hfo hl1 hsm1 hb1
      subst hn1
      have hp' := position_chain hfo.1 h1' h2'
      have hf : fixInt L txg h (pre ++ el e.1 (lockInfo txg e) (kid e) :: post) pre.length (kid e)
        = some (pre' ++ e' :: post', b, f) := hf
      simp only [hf, Option.bind_some, hp', xlock_mid]
      have hlt : (kid e).length < (kid e').length := hlt
      obtain ⟨n', old, hr, hlen, hz'⟩ := step (i := lockInfo txg e') hfo.1 (fun _ => by omega)
      refine ⟨n', old, hr, ?_, ?_, fun hs => hz' (hsm1 (lock_small hs))⟩ <;>
        (simp only [List.length_append, List.length_cons] at hlen hl1 ⊢; omega)
    · next hd =>
      have hd : L.min h < (kid e).length := by simpa [inDanger] using hd
      obtain ⟨n', old, hr, hlen, hz'⟩ := step (i := lockInfo txg e) hc
        (fun h0 => by have := hmi h0; omega)
      exact ⟨n', old, hr, by omega, by omega, hz'⟩

/-- The root has a single child, which in turn has a single child: `remove` merges only one of
the two into the root. -/
def Tree.slender : Tree V → Bool
  | ⟨_ + 2, _, [(_, c)]⟩ => c.kids.length == 1
  | _ => false

theorem mergeRoot_two {txg : Nat} {t : Tree V} (ht : t.Ordered) (hs : t.slender = false) :
    (t.mergeRoot txg).h ≠ 0 → 2 ≤ (t.mergeRoot txg).root.length := by
  obtain ⟨h, info, n⟩ := t
  match h, n, ht, hs with
  | 0, _, _, _ => intro h0; exact absurd rfl h0
  | _ + 1, [], ht, _ => exact absurd rfl (ht.2 (by simp))
  | 1, [e], _, _ => intro h0; exact absurd rfl h0
  | h + 2, [(k, c)], ht, hs =>
    intro _
    have h1 : c.kids ≠ [] := ht.1.2.2.1.1
    have h2 := List.length_pos_iff.mpr h1
    have h3 : (c.kids.length == 1) = false := hs
    show 2 ≤ c.kids.length
    have : c.kids.length ≠ 1 := by simpa using h3
    omega
  | h + 1, _ :: _ :: es, _, _ => intro _; simp [Tree.mergeRoot, Tree.xlockRoot]

theorem mergeRoot_slim {L : Limits} {txg : Nat} {t : Tree V} (hs : t.Slim L) :
    (t.mergeRoot txg).Slim L := by
  obtain ⟨h, info, n⟩ := t
  match h, n, hs with
  | 0, _, hs => exact ⟨hs.root, hs.small⟩
  | _ + 1, [], _ => exact ⟨Nat.zero_le _, fun _ he => absurd he List.not_mem_nil⟩
  | h + 1, [(k, c)], hs =>
    have := hs.small (k, c) (by simp)
    exact ⟨this.2.1, this.2.2⟩
  | h + 1, a :: b :: es, hs => exact ⟨hs.root, hs.small⟩

theorem remove_total {L : Limits} (hL : L.Ok) (txg : Nat) {t : Tree V} (ht : t.Ordered)
    (hs : t.slender = false) (k : Nat) :
    ∃ t' old, t.remove L txg k = some (t', old) := by
  obtain ⟨h1, -⟩ := mergeRoot_spec (txg := txg) ht
  obtain ⟨n', old, h5, -⟩ := removeR_small hL txg (t.mergeRoot txg).h (k := k) h1.1
    (mergeRoot_two ht hs)
  unfold Tree.remove
  simp only
  exact ⟨_, _, by rw [h5]; rfl⟩

/-- Removal below a root with one child, if it returns. -/
theorem removeR_single {L : Limits} (hL : L.Ok) {txg : Nat} {h : Nat} {lo hi}
    {e : Nat × Sub V (h + 1)} {k : Nat} (hc : Chain (Bounded (h + 1)) lo hi [e])
    {n' : Node V (h + 1)} {old : Option V} (hr : removeR L txg (h + 1) [e] k = some (n', old))
    (hs : Small L (h + 1) [e]) : n'.length ≤ 1 ∧ Small L (h + 1) n' := by
  have hp : position [e] k = 0 := by
    have := position_lt (cs := [e]) (by simp) k
    simpa using this
  have hx : xlock txg h [e] 0 = some ([el e.1 (lockInfo txg e) (kid e)], kid e) :=
    xlock_mid txg h [] e []
  have hp' : position [el e.1 (lockInfo txg e) (kid e)] k = 0 := by
    have := position_lt (cs := [el e.1 (lockInfo txg e) (kid e)]) (by simp) k
    simpa using this
  simp only [removeR, hp, hx, Option.bind_some, hp'] at hr
  split at hr
  · next hd =>
    exfalso
    obtain ⟨⟨n1, b, f⟩, hf, -⟩ := Option.bind_eq_some_iff.mp hr
    simp [fixInt] at hf
  · next hd =>
    have hd : L.min h < (kid e).length := by simpa [inDanger] using hd
    have hmi : h ≠ 0 → 2 ≤ L.min h := by
      intro h0
      cases h with
      | zero => exact absurd rfl h0
      | succ h => exact hL.int_two
    obtain ⟨m, o, h1, h2, h3, h4⟩ := removeR_small hL txg h (k := k) hc.2.2.1.2
      (fun h0 => Nat.le_trans (hmi h0) (Nat.le_of_lt hd))
    have h1 : removeR L txg h (kid e) k = some (m, o) := h1
    rw [h1] at hr
    simp only [Option.map_some, Option.some.injEq, Prod.mk.injEq] at hr
    obtain ⟨rfl, -⟩ := hr
    have hz := hs e (by simp)
    have := putKids_mid h [] (el e.1 (lockInfo txg e) (kid e)) [] m
    simp only [List.nil_append, List.length_nil] at this
    rw [this]
    refine ⟨by simp, fun x hx => ?_⟩
    simp only [List.mem_singleton] at hx
    subst hx
    exact small_el (Nat.le_trans h3 hz.2.1) (h4 hz.2.2)

theorem remove_slim {L : Limits} (hL : L.Ok) {txg : Nat} {t t' : Tree V} (ht : t.Ordered)
    (hs : t.Slim L) {k : Nat} {old : Option V} (hr : t.remove L txg k = some (t', old)) :
    t'.Slim L := by
  obtain ⟨h1, -⟩ := mergeRoot_spec (txg := txg) ht
  have h2 := mergeRoot_slim (txg := txg) hs
  unfold Tree.remove at hr
  simp only at hr
  generalize t.mergeRoot txg = t1 at *
  obtain ⟨⟨n', o⟩, h3, h4⟩ := Option.map_eq_some_iff.mp hr
  simp only [Prod.mk.injEq] at h4
  obtain ⟨rfl, rfl⟩ := h4
  by_cases htwo : t1.h ≠ 0 → 2 ≤ t1.root.length
  · obtain ⟨n2, o2, h5, h6, h7, h8⟩ := removeR_small hL txg t1.h (k := k) h1.1 htwo
    rw [h3] at h5
    simp only [Option.some.injEq, Prod.mk.injEq] at h5
    obtain ⟨rfl, rfl⟩ := h5
    exact ⟨Nat.le_trans h7 h2.root, h8 h2.small⟩
  · clear hr
    obtain ⟨h, info, n⟩ := t1
    match h, n, n', h1, h2, h3, htwo with
    | 0, _, _, _, _, _, hw => exact absurd (fun h0 => absurd rfl h0) hw
    | h + 1, [], _, h1, _, _, _ => exact absurd rfl (h1.2 (by simp))
    | h + 1, [e], _, h1, h2, h3, _ =>
      obtain ⟨a, b⟩ := removeR_single hL h1.1 h3 h2.small
      exact ⟨Nat.le_trans a h2.root, b⟩
    | h + 1, _ :: _ :: es, _, _, _, _, hw => exact absurd (fun _ => by simp) hw

/-! ## Histories -/

theorem step_slim {L : Limits} (hL : L.Roomy) {seq : Bool} {t t' : Tree V} (ht : t.Ordered)
    (hs : t.Slim L) {op : Op V} {r : Res V} (hr : step L seq t op = some (t', r)) : t'.Slim L := by
  cases op with
  | insert txg k v =>
    obtain ⟨t1, old, h1, h2, h3⟩ := insert_sized hL.toOk (fun _ => Nat.zero_le _) seq txg ht hs.root
      hs.small k v
    simp only [step, h1, Option.map_some, Option.some.injEq, Prod.mk.injEq] at hr
    obtain ⟨rfl, -⟩ := hr
    exact ⟨h2, h3⟩
  | remove txg k =>
    obtain ⟨⟨t1, o⟩, h1, h2⟩ := Option.map_eq_some_iff.mp hr
    simp only [Prod.mk.injEq] at h2
    obtain ⟨rfl, rfl⟩ := h2
    exact remove_slim hL.toOk ht hs h1
  | rangeDelete txg s e =>
    obtain ⟨t1, h1, h2⟩ := Option.map_eq_some_iff.mp hr
    simp only [Prod.mk.injEq] at h2
    obtain ⟨rfl, rfl⟩ := h2
    exact rangeDelete_slim hL ht hs h1
  | get k =>
    obtain ⟨t1, h1, h2⟩ := Option.map_eq_some_iff.mp hr
    simp only [Prod.mk.injEq] at h2
    rw [← h2.1]; exact hs
  | lastKey =>
    obtain ⟨t1, h1, h2⟩ := Option.map_eq_some_iff.mp hr
    simp only [Prod.mk.injEq] at h2
    rw [← h2.1]; exact hs
  | range s e =>
    obtain ⟨t1, h1, h2⟩ := Option.map_eq_some_iff.mp hr
    simp only [Prod.mk.injEq] at h2
    rw [← h2.1]; exact hs
  | flush txg next =>
    simp only [step, Option.some.injEq, Prod.mk.injEq] at hr
    obtain ⟨rfl, -⟩ := hr
    have := flush_sized (txg := txg) (next := next) hs.root hs.small
    exact ⟨this.1, this.2⟩

theorem run_slim {L : Limits} (hL : L.Roomy) {seq : Bool} : ∀ (ops : List (Op V)) {t t' : Tree V}
    {rs : List (Res V)}, t.Ordered → t.Slim L → run L seq t ops = some (t', rs) → t'.Slim L
  | [], t, t', rs, _, hs, hr => by
    simp only [run, Option.some.injEq, Prod.mk.injEq] at hr
    rw [← hr.1]; exact hs
  | op :: ops, t, t', rs, ht, hs, hr => by
    obtain ⟨⟨t1, r⟩, h1, h2⟩ := Option.bind_eq_some_iff.mp hr
    obtain ⟨⟨t2, rs2⟩, h3, h4⟩ := Option.map_eq_some_iff.mp h2
    simp only [Prod.mk.injEq] at h4
    obtain ⟨rfl, rfl⟩ := h4
    exact run_slim hL ops (step_order hL.toOk ht h1).1 (step_slim hL ht hs h1) h3

/-- Calls with ranges that a caller may give: not the same key excluded at both ends, and for
`range` those that pass its check. -/
def Op.sane : Op V → Bool
  | .rangeDelete _ (.excl a) (.excl b) => a != b
  | .range s e => rangeSane s e
  | _ => true

theorem step_total {L : Limits} (hL : L.Roomy) (seq : Bool) {t : Tree V} (ht : t.Ordered)
    (hs : t.Slim L) {op : Op V} (hop : op.sane = true)
    (hrm : ∀ txg k, op = .remove txg k → t.slender = false) :
    ∃ t' r, step L seq t op = some (t', r) := by
  cases op with
  | insert txg k v =>
    obtain ⟨t1, old, h1, -⟩ := insert_sized hL.toOk (fun _ => Nat.zero_le _) seq txg ht hs.root
      hs.small k v
    exact ⟨t1, .value old, by simp [step, h1]⟩
  | remove txg k =>
    obtain ⟨t1, old, h1⟩ := remove_total hL.toOk txg ht (hrm _ _ rfl) k
    exact ⟨t1, .value old, by simp [step, h1]⟩
  | rangeDelete txg s e =>
    obtain ⟨t1, h1, -⟩ := rangeDelete_total hL txg ht (s := s) (e := e) (by
      cases s <;> cases e <;> simp [rangeIsEmpty, btreeRangePanics, Op.sane] at hop ⊢ <;> omega)
    exact ⟨t1, .unit, by simp [step, h1]⟩
  | get k => exact ⟨t, _, by simp only [step, Tree.get, getR_spec t.h k ht.1 ht.2]; rfl⟩
  | lastKey => exact ⟨t, _, by simp only [step, Tree.lastKey, lastKeyR_spec t.h ht.1 ht.2]; rfl⟩
  | range s e => exact ⟨t, _, by simp only [step, range_spec ht hop]; rfl⟩
  | flush txg next => exact ⟨_, _, rfl⟩

theorem run_total {L : Limits} (hL : L.Roomy) (seq : Bool) : ∀ (ops : List (Op V)) {t : Tree V},
    t.Ordered → t.Slim L → (∀ op ∈ ops, op.sane = true) → run L seq t ops = none →
    ∃ pre txg k post t' rs, ops = pre ++ .remove txg k :: post ∧
      run L seq t pre = some (t', rs) ∧ t'.slender = true
  | [], t, _, _, _, hr => by simp [run] at hr
  | op :: ops, t, ht, hs, hop, hr => by
    cases hst : step L seq t op with
    | none =>
      have : ¬ ∀ txg k, op = .remove txg k → t.slender = false := by
        intro h
        obtain ⟨_, _, h1⟩ := step_total hL seq ht hs (hop op (List.mem_cons_self ..)) h
        rw [hst] at h1; cases h1
      simp only [Classical.not_forall] at this
      obtain ⟨txg, k, rfl, h2⟩ := this
      exact ⟨[], txg, k, ops, t, [], rfl, rfl, by simpa using h2⟩
    | some p =>
      obtain ⟨t1, r⟩ := p
      have hr1 : run L seq t1 ops = none := by
        cases h : run L seq t1 ops with
        | none => rfl
        | some q => simp [run, hst, h] at hr
      obtain ⟨pre, txg, k, post, t', rs, rfl, h1, h2⟩ := run_total hL seq ops
        (step_order hL.toOk ht hst).1 (step_slim hL ht hs hst)
        (fun o ho => hop o (List.mem_cons_of_mem _ ho)) hr1
      exact ⟨op :: pre, txg, k, post, t', r :: rs, rfl, by simp [run, hst, h1], h2⟩

end Verif.Tree
