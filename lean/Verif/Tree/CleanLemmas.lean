import Verif.Tree.Txgs

/-!
# Lemmas about zone cleaning
-/

namespace Verif.Tree

variable {V : Type} {P Q : Nat → Nat → Addr → Prop}

/-- There is a node of level `e` and key `k` below, and it is on disk at `a`. -/
def Has : (h : Nat) → Node V h → (e k : Nat) → Addr → Prop
  | 0, _, _, _, _ => False
  | h + 1, n, e, k, a =>
    ∃ x ∈ n, (e = h ∧ x.1 = k ∧ x.2.info.addr = some a) ∨ Has h x.2.kids e k a

theorem has_lt : ∀ (h : Nat) {n : Node V h} {e k : Nat} {a : Addr}, Has h n e k a → e < h
  | 0, _, _, _, _, h => h.elim
  | h + 1, _, _, _, _, ⟨_, _, h1⟩ => by
    rcases h1 with h1 | h1
    · omega
    · have := has_lt h h1; omega

theorem mem_addrsBelow : ∀ (h : Nat) {n : Node V h} {a : Addr},
    a ∈ addrsBelow h n ↔ ∃ e k, Has h n e k a
  | 0, _, _ => by simp [addrsBelow, Has]
  | h + 1, n, a => by
    simp only [addrsBelow, List.mem_flatMap, List.mem_append, Option.mem_toList, Has]
    constructor
    · rintro ⟨x, hx, h1 | h1⟩
      · exact ⟨h, x.1, x, hx, Or.inl ⟨rfl, rfl, h1⟩⟩
      · obtain ⟨e, k, h2⟩ := (mem_addrsBelow h).mp h1
        exact ⟨e, k, x, hx, Or.inr h2⟩
    · rintro ⟨e, k, x, hx, ⟨-, -, h1⟩ | h1⟩
      · exact ⟨x, hx, Or.inl h1⟩
      · exact ⟨x, hx, Or.inr ((mem_addrsBelow h).mpr ⟨e, k, h1⟩)⟩

theorem mem_addrs {t : Tree V} {a : Addr} :
    a ∈ t.addrs ↔ t.info.addr = some a ∨ ∃ e k, Has t.h t.root e k a := by
  simp only [Tree.addrs, List.mem_append, Option.mem_toList, mem_addrsBelow]

theorem spans_has : ∀ (h : Nat) {lo hi : Nat} {n : Node V h} {e k : Nat} {a : Addr},
    Spans P h lo hi n → Has h n e k a → P e k a ∧ lo ≤ a.txg ∧ a.txg < hi
  | 0, _, _, _, _, _, _, _, h => h.elim
  | h + 1, lo, hi, n, e, k, a, hn, ⟨x, hx, h1⟩ => by
    obtain ⟨w1, w2, w3, w4, w5⟩ := hn x hx
    rcases h1 with ⟨rfl, rfl, h1⟩ | h1
    · obtain ⟨⟨h2, h3⟩, h4⟩ := w4 a h1
      exact ⟨h4, Nat.le_trans w1 h2, Nat.lt_of_lt_of_le h3 w3⟩
    · obtain ⟨h2, h3, h4⟩ := spans_has h w5 h1
      exact ⟨h2, Nat.le_trans w1 h3, Nat.lt_of_lt_of_le h4 w3⟩

theorem spans_of_has : ∀ (h : Nat) {lo hi : Nat} {n : Node V h}, Spans P h lo hi n →
    (∀ e k a, Has h n e k a → Q e k a) → Spans Q h lo hi n
  | 0, _, _, _, _, _ => fun _ _ => trivial
  | h + 1, lo, hi, n, hn, hq => by
    intro x hx
    obtain ⟨w1, w2, w3, w4, w5⟩ := hn x hx
    refine ⟨w1, w2, w3, fun a ha => ⟨(w4 a ha).1, hq _ _ _ ⟨x, hx, Or.inl ⟨rfl, rfl, ha⟩⟩⟩, ?_⟩
    exact spans_of_has h w5 fun e k a ha => hq _ _ _ ⟨x, hx, Or.inr ha⟩

theorem has_bound : ∀ (h : Nat) {lo : Nat} {hi : Option Nat} {n : Node V h} {e k : Nat} {a : Addr},
    Chain (Bounded h) lo hi n → Has h n e k a → lo ≤ k ∧ Below k hi
  | 0, _, _, _, _, _, _, _, h => h.elim
  | h + 1, lo, hi, n, e, k, a, hc, ⟨x, hx, h1⟩ => by
    obtain ⟨pre, post, rfl⟩ := List.append_of_mem hx
    obtain ⟨c1, c2⟩ := chain_mem hc x hx
    rcases h1 with ⟨rfl, rfl, h1⟩ | h1
    · exact ⟨c1, c2⟩
    · obtain ⟨-, -, -, hb, hp⟩ := chain_mid.mp hc
      obtain ⟨h2, h3⟩ := has_bound h hb.2 h1
      refine ⟨Nat.le_trans c1 h2, ?_⟩
      cases post with
      | nil => exact h3
      | cons y ys =>
        have h4 := hp.2.1
        have h3 : k < y.1 := h3
        cases hi with
        | none => trivial
        | some u => have h4 : y.1 < u := h4; show k < u; omega

/-- Where a node can be if its key is known. -/
theorem has_mid {h : Nat} {lo : Nat} {hi : Option Nat} {pre post : Node V (h + 1)}
    {x : Nat × Sub V (h + 1)} {e k : Nat} {a : Addr}
    (hc : Chain (Bounded (h + 1)) lo hi (pre ++ x :: post)) (h1 : pre = [] ∨ x.1 ≤ k)
    (h2 : ∀ y ∈ post, k < y.1) (hh : Has (h + 1) (pre ++ x :: post) e k a) :
    (e = h ∧ x.1 = k ∧ x.2.info.addr = some a) ∨ Has h x.2.kids e k a := by
  obtain ⟨c1, c2, c3, c4, c5⟩ := chain_mid.mp hc
  obtain ⟨y, hy, hh⟩ := hh
  rcases List.mem_append.mp hy with hy | hy
  · exfalso
    have : Has (h + 1) pre e k a := ⟨y, hy, hh⟩
    have h3 : k < x.1 := (has_bound (h + 1) c1 this).2
    rcases h1 with rfl | h1
    · cases hy
    · omega
  · rcases List.mem_cons.mp hy with rfl | hy
    · exact hh
    · exfalso
      have hp : Has (h + 1) post e k a := ⟨y, hy, hh⟩
      cases post with
      | nil => cases hy
      | cons z zs =>
        have h3 := h2 z (List.mem_cons_self ..)
        have := (has_bound (h + 1) (chain_raise c5) hp).1
        omega

/-! ## Finding the nodes -/

theorem overlap_of_mem {a b c d x : Nat} (h1 : a ≤ x) (h2 : x < b) (h3 : c ≤ x) (h4 : x < d) :
    overlap a b c d = true := by
  unfold overlap
  rw [if_neg (by omega), if_neg (by omega)]

/-- The keys of all nodes below. -/
def keysBelow : (h : Nat) → Node V h → List Nat
  | 0, _ => []
  | h + 1, n => n.map (·.1) ++ n.flatMap fun x => keysBelow h x.2.kids

/-- Every node below that lies in the zone was written in one of its transactions. -/
def Recorded (z : Zone) (h : Nat) (n : Node V h) : Prop :=
  ∀ e k a, Has h n e k a → z.holds a = true → z.txgLo ≤ a.txg ∧ a.txg < z.txgHi

theorem recorded_kids {z : Zone} {h : Nat} {n : Node V (h + 1)} (hz : Recorded z (h + 1) n)
    {x : Nat × Sub V (h + 1)} (hx : x ∈ n) : Recorded z h x.2.kids :=
  fun e k a ha => hz e k a ⟨x, hx, Or.inr ha⟩

theorem findIdx_split {α} {p : α → Bool} {l : List α} {j : Nat} (h : l.findIdx? p = some j) :
    ∃ a x b, l = a ++ x :: b ∧ a.length = j ∧ (∀ y ∈ a, p y = false) ∧ p x = true := by
  induction l generalizing j with
  | nil => simp at h
  | cons y l ih =>
    rw [List.findIdx?_cons] at h
    split at h
    · next hp =>
      simp only [Option.some.injEq] at h
      exact ⟨[], y, l, rfl, h, by simp, hp⟩
    · next hp =>
      obtain ⟨i, hi, rfl⟩ := Option.map_eq_some_iff.mp h
      obtain ⟨a, x, b, rfl, rfl, h3, h4⟩ := ih hi
      refine ⟨y :: a, x, b, rfl, rfl, ?_, h4⟩
      intro w hw
      rcases List.mem_cons.mp hw with rfl | hw
      · simpa using hp
      · exact h3 w hw

/-- A node below, in the zone: its parent's element overlaps the zone. -/
theorem has_overlap {z : Zone} {h : Nat} {lo hi : Nat} {n : Node V (h + 1)}
    (hs : Spans P (h + 1) lo hi n) (hz : Recorded z (h + 1) n) {x : Nat × Sub V (h + 1)}
    (hx : x ∈ n) {e k : Nat} {a : Addr} (ha : Has h x.2.kids e k a) (hd : z.holds a = true) :
    overlap x.2.info.start x.2.info.stop z.txgLo z.txgHi = true := by
  obtain ⟨-, -, -, -, w5⟩ := hs x hx
  obtain ⟨-, h1, h2⟩ := spans_has h w5 ha
  obtain ⟨h3, h4⟩ := hz e k a ⟨x, hx, Or.inr ha⟩ hd
  exact overlap_of_mem h1 h2 h3 h4

/-- What a search finds. -/
structure Search (z : Zone) (e key : Nat) (h : Nat) (n : Node V h) (next : Option Nat)
    (ks : List Nat) (nk : Option Nat) : Prop where
  complete : ∀ k a, key ≤ k → Has h n e k a → z.holds a = true →
    k ∈ ks ∨ ∃ m, nk = some m ∧ m ≤ k
  le : ∀ u, next = some u → ∃ m, nk = some m ∧ m ≤ u
  progress : ∀ m, nk = some m → key < m
  key : ∀ m, nk = some m → m ∈ keysBelow h n ∨ next = some m

theorem dirtyR_spec {z : Zone} {e key : Nat} : ∀ (h : Nat) {lo : Nat} {next : Option Nat}
    {lo' hi' : Nat} {n : Node V h}, e < h → Chain (Bounded h) lo next n → n ≠ [] →
    Spans P h lo' hi' n → Recorded z h n → (∀ u, next = some u → key < u) →
    ∃ ks nk, dirtyR z e key h n next = some (ks, nk) ∧ Search z e key h n next ks nk := by
  intro h
  induction h with
  | zero => intro _ _ _ _ _ h; omega
  | succ h ih =>
    intro lo next lo' hi' n he hc hn hs hz hnext
    unfold dirtyR
    split
    · next heq =>
      subst heq
      simp only
      rw [if_pos]
      · refine ⟨_, _, rfl, ⟨?_, fun u hu => ⟨u, hu, Nat.le_refl _⟩, fun m hm => hnext m hm,
          fun m hm => Or.inr hm⟩⟩
        rintro k a - ⟨x, hx, ⟨-, rfl, h1⟩ | h1⟩ hd
        · refine Or.inl (List.mem_map.mpr ⟨x, List.mem_filter.mpr ⟨hx, ?_⟩, rfl⟩)
          unfold Zone.dirty
          rw [h1]; exact hd
        · have := has_lt h h1; omega
      · rw [List.all_eq_true]
        intro x hx
        obtain ⟨hx, hd⟩ := List.mem_filter.mp hx
        obtain ⟨-, -, -, w4, -⟩ := hs x hx
        unfold Zone.dirty at hd
        split at hd
        · cases hd
        · next a ha =>
          obtain ⟨⟨h1, h2⟩, -⟩ := w4 a ha
          obtain ⟨h3, h4⟩ := hz h x.1 a ⟨x, hx, Or.inl ⟨rfl, rfl, ha⟩⟩ hd
          exact overlap_of_mem h3 h4 h1 h2
    · next hne =>
      simp only
      obtain ⟨pre, x0, post, rfl, hp, h1, h2⟩ := position_spec hc hn key
      rw [hp, List.drop_left]
      obtain ⟨c1, c2, c3, c4, c5⟩ := chain_mid.mp hc
      -- nothing from `key` on is left of the child that `key` leads to
      have hleft : ∀ {k a}, key ≤ k → Has (h + 1) (pre ++ x0 :: post) e k a →
          Has (h + 1) (x0 :: post) e k a := by
        rintro k a hk ⟨y, hy, hh⟩
        rcases List.mem_append.mp hy with hy | hy
        · exfalso
          have h3 : k < x0.1 := (has_bound (h + 1) c1 ⟨y, hy, hh⟩).2
          rcases h1 with rfl | h1
          · cases hy
          · omega
        · exact ⟨y, hy, hh⟩
      cases hf : (x0 :: post).findIdx? fun x =>
          overlap x.2.info.start x.2.info.stop z.txgLo z.txgHi with
      | none =>
        refine ⟨_, _, rfl, ⟨?_, fun u hu => ⟨u, hu, Nat.le_refl _⟩, fun m hm => hnext m hm,
          fun m hm => Or.inr hm⟩⟩
        intro k a hk hh hd
        obtain ⟨y, hy, hh⟩ := hleft hk hh
        rcases hh with ⟨h3, -⟩ | hh
        · omega
        · have := has_overlap hs hz (List.mem_append_right _ hy) hh hd
          rw [List.findIdx?_eq_none_iff] at hf
          rw [hf y hy] at this; cases this
      | some j =>
        obtain ⟨mid, x, right, hsplit, hj, h3, h4⟩ := findIdx_split hf
        have hall : pre ++ x0 :: post = (pre ++ mid) ++ x :: right := by
          rw [hsplit, List.append_assoc]
        have hlen : pre.length + j = (pre ++ mid).length := by rw [List.length_append, hj]
        simp only
        rw [hlen, hall, getElem?_mid, Option.bind_some]
        have hnx : ubAfter ((pre ++ mid) ++ x :: right) next (pre ++ mid).length =
            nextKey right next := by
          unfold ubAfter
          rw [List.drop_append, List.drop_of_length_le (by omega), Nat.add_sub_cancel_left]
          cases right <;> rfl
        rw [hnx]
        rw [hall] at hc hs hz hleft
        obtain ⟨d1, d2, d3, d4, d5⟩ := chain_mid.mp hc
        have hxm : x ∈ (pre ++ mid) ++ x :: right := by simp
        have hnk : ∀ u, nextKey right next = some u → key < u := by
          intro u hu
          cases right with
          | nil => exact hnext u hu
          | cons y ys =>
            simp only [nextKey, Option.some.injEq] at hu
            subst hu
            refine h2 y ?_
            cases mid with
            | nil =>
              simp only [List.nil_append, List.cons.injEq] at hsplit
              rw [hsplit.2]; simp
            | cons m ms =>
              simp only [List.cons_append, List.cons.injEq] at hsplit
              rw [hsplit.2]; simp
        obtain ⟨-, -, -, -, w5⟩ := hs x hxm
        obtain ⟨ks, nk, hr, S⟩ := ih (by omega) d4.2 d4.1 w5 (recorded_kids hz hxm) hnk
        refine ⟨ks, nk, hr, ⟨?_, ?_, S.progress, ?_⟩⟩
        · intro k a hk hh hd
          obtain ⟨y, hy, hg⟩ := hleft hk hh
          rcases hg with ⟨h5, -⟩ | hg
          · omega
          · rw [hsplit] at hy
            rcases List.mem_append.mp hy with hy | hy
            · have := has_overlap hs hz (x := y) (by simp [hy]) hg hd
              rw [h3 y hy] at this; cases this
            · rcases List.mem_cons.mp hy with rfl | hy
              · exact S.complete k a hk hg hd
              · refine Or.inr ?_
                cases right with
                | nil => cases hy
                | cons w ws =>
                  have hb := (has_bound (h + 1) (chain_raise d5) ⟨y, hy, Or.inr hg⟩).1
                  obtain ⟨m, hm, hle⟩ := S.le w.1 rfl
                  exact ⟨m, hm, by omega⟩
        · intro u hu
          cases right with
          | nil => exact S.le u hu
          | cons w ws =>
            obtain ⟨m, hm, hle⟩ := S.le w.1 rfl
            refine ⟨m, hm, ?_⟩
            have := d5.2.1
            rw [hu] at this
            have : w.1 < u := this
            omega
        · intro m hm
          simp only [keysBelow, List.mem_append, List.mem_map, List.mem_flatMap]
          rcases S.key m hm with h5 | h5
          · exact Or.inl (Or.inr ⟨x, by simp, h5⟩)
          · cases right with
            | nil => exact Or.inr h5
            | cons w ws =>
              simp only [nextKey, Option.some.injEq] at h5
              exact Or.inl (Or.inl ⟨w, by simp, h5⟩)

/-! ## Rewriting a node -/

theorem rewriteR_spec {txg pba e key : Nat} : ∀ (h : Nat) {lo : Nat} {hi : Option Nat}
    {n : Node V h}, e < h → Chain (Bounded h) lo hi n → n ≠ [] →
    ∃ n', rewriteR txg pba e key h n = some n' ∧ Chain (Bounded h) lo hi n' ∧ n' ≠ [] ∧
      items h n' = items h n ∧ ∀ a, Has h n' e key a → a = { pba, txg } := by
  intro h
  induction h with
  | zero => intro _ _ _ h; omega
  | succ h ih =>
    intro lo hi n he hc hn
    obtain ⟨pre, x, post, rfl, hp, h1, h2⟩ := position_spec hc hn key
    obtain ⟨c1, c2, c3, c4, c5⟩ := chain_mid.mp hc
    -- another child in the same place
    have hput : ∀ (i : Meta) (c : Node V h), c ≠ [] → Chain (Bounded h) x.1 (nextKey post hi) c →
        items h c = items h (kid x) →
        (∀ a, (e = h ∧ i.addr = some a) ∨ Has h c e key a → a = { pba, txg }) →
        Chain (Bounded (h + 1)) lo hi (pre ++ el x.1 i c :: post) ∧
          pre ++ el x.1 i c :: post ≠ [] ∧
          items (h + 1) (pre ++ el x.1 i c :: post) = items (h + 1) (pre ++ x :: post) ∧
          ∀ a, Has (h + 1) (pre ++ el x.1 i c :: post) e key a → a = { pba, txg } := by
      intro i c hc1 hc2 hc3 hc4
      have hch : Chain (Bounded (h + 1)) lo hi (pre ++ el x.1 i c :: post) :=
        chain_mid.mpr ⟨c1, c2, c3, ⟨hc1, hc2⟩, c5⟩
      refine ⟨hch, by simp, ?_, ?_⟩
      · rw [items_mid, items_mid, itemsOf_succ, itemsOf_succ]
        show _ ++ (items h c ++ _) = _
        rw [hc3]
      · intro a ha
        rcases has_mid (x := el x.1 i c) hch h1 h2 ha with ⟨h3, -, h4⟩ | h3
        · exact hc4 a (Or.inl ⟨h3, h4⟩)
        · exact hc4 a (Or.inr h3)
    unfold rewriteR
    rw [hp]
    simp only
    split
    · next heq =>
      subst heq
      rw [getElem?_mid, Option.map_some]
      have hno : ∀ a, ¬Has h (kid x) h key a := fun a ha => by have := has_lt h ha; omega
      cases ha : x.2.info.addr with
      | none =>
        refine ⟨_, rfl, ?_⟩
        refine hput (inf x) (kid x) c4.1 c4.2 rfl ?_
        rintro a (⟨-, h3⟩ | h3)
        · rw [show (inf x).addr = none from ha] at h3; cases h3
        · exact absurd h3 (hno a)
      | some b =>
        refine ⟨_, rfl, ?_⟩
        simp only
        rw [set_mid]
        refine hput _ (kid x) c4.1 c4.2 rfl ?_
        rintro a (⟨-, h3⟩ | h3)
        · simp only [Option.some.injEq] at h3; exact h3.symm
        · exact absurd h3 (hno a)
    · next hne =>
      rw [xlock_mid, Option.bind_some]
      obtain ⟨c', hr, r1, r2, r3, r4⟩ := ih (by omega) c4.2 c4.1
      simp only
      rw [show rewriteR txg pba e key h (kid x) = some c' from hr, Option.map_some]
      refine ⟨_, rfl, ?_⟩
      rw [putKids_mid]
      refine hput _ c' r2 r1 r3 ?_
      rintro a (⟨h3, -⟩ | h3)
      · omega
      · exact r4 a h3

theorem rewriteR_spans {txg pba e key : Nat} (hP : ∀ l k, P l k { pba, txg }) : ∀ (h : Nat)
    {lo : Nat} {n n' : Node V h}, lo ≤ txg → Spans P h lo (txg + 1) n →
    rewriteR txg pba e key h n = some n' → Spans P h lo (txg + 1) n' := by
  intro h
  induction h with
  | zero => intro _ _ _ _ _ hr; simp [rewriteR] at hr
  | succ h ih =>
    intro lo n n' hlo hn hr
    unfold rewriteR at hr
    simp only at hr
    split at hr
    · obtain ⟨x, hx, hr⟩ := Option.map_eq_some_iff.mp hr
      obtain ⟨pre, post, rfl, hp⟩ := mid_of_getElem? hx
      obtain ⟨k, c⟩ := x
      simp only at hr
      split at hr
      · rw [← hr]; exact hn
      · rw [← hr, ← hp, set_mid]
        rw [spans_mid] at hn ⊢
        obtain ⟨h1, ⟨w1, w2, w3, w4, w5⟩, h2⟩ := hn
        refine ⟨h1, ?_, h2⟩
        by_cases h0 : h = 0
        · subst h0
          exact ⟨hlo, Nat.lt_succ_self _, Nat.le_refl _,
            fun a ha => by simp only [Option.some.injEq] at ha; rw [← ha]
                           exact ⟨⟨Nat.le_refl _, Nat.lt_succ_self _⟩, hP _ _⟩,
            fun _ _ => trivial⟩
        · simp only [if_neg h0]
          refine ⟨w1, by show c.info.start < txg + 1; omega, Nat.le_refl _, ?_, ?_⟩
          · intro a ha
            simp only [Option.some.injEq] at ha
            rw [← ha]
            exact ⟨⟨by show c.info.start ≤ txg; omega, Nat.lt_succ_self _⟩, hP _ _⟩
          · exact spans_mono (Nat.le_refl _) w3 w5
    · obtain ⟨⟨n1, c⟩, hx, hr⟩ := Option.bind_eq_some_iff.mp hr
      obtain ⟨-, -, m, -, -, -, ho, hk, -, hput⟩ := xlock_spans hlo hn hx
      obtain ⟨c', hrec, hr⟩ := Option.map_eq_some_iff.mp hr
      rw [← hr]
      exact hput _ (ih ho.now hk hrec)

end Verif.Tree
