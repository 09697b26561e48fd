import Verif.Check.Root

/-!
# Which checks return at all, and which trees are filled
-/

namespace Verif.Check

open Verif (OMap)
open Verif.Tree

variable {V : Type} {L : Limits} {rd : Addr → Bool}

theorem collect_returns {α β : Type} {f : α → Res β} : ∀ {as : List α},
    (∃ bs, collect f as = .ok bs) ↔ ∀ a ∈ as, ∃ b, f a = .ok b
  | [] => ⟨fun _ _ h => absurd h List.not_mem_nil, fun _ => ⟨[], rfl⟩⟩
  | a :: as => by
    rw [List.forall_mem_cons, ← collect_returns]
    constructor
    · rintro ⟨bs, h⟩
      unfold collect at h
      split at h <;> try cases h
      next b hb =>
      split at h <;> try cases h
      next bs' hbs =>
      exact ⟨⟨b, hb⟩, bs', hbs⟩
    · rintro ⟨⟨b, hb⟩, bs, hbs⟩
      exact ⟨b :: bs, by simp only [collect, hb, hbs]⟩

theorem collect_length {α β : Type} {f : α → Res β} : ∀ {as : List α} {bs : List β},
    collect f as = .ok bs → bs.length = as.length
  | [], bs, h => by cases h; rfl
  | a :: as, bs, h => by
    unfold collect at h
    split at h <;> try cases h
    next b hb =>
    split at h <;> try cases h
    next bs' hbs =>
    simp [collect_length hbs]

theorem summary_returns {h : Nat} {n : Node V (h + 1)} {ks : List Kid} (hl : ks.length = n.length) :
    (∃ r, summary h n ks = .ok r) ↔ n ≠ [] := by
  constructor
  · rintro ⟨r, hr⟩; exact (summary_spec hr).1
  · intro hn
    obtain ⟨e, es, rfl⟩ := List.exists_cons_of_ne_nil hn
    cases ks with
    | nil => simp at hl
    | cons k ks => exact ⟨_, rfl⟩

theorem checkR_collect {h : Nat} {n : Node V (h + 1)} {f : Nat × Sub V (h + 1) → Res Kid}
    (hd : checkR L rd h n = match collect f n with
      | .ok ks => summary h n ks
      | .err => .err
      | .panic => .panic) :
    (∃ r, checkR L rd h n = .ok r) ↔ n ≠ [] ∧ ∀ e ∈ n, ∃ k, f e = .ok k := by
  rw [hd, ← collect_returns]
  constructor
  · rintro ⟨r, hr⟩
    split at hr <;> try cases hr
    next ks hks => exact ⟨(summary_spec hr).1, ks, hks⟩
  · rintro ⟨hn, ks, hks⟩
    rw [hks]
    exact (summary_returns (collect_length hks)).mpr hn

theorem nodeCheck_returns {h key : Nat} {n : Node V h} :
    (∃ b, nodeCheck L h false key n = some b) ↔ n ≠ [] := by
  unfold nodeCheck
  cases n with
  | nil => simp [firstKey]
  | cons e es => simp [firstKey]

theorem kidLeaf_returns {e : Nat × Sub V 1} :
    (∃ k, kidLeaf L rd e = .ok k) ↔ readable rd e.2.info = true ∧ e.2.kids ≠ [] := by
  unfold kidLeaf
  cases hr : readable rd e.2.info with
  | false => simp
  | true =>
    simp only [Bool.not_true, Bool.false_eq_true, if_false, true_and]
    constructor
    · rintro ⟨k, hk⟩
      split at hk <;> try cases hk
      next h1 _ _ => exact nodeCheck_returns.mp ⟨_, h1⟩
    · intro hn
      obtain ⟨b, hb⟩ := nodeCheck_returns (L := L) (key := e.1).mpr hn
      obtain ⟨k, hk⟩ := firstKey_some hn
      obtain ⟨l, hl⟩ := getLast_ne hn
      rw [hb, hk, hl]
      exact ⟨_, rfl⟩

theorem kidInt_returns {h : Nat} {go : Node V (h + 1) → Res Report} {e : Nat × Sub V (h + 2)} :
    (∃ k, kidInt L rd h go e = .ok k) ↔
      readable rd e.2.info = true ∧ e.2.kids ≠ [] ∧ ∃ r, go e.2.kids = .ok r := by
  unfold kidInt
  cases hr : readable rd e.2.info with
  | false => simp
  | true =>
    simp only [Bool.not_true, Bool.false_eq_true, if_false, true_and]
    constructor
    · rintro ⟨k, hk⟩
      split at hk
      · cases hk
      · next b hb =>
        refine ⟨nodeCheck_returns.mp ⟨b, hb⟩, ?_⟩
        split at hk <;> try cases hk
        next r hr => exact ⟨r, hr⟩
    · rintro ⟨hn, r, hr⟩
      obtain ⟨b, hb⟩ := nodeCheck_returns (L := L) (key := e.1).mpr hn
      rw [hb, hr]
      dsimp only
      split <;> exact ⟨_, rfl⟩

theorem checkR_returns : ∀ (h : Nat) (n : Node V (h + 1)), (∃ r, checkR L rd h n = .ok r) ↔
    (∀ a ∈ addrsBelow (h + 1) n, rd a = true) ∧ NoEmpty (h + 1) n
  | 0, n => by
    rw [checkR_collect (f := kidLeaf L rd) (by rw [checkR]; rfl)]
    constructor
    · rintro ⟨hn, hk⟩
      refine ⟨?_, hn, fun e he => ⟨(kidLeaf_returns.mp (hk e he)).2, trivial⟩⟩
      intro a ha
      obtain ⟨e, he, ha⟩ := List.mem_flatMap.mp ha
      rcases List.mem_append.mp ha with ha | ha
      · exact readable_iff.mp (kidLeaf_returns.mp (hk e he)).1 a ha
      · cases ha
    · rintro ⟨hr, hn, hk⟩
      exact ⟨hn, fun e he => kidLeaf_returns.mpr
        ⟨readable_iff.mpr fun a ha => hr a (mem_below he (List.mem_append_left _ ha)), (hk e he).1⟩⟩
  | h + 1, n => by
    rw [checkR_collect (f := kidInt L rd h (checkR L rd h)) (by rw [checkR]; rfl)]
    constructor
    · rintro ⟨hn, hk⟩
      have sub := fun e he => (checkR_returns h _).mp (kidInt_returns.mp (hk e he)).2.2
      refine ⟨?_, hn, fun e he => ⟨(kidInt_returns.mp (hk e he)).2.1, (sub e he).2⟩⟩
      intro a ha
      obtain ⟨e, he, ha⟩ := List.mem_flatMap.mp ha
      rcases List.mem_append.mp ha with ha | ha
      · exact readable_iff.mp (kidInt_returns.mp (hk e he)).1 a ha
      · exact (sub e he).1 a ha
    · rintro ⟨hr, hn, hk⟩
      exact ⟨hn, fun e he => kidInt_returns.mpr
        ⟨readable_iff.mpr fun a ha => hr a (mem_below he (List.mem_append_left _ ha)), (hk e he).1,
          (checkR_returns h _).mpr ⟨fun a ha => hr a (mem_below he (List.mem_append_right _ ha)),
            (hk e he).2⟩⟩⟩

theorem chain_noEmpty : ∀ (h : Nat) {n : Node V h} {lo hi}, Chain (Bounded h) lo hi n →
    (h ≠ 0 → n ≠ []) → NoEmpty h n
  | 0, _, _, _, _, _ => trivial
  | h + 1, n, lo, hi, hc, hn => by
    refine ⟨hn (by omega), fun e he => ?_⟩
    obtain ⟨h1, u, h2⟩ := chain_kid hc he
    exact ⟨h1, chain_noEmpty h h2 fun _ => h1⟩

/-! ## Zone cleaning keeps the sizes -/

theorem rewriteR_filled {txg pba e key : Nat} : ∀ (h : Nat) {n n' : Node V h},
    (∀ x ∈ n, FilledSub L h x.2) → rewriteR txg pba e key h n = some n' →
    n'.length = n.length ∧ ∀ x ∈ n', FilledSub L h x.2
  | 0, _, _, _, hr => by simp [rewriteR] at hr
  | h + 1, n, n', hf, hr => by
    unfold rewriteR at hr
    simp only at hr
    split at hr
    · obtain ⟨⟨k, c⟩, hx, hr⟩ := Option.map_eq_some_iff.mp hr
      dsimp only at hr
      split at hr
      · rw [← hr]; exact ⟨rfl, hf⟩
      · rw [← hr]
        refine ⟨List.length_set .., ?_⟩
        intro x hx'
        rcases List.mem_or_eq_of_mem_set hx' with h1 | rfl
        · exact hf x h1
        · exact hf (k, c) (List.mem_of_getElem? hx)
    · obtain ⟨⟨n1, c⟩, hx, hr⟩ := Option.bind_eq_some_iff.mp hr
      obtain ⟨c', hc, hr⟩ := Option.map_eq_some_iff.mp hr
      obtain ⟨pre, x, post, rfl, hp, hx⟩ := xlock_some hx
      simp only [Prod.mk.injEq] at hx
      obtain ⟨rfl, rfl⟩ := hx
      rw [← hr, ← hp, putKids_mid]
      have hfx := hf x (by simp)
      obtain ⟨l1, l2⟩ := rewriteR_filled h hfx.2.2 hc
      refine ⟨by simp, ?_⟩
      intro y hy
      rcases List.mem_append.mp hy with hy | hy
      · exact hf y (List.mem_append_left _ hy)
      · rcases List.mem_cons.mp hy with rfl | hy
        · exact ⟨by show L.min h ≤ c'.length; rw [l1]; exact hfx.1,
            by show c'.length ≤ L.max h; rw [l1]; exact hfx.2.1, l2⟩
        · exact hf y (List.mem_append_right _ (List.mem_cons_of_mem _ hy))

theorem rewrite_filled {txg pba e key : Nat} {t t' : Tree V} (hf : t.Filled L)
    (hr : t.rewrite txg pba e key = some t') : t'.Filled L := by
  unfold Tree.rewrite at hr
  split at hr
  · split at hr
    · simp only [Option.some.injEq] at hr; subst hr; exact hf
    · simp only [Option.some.injEq] at hr; subst hr; exact hf
  · simp only [Tree.xlockRoot] at hr
    obtain ⟨n, hn, hr⟩ := Option.map_eq_some_iff.mp hr
    subst hr
    obtain ⟨l1, l2⟩ := rewriteR_filled t.h hf.2 hn
    exact ⟨by show n.length ≤ L.max t.h; rw [l1]; exact hf.1, l2⟩

theorem grown_reached {seq : Bool} {T : Nat} {t : Tree V} (h : Grown L seq T t) : Reached L seq T t := by
  induction h with
  | empty => exact .empty
  | op _ hT _ hs ih => exact .op ih hT hs
  | rewrite _ hT hs ih => exact .rewrite ih hT hs

theorem grown_filled (hL : L.Ok) {seq : Bool} {T : Nat} {t : Tree V} (h : Grown L seq T t) :
    t.Filled L := by
  induction h with
  | empty => exact ⟨Nat.zero_le _, fun _ he => absurd he List.not_mem_nil⟩
  | @op T t t' op r hg hT hp hs ih =>
    obtain ⟨t1, r1, h1, h2⟩ := step_filled hL seq (reached_good hL (grown_reached hg)).ordered ih hp
    rw [hs] at h1
    simp only [Option.some.injEq, Prod.mk.injEq] at h1
    rw [h1.1]
    exact h2
  | rewrite _ hT hs ih => exact rewrite_filled ih hs

end Verif.Check
