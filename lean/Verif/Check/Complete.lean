import Verif.Check.Order

/-!
# A consistent tree passes
-/

namespace Verif.Check

open Verif (OMap)
open Verif.Tree (Addr Meta Child Sub Node Tree Limits items itemsOf firstKey Chain Bounded Below
  nextKey FilledSub addrsBelow)

variable {V : Type} {L : Limits} {rd : Addr → Bool}

theorem lastOf_mem {h : Nat} {n : Node V h} (hn : items h n ≠ []) :
    ∃ x ∈ items h n, x.1 = lastOf h n := by
  obtain ⟨l, hl⟩ := getLast_ne hn
  refine ⟨l, List.mem_of_getLast? hl, ?_⟩
  unfold lastOf
  rw [hl]; rfl

theorem chain_items_ne : ∀ (h : Nat) {lo hi} {n : Node V h}, Chain (Bounded h) lo hi n → n ≠ [] →
    items h n ≠ []
  | 0, _, _, n, _, hn => by rw [Tree.items_zero]; exact hn
  | h + 1, lo, hi, n, hc, hn => by
    obtain ⟨e, es, rfl⟩ := List.exists_cons_of_ne_nil hn
    rw [Tree.items_cons]
    intro h0
    exact chain_items_ne h hc.2.2.1.2 hc.2.2.1.1 (List.append_eq_nil_iff.mp h0).1

theorem chain_first {α} {P : Nat → Option Nat → α → Prop} {lo hi} {n : List (Nat × α)} {k : Nat}
    (hc : Chain P lo hi n) (hk : firstKey n = some k) : lo ≤ k := by
  obtain ⟨a, as, rfl⟩ := firstKey_head hk
  exact hc.1

theorem firstKey_some {α} {n : List (Nat × α)} (hn : n ≠ []) : ∃ k, firstKey n = some k := by
  obtain ⟨e, es, rfl⟩ := List.exists_cons_of_ne_nil hn
  exact ⟨e.1, rfl⟩

theorem kidFirst_ge {h : Nat} {u : Option Nat} {e : Nat × Sub V (h + 1)} (hb : Bounded (h + 1) e.1 u e.2) :
    e.1 ≤ kidFirst h e := by
  cases h with
  | zero =>
    obtain ⟨k, hk⟩ := firstKey_some hb.1
    simp only [kidFirst, hk, Option.getD_some]
    exact chain_first hb.2 hk
  | succ h => exact Nat.le_refl _

theorem runs_chain {h : Nat} : ∀ {n : Node V (h + 1)} {lo hi} {last : Nat},
    Chain (Bounded (h + 1)) lo hi n → (∀ k, firstKey n = some k → last ≤ k) → Runs h last n
  | [], _, _, _, _, _ => trivial
  | e :: es, lo, hi, last, hc, hl => by
    refine ⟨Nat.le_trans (hl e.1 rfl) (kidFirst_ge hc.2.2.1), runs_chain hc.2.2.2 ?_⟩
    intro k hk
    obtain ⟨c, cs, rfl⟩ := firstKey_head hk
    obtain ⟨x, hx, hxl⟩ := lastOf_mem (chain_items_ne h hc.2.2.1.2 hc.2.2.1.1)
    have h1 := ((Tree.items_bound h hc.2.2.1.2).1 x hx).2
    have h1 : x.1 < k := h1
    omega

theorem chain_kid {h : Nat} {lo hi} {n : Node V (h + 1)} (hc : Chain (Bounded (h + 1)) lo hi n)
    {e} (he : e ∈ n) : e.2.kids ≠ [] ∧ ∃ u, Chain (Bounded h) e.1 u e.2.kids := by
  obtain ⟨pre, post, rfl⟩ := List.append_of_mem he
  exact ⟨(Tree.chain_mid.mp hc).2.2.2.1.1, _, (Tree.chain_mid.mp hc).2.2.2.1.2⟩

theorem readable_iff {m : Meta} : readable rd m = true ↔ ∀ a ∈ m.addr.toList, rd a = true := by
  unfold readable
  cases m.addr with
  | none => simp
  | some a => simp

theorem mem_below {h : Nat} {n : Node V (h + 1)} {e} (he : e ∈ n) {a : Addr}
    (ha : a ∈ e.2.info.addr.toList ++ addrsBelow h e.2.kids) : a ∈ addrsBelow (h + 1) n :=
  List.mem_flatMap.mpr ⟨e, he, ha⟩

theorem chain_passed : ∀ (h : Nat) {n : Node V (h + 1)} {lo hi}, Chain (Bounded (h + 1)) lo hi n →
    n ≠ [] → (∀ e ∈ n, FilledSub L (h + 1) e.2) → CoveredBelow (h + 1) n →
    (∀ a ∈ addrsBelow (h + 1) n, rd a = true) → Passed L rd h n := by
  have head : ∀ (h : Nat) {n : Node V (h + 1)} {lo hi}, Chain (Bounded (h + 1)) lo hi n →
      (∀ e ∈ n, FilledSub L (h + 1) e.2) → (∀ a ∈ addrsBelow (h + 1) n, rd a = true) →
      ∀ e ∈ n, Head L rd h e := by
    intro h n lo hi hc hf hr e he
    obtain ⟨hne, u, hk⟩ := chain_kid hc he
    obtain ⟨k, hk0⟩ := firstKey_some hne
    exact ⟨readable_iff.mpr fun a ha => hr a (mem_below he (List.mem_append_left _ ha)),
      (hf e he).1, (hf e he).2.1, k, hk0, chain_first hk hk0⟩
  intro h
  induction h with
  | zero =>
    intro n lo hi hc hn hf _ hr
    exact ⟨hn, runs_chain hc (fun k _ => Nat.zero_le k), head 0 hc hf hr⟩
  | succ h ih =>
    intro n lo hi hc hn hf hv hr
    refine ⟨hn, runs_chain hc (fun k _ => Nat.zero_le k), ?_⟩
    intro e he
    obtain ⟨hne, u, hk⟩ := chain_kid hc he
    exact ⟨head (h + 1) hc hf hr e he, ih hk hne (hf e he).2.2 (hv e he).2
      (fun a ha => hr a (mem_below he (List.mem_append_right _ ha))), (hv e he).1⟩

theorem chain_apart {h : Nat} {n : Node V (h + 1)} {lo hi} (hc : Chain (Bounded (h + 1)) lo hi n) :
    n.Pairwise fun a b => ∀ x ∈ items h a.2.kids, x.1 < b.1 := by
  induction n generalizing lo with
  | nil => exact List.Pairwise.nil
  | cons e es ih =>
    refine List.pairwise_cons.mpr ⟨?_, ih hc.2.2.2⟩
    intro b hb x hx
    have h1 := ((Tree.items_bound h hc.2.2.1.2).1 x hx).2
    cases es with
    | nil => cases hb
    | cons f fs =>
      have h1 : x.1 < f.1 := h1
      rcases List.mem_cons.mp hb with rfl | hb
      · exact h1
      · have := (Tree.chain_mem hc.2.2.2.2.2.2 b hb).1
        omega

theorem chain_leaves : ∀ (h : Nat) {n : Node V h} {lo hi}, Chain (Bounded h) lo hi n →
    Leaves h n ∧ Separated h n
  | 0, n, lo, hi, hc => by
    refine ⟨?_, trivial⟩
    have := (Tree.items_bound 0 hc).2
    rw [Tree.items_zero] at this
    exact this
  | h + 1, n, lo, hi, hc => by
    refine ⟨fun e he => ?_, ?_, fun e he => ?_⟩
    · obtain ⟨-, u, hk⟩ := chain_kid hc he
      exact (chain_leaves h hk).1
    · exact chain_apart hc
    · obtain ⟨-, u, hk⟩ := chain_kid hc he
      exact (chain_leaves h hk).2

/-! ## Back -/

theorem passed_filled : ∀ (h : Nat) {n : Node V (h + 1)}, Passed L rd h n →
    (∀ e ∈ n, FilledSub L (h + 1) e.2) ∧ CoveredBelow (h + 1) n ∧
      ∀ a ∈ addrsBelow (h + 1) n, rd a = true
  | 0, n, hp => by
    refine ⟨fun e he => ⟨(hp.head he).min, (hp.head he).max, fun _ _ => trivial⟩,
      fun e he => ⟨trivial, trivial⟩, ?_⟩
    intro a ha
    obtain ⟨e, he, ha⟩ := List.mem_flatMap.mp ha
    rcases List.mem_append.mp ha with ha | ha
    · exact readable_iff.mp (hp.head he).readable a ha
    · cases ha
  | h + 1, n, hp => by
    have sub := fun e he => passed_filled h (hp.2.2 e he).2.1
    refine ⟨fun e he => ⟨(hp.head he).min, (hp.head he).max, (sub e he).1⟩,
      fun e he => ⟨(hp.2.2 e he).2.2, (sub e he).2.1⟩, ?_⟩
    intro a ha
    obtain ⟨e, he, ha⟩ := List.mem_flatMap.mp ha
    rcases List.mem_append.mp ha with ha | ha
    · exact readable_iff.mp (hp.head he).readable a ha
    · exact (sub e he).2.2 a ha

/-- The check of a tree in terms of `Passed`. -/
theorem check_leaf {info : Meta} {n : Node V 0} : check L rd ⟨0, info, n⟩ = .ok true ↔
    readable rd info = true ∧ n.length ≤ L.max 0 := by
  unfold check
  cases hr : readable rd info with
  | false => simp
  | true => simp [lenOk_root]

theorem check_int {h : Nat} {info : Meta} {n : Node V (h + 1)} :
    check L rd ⟨h + 1, info, n⟩ = .ok true ↔ readable rd info = true ∧ n.length ≤ L.max (h + 1) ∧
      Passed L rd h n ∧ Covered info.start info.stop (h + 1) n := by
  obtain ⟨h1, h2, h3⟩ := checkR_iff (L := L) (rd := rd) h n
  unfold check
  cases hr : readable rd info with
  | false => simp
  | true =>
    simp only [Bool.not_true, Bool.false_eq_true, if_false, true_and]
    constructor
    · intro hc
      unfold rootRest at hc
      split at hc <;> try cases hc
      next r hr =>
      split at hc
      · cases hc
      · next htx =>
        simp only [Res.ok.injEq, Bool.and_eq_true, lenOk_root] at hc
        simp only [Bool.or_eq_true, decide_eq_true_eq, not_or, Nat.not_lt, gt_iff_lt] at htx
        exact ⟨hc.1, h1 r hr hc.2, ((h3 r hr).1 _ _).mp htx⟩
    · rintro ⟨hl, hp, hc⟩
      obtain ⟨r, hr, hrp⟩ := h2 hp
      have := ((h3 r hr).1 _ _).mpr hc
      rw [hr]
      unfold rootRest
      dsimp only
      rw [if_neg (by simp; omega), hrp, lenOk_root.mpr hl]
      rfl

end Verif.Check
