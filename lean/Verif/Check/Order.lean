import Verif.Check.Sound

/-!
# Order
-/

namespace Verif.Check

open Verif (OMap)
open Verif.Tree (Addr Meta Child Sub Node Tree Limits items itemsOf firstKey Chain Bounded Below
  nextKey FilledSub)

variable {V : Type} {L : Limits} {rd : Addr → Bool}

/-- The keys do not decrease. -/
abbrev Up (m : OMap V) : Prop := m.Pairwise fun a b => a.1 ≤ b.1

theorem up_first {m : OMap V} (hu : Up m) {k : Nat} (hk : ∀ x, m.head? = some x → k ≤ x.1) :
    ∀ x ∈ m, k ≤ x.1 := by
  cases m with
  | nil => intro x hx; cases hx
  | cons a m =>
    have ha := hk a rfl
    intro x hx
    rcases List.mem_cons.mp hx with rfl | hx
    · exact ha
    · exact Nat.le_trans ha ((List.pairwise_cons.mp hu).1 x hx)

theorem up_last {h : Nat} {n : Node V h} (hu : Up (items h n)) : ∀ x ∈ items h n, x.1 ≤ lastOf h n := by
  unfold lastOf
  generalize items h n = m at *
  intro x hx
  obtain ⟨l, hl⟩ := getLast_ne (List.ne_nil_of_mem hx)
  rw [hl]
  obtain ⟨ys, rfl⟩ := List.getLast?_eq_some_iff.mp hl
  rcases List.mem_append.mp hx with hx | hx
  · exact (List.pairwise_append.mp hu).2.2 x hx l (by simp)
  · rw [List.mem_singleton.mp hx]; exact Nat.le_refl _

theorem firstKey_head {α} {n : List (Nat × α)} {k : Nat} (h : firstKey n = some k) :
    ∃ a es, n = (k, a) :: es := by
  cases n with
  | nil => cases h
  | cons e es => cases h; exact ⟨e.2, es, rfl⟩

/-- A node that passed, from left to right. -/
theorem up_node {h : Nat} : ∀ {n : Node V (h + 1)} {last : Nat}, Runs h last n →
    (∀ e ∈ n, items h e.2.kids ≠ [] ∧ Up (items h e.2.kids) ∧ ∀ x ∈ items h e.2.kids, kidFirst h e ≤ x.1) →
    Up (items (h + 1) n) ∧ ∀ x ∈ items (h + 1) n, last ≤ x.1
  | [], _, _, _ => ⟨List.Pairwise.nil, fun _ hx => absurd hx List.not_mem_nil⟩
  | e :: es, last, hr, hn => by
    obtain ⟨h1, h2, h3⟩ := hn e (List.mem_cons_self ..)
    obtain ⟨i1, i2⟩ := up_node hr.2 (fun x hx => hn x (List.mem_cons_of_mem _ hx))
    have hl := up_last h2
    obtain ⟨y, ys, hy⟩ := List.exists_cons_of_ne_nil h1
    have hy : y ∈ items h e.2.kids := by rw [hy]; exact List.mem_cons_self ..
    have a1 := h3 y hy
    have a2 := hl y hy
    have a3 := hr.1
    rw [Tree.items_cons]
    have he : itemsOf (h + 1) e = items h e.2.kids := rfl
    rw [he]
    refine ⟨List.pairwise_append.mpr ⟨h2, i1, fun a ha b hb => Nat.le_trans (hl a ha) (i2 b hb)⟩, ?_⟩
    intro x hx
    rcases List.mem_append.mp hx with hx | hx
    · exact Nat.le_trans a3 (h3 x hx)
    · exact Nat.le_trans (by omega) (i2 x hx)

theorem up_strict {m : OMap V} (h : m.Pairwise fun a b => a.1 < b.1) : Up m :=
  h.imp Nat.le_of_lt

theorem passed_up : ∀ (h : Nat) {n : Node V (h + 1)}, Passed L rd h n → Leaves (h + 1) n →
    Up (items (h + 1) n) ∧ LowerBounds (h + 1) n
  | 0, n, hp, hl => by
    have low : ∀ e ∈ n, ∀ k, firstKey e.2.kids = some k → ∀ x ∈ items 0 e.2.kids, k ≤ x.1 := by
      intro e he k hk
      rw [Tree.items_zero]
      refine up_first (up_strict (hl e he)) ?_
      intro x hx
      obtain ⟨a, as, ha⟩ := firstKey_head hk
      have ha : (e.2.kids : OMap V) = (k, a) :: as := ha
      rw [ha] at hx
      cases hx
      exact Nat.le_refl _
    constructor
    · refine (up_node hp.runs ?_).1
      intro e he
      obtain ⟨k, hk, -⟩ := (hp.head he).key
      refine ⟨kid_items_ne hp he, ?_, ?_⟩
      · rw [Tree.items_zero]; exact up_strict (hl e he)
      · have : kidFirst 0 e = k := by simp only [kidFirst, hk, Option.getD_some]
        rw [this]
        exact low e he k hk
    · intro e he
      refine ⟨?_, trivial⟩
      obtain ⟨k, hk, hle⟩ := (hp.head he).key
      exact fun x hx => Nat.le_trans hle (low e he k hk x hx)
  | h + 1, n, hp, hl => by
    have sub : ∀ e ∈ n, Up (items (h + 1) e.2.kids) ∧ LowerBounds (h + 1) e.2.kids :=
      fun e he => passed_up h (hp.2.2 e he).2.1 (hl e he)
    have low : ∀ e ∈ n, ∀ x ∈ items (h + 1) e.2.kids, e.1 ≤ x.1 := by
      intro e he
      obtain ⟨k, hk, hle⟩ := (hp.head he).key
      obtain ⟨c, cs, hc⟩ := firstKey_head hk
      have hc0 : (k, c) ∈ e.2.kids := by rw [hc]; exact List.mem_cons_self ..
      refine up_first (sub e he).1 ?_
      intro x hx
      have hne := kid_items_ne (hp.2.2 e he).2.1 hc0
      have hb := ((sub e he).2 (k, c) hc0).1
      rw [hc, Tree.items_cons] at hx
      have hi : itemsOf (h + 1) (k, c) = items h c.kids := rfl
      rw [hi] at hx
      obtain ⟨y, ys, hy⟩ := List.exists_cons_of_ne_nil hne
      have hy : items h c.kids = y :: ys := hy
      rw [hy] at hx
      cases hx
      exact Nat.le_trans hle (hb x (by show x ∈ items h c.kids; rw [hy]; exact List.mem_cons_self ..))
    exact ⟨(up_node hp.runs fun e he => ⟨kid_items_ne hp he, (sub e he).1, low e he⟩).1,
      fun e he => ⟨low e he, (sub e he).2⟩⟩

/-! ## Ordered trees -/

theorem chain_node {h : Nat} {hi : Option Nat} : ∀ {n : Node V (h + 1)} {lo : Nat},
    (∀ k, firstKey n = some k → lo ≤ k) →
    (n.Pairwise fun a b => ∀ x ∈ items h a.2.kids, x.1 < b.1) →
    (∀ x ∈ items (h + 1) n, Below x.1 hi) →
    (∀ e ∈ n, items h e.2.kids ≠ [] ∧ e.2.kids ≠ [] ∧ (∀ x ∈ items h e.2.kids, e.1 ≤ x.1) ∧
      ∀ u, (∀ x ∈ items h e.2.kids, Below x.1 u) → Chain (Bounded h) e.1 u e.2.kids) →
    Chain (Bounded (h + 1)) lo hi n
  | [], _, _, _, _, _ => trivial
  | e :: es, lo, hlo, hp, hb, hn => by
    obtain ⟨h1, h1', h2, h3⟩ := hn e (List.mem_cons_self ..)
    obtain ⟨p1, p2⟩ := List.pairwise_cons.mp hp
    have he : itemsOf (h + 1) e = items h e.2.kids := rfl
    rw [Tree.items_cons, he] at hb
    obtain ⟨y, ys, hy⟩ := List.exists_cons_of_ne_nil h1
    have hy : y ∈ items h e.2.kids := by rw [hy]; exact List.mem_cons_self ..
    have a1 := h2 y hy
    refine ⟨hlo e.1 rfl, ?_, ⟨h1', h3 _ ?_⟩, ?_⟩
    · have := hb y (List.mem_append_left _ hy)
      cases hi with
      | none => trivial
      | some u => exact Nat.lt_of_le_of_lt a1 this
    · intro x hx
      cases es with
      | nil => exact hb x (List.mem_append_left _ hx)
      | cons f fs => exact p1 f (List.mem_cons_self ..) x hx
    · refine chain_node ?_ p2 (fun x hx => hb x (List.mem_append_right _ hx))
        (fun x hx => hn x (List.mem_cons_of_mem _ hx))
      intro k hk
      obtain ⟨c, cs, rfl⟩ := firstKey_head hk
      have := p1 (k, c) (List.mem_cons_self ..) y hy
      exact Nat.lt_of_le_of_lt a1 this

theorem chain_leaf : ∀ {n : OMap V} {lo : Nat} {hi : Option Nat}, (∀ x ∈ n, lo ≤ x.1) →
    (∀ x ∈ n, Below x.1 hi) → (n.Pairwise fun a b => a.1 < b.1) →
    Chain (α := V) (Bounded 0) lo hi n
  | [], _, _, _, _, _ => trivial
  | e :: es, lo, hi, h1, h2, h3 => by
    obtain ⟨p1, p2⟩ := List.pairwise_cons.mp h3
    exact ⟨h1 e (List.mem_cons_self ..), h2 e (List.mem_cons_self ..), trivial,
      chain_leaf (fun x hx => p1 x hx) (fun x hx => h2 x (List.mem_cons_of_mem _ hx)) p2⟩

/-- A node that passed and whose children are separated is in order. -/
theorem passed_chain : ∀ (h : Nat) {n : Node V (h + 1)} {lo : Nat} {hi : Option Nat},
    Passed L rd h n → Leaves (h + 1) n → Separated (h + 1) n → (∀ k, firstKey n = some k → lo ≤ k) →
    (∀ x ∈ items (h + 1) n, Below x.1 hi) → Chain (Bounded (h + 1)) lo hi n
  | 0, n, lo, hi, hp, hl, hs, hlo, hb => by
    obtain ⟨-, low⟩ := passed_up 0 hp hl
    refine chain_node hlo hs.1 hb ?_
    intro e he
    refine ⟨kid_items_ne hp he, (hp.head he).ne, (low e he).1, ?_⟩
    intro u hu
    have h1 := (low e he).1
    rw [Tree.items_zero] at h1 hu
    exact chain_leaf h1 hu (hl e he)
  | h + 1, n, lo, hi, hp, hl, hs, hlo, hb => by
    obtain ⟨-, low⟩ := passed_up (h + 1) hp hl
    refine chain_node hlo hs.1 hb ?_
    intro e he
    refine ⟨kid_items_ne hp he, (hp.head he).ne, (low e he).1, ?_⟩
    intro u hu
    obtain ⟨k, hk, hle⟩ := (hp.head he).key
    exact passed_chain h (hp.2.2 e he).2.1 (hl e he) (hs.2 e he)
      (fun k' hk' => by rw [hk] at hk'; cases hk'; exact hle) hu

end Verif.Check
