import Verif.Conc.Spec
import Verif.Tree.Lemmas
import Verif.Tree.Remove

/-!
# The invariant of the concurrent tree, and its abstraction

The abstraction applies what a task is about to do to everything below the node it holds.
-/

namespace Verif.Conc

open Verif
open Verif.Tree (Limits position firstKey merge takeLowKeys takeHighKeys Chain Below nextKey)

variable {V : Type}

/-! ## Abstraction -/

def Lock.apply (m : OMap V) : Lock V → OMap V
  | .excl (.insert _ k v) => OMap.insert m k v
  | .excl (.remove _ k) => OMap.remove m k
  | .excl (.fix _ k _) => OMap.remove m k
  | .excl (.fixed _ k) => OMap.remove m k
  | _ => m

def Lock.results (m : OMap V) : Lock V → List (Nat × Res V)
  | .excl (.insert id k _) => [(id, .value (OMap.get m k))]
  | .excl (.remove id k) => [(id, .value (OMap.get m k))]
  | .excl (.fix id k _) => [(id, .value (OMap.get m k))]
  | .excl (.fixed id k) => [(id, .value (OMap.get m k))]
  | .excl (.visit id) => [(id, .unit)]
  | .excl (.held _) => []
  | .shared rs => rs.filterMap fun r => r.result m

theorem filterMap_mid {α β : Type} (f : α → Option β) (pre post : List α) (r : α) :
    (pre ++ r :: post).filterMap f = pre.filterMap f ++ ((f r).toList ++ post.filterMap f) := by
  rw [List.filterMap_append, List.filterMap_cons]
  cases f r <;> rfl

theorem filterMap_front {α β : Type} (f : α → Option β) (rs : List α) (r : α) :
    (r :: rs).filterMap f = (f r).toList ++ rs.filterMap f := filterMap_mid f [] rs r

theorem perm_front {α : Type} (x a b : List α) : (a ++ (x ++ b)).Perm (x ++ (a ++ b)) := by
  rw [← List.append_assoc, ← List.append_assoc]
  exact List.Perm.append_right _ List.perm_append_comm

def absOf : (h : Nat) → Nat × Sub V h → OMap V
  | 0, e => [e]
  | h + 1, e => e.2.lock.apply (e.2.kids.flatMap (absOf h))

def absK (h : Nat) (cs : Kids V h) : OMap V := cs.flatMap (absOf h)

def absN {h : Nat} (n : Node V h) : OMap V := n.lock.apply (absK h n.kids)

def decOf : (h : Nat) → Nat × Sub V h → List (Nat × Res V)
  | 0, _ => []
  | h + 1, e => e.2.lock.results (absK h e.2.kids) ++ e.2.kids.flatMap (decOf h)

def decK (h : Nat) (cs : Kids V h) : List (Nat × Res V) := cs.flatMap (decOf h)

def decN {h : Nat} (n : Node V h) : List (Nat × Res V) :=
  n.lock.results (absK h n.kids) ++ decK h n.kids

theorem absOf_succ (h : Nat) (k : Nat) (c : Node V h) :
    absOf (h + 1) ((k, c) : Nat × Sub V (h + 1)) = absN c := rfl

theorem decOf_succ (h : Nat) (k : Nat) (c : Node V h) :
    decOf (h + 1) ((k, c) : Nat × Sub V (h + 1)) = decN c := rfl

/-! ## Invariant -/

def lockOf : (h : Nat) → Sub V h → Lock V
  | 0, _ => .free
  | _ + 1, c => c.lock

def lenOf : (h : Nat) → Sub V h → Nat
  | 0, _ => 0
  | _ + 1, c => c.kids.length

def LockOk (L : Limits) (a h lo : Nat) (hi : Option Nat) (cs : Kids V h) : Lock V → Prop
  | .excl (.insert _ k _) => h ≠ 0 ∧ lo ≤ k ∧ Below k hi
  | .excl (.remove _ _) => a = 0 ∨ a < cs.length
  | .excl (.fix id k i) => a < cs.length ∧ i = position cs k ∧
      ∃ key c, cs[i]? = some (key, c) ∧ lockOf h c = .excl (.held id) ∧ lenOf h c ≤ L.min (h - 1)
  | .excl (.fixed _ k) =>
      ∃ key c, cs[position cs k]? = some (key, c) ∧ lockOf h c = .free ∧ L.min (h - 1) < lenOf h c
  | _ => True

/-- A child is held only for a task that fixes it. -/
def HeldOk (h : Nat) (cs : Kids V h) (lock : Lock V) : Prop :=
  ∀ j key c id, cs[j]? = some (key, c) → lockOf h c = .excl (.held id) →
    ∃ k, lock = .excl (.fix id k j)

def SubOk (L : Limits) : (h : Nat) → Nat → Option Nat → Sub V h → Prop
  | 0, _, _, _ => True
  | h + 1, lo, hi, c =>
    L.min h ≤ c.kids.length ∧ LockOk L (L.min h) h lo hi c.kids c.lock ∧
      HeldOk h c.kids c.lock ∧ Chain (SubOk L h) lo hi c.kids

structure NodeOk (L : Limits) (a h lo : Nat) (hi : Option Nat) (n : Node V h) : Prop where
  size : a ≤ n.kids.length
  lock : LockOk L a h lo hi n.kids n.lock
  held : HeldOk h n.kids n.lock
  chain : Chain (SubOk L h) lo hi n.kids

theorem subOk_iff {L : Limits} {h lo : Nat} {hi : Option Nat} {n : Node V h} :
    SubOk L (h + 1) lo hi n ↔ NodeOk L (L.min h) h lo hi n :=
  ⟨fun h => ⟨h.1, h.2.1, h.2.2.1, h.2.2.2⟩, fun h => ⟨h.1, h.2, h.3, h.4⟩⟩

def NotHeld : Lock V → Prop
  | .excl (.held _) => False
  | _ => True

/-- The works that can be done at the root pointer. -/
def TopOk : Lock V → Prop
  | .excl (.held _) => False
  | .excl (.fix _ _ _) => False
  | _ => True

/-- The least number of elements of the root node. -/
def rootMin (L : Limits) (h : Nat) (top : Lock V) : Nat :=
  match h, top with
  | 0, _ => 0
  | h + 1, .excl (.fixed _ _) => L.min (h + 1)
  | _ + 1, _ => 1

structure Inv (L : Limits) (s : Sys V) : Prop where
  top : TopOk s.top
  notHeld : NotHeld s.tree.node.lock
  node : NodeOk L (rootMin L s.tree.h s.top) s.tree.h 0 none s.tree.node

/-! ## Monotonicity -/

theorem lockOk_mono {L : Limits} {a h lo lo' : Nat} {hi hi' : Option Nat} {cs : Kids V h}
    {l : Lock V} (hlo : lo' ≤ lo) (hhi : ∀ x, Below x hi → Below x hi')
    (hl : LockOk L a h lo hi cs l) : LockOk L a h lo' hi' cs l := by
  cases l with
  | shared rs => trivial
  | excl w =>
    cases w with
    | insert id k v => exact ⟨hl.1, Nat.le_trans hlo hl.2.1, hhi _ hl.2.2⟩
    | _ => exact hl

theorem subOk_mono (L : Limits) : ∀ (h : Nat) {lo lo' : Nat} {hi hi' : Option Nat} {c : Sub V h},
    lo' ≤ lo → (∀ x, Below x hi → Below x hi') → SubOk L h lo hi c → SubOk L h lo' hi' c
  | 0, _, _, _, _, _, _, _, _ => trivial
  | h + 1, _, _, _, _, _, hlo, hhi, hc =>
    ⟨hc.1, lockOk_mono hlo hhi hc.2.1, hc.2.2.1, Tree.chain_mono (P := SubOk L h)
      (fun _ _ _ _ hbc hp => subOk_mono L h (Nat.le_refl _) hbc hp) hlo hhi hc.2.2.2⟩

theorem chain_wide {L : Limits} {h : Nat} {lo lo' hi hi'} {l : Kids V h} (hlo : lo' ≤ lo)
    (hhi : ∀ x, Below x hi → Below x hi') (hc : Chain (SubOk L h) lo hi l) :
    Chain (SubOk L h) lo' hi' l :=
  Tree.chain_mono (P := SubOk L h)
    (fun _ _ _ _ hbc hp => subOk_mono L h (Nat.le_refl _) hbc hp) hlo hhi hc

theorem chain_mid {L : Limits} {h : Nat} {lo hi} {pre post : Kids V h} {e : Nat × Sub V h} :
    Chain (SubOk L h) lo hi (pre ++ e :: post) ↔
      Chain (SubOk L h) lo (some e.1) pre ∧ lo ≤ e.1 ∧ Below e.1 hi ∧
        SubOk L h e.1 (nextKey post hi) e.2 ∧ Chain (SubOk L h) (e.1 + 1) hi post := by
  rw [Tree.chain_append_cons]
  constructor
  · rintro ⟨h1, h2, h3⟩; exact ⟨h1, h2, h3.2⟩
  · rintro ⟨h1, h2, h3⟩; exact ⟨h1, h2, Nat.le_refl _, h3⟩

theorem NodeOk.wide {L : Limits} {a h lo lo' : Nat} {hi hi' : Option Nat} {n : Node V h}
    (hn : NodeOk L a h lo hi n) (hlo : lo' ≤ lo) (hhi : ∀ x, Below x hi → Below x hi') :
    NodeOk L a h lo' hi' n :=
  ⟨hn.size, lockOk_mono hlo hhi hn.lock, hn.held, chain_wide hlo hhi hn.chain⟩

/-- Fewer elements may be asked for. -/
theorem NodeOk.less {L : Limits} {a b h lo : Nat} {hi : Option Nat} {n : Node V h}
    (hn : NodeOk L a h lo hi n) (hb : b ≤ a) : NodeOk L b h lo hi n := by
  refine ⟨Nat.le_trans hb hn.size, ?_, hn.held, hn.chain⟩
  have hl := hn.lock
  cases hk : n.lock with
  | shared rs => trivial
  | excl w =>
    rw [hk] at hl
    cases w with
    | remove id k => rcases hl with hl | hl <;> simp only [LockOk] <;> omega
    | fix id k i => exact ⟨by have := hl.1; omega, hl.2⟩
    | _ => exact hl

/-! ## Contents -/

theorem absK_zero (n : Kids V 0) : absK 0 n = n := by
  induction n with
  | nil => rfl
  | cons e es ih => simp only [absK, List.flatMap_cons] at *; rw [ih]; rfl

theorem decK_zero (n : Kids V 0) : decK 0 n = [] := by
  induction n with
  | nil => rfl
  | cons e es ih => simp only [decK, List.flatMap_cons] at *; rw [ih]; rfl

theorem absK_mid {h : Nat} (pre post : Kids V h) (e : Nat × Sub V h) :
    absK h (pre ++ e :: post) = absK h pre ++ (absOf h e ++ absK h post) := by
  simp [absK]

theorem decK_mid {h : Nat} (pre post : Kids V h) (e : Nat × Sub V h) :
    decK h (pre ++ e :: post) = decK h pre ++ (decOf h e ++ decK h post) := by
  simp [decK]

def Within (lo : Nat) (hi : Option Nat) (m : OMap V) : Prop :=
  (∀ x ∈ m, lo ≤ x.1 ∧ Below x.1 hi) ∧ OMap.Sorted m

theorem within_remove {lo hi} {m : OMap V} (h : Within lo hi m) (k : Nat) :
    Within lo hi (OMap.remove m k) :=
  ⟨fun x hx => h.1 x (List.mem_filter.mp hx).1, h.2.remove k⟩

theorem within_insert {lo hi} {m : OMap V} (h : Within lo hi m) {k : Nat} {v : V} (h1 : lo ≤ k)
    (h2 : Below k hi) : Within lo hi (OMap.insert m k v) := by
  refine ⟨fun x hx => ?_, h.2.insert k v⟩
  rcases OMap.mem_insert hx with rfl | hx
  · exact ⟨h1, h2⟩
  · exact h.1 x hx

theorem within_apply {L : Limits} {a h lo : Nat} {hi : Option Nat} {cs : Kids V h} {l : Lock V}
    {m : OMap V} (hl : LockOk L a h lo hi cs l) (hm : Within lo hi m) :
    Within lo hi (l.apply m) := by
  cases l with
  | shared rs => exact hm
  | excl w =>
    cases w with
    | insert id k v => exact within_insert hm hl.2.1 hl.2.2
    | remove id k => exact within_remove hm k
    | fix id k i => exact within_remove hm k
    | fixed id k => exact within_remove hm k
    | visit id => exact hm
    | held id => exact hm

theorem below_next {L : Limits} {h lo : Nat} {hi : Option Nat} {post : Kids V h}
    (hc : Chain (SubOk L h) lo hi post) {x : Nat} (hx : Below x (nextKey post hi)) :
    Below x hi := by
  cases post with
  | nil => exact hx
  | cons f fs =>
    have h1 : Below f.1 hi := hc.2.1
    have hx : x < f.1 := hx
    cases hi with
    | none => trivial
    | some u => exact Nat.lt_trans hx h1

theorem within_absK {L : Limits} : ∀ (h : Nat) {lo hi} {cs : Kids V h},
    Chain (SubOk L h) lo hi cs → Within lo hi (absK h cs) := by
  intro h
  induction h with
  | zero =>
    intro lo hi cs hc
    rw [absK_zero]
    refine ⟨Tree.chain_mem hc, ?_⟩
    induction cs generalizing lo with
    | nil => exact List.Pairwise.nil
    | cons e es ih =>
      refine List.Pairwise.cons ?_ (ih hc.2.2.2)
      intro x hx
      have := (Tree.chain_mem hc.2.2.2 x hx).1
      show e.1 < x.1
      omega
  | succ h ih =>
    intro lo hi cs hc
    induction cs generalizing lo with
    | nil => exact ⟨by simp [absK], List.Pairwise.nil⟩
    | cons e es ihc =>
      obtain ⟨h1, h2, h3, h4⟩ := hc
      have hs := ihc h4
      have he : Within e.1 (nextKey es hi) (absOf (h + 1) e) :=
        within_apply h3.2.1 (ih h3.2.2.2)
      have heq : absK (h + 1) (e :: es) = absOf (h + 1) e ++ absK (h + 1) es := by simp [absK]
      rw [heq]
      have hkey : ∀ y ∈ absK (h + 1) es, ∀ x, Below x (nextKey es hi) → x < y.1 := by
        intro y hy x hx
        cases es with
        | nil => simp [absK] at hy
        | cons f fs =>
          have hr := ihc (lo := f.1) (Tree.chain_raise h4)
          have := (hr.1 y hy).1
          have hx : x < f.1 := hx
          omega
      refine ⟨?_, ?_⟩
      · intro x hx
        rcases List.mem_append.mp hx with hx | hx
        · exact ⟨Nat.le_trans h1 (he.1 x hx).1, below_next h4 (he.1 x hx).2⟩
        · exact ⟨by have := (hs.1 x hx).1; omega, (hs.1 x hx).2⟩
      · refine List.pairwise_append.mpr ⟨he.2, hs.2, ?_⟩
        intro x hx y hy
        exact hkey y hy _ (he.1 x hx).2

theorem NodeOk.within {L : Limits} {a h lo : Nat} {hi : Option Nat} {n : Node V h}
    (hn : NodeOk L a h lo hi n) : Within lo hi (absN n) :=
  within_apply hn.lock (within_absK h hn.chain)

/-- The keys left and right of the child that `k` leads to. -/
theorem around {L : Limits} {h : Nat} {lo hi} {pre post : Kids V h} {e : Nat × Sub V h} {k : Nat}
    (hc : Chain (SubOk L h) lo hi (pre ++ e :: post)) (h1 : pre = [] ∨ e.1 ≤ k)
    (h2 : ∀ x ∈ post, k < x.1) :
    (∀ x ∈ absK h pre, x.1 < k) ∧ (∀ x ∈ absK h post, k < x.1) := by
  have hm := chain_mid.mp hc
  constructor
  · intro x hx
    rcases h1 with rfl | h1
    · simp [absK] at hx
    · have : x.1 < e.1 := ((within_absK h hm.1).1 x hx).2
      omega
  · intro x hx
    cases post with
    | nil => simp [absK] at hx
    | cons f fs =>
      have hf : k < f.1 := h2 f (List.mem_cons_self ..)
      have := ((within_absK h (Tree.chain_raise hm.2.2.2.2)).1 x hx).1
      omega

theorem length_remove {m : OMap V} (hm : OMap.Sorted m) (k : Nat) :
    m.length ≤ (OMap.remove m k).length + 1 := by
  have hc : Chain (Tree.Bounded (V := V) 0) 0 none m := by
    suffices h : ∀ (m : OMap V) (lo : Nat), OMap.Sorted m → (∀ x ∈ m, lo ≤ x.1) →
        Chain (Tree.Bounded (V := V) 0) lo none m from h m 0 hm (by simp)
    intro m
    induction m with
    | nil => intro _ _ _; trivial
    | cons e es ih =>
      intro lo hs hlo
      refine ⟨hlo e (List.mem_cons_self ..), trivial, trivial, ih _ hs.tail ?_⟩
      intro x hx
      have : e.1 < x.1 := List.rel_of_pairwise_cons hs hx
      omega
  exact (Tree.length_remove hc).1

theorem length_insert (m : OMap V) (k : Nat) (v : V) : 1 ≤ (OMap.insert m k v).length := by
  cases m with
  | nil => simp [OMap.insert]
  | cons e es =>
    obtain ⟨x, w⟩ := e
    simp only [OMap.insert]
    repeat' split
    all_goals simp

theorem length_absK {L : Limits} (hL : L.Ok) : ∀ (h : Nat) {lo hi} {cs : Kids V h},
    Chain (SubOk L h) lo hi cs → cs.length ≤ (absK h cs).length := by
  intro h
  induction h with
  | zero => intro lo hi cs _; rw [absK_zero]; exact Nat.le_refl _
  | succ h ih =>
    intro lo hi cs hc
    induction cs generalizing lo with
    | nil => simp
    | cons e es ihc =>
      obtain ⟨h1, h2, h3, h4⟩ := hc
      have hs := ihc h4
      have hk := ih h3.2.2.2
      have hw := within_absK h h3.2.2.2
      have hmin := hL.min_pos h
      have hsz := h3.1
      have he : 1 ≤ (absOf (h + 1) e).length := by
        show 1 ≤ (Lock.apply (absK h e.2.kids) e.2.lock).length
        have hl := h3.2.1
        cases hlk : e.2.lock with
        | shared rs => simp only [Lock.apply]; omega
        | excl w =>
          rw [hlk] at hl
          cases w with
          | insert id k v => exact length_insert _ _ _
          | remove id k =>
            have := length_remove hw.2 k
            rcases hl with hl | hl <;> simp only [Lock.apply] <;> omega
          | fix id k i =>
            have := length_remove hw.2 k
            have := hl.1
            simp only [Lock.apply]; omega
          | fixed id k =>
            have := length_remove hw.2 k
            obtain ⟨key, c, _, _, hlen⟩ := hl
            cases h with
            | zero => simp [lenOf] at hlen
            | succ h =>
              have := hL.int_two
              have : 2 ≤ L.min (h + 1) := this
              simp only [Lock.apply]; omega
          | visit id => simp only [Lock.apply]; omega
          | held id => simp only [Lock.apply]; omega
      simp only [absK, List.flatMap_cons, List.length_append, List.length_cons] at *
      omega

end Verif.Conc
