import Verif.Conc.ScanSpec
import Verif.Conc.System
import Verif.Tree.Range

/-!
# What a range query knows while it is on its way
-/

namespace Verif.Conc

open Verif
open Verif.Tree (Limits position firstKey Chain Below nextKey Bnd inRange startOk stopOk belowEnd
  startChild btreeRangePanics inRange_eq)

variable {V : Type}

/-! ## Steps that move some readers are steps -/

theorem StepOf.any {ok : Read → Bool} {L : Limits} {seq : Bool} {h : Nat} {n n' : Node V h}
    {l : Lbl V} (hs : StepOf ok L seq h n l n') : Step L seq h n l n' := by
  induction hs with
  | deeper _ ih => exact .deeper ih
  | removeLeaf => exact .removeLeaf
  | readLeaf _ => exact .readLeaf rfl
  | insertSplit h1 h2 h3 => exact .insertSplit h1 h2 h3
  | insertDown h1 h2 => exact .insertDown h1 h2
  | insertLeaf h1 h2 => exact .insertLeaf h1 h2
  | removeFix h1 h2 => exact .removeFix h1 h2
  | fixPair h1 h2 => exact .fixPair h1 h2
  | removeDown h1 h2 => exact .removeDown h1 h2
  | fixedDown h1 => exact .fixedDown h1
  | readDown _ h1 => exact .readDown rfl h1
  | visitDown h1 => exact .visitDown h1
  | visitDone => exact .visitDone

theorem SysStepOf.any {ok : Read → Bool} {L : Limits} {seq : Bool} {s s' : Sys V}
    {es : List (Event V)} (hs : SysStepOf ok L seq s es s') : SysStep L seq s es s' := by
  cases hs with
  | call id op => exact .call id op
  | enterExcl h1 => exact .enterExcl h1
  | enterShared h1 => exact .enterShared h1
  | inside h1 => exact .inside h1.any
  | insertSplit h1 h2 => exact .insertSplit h1 h2
  | insertDown h1 => exact .insertDown h1
  | insertLeaf h1 => exact .insertLeaf h1
  | removeMerge => exact .removeMerge
  | removeEmpty => exact .removeEmpty
  | removeDown h1 => exact .removeDown h1
  | fixedDown => exact .fixedDown
  | readDown _ => exact .readDown rfl
  | visitDown => exact .visitDown
  | visitDone => exact .visitDone

/-! ## The invariant -/

abbrev Copies (V : Type) := Nat → Option (Bnd Nat × Bnd Nat × OMap V)

/-- What is to the right of the items `m` of the query's node, when `R` follows them in the copy. -/
def Ahead (s e : Bnd Nat) (m R : OMap V) : Option Nat → Prop
  | some k => m ≠ [] ∧ (∀ x ∈ m, x.1 < k) ∧ (∀ x ∈ R, k ≤ x.1) ∧ startOk s k = true ∧
      stopOk e k = true
  | none => (∀ x ∈ R, stopOk e x.1 = false) ∨ (m ≠ [] ∧ ∀ x ∈ m, startOk s x.1 = true)

/-- What holds of a reader at a node whose items are `m`. -/
def ReadOk (C : Copies V) (m : OMap V) : Read → Prop
  | .get _ _ => True
  | .lastKey _ => True
  | .scan id s e next => ∃ M A R, C id = some (s, e, M) ∧ OMap.Sorted M ∧
      btreeRangePanics s e = false ∧ M = A ++ (m ++ R) ∧ (∀ x ∈ A, inRange s e x.1 = false) ∧
      Ahead s e m R next
  | .guard id s e k => ∃ M A R, C id = some (s, e, M) ∧ OMap.Sorted M ∧
      btreeRangePanics s e = false ∧ M = A ++ (m ++ R) ∧ m ≠ [] ∧ (∀ x ∈ m, k ≤ x.1) ∧
      startOk s k = true ∧ ∀ x ∈ A, inRange s e x.1 = false ∨ x.1 < k

def LockReads (C : Copies V) (m : OMap V) (l : Lock V) : Prop :=
  ∀ rs, l = .shared rs → ∀ r ∈ rs, ReadOk C m r

def AllOk (C : Copies V) : (h : Nat) → Sub V h → Prop
  | 0, _ => True
  | h + 1, c => LockReads C (absK h c.kids) c.lock ∧ ∀ e ∈ c.kids, AllOk C h e.2

theorem lockReads_excl {C : Copies V} {m : OMap V} (w : Work V) : LockReads C m (.excl w) :=
  fun _ h => by cases h

theorem lockReads_free {C : Copies V} {m : OMap V} : LockReads C m (.free : Lock V) := by
  intro rs h r hr
  cases h
  simp at hr

theorem lockReads_sub {C : Copies V} {m : OMap V} {rs rs' : List Read}
    (h : LockReads C m (.shared rs)) (hs : ∀ r ∈ rs', r ∈ rs) :
    LockReads C m (.shared rs' : Lock V) := by
  intro _ he r hr
  cases he
  exact h rs rfl r (hs r hr)

theorem lockReads_cons {C : Copies V} {m : OMap V} {rs : List Read} {r : Read}
    (h : LockReads C m (.shared rs)) (hr : ReadOk C m r) :
    LockReads C m (.shared (r :: rs) : Lock V) := by
  intro _ he r' hr'
  cases he
  rcases List.mem_cons.mp hr' with rfl | hr'
  · exact hr
  · exact h rs rfl r' hr'

theorem plain_ok {C : Copies V} {m : OMap V} {r : Read} (h : r.plain = true) : ReadOk C m r := by
  cases r with
  | get => trivial
  | lastKey => trivial
  | scan => cases h
  | guard => cases h

theorem all_fresh {C : Copies V} {h : Nat} {cs : Kids V h} (hc : ∀ e ∈ cs, AllOk C h e.2) :
    AllOk C (h + 1) (fresh cs) := ⟨lockReads_free, hc⟩

theorem all_excl {C : Copies V} {h : Nat} {w : Work V} {cs : Kids V h}
    (hc : ∀ e ∈ cs, AllOk C h e.2) : AllOk C (h + 1) (⟨.excl w, cs⟩ : Node V h) :=
  ⟨lockReads_excl w, hc⟩

theorem all_set {C : Copies V} {h i : Nat} {cs : Kids V h} {e : Nat × Sub V h}
    (hc : ∀ e ∈ cs, AllOk C h e.2) (he : AllOk C h e.2) : ∀ x ∈ cs.set i e, AllOk C h x.2 := by
  intro x hx
  rcases List.mem_or_eq_of_mem_set hx with hx | rfl
  · exact hc x hx
  · exact he

theorem all_get {C : Copies V} {h i : Nat} {cs : Kids V h} {e : Nat × Sub V h}
    (hc : ∀ e ∈ cs, AllOk C h e.2) (he : cs[i]? = some e) : AllOk C h e.2 :=
  hc e (List.mem_of_getElem? he)

/-- The children that `fixPair` makes have their own children from the old ones. -/
theorem fixPair_mem {L : Limits} {h i : Nat} {cs cs' : Kids V (h + 1)}
    (hf : fixPair L h cs i = some cs') : ∀ e ∈ cs', e ∈ cs ∨
      (e.2.lock = .free ∧ ∀ x ∈ e.2.kids, ∃ f ∈ cs, x ∈ f.2.kids) := by
  have key : ∀ (i j : Nat) (ki kj : Nat) (c s : Node V h) (a b : Kids V h) (k : Nat),
      (ki, c) ∈ cs → (kj, s) ∈ cs → (∀ x ∈ a, x ∈ c.kids ∨ x ∈ s.kids) →
      (∀ x ∈ b, x ∈ c.kids ∨ x ∈ s.kids) → ∀ e ∈ (cs.set i (ki, fresh a)).set j (k, fresh b),
      e ∈ cs ∨ (e.2.lock = .free ∧ ∀ x ∈ e.2.kids, ∃ f ∈ cs, x ∈ f.2.kids) := by
    intro i j ki kj c s a b k hc hs ha hb e he
    have hab : ∀ (x : Nat × Sub V h), x ∈ c.kids ∨ x ∈ s.kids → ∃ f ∈ cs, x ∈ f.2.kids := by
      rintro x (hx | hx)
      · exact ⟨_, hc, hx⟩
      · exact ⟨_, hs, hx⟩
    rcases List.mem_or_eq_of_mem_set he with he | rfl
    · rcases List.mem_or_eq_of_mem_set he with he | rfl
      · exact Or.inl he
      · exact Or.inr ⟨rfl, fun x hx => hab x (ha x hx)⟩
    · exact Or.inr ⟨rfl, fun x hx => hab x (hb x hx)⟩
  have merged : ∀ (i j : Nat) (ki kj : Nat) (c s : Node V h) (a : Kids V h),
      (ki, c) ∈ cs → (kj, s) ∈ cs → (∀ x ∈ a, x ∈ c.kids ∨ x ∈ s.kids) →
      ∀ e ∈ (cs.set i (ki, fresh a)).eraseIdx j,
      e ∈ cs ∨ (e.2.lock = .free ∧ ∀ x ∈ e.2.kids, ∃ f ∈ cs, x ∈ f.2.kids) := by
    intro i j ki kj c s a hc hs ha e he
    rcases List.mem_or_eq_of_mem_set (List.mem_of_mem_eraseIdx he) with he | rfl
    · exact Or.inl he
    · refine Or.inr ⟨rfl, fun x hx => ?_⟩
      rcases ha x hx with hx | hx
      · exact ⟨_, hc, hx⟩
      · exact ⟨_, hs, hx⟩
  unfold fixPair at hf
  split at hf
  · split at hf
    · next ki c kj s h1 h2 =>
      have m1 := List.mem_of_getElem? h1
      have m2 := List.mem_of_getElem? h2
      split at hf
      · cases hf
        exact merged _ _ _ _ _ _ _ m1 m2 fun x hx => List.mem_append.mp hx
      · cases ht : Tree.takeLowKeys c.kids s.kids with
        | none => rw [ht] at hf; simp at hf
        | some p =>
          obtain ⟨ck, sk⟩ := p
          rw [ht] at hf
          simp only [Option.bind_some] at hf
          obtain ⟨m, _, _, rfl, rfl⟩ := Tree.takeLowKeys_spec ht
          cases hk : firstKey (s.kids.drop m) with
          | none => rw [hk] at hf; simp at hf
          | some k =>
            rw [hk] at hf
            cases hf
            refine key _ _ _ _ _ _ _ _ _ m1 m2 (fun x hx => ?_) (fun x hx => ?_)
            · rcases List.mem_append.mp hx with hx | hx
              · exact Or.inl hx
              · exact Or.inr (List.mem_of_mem_take hx)
            · exact Or.inr (List.mem_of_mem_drop hx)
    · cases hf
  · split at hf
    · cases hf
    · next j =>
      split at hf
      · next kj s kc c h1 h2 =>
        have m1 := List.mem_of_getElem? h1
        have m2 := List.mem_of_getElem? h2
        split at hf
        · cases hf
          exact merged _ _ _ _ _ _ _ m1 m2 fun x hx => List.mem_append.mp hx
        · cases ht : Tree.takeHighKeys c.kids s.kids with
          | none => rw [ht] at hf; simp at hf
          | some p =>
            obtain ⟨ck, sk⟩ := p
            rw [ht] at hf
            simp only [Option.bind_some] at hf
            obtain ⟨m, _, _, rfl, rfl⟩ := Tree.takeHighKeys_spec ht
            cases hk : firstKey (s.kids.drop (s.kids.length - m) ++ c.kids) with
            | none => rw [hk] at hf; simp at hf
            | some k =>
              rw [hk] at hf
              simp only [Option.map_some, Option.some.injEq] at hf
              subst hf
              intro e he
              have hc1 : ∀ x ∈ s.kids.take (s.kids.length - m), ∃ f ∈ cs, x ∈ f.2.kids :=
                fun x hx => ⟨_, m1, List.mem_of_mem_take hx⟩
              have hc2 : ∀ x ∈ s.kids.drop (s.kids.length - m) ++ c.kids, ∃ f ∈ cs, x ∈ f.2.kids := by
                intro x hx
                rcases List.mem_append.mp hx with hx | hx
                · exact ⟨_, m1, List.mem_of_mem_drop hx⟩
                · exact ⟨_, m2, hx⟩
              rcases List.mem_or_eq_of_mem_set he with he | rfl
              · rcases List.mem_or_eq_of_mem_set he with he | rfl
                · exact Or.inl he
                · exact Or.inr ⟨rfl, hc2⟩
              · exact Or.inr ⟨rfl, hc1⟩
      · cases hf

/-- The other tasks leave the range queries alone. -/
theorem all_step {L : Limits} (hL : L.Ok) {seq : Bool} {C : Copies V} {h : Nat} {n n' : Node V h}
    {l : Lbl V} (hs : StepOf Read.plain L seq h n l n') : ∀ {a lo : Nat} {hi : Option Nat},
      (h ≠ 0 → 1 ≤ a) → NodeOk L a h lo hi n → AllOk C (h + 1) n → AllOk C (h + 1) n' := by
  induction hs with
  | @deeper h lock pre post key c c' l hs ih =>
    intro a lo hi ha hn hall
    obtain ⟨h1, h2, h3, h4, h5⟩ := chain_mid (L := L) (h := h + 1).mp hn.chain
    have h4 : NodeOk L (L.min h) h key (nextKey post hi) c := subOk_iff.mp h4
    have hc := step_ok hL hs.any (fun _ => hL.min_pos h) h4
    have habs : absK (h + 1) (pre ++ (key, c') :: post) = absK (h + 1) (pre ++ (key, c) :: post) := by
      rw [absK_nd, absK_nd, hc.abs]
    refine ⟨?_, ?_⟩
    · show LockReads C (absK (h + 1) (pre ++ (key, c') :: post)) lock
      rw [habs]
      exact hall.1
    · have hk : ∀ e ∈ pre ++ (key, c) :: post, AllOk C (h + 1) e.2 := hall.2
      intro e he
      have he : e ∈ pre ++ (key, c') :: post := he
      rcases List.mem_append.mp he with he | he
      · exact hk e (List.mem_append.mpr (Or.inl he))
      · rcases List.mem_cons.mp he with rfl | he
        · exact ih (fun _ => hL.min_pos h) h4 (hk (key, c) (by simp))
        · exact hk e (List.mem_append.mpr (Or.inr (List.mem_cons_of_mem _ he)))
  | removeLeaf => intro a lo hi _ _ _; exact ⟨lockReads_free, fun _ _ => trivial⟩
  | @readLeaf r pre post n hr =>
    intro a lo hi _ _ hall
    exact ⟨lockReads_sub hall.1 (by simp; grind), hall.2⟩
  | @insertSplit h id k v cs key n left right k' hk hss hsp =>
    intro a lo hi _ hn hall
    obtain ⟨l, x, r, hsp', hnl, hl, hr⟩ := split_spec hL seq (shouldSplit_full hss)
    rw [hsp'] at hsp
    simp only [Option.some.injEq, Prod.mk.injEq] at hsp
    obtain ⟨rfl, rfl, rfl⟩ := hsp
    subst hnl
    have hkid : AllOk C (h + 1) (fresh (l ++ x :: r)) := all_get (h := h + 1) hall.2 hk
    have hks : ∀ e ∈ cs, AllOk C (h + 1) e.2 := hall.2
    obtain ⟨pre, post, rfl, hp⟩ := split_at hk
    rw [hp, Tree.set_mid, Tree.insertIdx_mid]
    refine all_excl (h := h + 1) fun e he => ?_
    have he : e ∈ pre ++ (if k < key then k else key, fresh l) :: (x.1, fresh (x :: r)) :: post := he
    simp only [List.mem_append, List.mem_cons] at he hks
    rcases he with he | rfl | rfl | he
    · exact hks e (Or.inl he)
    · exact all_fresh fun y hy => hkid.2 y (List.mem_append.mpr (Or.inl hy))
    · exact all_fresh fun y hy => hkid.2 y (List.mem_append.mpr (Or.inr hy))
    · exact hks e (Or.inr (Or.inr he))
  | insertDown hk hss =>
    intro a lo hi _ hn hall
    exact all_fresh (all_set hall.2 (all_excl (all_get hall.2 hk).2))
  | insertLeaf hk hss =>
    intro a lo hi _ hn hall
    exact all_fresh (all_set hall.2 (all_fresh fun _ _ => trivial))
  | removeFix hk hdg =>
    intro a lo hi _ hn hall
    exact all_excl (all_set hall.2 (all_excl (all_get hall.2 hk).2))
  | @fixPair h id k i cs cs' key n hk hf =>
    intro a lo hi _ hn hall
    refine all_excl (h := h + 1) fun e he => ?_
    rcases fixPair_mem hf e he with he | ⟨h1, h2⟩
    · exact hall.2 e he
    · refine ⟨by rw [h1]; exact lockReads_free, fun x hx => ?_⟩
      obtain ⟨f, hf, hx⟩ := h2 x hx
      exact (hall.2 f hf).2 x hx
  | removeDown hk hdg =>
    intro a lo hi _ hn hall
    exact all_fresh (all_set hall.2 (all_excl (all_get hall.2 hk).2))
  | fixedDown hk =>
    intro a lo hi _ hn hall
    exact all_fresh (all_set hall.2 (all_excl (all_get hall.2 hk).2))
  | @readDown h r rpre rpost rs cs key n hr hk =>
    intro a lo hi _ hn hall
    have habs : absK (h + 1) (cs.set (r.child cs) (key, (⟨.shared (r :: rs), n⟩ : Node V h))) =
        absK (h + 1) cs := by
      obtain ⟨pre, post, rfl, hp⟩ := split_at hk
      rw [hp, Tree.set_mid, absK_nd, absK_nd]
      rfl
    have hkid : AllOk C (h + 1) (⟨.shared rs, n⟩ : Node V h) := all_get (h := h + 1) hall.2 hk
    refine ⟨?_, all_set (h := h + 1) hall.2 ⟨lockReads_cons hkid.1 (plain_ok hr), hkid.2⟩⟩
    show LockReads C (absK (h + 1) (cs.set _ _)) _
    rw [habs]
    exact lockReads_sub hall.1 (by simp; grind)
  | visitDown hk =>
    intro a lo hi _ hn hall
    exact all_fresh (all_set hall.2 (all_excl (all_get hall.2 hk).2))
  | visitDone => intro a lo hi _ _ hall; exact all_fresh hall.2

/-! ## More copies -/

theorem readOk_ext {C C' : Copies V} (hx : ∀ id x, C id = some x → C' id = some x) {m : OMap V}
    {r : Read} (h : ReadOk C m r) : ReadOk C' m r := by
  cases r with
  | get => trivial
  | lastKey => trivial
  | scan => obtain ⟨M, A, R, h1, h2⟩ := h; exact ⟨M, A, R, hx _ _ h1, h2⟩
  | guard => obtain ⟨M, A, R, h1, h2⟩ := h; exact ⟨M, A, R, hx _ _ h1, h2⟩

theorem all_ext {C C' : Copies V} (hx : ∀ id x, C id = some x → C' id = some x) :
    ∀ (h : Nat) {c : Sub V h}, AllOk C h c → AllOk C' h c
  | 0, _, _ => trivial
  | h + 1, _, hc => ⟨fun rs he r hr => readOk_ext hx (hc.1 rs he r hr),
      fun e he => all_ext hx h (hc.2 e he)⟩

end Verif.Conc
