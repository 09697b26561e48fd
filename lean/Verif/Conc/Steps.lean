import Verif.Conc.Nodes

/-!
# Every step keeps the invariant, the abstract map and the results that were decided
-/

namespace Verif.Conc

open Verif
open Verif.Tree (Limits position firstKey Chain Below nextKey)

variable {V : Type}

/-- What a step below a node keeps. -/
structure StepOk (L : Limits) (a h lo : Nat) (hi : Option Nat) (n : Node V h) (l : Lbl V)
    (n' : Node V h) : Prop where
  ok : NodeOk L a h lo hi n'
  abs : absN n' = absN n
  dec : (decN n).Perm (l.toList ++ decN n')

/-- Steps below a node do not touch it if nobody at it can work. -/
theorem step_quiet {L : Limits} {seq : Bool} {h : Nat} {n n' : Node V h} {l : Lbl V}
    (hs : Step L seq h n l n') (hq : Quiet n) :
    n'.lock = n.lock ∧ n'.kids.length = n.kids.length := by
  cases hs <;> first
    | (rcases hq with hq | ⟨_, hq⟩ <;> simp [Lock.free] at hq; done)
    | exact ⟨rfl, by simp⟩

theorem step_notHeld {L : Limits} {seq : Bool} {h : Nat} {n n' : Node V h} {l : Lbl V}
    (hs : Step L seq h n l n') (hq : NotHeld n.lock) : NotHeld n'.lock := by
  cases hs <;> first | exact hq | trivial

theorem perm_in {α : Type} (x a d b : List α) : (x ++ (a ++ (d ++ b))).Perm (a ++ ((x ++ d) ++ b)) := by
  have : (x ++ a ++ (d ++ b)).Perm (a ++ x ++ (d ++ b)) :=
    List.Perm.append_right _ List.perm_append_comm
  simpa only [List.append_assoc] using this

/-- A task goes down from a node to the child that its key leads to. -/
theorem descend {L : Limits} {a h lo : Nat} {hi : Option Nat} {lk lk' : Lock V}
    {cl cl' : Lock V} {pre post : List (Nat × Node V h)} {key key' : Nat} {n : Kids V h}
    (hn : NodeOk L a (h + 1) lo hi ⟨lk, pre ++ (key, ⟨cl, n⟩) :: post⟩)
    (hnf : ∀ id k j, lk ≠ .excl (.fix id k j))
    (hlk' : LockOk L a (h + 1) lo hi (pre ++ (key', ⟨cl', n⟩) :: post) lk')
    (hcl : ∀ id k j, cl ≠ .excl (.fix id k j))
    (hcl' : LockOk L (L.min h) h key' (nextKey post hi) n cl') (hnh : NotHeld cl')
    (hlo : lo ≤ key') (hle : key' ≤ key) (hp : pre = [] ∨ key' = key) :
    NodeOk L a (h + 1) lo hi ⟨lk', pre ++ (key', ⟨cl', n⟩) :: post⟩ := by
  obtain ⟨h1, h2, h3, h4, h5⟩ := chain_mid (L := L) (h := h + 1).mp hn.chain
  have h4 : NodeOk L (L.min h) h key (nextKey post hi) ⟨cl, n⟩ := subOk_iff.mp h4
  have hk := notHeld_of h4.held hcl
  refine ⟨by simpa using hn.size, hlk', heldOk_of ?_, ?_⟩
  · have hn2 := notHeld_of hn.held hnf
    intro e he
    simp only [List.mem_append, List.mem_cons] at he hn2
    rcases he with he | rfl | he
    · exact hn2 e (Or.inl he)
    · exact hnh
    · exact hn2 e (Or.inr (Or.inr he))
  · refine replace_chain (e' := (key', (⟨cl', n⟩ : Node V h))) hn.chain hlo hle hp
      (subOk_iff.mpr ⟨h4.size, hcl', heldOk_of hk, ?_⟩)
    exact chain_wide hle (fun _ h => h) h4.chain

/-- The same, seen as maps: exclusive work. -/
theorem descend_abs {L : Limits} {h lo : Nat} {hi : Option Nat} {pre post : List (Nat × Node V h)}
    {key key' k : Nat} {n n' : Node V h} (f : OMap V → OMap V) (id : Nat)
    (hc : Chain (SubOk L (h + 1)) lo hi (pre ++ (key, n) :: post))
    (h1 : pre = [] ∨ key ≤ k) (h2 : ∀ x ∈ post, k < x.1)
    (hf : ∀ a m b : OMap V, (∀ x ∈ a, x.1 < k) → (∀ x ∈ b, k < x.1) →
      f (a ++ (m ++ b)) = a ++ (f m ++ b))
    (ha : absN n' = f (absN n))
    (hd : decN n' = (id, .value (OMap.get (absN n) k)) :: decN n) :
    absK (h + 1) (pre ++ (key', n') :: post) = f (absK (h + 1) (pre ++ (key, n) :: post)) ∧
    ((id, Res.value (OMap.get (absK (h + 1) (pre ++ (key, n) :: post)) k)) ::
      decK (h + 1) (pre ++ (key, n) :: post)).Perm (decK (h + 1) (pre ++ (key', n') :: post)) := by
  have har := around hc h1 h2
  rw [absK_nd, absK_nd, hf _ _ _ har.1 har.2, ha, Tree.get_mid har.1 har.2, decK_nd, decK_nd, hd]
  exact ⟨rfl, perm_in [_] _ _ _⟩

theorem fresh_dec {h : Nat} (n : Kids V h) (lk : Lock V) :
    decN (⟨lk, n⟩ : Node V h) = lk.results (absN (fresh n)) ++ decN (fresh n) := by
  simp [decN, absN, fresh, Lock.apply, Lock.results]

theorem length_insert_le (n : OMap V) (k : Nat) (v : V) :
    n.length ≤ (OMap.insert n k v).length := by
  induction n with
  | nil => simp
  | cons e es ih =>
    obtain ⟨y, w⟩ := e
    simp only [OMap.insert]
    split
    · simp
    · split
      · simp
      · simpa using ih

/-- What is below a node changes, and nobody sees it from the node. -/
theorem deeper_ok {L : Limits} {a h lo : Nat} {hi : Option Nat} {lock : Lock V}
    {pre post : List (Nat × Node V h)} {key : Nat} {c c' : Node V h}
    (hn : NodeOk L a (h + 1) lo hi ⟨lock, pre ++ (key, c) :: post⟩)
    (hq : Quiet c → c'.lock = c.lock ∧ c'.kids.length = c.kids.length)
    (hnh : NotHeld c.lock → NotHeld c'.lock)
    (hok : NodeOk L (L.min h) h key (nextKey post hi) c') :
    NodeOk L a (h + 1) lo hi ⟨lock, pre ++ (key, c') :: post⟩ := by
  obtain ⟨h1, h2, h3, h4, h5⟩ := chain_mid (L := L) (h := h + 1).mp hn.chain
  refine ⟨by simpa using hn.size, ?_, ?_, ?_⟩
  · have hl := hn.lock
    cases lock with
    | shared rs => trivial
    | excl w =>
      cases w with
      | fix id k i =>
        obtain ⟨g1, g2, gk, gc, g3, g4, g5⟩ := hl
        refine ⟨by simpa using g1, by rw [g2]; exact position_same.symm, ?_⟩
        by_cases hi : i = pre.length
        · have g3' := g3
          rw [hi, Tree.getElem?_mid] at g3'
          cases g3'
          have hq := hq (Or.inr ⟨id, g4⟩)
          refine ⟨key, c', by rw [hi]; exact Tree.getElem?_mid .., hq.1.trans g4, ?_⟩
          exact Nat.le_trans (Nat.le_of_eq hq.2) g5
        · rcases getElem?_replace (e := (key, c')) g3 with ⟨g, _⟩ | ⟨_, g⟩
          · exact absurd g hi
          · exact ⟨gk, gc, g, g4, g5⟩
      | fixed id k =>
        obtain ⟨gk, gc, g3, g4, g5⟩ := hl
        simp only [LockOk]
        rw [position_same (c := c)]
        generalize position (pre ++ (key, c) :: post) k = i at g3 ⊢
        by_cases hi : i = pre.length
        · have g3' := g3
          rw [hi, Tree.getElem?_mid] at g3'
          cases g3'
          have hq := hq (Or.inl g4)
          refine ⟨key, c', by rw [hi]; exact Tree.getElem?_mid .., hq.1.trans g4, ?_⟩
          exact Nat.lt_of_lt_of_le g5 (Nat.le_of_eq hq.2.symm)
        · rcases getElem?_replace (e := (key, c')) g3 with ⟨g, _⟩ | ⟨_, g⟩
          · exact absurd g hi
          · exact ⟨gk, gc, g, g4, g5⟩
      | insert id k v => exact hl
      | remove id k => simpa [LockOk] using hl
      | visit id => trivial
      | held id => trivial
  · intro j k x id hj hl
    rcases getElem?_replace (e := (key, c)) hj with ⟨rfl, hx⟩ | ⟨_, hx⟩
    · cases hx
      have hl : c'.lock = .excl (.held id) := hl
      refine hn.held pre.length key c id (Tree.getElem?_mid ..) ?_
      show c.lock = _
      cases hcl : c.lock with
      | shared rs =>
        have := hnh (by rw [hcl]; trivial)
        rw [hl] at this; exact this.elim
      | excl w =>
        cases w with
        | held id' =>
          have := (hq (Or.inr ⟨id', hcl⟩)).1
          rw [← hcl, ← this, hl]
        | _ =>
          have := hnh (by rw [hcl]; trivial)
          rw [hl] at this; exact this.elim
    · exact hn.held j k x id hx hl
  · exact replace_chain (e' := (key, c')) hn.chain h2 (Nat.le_refl _) (Or.inr rfl)
      (subOk_iff.mpr hok)

theorem step_ok {L : Limits} (hL : L.Ok) {seq : Bool} {h : Nat} {n n' : Node V h} {l : Lbl V}
    (hs : Step L seq h n l n') : ∀ {a lo : Nat} {hi : Option Nat}, (h ≠ 0 → 1 ≤ a) →
      NodeOk L a h lo hi n → StepOk L a h lo hi n l n' := by
  induction hs with
  | @deeper h lock pre post key c c' l hs ih =>
    intro a lo hi ha hn
    obtain ⟨h1, h2, h3, h4, h5⟩ := chain_mid (L := L) (h := h + 1).mp hn.chain
    have h4 : NodeOk L (L.min h) h key (nextKey post hi) c := subOk_iff.mp h4
    have hc := ih (fun _ => hL.min_pos h) h4
    have habs : absK (h + 1) (pre ++ (key, c') :: post) = absK (h + 1) (pre ++ (key, c) :: post) := by
      rw [absK_nd, absK_nd, hc.abs]
    refine ⟨deeper_ok hn (step_quiet hs) (step_notHeld hs) hc.ok, ?_, ?_⟩
    · show Lock.apply (absK (h + 1) _) lock = Lock.apply (absK (h + 1) _) lock
      rw [habs]
    · show (Lock.results (absK (h + 1) _) lock ++ decK (h + 1) _).Perm
        (_ ++ (Lock.results (absK (h + 1) _) lock ++ decK (h + 1) _))
      rw [habs, decK_nd, decK_nd]
      have hp := hc.dec
      have h1 : (decK (h + 1) pre ++ (decN c ++ decK (h + 1) post)).Perm
          (l.toList ++ (decK (h + 1) pre ++ (decN c' ++ decK (h + 1) post))) :=
        (List.Perm.append_left _ (List.Perm.append_right _ hp)).trans (perm_in _ _ _ _).symm
      refine (List.Perm.append_left _ h1).trans ?_
      rw [← List.append_assoc, ← List.append_assoc l.toList]
      exact List.Perm.append_right _ List.perm_append_comm
  | @removeLeaf id k n =>
    intro a lo hi ha hn
    have hsz := hn.lock
    have hlen := length_remove (within_absK 0 hn.chain).2 k
    rw [absK_zero] at hlen
    have hle : (OMap.remove n k).length ≤ n.length := List.length_filter_le ..
    refine ⟨⟨?_, trivial, ?_, ?_⟩, ?_, ?_⟩
    · have := hn.size
      simp only at this hlen ⊢
      rcases hsz with hsz | hsz
      · omega
      · simp only at hsz; omega
    · intro j key c id' _ hl; simp [lockOf] at hl
    · have : ∀ (lo : Nat) (n : Kids V 0), Chain (SubOk (V := V) L 0) lo hi n →
          Chain (SubOk (V := V) L 0) lo hi (OMap.remove n k) := by
        intro lo n hc
        unfold OMap.remove
        induction n generalizing lo with
        | nil => trivial
        | cons e es ih =>
          rw [List.filter_cons]
          split
          · exact ⟨hc.1, hc.2.1, trivial, ih _ hc.2.2.2⟩
          · exact chain_wide (Nat.le_trans hc.1 (Nat.le_succ _)) (fun _ h => h) (ih _ hc.2.2.2)
      exact this lo n hn.chain
    · simp only [absN, Lock.apply, absK_zero]
    · simp [decN, Lock.results, absK_zero, decK_zero]
  | @readLeaf r pre post n _ =>
    intro a lo hi ha hn
    refine ⟨⟨hn.size, trivial, heldOk_of (notHeld_of hn.held (by simp)), hn.chain⟩, rfl, ?_⟩
    simp only [decN, Lock.results, absK_zero, decK_zero, List.append_nil]
    rw [filterMap_mid, List.filterMap_append]
    exact perm_front _ _ _
  | @insertSplit h id k v cs key n left right k' hk hss hsp =>
    intro a lo hi ha hn
    obtain ⟨pre, post, rfl, hp, h1, h2⟩ := find hn.chain hk
    obtain ⟨l, x, r, hsp', hnl, hl, hr⟩ := split_spec hL seq (shouldSplit_full hss)
    rw [hsp'] at hsp
    simp only [Option.some.injEq, Prod.mk.injEq] at hsp
    obtain ⟨rfl, rfl, rfl⟩ := hsp
    rw [hp, Tree.set_mid, Tree.insertIdx_mid]
    subst hnl
    have h1 : pre = [] ∨ key ≤ k := h1
    have hlk := hn.lock
    obtain ⟨_, hlo, hhi⟩ := hlk
    obtain ⟨c1, c2, c3, c4, c5⟩ := chain_mid (L := L) (h := h + 1).mp hn.chain
    generalize hkey' : (if k < key then k else key) = key'
    have hk' : lo ≤ key' ∧ key' ≤ key ∧ (pre = [] ∨ key' = key) := by
      subst hkey'
      split
      · rcases h1 with rfl | h1
        · exact ⟨hlo, by omega, Or.inl rfl⟩
        · omega
      · exact ⟨c2, Nat.le_refl _, Or.inr rfl⟩
    have hch : Chain (SubOk L (h + 1)) lo hi (pre ++ (key', fresh (l ++ x :: r)) :: post) :=
      replace_chain (e' := (key', fresh (l ++ x :: r))) hn.chain hk'.1 hk'.2.1 hk'.2.2
        (subOk_mono L (h + 1) hk'.2.1 (fun _ h => h) c4)
    have hs := split_mid hL hl hr hch
    have hka : absK (h + 1) (pre ++ (key', fresh (l ++ x :: r)) :: post) =
        absK (h + 1) (pre ++ (key, fresh (l ++ x :: r)) :: post) := by rw [absK_nd, absK_nd]
    have hkd : decK (h + 1) (pre ++ (key', fresh (l ++ x :: r)) :: post) =
        decK (h + 1) (pre ++ (key, fresh (l ++ x :: r)) :: post) := by rw [decK_nd, decK_nd]
    refine ⟨⟨?_, ⟨by omega, hlo, hhi⟩, heldOk_of ?_, hs.1⟩, ?_, ?_⟩
    · have h7 := hn.size
      simp only [List.length_append, List.length_cons] at h7 ⊢
      omega
    · have hn2 := notHeld_of hn.held (by simp)
      intro e he
      simp only [List.mem_append, List.mem_cons] at he hn2
      rcases he with he | rfl | rfl | he
      · exact hn2 e (Or.inl he)
      · trivial
      · trivial
      · exact hn2 e (Or.inr (Or.inr he))
    · simp only [absN, Lock.apply]
      rw [hs.2.1, hka]
    · simp only [decN, Lock.results, Option.toList_none, List.nil_append]
      rw [hs.2.1, hs.2.2, hka, hkd]
  | @insertDown h id k v cs key n hk hss =>
    intro a lo hi ha hn
    obtain ⟨pre, post, rfl, hp, h1, h2⟩ := find hn.chain hk
    rw [hp, Tree.set_mid]
    have h1 : pre = [] ∨ key ≤ k := h1
    obtain ⟨_, hlo, hhi⟩ := hn.lock
    obtain ⟨c1, c2, c3, c4, c5⟩ := chain_mid (L := L) (h := h + 2).mp hn.chain
    generalize hkey' : (if k < key then k else key) = key'
    have hk' : lo ≤ key' ∧ key' ≤ key ∧ (pre = [] ∨ key' = key) ∧ key' ≤ k := by
      subst hkey'
      split
      · rcases h1 with rfl | h1
        · exact ⟨hlo, by omega, Or.inl rfl, Nat.le_refl _⟩
        · omega
      · exact ⟨c2, Nat.le_refl _, Or.inr rfl, by omega⟩
    have hbn : Below k (nextKey post hi) := by
      cases post with
      | nil => exact hhi
      | cons f fs => exact h2 f (List.mem_cons_self ..)
    have hd := descend_abs (key' := key') (n' := ⟨.excl (.insert id k v), n⟩)
      (fun m => OMap.insert m k v) id hn.chain h1 h2 (fun _ _ _ => Tree.insert_mid) rfl
      (by rw [fresh_dec]; rfl)
    refine ⟨descend hn (by simp) trivial (by simp [Lock.free]) ⟨by omega, hk'.2.2.2, hbn⟩ trivial hk'.1
      hk'.2.1 hk'.2.2.1, ?_, ?_⟩
    · exact hd.1
    · exact hd.2
  | @insertLeaf id k v cs key n hk hss =>
    intro a lo hi ha hn
    obtain ⟨pre, post, rfl, hp, h1, h2⟩ := find hn.chain hk
    rw [hp, Tree.set_mid]
    have h1 : pre = [] ∨ key ≤ k := h1
    obtain ⟨_, hlo, hhi⟩ := hn.lock
    obtain ⟨c1, c2, c3, c4, c5⟩ := chain_mid (L := L) (h := 1).mp hn.chain
    generalize hkey' : (if k < key then k else key) = key'
    have hk' : lo ≤ key' ∧ key' ≤ key ∧ (pre = [] ∨ key' = key) ∧ key' ≤ k := by
      subst hkey'
      split
      · rcases h1 with rfl | h1
        · exact ⟨hlo, by omega, Or.inl rfl, Nat.le_refl _⟩
        · omega
      · exact ⟨c2, Nat.le_refl _, Or.inr rfl, by omega⟩
    have hbn : Below k (nextKey post hi) := by
      cases post with
      | nil => exact hhi
      | cons f fs => exact h2 f (List.mem_cons_self ..)
    have c4 : NodeOk L (L.min 0) 0 key (nextKey post hi) (fresh n) := subOk_iff.mp c4
    have har := around (L := L) (h := 1) hn.chain h1 h2
    have hchain : ∀ (lo : Nat) (n : Kids V 0), lo ≤ k → Below k (nextKey post hi) →
        Chain (SubOk (V := V) L 0) lo (nextKey post hi) n →
          Chain (SubOk (V := V) L 0) lo (nextKey post hi) (OMap.insert n k v) := by
      intro lo n hlk hkb hc
      induction n generalizing lo with
      | nil => exact ⟨hlk, hkb, trivial, trivial⟩
      | cons e es ih =>
        obtain ⟨y, w⟩ := e
        obtain ⟨g1, g2, g3, g4⟩ := hc
        simp only [OMap.insert]
        split
        · exact ⟨hlk, hkb, trivial, by show k + 1 ≤ y; omega, g2, g3, g4⟩
        · split
          · next h => subst h; exact ⟨hlk, hkb, trivial, g4⟩
          · exact ⟨g1, g2, trivial, ih _ (by show y + 1 ≤ k; omega) g4⟩
    have hlen := length_insert_le n k v
    refine ⟨⟨by simpa using hn.size, trivial, heldOk_of ?_, ?_⟩, ?_, ?_⟩
    · have hn2 := notHeld_of hn.held (by simp)
      intro e he
      simp only [List.mem_append, List.mem_cons] at he hn2
      rcases he with he | rfl | he
      · exact hn2 e (Or.inl he)
      · trivial
      · exact hn2 e (Or.inr (Or.inr he))
    · refine replace_chain (e' := (key', fresh (OMap.insert n k v))) hn.chain hk'.1 hk'.2.1
        hk'.2.2.1 (subOk_iff.mpr (fresh_ok (Nat.le_trans c4.size hlen) ?_ ?_))
      · intro e he; trivial
      · exact hchain key' n hk'.2.2.2 hbn (chain_wide hk'.2.1 (fun _ h => h) c4.chain)
    · simp only [absN, Lock.apply]
      rw [absK_nd, absK_nd, Tree.insert_mid har.1 har.2]
      simp only [absN, fresh, Lock.apply, absK_zero]
    · simp only [decN, Lock.results, Option.toList_some, List.map_nil, List.nil_append]
      rw [absK_nd, Tree.get_mid har.1 har.2, decK_nd, decK_nd]
      simp only [absN, decN, fresh, Lock.apply, Lock.results, absK_zero, decK_zero, List.map_nil]
      exact List.Perm.refl _
  | @removeFix h id k cs key n hk hdg =>
    intro a lo hi ha hn
    obtain ⟨pre, post, rfl, hp, h1, h2⟩ := find hn.chain hk
    have hp' : position (pre ++ (key, (⟨.excl (.held id), n⟩ : Node V h)) :: post) k = pre.length := by
      rw [← hp]; exact position_same
    rw [hp, Tree.set_mid]
    obtain ⟨c1, c2, c3, c4, c5⟩ := chain_mid (L := L) (h := h + 1).mp hn.chain
    have c4 : NodeOk L (L.min h) h key (nextKey post hi) (fresh n) := subOk_iff.mp c4
    have hlen : a < (pre ++ (key, fresh n) :: post).length := by
      have := ha (by omega)
      rcases hn.lock with hl | hl
      · omega
      · exact hl
    have hab : absK (h + 1) (pre ++ (key, (⟨.excl (.held id), n⟩ : Node V h)) :: post) =
        absK (h + 1) (pre ++ (key, fresh n) :: post) := by rw [absK_nd, absK_nd]; rfl
    have hde : decK (h + 1) (pre ++ (key, (⟨.excl (.held id), n⟩ : Node V h)) :: post) =
        decK (h + 1) (pre ++ (key, fresh n) :: post) := by rw [decK_nd, decK_nd]; rfl
    refine ⟨⟨by simpa using hn.size, ⟨by simpa using hlen, hp'.symm, key, _,
      Tree.getElem?_mid .., rfl, ?_⟩, ?_, ?_⟩, ?_, ?_⟩
    · simpa [inDanger, lenOf] using hdg
    · intro j k' x id' hj hl
      rcases getElem?_replace (e := (key, fresh n)) hj with ⟨rfl, hx⟩ | ⟨_, hx⟩
      · cases hx
        simp only [lockOf, Lock.excl.injEq, Work.held.injEq] at hl
        subst hl
        exact ⟨k, rfl⟩
      · obtain ⟨_, hf⟩ := hn.held j k' x id' hx hl
        simp at hf
    · exact replace_chain (e' := (key, (⟨.excl (.held id), n⟩ : Node V h))) hn.chain c2
        (Nat.le_refl _) (Or.inr rfl)
        (subOk_iff (n := (⟨.excl (.held id), n⟩ : Node V h)).mpr
          ⟨c4.size, trivial, heldOk_of ((quiet_fresh n).notHeld c4), c4.chain⟩)
    · simp only [absN, Lock.apply]
      rw [hab]
    · simp only [decN, Lock.results, Option.toList_none, List.nil_append]
      rw [hab, hde]
  | @fixPair h id k i cs cs' key n hk hf =>
    intro a lo hi ha hn
    obtain ⟨hlen, hi', ck, c, hc1, hc2, hc3⟩ := hn.lock
    simp only at hi'
    subst hi'
    obtain ⟨cl, cn⟩ := c
    have hc2 : cl = .excl (.held id) := hc2
    subst hc2
    have hr := fixPair_ok hL hn.chain hc1 hc3 hk (fun j e hj hne => by
      cases hl : e.2.lock with
      | shared rs => trivial
      | excl w =>
        cases w with
        | held id' =>
          obtain ⟨_, hg⟩ := hn.held j e.1 e.2 id' hj hl
          simp only [Lock.excl.injEq, Work.fix.injEq] at hg
          exact absurd hg.2.2.symm hne
        | _ => trivial) hf
    obtain ⟨r1, r2, r3, r4, r5, r6, r7, r8, r9⟩ := hr
    refine ⟨⟨?_, ⟨r6, _, r8, rfl, r9⟩, heldOk_of r4, r1⟩, ?_, ?_⟩
    · simp only at hlen r5 ⊢; omega
    · simp only [absN, Lock.apply]; rw [r2]
    · simp only [decN, Lock.results, Option.toList_none, List.nil_append]; rw [r2, r3]
  | @removeDown h id k cs key n hk hdg =>
    intro a lo hi ha hn
    obtain ⟨pre, post, rfl, hp, h1, h2⟩ := find hn.chain hk
    rw [hp, Tree.set_mid]
    obtain ⟨c1, c2, c3, c4, c5⟩ := chain_mid (L := L) (h := h + 1).mp hn.chain
    have hd := descend_abs (key' := key) (n' := ⟨.excl (.remove id k), n⟩)
      (fun m => OMap.remove m k) id hn.chain h1 h2 (fun _ _ _ => Tree.remove_mid) rfl
      (by rw [fresh_dec]; rfl)
    refine ⟨descend hn (by simp) trivial (by simp [Lock.free]) (Or.inr ?_) trivial c2
      (Nat.le_refl _) (Or.inr rfl), hd.1, hd.2⟩
    simpa [inDanger] using hdg
  | @fixedDown h id k cs key n hk =>
    intro a lo hi ha hn
    obtain ⟨gk, gc, g1, g2, g3⟩ := hn.lock
    simp only at g1
    rw [hk] at g1
    cases g1
    obtain ⟨pre, post, rfl, hp, h1, h2⟩ := find hn.chain hk
    rw [hp, Tree.set_mid]
    obtain ⟨c1, c2, c3, c4, c5⟩ := chain_mid (L := L) (h := h + 1).mp hn.chain
    have hd := descend_abs (key' := key) (n' := ⟨.excl (.remove id k), n⟩)
      (fun m => OMap.remove m k) id hn.chain h1 h2 (fun _ _ _ => Tree.remove_mid) rfl
      (by rw [fresh_dec]; rfl)
    exact ⟨descend hn (by simp) trivial (by simp [Lock.free]) (Or.inr g3) trivial c2
      (Nat.le_refl _) (Or.inr rfl), hd.1, hd.2⟩
  | @readDown h r rpre rpost rs cs key n _ hk =>
    intro a lo hi ha hn
    have hfind : ∃ pre post, cs = pre ++ (key, (⟨.shared rs, n⟩ : Node V h)) :: post ∧
        r.child cs = pre.length ∧
        r.result (absK (h + 1) cs) = r.result (absN (⟨.shared rs, n⟩ : Node V h)) := by
      cases r with
      | get id k =>
        obtain ⟨pre, post, rfl, hp, h1, h2⟩ := find hn.chain hk
        have har := around hn.chain h1 h2
        refine ⟨pre, post, rfl, hp, ?_⟩
        simp only [Read.result]
        rw [absK_nd, Tree.get_mid har.1 har.2]
      | lastKey id =>
        obtain ⟨pre, post, rfl, hp⟩ := split_at hk
        have hpost : post = [] := by
          simp only [Read.child, List.length_append, List.length_cons] at hp
          cases post with
          | nil => rfl
          | cons f fs => simp only [List.length_cons] at hp; omega
        subst hpost
        refine ⟨pre, [], rfl, hp, ?_⟩
        have hne : absN (⟨.shared rs, n⟩ : Node V h) ≠ [] := by
          obtain ⟨c1, c2, c3, c4, c5⟩ := chain_mid (L := L) (h := h + 1).mp hn.chain
          have := length_absK hL (h + 1)
            (cs := [(key, (⟨.shared rs, n⟩ : Node V h))]) ⟨Nat.le_refl _, c3, c4, trivial⟩
          intro h0
          rw [absK_cons, h0] at this
          simp [absK] at this
        simp only [Read.result]
        rw [absK_nd]
        congr 2
        have : absK (h + 1) ([] : List (Nat × Node V h)) = [] := rfl
        rw [this, List.append_nil, Tree.lastKey_append hne]
      | scan id s e nk =>
        obtain ⟨pre, post, rfl, hp⟩ := split_at hk
        exact ⟨pre, post, rfl, hp, rfl⟩
      | guard id s e nk =>
        obtain ⟨pre, post, rfl, hp⟩ := split_at hk
        exact ⟨pre, post, rfl, hp, rfl⟩
    obtain ⟨pre, post, rfl, hp, hres⟩ := hfind
    rw [hp, Tree.set_mid]
    obtain ⟨c1, c2, c3, c4, c5⟩ := chain_mid (L := L) (h := h + 1).mp hn.chain
    refine ⟨descend hn (by simp) trivial (by simp) trivial trivial c2
      (Nat.le_refl _) (Or.inr rfl), ?_, ?_⟩
    · simp only [absN, Lock.apply]
      rw [absK_nd, absK_nd]; rfl
    · have hab : absK (h + 1) (pre ++ (key, (⟨.shared (r :: rs), n⟩ : Node V h)) :: post) =
          absK (h + 1) (pre ++ (key, (⟨.shared rs, n⟩ : Node V h)) :: post) := by
        rw [absK_nd, absK_nd]; rfl
      simp only [decN, Lock.results, Option.toList_none, List.nil_append]
      rw [hab]
      rw [filterMap_mid, List.filterMap_append, List.append_assoc, List.append_assoc,
        List.append_assoc]
      refine List.Perm.append_left _ ?_
      rw [hres]
      refine List.Perm.trans ?_ (List.Perm.append_left _ ?_ :
        (_ ++ ((r.result (absN (⟨.shared rs, n⟩ : Node V h))).toList ++
          decK (h + 1) (pre ++ (key, (⟨.shared rs, n⟩ : Node V h)) :: post))).Perm _)
      · exact (perm_front _ _ _).symm
      · rw [decK_nd, decK_nd]
        have hd : decN (⟨.shared (r :: rs), n⟩ : Node V h) =
            (r.result (absN (⟨.shared rs, n⟩ : Node V h))).toList ++
              decN (⟨.shared rs, n⟩ : Node V h) := by
          simp only [decN, Lock.results, filterMap_front, List.append_assoc]
          rfl
        rw [hd]
        exact perm_in _ _ _ _
  | @visitDown h id i cs key n hk =>
    intro a lo hi ha hn
    obtain ⟨pre, post, rfl, rfl⟩ := split_at hk
    rw [Tree.set_mid]
    obtain ⟨c1, c2, c3, c4, c5⟩ := chain_mid (L := L) (h := h + 2).mp hn.chain
    refine ⟨descend hn (by simp) trivial (by simp [Lock.free]) trivial trivial c2
      (Nat.le_refl _) (Or.inr rfl), ?_, ?_⟩
    · simp only [absN, Lock.apply]
      rw [absK_nd, absK_nd]; rfl
    · simp only [decN, Lock.results, Option.toList_none, List.nil_append, List.map_nil]
      rw [decK_nd, decK_nd]
      exact perm_in [_] _ _ _
  | @visitDone h id cs =>
    intro a lo hi ha hn
    refine ⟨⟨hn.size, trivial, heldOk_of (notHeld_of hn.held (by simp)), hn.chain⟩, rfl, ?_⟩
    exact List.Perm.refl _

end Verif.Conc
