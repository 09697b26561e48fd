import Verif.Conc.Inv

/-!
# Replacing, splitting and merging children
-/

namespace Verif.Conc

open Verif
open Verif.Tree (Limits position firstKey merge takeLowKeys takeHighKeys Chain Below nextKey
  keysToShare)

variable {V : Type}

/-- The child that a key leads to. -/
theorem find {L : Limits} {h lo : Nat} {hi : Option Nat} {cs : Kids V h} {k : Nat}
    {e : Nat × Sub V h} (hc : Chain (SubOk L h) lo hi cs) (he : cs[position cs k]? = some e) :
    ∃ pre post, cs = pre ++ e :: post ∧ position cs k = pre.length ∧
      (pre = [] ∨ e.1 ≤ k) ∧ (∀ x ∈ post, k < x.1) := by
  have hn : cs ≠ [] := by rintro rfl; simp at he
  obtain ⟨pre, e', post, h1, h2, h3, h4⟩ := Tree.position_spec hc hn k
  rw [h2, h1, Tree.getElem?_mid] at he
  cases he
  exact ⟨pre, post, h1, h2, h3, h4⟩

theorem split_at {α : Type} {cs : List α} {i : Nat} {e : α} (he : cs[i]? = some e) :
    ∃ pre post, cs = pre ++ e :: post ∧ i = pre.length := by
  obtain ⟨hi, rfl⟩ := List.getElem?_eq_some_iff.mp he
  refine ⟨cs.take i, cs.drop (i + 1), ?_, ?_⟩
  · rw [← List.drop_eq_getElem_cons hi, List.take_append_drop]
  · simp; omega

theorem getElem?_replace {α : Type} {pre post : List α} {e e' : α} {j : Nat} {x : α}
    (hx : (pre ++ e' :: post)[j]? = some x) :
    (j = pre.length ∧ x = e') ∨ (j ≠ pre.length ∧ (pre ++ e :: post)[j]? = some x) := by
  by_cases hj : j = pre.length
  · subst hj; rw [Tree.getElem?_mid] at hx; cases hx; exact Or.inl ⟨rfl, rfl⟩
  · right
    refine ⟨hj, ?_⟩
    rw [← hx, ← Tree.set_mid pre e e' post, List.getElem?_set_ne (by omega)]

theorem position_same {α : Type} {pre post : List (Nat × α)} {key : Nat} {c c' : α} {k : Nat} :
    position (pre ++ (key, c') :: post) k = position (pre ++ (key, c) :: post) k := by
  unfold position
  congr 1
  have : ∀ l : List (Nat × α), (l.takeWhile (fun e => decide (e.1 ≤ k))).length =
      ((l.map (·.1)).takeWhile (fun x => decide (x ≤ k))).length := by
    intro l
    induction l with
    | nil => rfl
    | cons e es ih =>
      simp only [List.takeWhile_cons, List.map_cons]
      split <;> simp [ih]
  rw [this, this]
  simp

theorem heldOk_of {h : Nat} {cs : Kids V h} {lk : Lock V}
    (hn : ∀ e ∈ cs, NotHeld (lockOf h e.2)) : HeldOk h cs lk := by
  intro j key c id hj hl
  have := hn _ (List.mem_of_getElem? hj)
  simp only [hl, NotHeld] at this

theorem notHeld_of {h : Nat} {cs : Kids V h} {lk : Lock V} (hh : HeldOk h cs lk)
    (hl : ∀ id k j, lk ≠ .excl (.fix id k j)) : ∀ e ∈ cs, NotHeld (lockOf h e.2) := by
  intro e he
  obtain ⟨j, hj⟩ := List.getElem?_of_mem he
  cases hk : lockOf h e.2 with
  | shared rs => trivial
  | excl w =>
    cases w with
    | held id =>
      obtain ⟨k, hf⟩ := hh j e.1 e.2 id hj hk
      exact absurd hf (hl id k j)
    | _ => trivial

/-- A node nobody works on but, perhaps, the one that holds its parent. -/
def Quiet {h : Nat} (n : Node V h) : Prop := n.lock = .free ∨ ∃ id, n.lock = .excl (.held id)

theorem Quiet.absN {h : Nat} {n : Node V h} (hq : Quiet n) : absN n = absK h n.kids := by
  unfold Conc.absN
  rcases hq with hq | ⟨id, hq⟩ <;> rw [hq] <;> rfl

theorem Quiet.decN {h : Nat} {n : Node V h} (hq : Quiet n) : decN n = decK h n.kids := by
  unfold Conc.decN
  rcases hq with hq | ⟨id, hq⟩ <;> rw [hq] <;> rfl

theorem Quiet.notHeld {L : Limits} {a h lo : Nat} {hi : Option Nat} {n : Node V h} (hq : Quiet n)
    (hn : NodeOk L a h lo hi n) : ∀ e ∈ n.kids, NotHeld (lockOf h e.2) := by
  refine notHeld_of hn.held fun id k j hl => ?_
  rcases hq with hq | ⟨_, hq⟩ <;> rw [hq] at hl <;> simp at hl

theorem quiet_fresh {h : Nat} (cs : Kids V h) : Quiet (fresh cs) := Or.inl rfl

theorem fresh_ok {L : Limits} {a h lo : Nat} {hi : Option Nat} {cs : Kids V h}
    (hs : a ≤ cs.length) (hn : ∀ e ∈ cs, NotHeld (lockOf h e.2))
    (hc : Chain (SubOk L h) lo hi cs) : NodeOk L a h lo hi (fresh cs) :=
  ⟨hs, trivial, heldOk_of hn, hc⟩

/-- One child is replaced, and its key perhaps lowered. -/
theorem replace_chain {L : Limits} {h lo : Nat} {hi : Option Nat} {pre post : Kids V h}
    {e e' : Nat × Sub V h} (hc : Chain (SubOk L h) lo hi (pre ++ e :: post))
    (hlo : lo ≤ e'.1) (hle : e'.1 ≤ e.1) (hp : pre = [] ∨ e'.1 = e.1)
    (he : SubOk L h e'.1 (nextKey post hi) e'.2) :
    Chain (SubOk L h) lo hi (pre ++ e' :: post) := by
  obtain ⟨h1, h2, h3, h4, h5⟩ := chain_mid.mp hc
  refine chain_mid.mpr ⟨?_, hlo, ?_, he, chain_wide (by omega) (fun _ h => h) h5⟩
  · rcases hp with rfl | hp
    · trivial
    · rw [hp]; exact h1
  · cases hi with
    | none => trivial
    | some u => exact Nat.lt_of_le_of_lt hle h3

theorem absK_nd {h : Nat} (pre post : List (Nat × Node V h)) (k : Nat) (c : Node V h) :
    absK (h + 1) (pre ++ (k, c) :: post) = absK (h + 1) pre ++ (absN c ++ absK (h + 1) post) :=
  absK_mid (h := h + 1) pre post (k, c)

theorem absK_cons {h : Nat} (post : List (Nat × Node V h)) (k : Nat) (c : Node V h) :
    absK (h + 1) ((k, c) :: post) = absN c ++ absK (h + 1) post :=
  absK_mid (h := h + 1) [] post (k, c)

theorem decK_nd {h : Nat} (pre post : List (Nat × Node V h)) (k : Nat) (c : Node V h) :
    decK (h + 1) (pre ++ (k, c) :: post) = decK (h + 1) pre ++ (decN c ++ decK (h + 1) post) :=
  decK_mid (h := h + 1) pre post (k, c)

theorem decK_cons {h : Nat} (post : List (Nat × Node V h)) (k : Nat) (c : Node V h) :
    decK (h + 1) ((k, c) :: post) = decN c ++ decK (h + 1) post :=
  decK_mid (h := h + 1) [] post (k, c)

/-- Two quiet neighbours become one. -/
theorem merge_mid {L : Limits} {h lo : Nat} {hi : Option Nat}
    {pre post : List (Nat × Node V h)} {ka kb : Nat} {A B : Node V h} (qA : Quiet A) (qB : Quiet B)
    (hc : Chain (SubOk L (h + 1)) lo hi (pre ++ (ka, A) :: (kb, B) :: post : Kids V (h + 1))) :
    Chain (SubOk L (h + 1)) lo hi
        (pre ++ (ka, fresh (A.kids ++ B.kids)) :: post : Kids V (h + 1)) ∧
      absK (h + 1) (pre ++ (ka, fresh (A.kids ++ B.kids)) :: post : Kids V (h + 1)) =
        absK (h + 1) (pre ++ (ka, A) :: (kb, B) :: post : Kids V (h + 1)) ∧
      decK (h + 1) (pre ++ (ka, fresh (A.kids ++ B.kids)) :: post : Kids V (h + 1)) =
        decK (h + 1) (pre ++ (ka, A) :: (kb, B) :: post : Kids V (h + 1)) := by
  obtain ⟨h1, h2, h3, h4, h5⟩ := chain_mid (L := L) (h := h + 1) (e := (ka, A)).mp hc
  obtain ⟨g1, g2, g3, g4⟩ := h5
  have hA : NodeOk L (L.min h) h ka (some kb) A := subOk_iff.mp h4
  have hB : NodeOk L (L.min h) h kb (nextKey post hi) B := subOk_iff.mp g3
  have hlt : ka < kb := g1
  refine ⟨?_, ?_, ?_⟩
  · refine chain_mid (L := L) (h := h + 1)
      (e := (ka, fresh (A.kids ++ B.kids))).mpr ⟨h1, h2, h3, ?_, ?_⟩
    · refine subOk_iff.mpr (fresh_ok ?_ ?_ ?_)
      · have h7 : L.min h ≤ A.kids.length := hA.size
        rw [List.length_append]; omega
      · intro e he
        rcases List.mem_append.mp he with he | he
        · exact qA.notHeld hA e he
        · exact qB.notHeld hB e he
      · cases hb : B.kids with
        | nil =>
          rw [List.append_nil]
          refine chain_wide (Nat.le_refl _) ?_ hA.chain
          intro x hx
          have hx : x < kb := hx
          have hk : Below kb (nextKey post hi) := by
            cases post with
            | nil => exact g2
            | cons f fs => exact g4.1
          revert hk
          cases nextKey post hi with
          | none => exact fun _ => trivial
          | some u => exact fun hk => Nat.lt_trans hx hk
        | cons x r =>
          have hBc := hB.chain
          rw [hb] at hBc
          have hkx : kb ≤ x.1 := hBc.1
          refine Tree.chain_append_cons.mpr ⟨?_, ?_, Tree.chain_raise hBc⟩
          · refine chain_wide (Nat.le_refl _) ?_ hA.chain
            intro y hy
            exact Nat.lt_of_lt_of_le hy hkx
          · show ka ≤ x.1
            omega
    · exact chain_wide (by show ka + 1 ≤ kb + 1; omega) (fun _ h => h) g4
  · rw [absK_nd, absK_nd, absK_cons, qA.absN, qB.absN, (quiet_fresh _).absN]
    simp [fresh, absK]
  · rw [decK_nd, decK_nd, decK_cons, qA.decN, qB.decN, (quiet_fresh _).decN]
    simp [fresh, decK]

/-- One child becomes two. -/
theorem split_mid {L : Limits} (hL : L.Ok) {h lo : Nat} {hi : Option Nat}
    {pre post : List (Nat × Node V h)} {ka : Nat} {l r : Kids V h} {x : Nat × Sub V h}
    (hl : L.min h ≤ l.length) (hr : L.min h ≤ r.length + 1)
    (hc : Chain (SubOk L (h + 1)) lo hi (pre ++ (ka, fresh (l ++ x :: r)) :: post : Kids V (h + 1))) :
    Chain (SubOk L (h + 1)) lo hi
        (pre ++ (ka, fresh l) :: (x.1, fresh (x :: r)) :: post : Kids V (h + 1)) ∧
      absK (h + 1) (pre ++ (ka, fresh l) :: (x.1, fresh (x :: r)) :: post : Kids V (h + 1)) =
        absK (h + 1) (pre ++ (ka, fresh (l ++ x :: r)) :: post : Kids V (h + 1)) ∧
      decK (h + 1) (pre ++ (ka, fresh l) :: (x.1, fresh (x :: r)) :: post : Kids V (h + 1)) =
        decK (h + 1) (pre ++ (ka, fresh (l ++ x :: r)) :: post : Kids V (h + 1)) := by
  obtain ⟨h1, h2, h3, h4, h5⟩ := chain_mid (L := L) (h := h + 1)
    (e := (ka, fresh (l ++ x :: r))).mp hc
  have hn := subOk_iff.mp h4
  have hnh := (quiet_fresh _).notHeld hn
  have hb := Tree.chain_append_cons.mp hn.chain
  have hmin := hL.min_pos h
  have hx : ka < x.1 := by
    cases l with
    | nil => simp at hl; omega
    | cons y ys =>
      have h1 : ka ≤ y.1 := hb.1.1
      have h2 : y.1 < x.1 := hb.1.2.1
      omega
  have hxn : Below x.1 (nextKey post hi) := hb.2.2.2.1
  refine ⟨?_, ?_, ?_⟩
  · refine chain_mid (L := L) (h := h + 1) (e := (ka, fresh l)).mpr ⟨h1, h2, h3, ?_, ?_⟩
    · refine subOk_iff.mpr (fresh_ok hl (fun e he => hnh e ?_) hb.1)
      show e ∈ l ++ x :: r
      simp [he]
    · refine ⟨hx, below_next h5 hxn, ?_, ?_⟩
      · refine subOk_iff.mpr (fresh_ok (by simpa using hr) (fun e he => hnh e ?_) hb.2.2)
        show e ∈ l ++ x :: r
        simp only [List.mem_append]
        exact Or.inr he
      · cases post with
        | nil => trivial
        | cons f fs =>
          have : x.1 < f.1 := hxn
          exact ⟨this, h5.2.1, h5.2.2⟩
  · rw [absK_nd, absK_nd, absK_cons, (quiet_fresh _).absN, (quiet_fresh _).absN,
      (quiet_fresh _).absN]
    simp [fresh, absK]
  · rw [decK_nd, decK_nd, decK_cons, (quiet_fresh _).decN, (quiet_fresh _).decN,
      (quiet_fresh _).decN]
    simp [fresh, decK]

/-! ## Splitting -/

theorem shouldSplit_full {L : Limits} : ∀ {h : Nat} {n : Kids V h} {k : Nat},
    shouldSplit L h n k = true → L.max h ≤ n.length
  | 0, n, k, hs => by
    simp only [shouldSplit, Bool.and_eq_true, decide_eq_true_eq] at hs
    exact hs.2
  | h + 1, n, k, hs => by
    simp only [shouldSplit, decide_eq_true_eq] at hs
    exact hs

theorem split_spec {L : Limits} (hL : L.Ok) (seq : Bool) {h : Nat} {n : Kids V h}
    (hn : L.max h ≤ n.length) : ∃ l x r, split L seq h n = some (l, x.1, x :: r) ∧
      n = l ++ x :: r ∧ L.min h ≤ l.length ∧ L.min h ≤ r.length + 1 := by
  have h1 := hL.min_pos h
  have h2 := hL.two h
  unfold split
  rw [if_neg (by omega)]
  simp only
  generalize hleft : (if seq then n.length - L.min h else (n.length + 1) / 2) = left
  have hle : L.min h ≤ left ∧ left + L.min h ≤ n.length := by
    subst hleft; split <;> omega
  cases hd : n.drop left with
  | nil =>
    have := congrArg List.length hd
    simp only [List.length_drop, List.length_nil] at this
    omega
  | cons x r =>
    have hlen : (n.take left).length = left := by simp; omega
    have hr := congrArg List.length hd
    simp only [List.length_drop, List.length_cons] at hr
    refine ⟨n.take left, x, r, rfl, ?_, by omega, by omega⟩
    rw [← hd, List.take_append_drop]

/-! ## Fixing -/

/-- What `fixPair` does to the two children `A` and `B`: it merges them, or moves the border. -/
theorem fixPair_right {L : Limits} {h : Nat} {pre post : List (Nat × Node V h)} {ka kb : Nat}
    {A B : Node V h} {cs' : Kids V (h + 1)}
    (hf : fixPair L h (pre ++ (ka, A) :: (kb, B) :: post : Kids V (h + 1)) pre.length = some cs') :
    (A.kids.length + B.kids.length ≤ L.max h ∧
      cs' = (pre ++ (ka, fresh (A.kids ++ B.kids)) :: post : Kids V (h + 1))) ∨
    (L.max h < A.kids.length + B.kids.length ∧
      ∃ n x r, keysToShare A.kids.length B.kids.length = some n ∧ B.kids.drop n = x :: r ∧
        n + r.length + 1 = B.kids.length ∧ B.kids = B.kids.take n ++ x :: r ∧
        cs' = (pre ++ (ka, fresh (A.kids ++ B.kids.take n)) :: (x.1, fresh (x :: r)) :: post :
          Kids V (h + 1))) := by
  unfold fixPair at hf
  have e1 : (pre ++ (ka, A) :: (kb, B) :: post : Kids V (h + 1))[pre.length]? = some (ka, A) :=
    Tree.getElem?_mid ..
  have e2 : (pre ++ (ka, A) :: (kb, B) :: post : Kids V (h + 1))[pre.length + 1]? =
      some (kb, B) := by
    have := Tree.getElem?_mid (pre ++ [(ka, A)]) (kb, B) post
    simpa using this
  have e3 : ∀ e, (pre ++ (ka, A) :: (kb, B) :: post : Kids V (h + 1)).set pre.length e =
      pre ++ e :: (kb, B) :: post := fun e => Tree.set_mid ..
  have e4 : ∀ e e' : Nat × Node V h, (pre ++ e :: (kb, B) :: post : Kids V (h + 1)).set
      (pre.length + 1) e' = pre ++ e :: e' :: post := by
    intro e e'
    have := Tree.set_mid (pre ++ [e]) (kb, B) e' post
    simpa using this
  have e5 : ∀ e : Nat × Node V h, (pre ++ e :: (kb, B) :: post : Kids V (h + 1)).eraseIdx
      (pre.length + 1) = pre ++ e :: post := fun e => Tree.eraseIdx_next ..
  rw [if_pos (by simp only [List.length_append, List.length_cons]; omega), e1, e2] at hf
  simp only at hf
  split at hf
  · next hle =>
    rw [e3, e5, Option.some.injEq] at hf
    exact Or.inl ⟨hle, hf.symm⟩
  · next hmax =>
    refine Or.inr ⟨by omega, ?_⟩
    cases ht : takeLowKeys A.kids B.kids with
    | none => rw [ht] at hf; simp at hf
    | some p =>
      obtain ⟨ck, sk⟩ := p
      rw [ht] at hf
      simp only [Option.bind_some] at hf
      obtain ⟨n, hn, hle, rfl, rfl⟩ := Tree.takeLowKeys_spec ht
      cases hk : firstKey (B.kids.drop n) with
      | none => rw [hk] at hf; simp at hf
      | some k =>
        rw [hk] at hf
        obtain ⟨x, r, hd, rfl, hB, hlen⟩ := Tree.firstKey_drop hk
        rw [Option.map_some, hd, e3, e4, Option.some.injEq] at hf
        exact ⟨n, x, r, hn, hd, by omega, hB, hf.symm⟩

theorem fixPair_left {L : Limits} {h : Nat} {pre : List (Nat × Node V h)} {ka kb : Nat}
    {A B : Node V h} {cs' : Kids V (h + 1)}
    (hf : fixPair L h (pre ++ [(ka, A), (kb, B)] : Kids V (h + 1)) (pre.length + 1) = some cs') :
    (A.kids.length + B.kids.length ≤ L.max h ∧
      cs' = (pre ++ [(ka, fresh (A.kids ++ B.kids))] : Kids V (h + 1))) ∨
    (L.max h < A.kids.length + B.kids.length ∧
      ∃ n x r, keysToShare B.kids.length A.kids.length = some n ∧ n ≤ A.kids.length ∧
        A.kids.drop (A.kids.length - n) ++ B.kids = x :: r ∧
        cs' = (pre ++ [(ka, fresh (A.kids.take (A.kids.length - n))), (x.1, fresh (x :: r))] :
          Kids V (h + 1))) := by
  unfold fixPair at hf
  have e1 : (pre ++ [(ka, A), (kb, B)] : Kids V (h + 1))[pre.length]? = some (ka, A) :=
    Tree.getElem?_mid ..
  have e2 : (pre ++ [(ka, A), (kb, B)] : Kids V (h + 1))[pre.length + 1]? = some (kb, B) := by
    have := Tree.getElem?_mid (pre ++ [(ka, A)]) (kb, B) []
    simpa using this
  have e3 : ∀ e f : Nat × Node V h, (pre ++ [(ka, A), f] : Kids V (h + 1)).set pre.length e =
      pre ++ [e, f] := fun e f => Tree.set_mid ..
  have e4 : ∀ e e' : Nat × Node V h, (pre ++ [e, (kb, B)] : Kids V (h + 1)).set
      (pre.length + 1) e' = pre ++ [e, e'] := by
    intro e e'
    have := Tree.set_mid (pre ++ [e]) (kb, B) e' []
    simpa using this
  have e5 : ∀ e : Nat × Node V h, (pre ++ [e, (kb, B)] : Kids V (h + 1)).eraseIdx
      (pre.length + 1) = pre ++ [e] := fun e => Tree.eraseIdx_next ..
  rw [if_neg (by simp)] at hf
  simp only [e1, e2] at hf
  split at hf
  · next hle =>
    rw [e3, e5, Option.some.injEq] at hf
    exact Or.inl ⟨hle, hf.symm⟩
  · next hmax =>
    refine Or.inr ⟨by omega, ?_⟩
    cases ht : takeHighKeys B.kids A.kids with
    | none => rw [ht] at hf; simp at hf
    | some p =>
      obtain ⟨ck, sk⟩ := p
      rw [ht] at hf
      simp only [Option.bind_some] at hf
      obtain ⟨n, hn, hle, rfl, rfl⟩ := Tree.takeHighKeys_spec ht
      cases hx : A.kids.drop (A.kids.length - n) ++ B.kids with
      | nil => rw [hx] at hf; simp [firstKey] at hf
      | cons x r =>
        rw [hx] at hf
        simp only [firstKey, List.head?_cons, Option.map_some, Option.some.injEq] at hf
        rw [e4, e3] at hf
        exact ⟨n, x, r, hn, hle, hx, hf.symm⟩

theorem fixPair_ok {L : Limits} (hL : L.Ok) {h lo : Nat} {hi : Option Nat}
    {cs cs' : List (Nat × Node V h)} {k id key skey : Nat} {n m : Kids V h}
    (hc : Chain (SubOk L (h + 1)) lo hi (cs : Kids V (h + 1)))
    (hk : cs[position cs k]? = some (key, ⟨.excl (.held id), n⟩)) (hn : n.length ≤ L.min h)
    (hs : cs[sibling cs (position cs k)]? = some (skey, fresh m))
    (hh : ∀ j e, cs[j]? = some e → j ≠ position cs k → NotHeld e.2.lock)
    (hf : fixPair L h cs (position cs k) = some cs') :
    Chain (SubOk L (h + 1)) lo hi (cs' : Kids V (h + 1)) ∧
      absK (h + 1) (cs' : Kids V (h + 1)) = absK (h + 1) (cs : Kids V (h + 1)) ∧
      decK (h + 1) (cs' : Kids V (h + 1)) = decK (h + 1) (cs : Kids V (h + 1)) ∧
      (∀ e ∈ cs', NotHeld e.2.lock) ∧ cs.length ≤ cs'.length + 1 ∧
      ∃ key n', cs'[position cs' k]? = some (key, fresh n') ∧ L.min h < n'.length := by
  have hmin := hL.min_pos h
  have htwo := hL.two h
  obtain ⟨pre, post, rfl, hp, h1, h2⟩ := find (L := L) (h := h + 1) hc hk
  have hnh : ∀ e ∈ pre ++ post, NotHeld e.2.lock := by
    intro e he
    rcases List.mem_append.mp he with he | he
    · obtain ⟨j, hj⟩ := List.getElem?_of_mem he
      have hlt : j < pre.length := by
        rcases Nat.lt_or_ge j pre.length with h | h
        · exact h
        · rw [List.getElem?_eq_none h] at hj; simp at hj
      refine hh j e ?_ (by omega)
      rw [List.getElem?_append_left hlt]; exact hj
    · obtain ⟨j, hj⟩ := List.getElem?_of_mem he
      refine hh (pre.length + (j + 1)) e ?_ (by omega)
      rw [List.getElem?_append_right (by omega)]
      simpa using hj
  rw [hp] at hf hs
  cases post with
  | cons s post =>
    obtain ⟨kb, B⟩ := s
    have hsib : sibling (pre ++ (key, (⟨.excl (.held id), n⟩ : Node V h)) :: (kb, B) :: post)
        pre.length = pre.length + 1 := by
      unfold sibling; rw [if_pos]; simp only [List.length_append, List.length_cons]; omega
    rw [hsib] at hs
    have e2 : (pre ++ (key, (⟨.excl (.held id), n⟩ : Node V h)) :: (kb, B) :: post)[pre.length + 1]?
        = some (kb, B) := by
      have := Tree.getElem?_mid (pre ++ [(key, (⟨.excl (.held id), n⟩ : Node V h))]) (kb, B) post
      simpa using this
    rw [e2] at hs
    cases hs
    have hmg := merge_mid (L := L) (A := ⟨.excl (.held id), n⟩) (B := fresh m) (Or.inr ⟨id, rfl⟩)
      (quiet_fresh _) hc
    obtain ⟨c1, c2, c3, c4, c5⟩ := chain_mid (L := L) (h := h + 1)
      (e := (key, (⟨.excl (.held id), n⟩ : Node V h))).mp hc
    have hnlen : L.min h ≤ n.length := c4.1
    have hmlen : L.min h ≤ m.length := c5.2.2.1.1
    have hmc : Chain (SubOk L h) skey _ m := (subOk_iff.mp c5.2.2.1).chain
    have hks : k < skey := h2 (skey, fresh m) (List.mem_cons_self ..)
    have hpre : ∀ x ∈ pre, x.1 ≤ k := by
      intro x hx
      rcases h1 with rfl | h1
      · simp at hx
      · have h1 : key ≤ k := h1
        have : x.1 < key := (Tree.chain_mem c1 x hx).2
        omega
    have h1 : pre = [] ∨ key ≤ k := h1
    rcases fixPair_right hf with ⟨_, rfl⟩ | ⟨hmax, t, x, r, hn1, hd, hlen, hB, rfl⟩
    · refine ⟨hmg.1, hmg.2.1, hmg.2.2, ?_,
        by simp only [List.length_append, List.length_cons]; omega, ?_⟩
      · intro e he
        simp only [List.mem_append, List.mem_cons] at he
        rcases he with he | rfl | he
        · exact hnh e (by simp [he])
        · trivial
        · exact hnh e (by simp [he])
      · refine ⟨key, n ++ m, ?_, ?_⟩
        · rw [Tree.position_mid hpre h1 (fun x hx => h2 x (List.mem_cons_of_mem _ hx))]
          exact Tree.getElem?_mid ..
        · rw [List.length_append]; omega
    · simp only [fresh] at hmax hn1 hd hlen hB
      have hb := Tree.keysToShare_bound hn1
      have hm' : fresh ((⟨.excl (.held id), n⟩ : Node V h).kids ++ (fresh m).kids) =
          fresh ((n ++ m.take t) ++ x :: r) := by
        simp only [fresh]
        rw [List.append_assoc, ← hB]
      rw [hm'] at hmg
      have htl : (m.take t).length = t := by simp; omega
      have hsp := split_mid hL (l := n ++ m.take t) (x := x) (r := r)
        (by rw [List.length_append]; omega) (by omega) hmg.1
      have hx : skey ≤ x.1 := by
        have := (Tree.chain_mem hmc x (by rw [hB]; simp)).1
        exact this
      refine ⟨hsp.1, hsp.2.1.trans hmg.2.1, hsp.2.2.trans hmg.2.2, ?_, by simp, ?_⟩
      · intro e he
        simp only [List.mem_append, List.mem_cons] at he
        rcases he with he | rfl | rfl | he
        · exact hnh e (by simp [he])
        · trivial
        · trivial
        · exact hnh e (by simp [he])
      · refine ⟨key, n ++ m.take t, ?_, ?_⟩
        · rw [Tree.position_mid hpre h1]
          · exact Tree.getElem?_mid ..
          · intro y hy
            rcases List.mem_cons.mp hy with rfl | hy
            · show k < x.1
              omega
            · exact h2 y (List.mem_cons_of_mem _ hy)
        · rw [List.length_append]; omega
  | nil =>
    rcases List.eq_nil_or_concat pre with rfl | ⟨pre, s, rfl⟩
    · simp [fixPair] at hf
    · obtain ⟨ka, A⟩ := s
      rw [List.concat_eq_append] at *
      have hcat : pre ++ [(ka, A)] ++ [(key, (⟨.excl (.held id), n⟩ : Node V h))] =
          pre ++ [(ka, A), (key, (⟨.excl (.held id), n⟩ : Node V h))] := by simp
      have hlen1 : (pre ++ [(ka, A)]).length = pre.length + 1 := by simp
      rw [hcat, hlen1] at hs hf
      have hc' := hc
      rw [hcat] at hc' ⊢
      have hsib : sibling (pre ++ [(ka, A), (key, (⟨.excl (.held id), n⟩ : Node V h))])
          (pre.length + 1) = pre.length := by
        unfold sibling; rw [if_neg (by simp)]; omega
      rw [hsib, Tree.getElem?_mid] at hs
      cases hs
      have hmg := merge_mid (L := L) (post := []) (A := fresh m) (B := ⟨.excl (.held id), n⟩)
        (quiet_fresh _) (Or.inr ⟨id, rfl⟩) hc'
      obtain ⟨c1, c2, c3, c4, c5⟩ := chain_mid (L := L) (h := h + 1)
        (e := (skey, fresh m)).mp hc'
      have hmlen : L.min h ≤ m.length := c4.1
      have hnlen : L.min h ≤ n.length := c5.2.2.1.1
      have hmc : Chain (SubOk L h) skey (some key) m := (subOk_iff.mp c4).chain
      have hkk : key ≤ k := by
        rcases h1 with h1 | h1
        · simp at h1
        · exact h1
      have hsk : skey < key := c5.1
      have hpre : ∀ x ∈ pre, x.1 ≤ k := by
        intro x hx
        have : x.1 < skey := (Tree.chain_mem c1 x hx).2
        omega
      rcases fixPair_left hf with ⟨_, rfl⟩ | ⟨hmax, t, x, r, hn1, hle, hd, rfl⟩
      · refine ⟨hmg.1, hmg.2.1, hmg.2.2, ?_, by simp, ?_⟩
        · intro e he
          simp only [List.mem_append, List.mem_singleton] at he
          rcases he with he | rfl
          · exact hnh e (by simp [he])
          · trivial
        · refine ⟨skey, m ++ n, ?_, ?_⟩
          · rw [Tree.position_mid hpre (Or.inr (by show skey ≤ k; omega)) (by simp)]
            exact Tree.getElem?_mid ..
          · rw [List.length_append]; omega
      · simp only [fresh] at hmax hn1 hd hle
        have hb := Tree.keysToShare_bound hn1
        have hmm : m ++ n = m.take (m.length - t) ++ x :: r := by
          rw [← hd, ← List.append_assoc, List.take_append_drop]
        have hm' : fresh ((fresh m).kids ++ (⟨.excl (.held id), n⟩ : Node V h).kids) =
            fresh (m.take (m.length - t) ++ x :: r) := by
          simp only [fresh]
          rw [hmm]
        rw [hm'] at hmg
        have htl : (m.take (m.length - t)).length = m.length - t := by simp
        have hrl := congrArg List.length hd
        simp only [List.length_append, List.length_drop, List.length_cons] at hrl
        have hsp := split_mid hL (l := m.take (m.length - t)) (x := x) (r := r)
          (by omega) (by omega) hmg.1
        have hxk : x.1 ≤ k := by
          have hxm : x ∈ m := by
            cases hdm : m.drop (m.length - t) with
            | nil =>
              have := congrArg List.length hdm
              simp only [List.length_drop, List.length_nil] at this
              omega
            | cons y ys =>
              rw [hdm] at hd
              simp only [List.cons_append, List.cons.injEq] at hd
              rw [← hd.1]
              exact List.mem_of_mem_drop (by rw [hdm]; simp)
          have : x.1 < key := (Tree.chain_mem hmc x hxm).2
          omega
        refine ⟨hsp.1, hsp.2.1.trans hmg.2.1, hsp.2.2.trans hmg.2.2, ?_, by simp, ?_⟩
        · intro e he
          simp only [List.mem_append, List.mem_cons, List.not_mem_nil, or_false] at he
          rcases he with he | rfl | rfl
          · exact hnh e (by simp [he])
          · trivial
          · trivial
        · refine ⟨x.1, x :: r, ?_, ?_⟩
          · have hps := Tree.position_mid (k := k) (e := (x.1, fresh (x :: r))) (post := [])
              (pre := pre ++ [(skey, fresh (m.take (m.length - t)))]) ?_ (Or.inr hxk) (by simp)
            · have hg := Tree.getElem?_mid (pre ++ [(skey, fresh (m.take (m.length - t)))])
                (x.1, fresh (x :: r)) []
              simp only [List.append_assoc, List.cons_append, List.nil_append] at hps hg
              show (pre ++ [(skey, fresh (m.take (m.length - t))), (x.1, fresh (x :: r))])[position
                (pre ++ [(skey, fresh (m.take (m.length - t))), (x.1, fresh (x :: r))]) k]? = _
              rw [hps]
              exact hg
            · intro y hy
              simp only [List.mem_append, List.mem_singleton] at hy
              rcases hy with hy | rfl
              · exact hpre y hy
              · show skey ≤ k
                omega
          · rw [List.length_cons]; omega

/-- `fixPair` does not panic. -/
theorem fixPair_total {L : Limits} (hL : L.Ok) {h lo : Nat} {hi : Option Nat}
    {cs : List (Nat × Node V h)} {k key : Nat} {c : Node V h}
    (hc : Chain (SubOk L (h + 1)) lo hi (cs : Kids V (h + 1)))
    (hk : cs[position cs k]? = some (key, c)) (hn : c.kids.length ≤ L.min h)
    (hlen : 2 ≤ cs.length) : ∃ cs', fixPair L h cs (position cs k) = some cs' := by
  have hmin := hL.min_pos h
  have htwo := hL.two h
  obtain ⟨pre, post, rfl, hp, _, _⟩ := find (L := L) (h := h + 1) hc hk
  rw [hp]
  unfold fixPair
  cases post with
  | cons s post =>
    have e2 : (pre ++ (key, c) :: s :: post)[pre.length + 1]? = some s := by
      have := Tree.getElem?_mid (pre ++ [(key, c)]) s post
      simpa using this
    rw [if_pos (by simp only [List.length_append, List.length_cons]; omega)]
    simp only [Tree.getElem?_mid, e2]
    split
    · exact ⟨_, rfl⟩
    · next hmax =>
      have hks : ∃ t, keysToShare c.kids.length s.2.kids.length = some t := by
        unfold keysToShare; rw [if_neg (by omega)]; exact ⟨_, rfl⟩
      obtain ⟨t, ht⟩ := hks
      have hb := Tree.keysToShare_bound ht
      unfold takeLowKeys
      rw [ht]
      simp only [Option.bind_some]
      rw [if_neg (by omega)]
      simp only [Option.bind_some]
      cases hd : s.2.kids.drop t with
      | nil =>
        have := congrArg List.length hd
        simp only [List.length_drop, List.length_nil] at this
        omega
      | cons x r => exact ⟨_, rfl⟩
  | nil =>
    rcases List.eq_nil_or_concat pre with rfl | ⟨pre, s, rfl⟩
    · simp at hlen
    · rw [List.concat_eq_append]
      have hcat : pre ++ [s] ++ [(key, c)] = pre ++ [s, (key, c)] := by simp
      have hlen1 : (pre ++ [s]).length = pre.length + 1 := by simp
      rw [hcat, hlen1, if_neg (by simp)]
      have e2 : (pre ++ [s, (key, c)])[pre.length + 1]? = some (key, c) := by
        have := Tree.getElem?_mid (pre ++ [s]) (key, c) []
        simpa using this
      simp only [Tree.getElem?_mid, e2]
      split
      · exact ⟨_, rfl⟩
      · next hmax =>
        have hks : ∃ t, keysToShare c.kids.length s.2.kids.length = some t := by
          unfold keysToShare; rw [if_neg (by omega)]; exact ⟨_, rfl⟩
        obtain ⟨t, ht⟩ := hks
        have hb := Tree.keysToShare_bound ht
        unfold takeHighKeys
        rw [ht]
        simp only [Option.bind_some]
        rw [if_neg (by omega)]
        simp only [Option.bind_some]
        cases hd : s.2.kids.drop (s.2.kids.length - t) ++ c.kids with
        | nil =>
          have := congrArg List.length hd
          simp only [List.length_append, List.length_drop, List.length_nil] at this
          omega
        | cons x r => exact ⟨_, rfl⟩

end Verif.Conc
