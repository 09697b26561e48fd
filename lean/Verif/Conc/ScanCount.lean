import Verif.Conc.ScanTerm

/-!
# Counting the range queries

Every query holds one lock as `guard` and at most one as `next_guard`.
-/

namespace Verif.Conc

open Verif
open Verif.Tree (Limits position firstKey Bnd startChild nextKey)

variable {V : Type}

def cntR (w : Read → Nat) (rs : List Read) : Nat := (rs.map w).sum

def cntL (w : Read → Nat) : Lock V → Nat
  | .excl _ => 0
  | .shared rs => cntR w rs

def cntOf (w : Read → Nat) : (h : Nat) → Nat × Sub V h → Nat
  | 0, _ => 0
  | h + 1, e => cntL w e.2.lock + (e.2.kids.map (cntOf w h)).sum

def cntK (w : Read → Nat) (h : Nat) (cs : Kids V h) : Nat := (cs.map (cntOf w h)).sum

def cntN (w : Read → Nat) {h : Nat} (n : Node V h) : Nat := cntL w n.lock + cntK w h n.kids

theorem cntR_cons (w : Read → Nat) (r : Read) (rs : List Read) :
    cntR w (r :: rs) = w r + cntR w rs := by simp [cntR]

theorem cntR_mid (w : Read → Nat) (r : Read) (pre post : List Read) :
    cntR w (pre ++ r :: post) = w r + cntR w (pre ++ post) := by
  simp [cntR]; omega

variable {w : Read → Nat}

theorem cntK_nd {h : Nat} (pre post : List (Nat × Node V h)) (k : Nat)
    (c : Node V h) : cntK w (h + 1) (pre ++ (k, c) :: post) =
      cntK w (h + 1) pre + (cntN w c + cntK w (h + 1) post) := by
  simp [cntK, cntOf, cntN]

theorem cntK_cons {h : Nat} (post : List (Nat × Node V h)) (k : Nat)
    (c : Node V h) : cntK w (h + 1) ((k, c) :: post) = cntN w c + cntK w (h + 1) post :=
  (cntK_nd [] post k c).trans (by simp [cntK])

theorem cntK_append {h : Nat} (a b : Kids V h) : cntK w h (a ++ b) = cntK w h a + cntK w h b := by
  simp [cntK]

theorem cntK_zero (cs : Kids V 0) : cntK w 0 cs = 0 := by
  induction cs with
  | nil => rfl
  | cons e es ih =>
    show cntOf w 0 e + cntK w 0 es = 0
    rw [ih]; rfl

theorem cntK_nil {h : Nat} : cntK w h ([] : Kids V h) = 0 := rfl

theorem cnt_shared {h : Nat} (rs : List Read) (n : Kids V h) :
    cntN w (⟨.shared rs, n⟩ : Node V h) = cntR w rs + cntK w h n := rfl

theorem cnt_excl {h : Nat} (x : Work V) (n : Kids V h) :
    cntN w (⟨.excl x, n⟩ : Node V h) = cntK w h n := Nat.zero_add _

theorem cnt_fresh {h : Nat} (n : Kids V h) : cntN w (fresh n) = cntK w h n := Nat.zero_add _

theorem Quiet.cnt {h : Nat} {n : Node V h} (hq : Quiet n) : cntN w n = cntK w h n.kids := by
  unfold cntN
  rcases hq with hq | ⟨id, hq⟩ <;> rw [hq] <;> exact Nat.zero_add _

theorem fixPair_cnt {L : Limits} {h : Nat} {pre post : List (Nat × Node V h)}
    {key : Nat} {c : Node V h} {cs' : List (Nat × Node V h)} (hq : Quiet c)
    (hs : ∀ skey s, (pre ++ (key, c) :: post)[sibling (pre ++ (key, c) :: post) pre.length]? =
      some (skey, s) → Quiet s)
    (hf : fixPair L h (pre ++ (key, c) :: post) pre.length = some cs') :
    cntK w (h + 1) cs' = cntK w (h + 1) (pre ++ (key, c) :: post) := by
  cases post with
  | cons s post =>
    obtain ⟨kb, B⟩ := s
    have hsib : sibling (pre ++ (key, c) :: (kb, B) :: post) pre.length = pre.length + 1 := by
      unfold sibling; rw [if_pos]; simp only [List.length_append, List.length_cons]; omega
    have e2 : (pre ++ (key, c) :: (kb, B) :: post)[pre.length + 1]? = some (kb, B) := by
      have := Tree.getElem?_mid (pre ++ [(key, c)]) (kb, B) post
      simpa using this
    have qB : Quiet B := hs kb B (by rw [hsib]; exact e2)
    rcases fixPair_right hf with ⟨hm, rfl⟩ | ⟨hmax, t, x, r, hn1, hd, hl, hB, rfl⟩
    · rw [cntK_nd, cntK_nd, cntK_cons, cnt_fresh, hq.cnt, qB.cnt, cntK_append]
      omega
    · have hBp : cntK w h B.kids = cntK w h (B.kids.take t) + cntK w h (x :: r) := by
        rw [← cntK_append, ← hB]
      rw [cntK_nd, cntK_nd, cntK_cons, cntK_cons, cnt_fresh, cnt_fresh, hq.cnt, qB.cnt,
        cntK_append, hBp]
      omega
  | nil =>
    rcases List.eq_nil_or_concat pre with rfl | ⟨pre, s, rfl⟩
    · simp [fixPair] at hf
    · obtain ⟨ka, A⟩ := s
      rw [List.concat_eq_append] at *
      have hcat : pre ++ [(ka, A)] ++ [(key, c)] = pre ++ [(ka, A), (key, c)] := by simp
      have hlen1 : (pre ++ [(ka, A)]).length = pre.length + 1 := by simp
      rw [hcat, hlen1] at hs hf
      rw [hcat]
      have hsib : sibling (pre ++ [(ka, A), (key, c)]) (pre.length + 1) = pre.length := by
        unfold sibling; rw [if_neg (by simp)]; omega
      have qA : Quiet A := hs ka A (by rw [hsib]; exact Tree.getElem?_mid ..)
      rcases fixPair_left hf with ⟨hm, rfl⟩ | ⟨hmax, t, x, r, hn1, hle, hd, rfl⟩
      · rw [cntK_nd, cntK_nd, cntK_cons, cnt_fresh, hq.cnt, qA.cnt, cntK_append]
        omega
      · have hAp : cntK w h A.kids + cntK w h c.kids =
            cntK w h (A.kids.take (A.kids.length - t)) + cntK w h (x :: r) := by
          rw [← hd, ← cntK_append, ← cntK_append, ← List.append_assoc, List.take_append_drop]
        rw [cntK_nd, cntK_nd, cntK_cons, cntK_cons, cnt_fresh, cnt_fresh, hq.cnt, qA.cnt]
        omega

theorem cnt_split {L : Limits} {seq : Bool} {h : Nat} {n left right : Kids V h} {k : Nat}
    (hs : split L seq h n = some (left, k, right)) :
    cntK w h left + cntK w h right = cntK w h n := by
  unfold split at hs
  split at hs
  · cases hs
  · simp only [Option.map_eq_some_iff, Prod.mk.injEq] at hs
    obtain ⟨_, _, rfl, _, rfl⟩ := hs
    rw [← cntK_append, List.take_append_drop]

/-- The other tasks leave the queries where they are. -/
theorem step_cnt {L : Limits} (hw : ∀ r : Read, r.plain = true → w r = 0) {seq : Bool} {h : Nat}
    {n n' : Node V h} {l : Lbl V} (hs : StepOf Read.plain L seq h n l n') :
    ∀ {a lo : Nat} {hi : Option Nat}, NodeOk L a h lo hi n → cntN w n' = cntN w n := by
  induction hs with
  | @deeper h lock pre post key c c' l hs ih =>
    intro a lo hi hn
    obtain ⟨c1, c2, c3, c4, c5⟩ := chain_mid (L := L) (h := h + 1).mp hn.chain
    have := ih (subOk_iff.mp c4)
    simp only [cntN] at this ⊢
    rw [cntK_nd, cntK_nd]
    simp only [cntN]
    omega
  | removeLeaf =>
    intros
    rw [cnt_excl, cnt_shared, cntK_zero, cntK_zero]
    rfl
  | @readLeaf r pre post n hr =>
    intros
    rw [cnt_shared, cnt_shared, cntR_mid, hw r hr]
    omega
  | @insertSplit h id k v cs key n left right k' hk hss hsp =>
    intros
    obtain ⟨pre, post, rfl, hp⟩ := split_at hk
    rw [hp, Tree.set_mid, Tree.insertIdx_mid]
    have := cnt_split (w := w) hsp
    rw [cnt_excl, cnt_excl, cntK_nd, cntK_nd, cntK_cons, cnt_fresh, cnt_fresh, cnt_fresh]
    omega
  | @insertDown h id k v cs key n hk hss =>
    intros
    obtain ⟨pre, post, rfl, hp⟩ := split_at hk
    rw [hp, Tree.set_mid]
    rw [cnt_shared, cnt_excl, cntK_nd, cntK_nd, cnt_excl, cnt_fresh]
    exact Nat.zero_add _
  | @insertLeaf id k v cs key n hk hss =>
    intros
    obtain ⟨pre, post, rfl, hp⟩ := split_at hk
    rw [hp, Tree.set_mid]
    rw [cnt_shared, cnt_excl, cntK_nd, cntK_nd, cnt_fresh, cnt_fresh, cntK_zero, cntK_zero]
    exact Nat.zero_add _
  | @removeFix h id k cs key n hk hdg =>
    intros
    obtain ⟨pre, post, rfl, hp⟩ := split_at hk
    rw [hp, Tree.set_mid]
    rw [cnt_excl, cnt_excl, cntK_nd, cntK_nd, cnt_excl, cnt_fresh]
  | @fixPair h id k i cs cs' key n hk hf =>
    intro a lo hi hn
    obtain ⟨_, hi', ck, c, hc1, hc2, hc3⟩ := hn.lock
    simp only at hi'
    subst hi'
    obtain ⟨pre, post, rfl, hp, h1, h2⟩ := find hn.chain hc1
    rw [hp] at hk hf
    rw [cnt_excl, cnt_excl]
    refine fixPair_cnt (Or.inr ⟨id, hc2⟩) ?_ hf
    intro skey s hse
    rw [hk] at hse
    cases hse
    exact Or.inl rfl
  | @removeDown h id k cs key n hk hdg =>
    intros
    obtain ⟨pre, post, rfl, hp⟩ := split_at hk
    rw [hp, Tree.set_mid]
    rw [cnt_shared, cnt_excl, cntK_nd, cntK_nd, cnt_excl, cnt_fresh]
    exact Nat.zero_add _
  | @fixedDown h id k cs key n hk =>
    intros
    obtain ⟨pre, post, rfl, hp⟩ := split_at hk
    rw [hp, Tree.set_mid]
    rw [cnt_shared, cnt_excl, cntK_nd, cntK_nd, cnt_excl, cnt_fresh]
    exact Nat.zero_add _
  | @readDown h r rpre rpost rs cs key n hr hk =>
    intros
    obtain ⟨pre, post, rfl, hp⟩ := split_at hk
    rw [hp, Tree.set_mid]
    rw [cnt_shared, cnt_shared, cntK_nd, cntK_nd, cnt_shared, cnt_shared, cntR_mid, cntR_cons,
      hw r hr]
    omega
  | @visitDown h id i cs key n hk =>
    intros
    obtain ⟨pre, post, rfl, rfl⟩ := split_at hk
    rw [Tree.set_mid]
    rw [cnt_shared, cnt_excl, cntK_nd, cntK_nd, cnt_excl, cnt_fresh]
    exact Nat.zero_add _
  | visitDone => intros; rw [cnt_shared, cnt_excl]; exact Nat.zero_add _

def Sys.cnt (w : Read → Nat) (s : Sys V) : Nat := cntL w s.top + cntN w s.tree.node

theorem sys_cnt {L : Limits} (hw : ∀ r : Read, r.plain = true → w r = 0) {seq : Bool}
    {s s' : Sys V} {es : List (Event V)} (hst : SysStepOf Read.plain L seq s es s') (hi : Inv L s) :
    s'.cnt w = s.cnt w := by
  have hz : ∀ x, cntL w (Lock.excl x : Lock V) = 0 := fun _ => rfl
  have hf : cntL w (Lock.shared [] : Lock V) = 0 := rfl
  cases hst with
  | call id op => rfl
  | enterExcl _ => simp only [Sys.cnt, hz, hf]
  | @enterShared pre post id op r rs t hr =>
    have : r.plain = true := by cases op <;> cases hr <;> rfl
    simp only [Sys.cnt, cntL, cntR_cons, hw r this, Nat.zero_add]
  | @inside calls top h n n' l hst =>
    have h1 : cntN w n' = cntN w n := step_cnt hw hst hi.node
    simp only [Sys.cnt, h1]
  | @insertSplit calls id k v h n left right k' hss hsp =>
    have := cnt_split (w := w) hsp
    show 0 + (0 + cntK w (h + 1) [(0, fresh left), (k', fresh right)]) = 0 + (0 + cntK w h n)
    rw [cntK_cons, cntK_cons, cnt_fresh, cnt_fresh, cntK_nil]
    omega
  | insertDown _ => rfl
  | insertLeaf _ => simp only [Sys.cnt, hz, hf, cnt_fresh, cntK_zero]
  | @removeMerge calls id k h key c =>
    simp only [Sys.cnt, hz, cnt_fresh]
    rw [cntK_cons, cntK_nil]
    rfl
  | removeEmpty => simp only [Sys.cnt, hz, cnt_fresh]; rfl
  | removeDown _ => simp only [Sys.cnt, hz, hf, cnt_fresh, cnt_excl]
  | fixedDown => simp only [Sys.cnt, hz, hf, cnt_fresh, cnt_excl]
  | readDown hr =>
    simp only [Sys.cnt, cntL, cnt_shared, cntR_mid, cntR_cons, hw _ hr]
    omega
  | visitDown => rfl
  | visitDone => simp only [Sys.cnt, hz, hf]

/-! ## Steps of the queries -/

def isScan (id : Nat) : Read → Nat
  | .scan id' _ _ _ => if id' = id then 1 else 0
  | _ => 0

def isGuard (id : Nat) : Read → Nat
  | .guard id' _ _ _ => if id' = id then 1 else 0
  | _ => 0

theorem plain_isScan (id : Nat) (r : Read) (h : r.plain = true) : isScan id r = 0 := by
  cases r <;> first | rfl | cases h

theorem plain_isGuard (id : Nat) (r : Read) (h : r.plain = true) : isGuard id r = 0 := by
  cases r <;> first | rfl | cases h

/-- The locks that a query takes in a step, and those that it gives up. -/
def ScanLbl.id : ScanLbl V → Nat
  | .down i => i
  | .turn i => i
  | .swap i => i
  | .goto i _ _ _ => i
  | .ret i _ _ => i

def ScanLbl.ends : ScanLbl V → Nat
  | .goto _ _ _ _ => 1
  | .ret _ _ _ => 1
  | _ => 0

def ScanLbl.keeps : ScanLbl V → Nat
  | .swap _ => 1
  | _ => 0

theorem scan_move_cnt {h id : Nat} {s e : Bnd Nat} {next next' : Option Nat}
    {rpre rpost rs : List Read} {pre post : List (Nat × Node V h)} {key : Nat} {n : Kids V h} (i : Nat) :
    cntN (isScan i) (⟨.shared (rpre ++ rpost),
        pre ++ (key, ⟨.shared (.scan id s e next' :: rs), n⟩) :: post⟩ : Node V (h + 1)) =
      cntN (isScan i) (⟨.shared (rpre ++ .scan id s e next :: rpost),
        pre ++ (key, ⟨.shared rs, n⟩) :: post⟩ : Node V (h + 1)) ∧
    cntN (isGuard i) (⟨.shared (rpre ++ rpost),
        pre ++ (key, ⟨.shared (.scan id s e next' :: rs), n⟩) :: post⟩ : Node V (h + 1)) =
      cntN (isGuard i) (⟨.shared (rpre ++ .scan id s e next :: rpost),
        pre ++ (key, ⟨.shared rs, n⟩) :: post⟩ : Node V (h + 1)) := by
  constructor <;>
  · rw [cnt_shared, cnt_shared, cntK_nd, cntK_nd, cnt_shared, cnt_shared, cntR_mid, cntR_cons]
    simp only [isScan, isGuard]
    omega

theorem scan_cnt {h : Nat} {n n' : Node V h} {l : ScanLbl V} (hs : ScanStep h n l n') (i : Nat) :
    cntN (isScan i) n' + (if l.id = i then l.ends else 0) = cntN (isScan i) n ∧
    cntN (isGuard i) n ≤ cntN (isGuard i) n' ∧
    cntN (isGuard i) n' ≤ cntN (isGuard i) n + (if l.id = i then l.keeps else 0) := by
  induction hs with
  | @deeper h lock pre post key c c' l hs ih =>
    simp only [cntN] at ih ⊢
    rw [cntK_nd, cntK_nd, cntK_nd, cntK_nd]
    simp only [cntN]
    omega
  | @leafRet id s e next pre post n v b _ =>
    show _ + (if id = i then 1 else 0) = _ ∧ _ ∧ _ ≤ _ + (if id = i then 0 else 0)
    simp only [cntN, cntL, cntR_mid, isScan, isGuard]
    by_cases hid : id = i
    · simp only [if_pos hid]; omega
    · simp only [if_neg hid]; omega
  | @leafGoto id s e key pre post n _ =>
    show _ + (if id = i then 1 else 0) = _ ∧ _ ∧ _ ≤ _ + (if id = i then 0 else 0)
    simp only [cntN, cntL, cntR_mid, isScan, isGuard]
    by_cases hid : id = i
    · simp only [if_pos hid]; omega
    · simp only [if_neg hid]; omega
  | @downLast h id s e next rpre rpost rs cs key n hlast hk =>
    obtain ⟨pre, post, rfl, hp⟩ := split_at hk
    rw [hp, Tree.set_mid]
    obtain ⟨h1, h2⟩ := scan_move_cnt (s := s) (e := e) (id := id) (next := next) (next' := next)
      (rpre := rpre) (rpost := rpost) (rs := rs) (pre := pre) (post := post) (key := key) (n := n) i
    simp only [ScanLbl.ends, ScanLbl.keeps, ite_self]
    omega
  | turn _ => simp [ScanLbl.ends, ScanLbl.keeps]
  | @downAlone h id s e next rpre rpost rs cs key key' n c' hk' hbe hk =>
    obtain ⟨pre, post, rfl, hp⟩ := split_at hk
    rw [hp, Tree.set_mid]
    obtain ⟨h1, h2⟩ := scan_move_cnt (s := s) (e := e) (id := id) (next := next) (next' := none)
      (rpre := rpre) (rpost := rpost) (rs := rs) (pre := pre) (post := post) (key := key) (n := n) i
    simp only [ScanLbl.ends, ite_self]
    omega
  | @downBeyond h id k s e next rpre rpost rs rs' cs key key' n n' hk' hbe hfk hbk hk =>
    obtain ⟨pre, post, rfl, hp⟩ := split_at hk
    rw [hp, Tree.set_mid]
    obtain ⟨h1, h2⟩ := scan_move_cnt (s := s) (e := e) (id := id) (next := next) (next' := none)
      (rpre := rpre) (rpost := rpost) (rs := rs) (pre := pre) (post := post) (key := key) (n := n) i
    simp only [ScanLbl.ends, ite_self]
    omega
  | @downNext h id k s e next rpre rpost rs rs' cs key key' n n' hk' hbe hfk hbk hk =>
    obtain ⟨pre, post, rfl, hp⟩ := split_at hk
    rw [hp] at hk' ⊢
    rw [Tree.set_mid]
    obtain ⟨h1, h2⟩ := scan_move_cnt (s := s) (e := e) (id := id) (next := next) (next' := some k)
      (rpre := rpre) (rpost := rpost) (rs := rs) (pre := pre) (post := post) (key := key) (n := n) i
    have hk2 : (pre ++ (key, (⟨.shared (.scan id s e (some k) :: rs), n⟩ : Node V h)) :: post)[
        pre.length + 1]? = some (key', (⟨.shared rs', n'⟩ : Node V h)) := by
      rw [List.getElem?_append_right (by omega)] at hk' ⊢
      simpa using hk'
    show _ + (if id = i then 0 else 0) = _ ∧ _ ∧ _ ≤ _ + (if id = i then 1 else 0)
    rw [← h1, ← h2]
    obtain ⟨pre2, post2, he, hp2⟩ := split_at hk2
    rw [hp2]
    rw [he]
    rw [Tree.set_mid]
    simp only [cntN, cntL]
    rw [cntK_nd, cntK_nd, cntK_nd, cntK_nd]
    simp only [cntN, cntL, cntR_cons, isScan, isGuard]
    by_cases hid : id = i
    · simp only [if_pos hid]; omega
    · simp only [if_neg hid]; omega

/-- The query that makes a step holds a lock. -/
theorem scan_has {h : Nat} {n n' : Node V h} {l : ScanLbl V} (hs : ScanStep h n l n') :
    1 ≤ cntN (isScan l.id) n := by
  have gen : ∀ {h id : Nat} {s e : Bnd Nat} {next : Option Nat} {pre post : List Read} (n : Kids V h),
      1 ≤ cntN (isScan id) (⟨.shared (pre ++ .scan id s e next :: post), n⟩ : Node V h) := by
    intro h id s e next pre post n
    simp only [cntN, cntL, cntR_mid, isScan, if_true]
    omega
  induction hs with
  | deeper hs ih =>
    simp only [cntN] at ih ⊢
    rw [cntK_nd]
    simp only [cntN]
    omega
  | _ => exact gen _

theorem base_top {L : Limits} (hw : ∀ r : Read, r.plain = true → w r = 0) {seq : Bool}
    {s s' : Sys V} {es : List (Event V)} (hst : SysStepOf Read.plain L seq s es s')
    (ht : cntL w s.top = 0) : cntL w s'.top = 0 := by
  cases hst with
  | @enterShared pre post id op r rs t hr =>
    have : r.plain = true := by cases op <;> cases hr <;> rfl
    simp only [cntL, cntR_cons, hw r this, Nat.zero_add]
    exact ht
  | readDown hr =>
    simp only [cntL, cntR_mid] at ht ⊢
    omega
  | call => exact ht
  | inside => exact ht
  | _ => rfl

/-! ## Changes of the readers -/

/-- A change that gives the weight `w'` what `w` was before. -/
theorem cnt_map_le {w' : Read → Nat} {f : List Read → List Read} (hf : ∀ rs, cntR w' (f rs) ≤ cntR w rs) :
    ∀ (h : Nat) (e : Nat × Sub V h), cntOf w' h (e.1, mapReads f h e.2) ≤ cntOf w h e
  | 0, _ => Nat.le_refl _
  | h + 1, e => by
    have h1 : cntL w' (e.2.lock.mapReads f) ≤ cntL w e.2.lock := by
      cases e.2.lock with
      | excl x => exact Nat.le_refl _
      | shared rs => exact hf rs
    have h2 : ((e.2.kids.map fun x => (x.1, mapReads f h x.2)).map (cntOf w' h)).sum ≤
        (e.2.kids.map (cntOf w h)).sum := by
      rw [List.map_map]
      exact sum_le (less_drop 0) _ fun x _ => cnt_map_le hf h x
    exact Nat.add_le_add h1 h2

theorem cntN_map_le {w' : Read → Nat} {f : List Read → List Read}
    (hf : ∀ rs, cntR w' (f rs) ≤ cntR w rs) {h : Nat} (n : Node V h) :
    cntN w' (mapReads f (h + 1) n : Node V h) ≤ cntN w n := cnt_map_le hf (h + 1) (0, n)

theorem cntR_add (w w' : Read → Nat) (rs : List Read) :
    cntR (fun r => w r + w' r) rs = cntR w rs + cntR w' rs := by
  induction rs with
  | nil => rfl
  | cons r rs ih => simp only [cntR_cons, ih]; omega

theorem cntOf_add (w w' : Read → Nat) : ∀ (h : Nat) (e : Nat × Sub V h),
    cntOf (fun r => w r + w' r) h e = cntOf w h e + cntOf w' h e
  | 0, _ => rfl
  | h + 1, e => by
    have h1 : cntL (fun r => w r + w' r) e.2.lock = cntL w e.2.lock + cntL w' e.2.lock := by
      cases e.2.lock with
      | excl x => rfl
      | shared rs => exact cntR_add w w' rs
    have h2 : ∀ l : List (Nat × Sub V h), (l.map (cntOf (fun r => w r + w' r) h)).sum =
        (l.map (cntOf w h)).sum + (l.map (cntOf w' h)).sum := by
      intro l
      induction l with
      | nil => rfl
      | cons x l ih =>
        simp only [List.map_cons, List.sum_cons, ih, cntOf_add w w' h x]
        omega
    show _ + _ = (_ + _) + (_ + _)
    rw [h1, h2]
    omega

theorem cntN_add (w w' : Read → Nat) {h : Nat} (n : Node V h) :
    cntN (fun r => w r + w' r) n = cntN w n + cntN w' n := cntOf_add w w' (h + 1) (0, n)

theorem drop_scan (id i : Nat) {h : Nat} (n : Node V h) :
    cntN (isScan i) (mapReads (dropGuard id) (h + 1) n : Node V h) ≤ cntN (isScan i) n := by
  refine cntN_map_le (fun rs => ?_) n
  induction rs with
  | nil => exact Nat.le_refl _
  | cons r rs ih =>
    have : dropGuard id (r :: rs) = dropGuard id rs ∨ dropGuard id (r :: rs) = r :: dropGuard id rs := by
      simp only [dropGuard, List.filter_cons]
      split <;> split <;> simp
    rcases this with h | h <;> rw [h] <;> simp only [cntR_cons] <;> omega

theorem drop_guard (id i : Nat) {h : Nat} (n : Node V h) :
    cntN (isGuard i) (mapReads (dropGuard id) (h + 1) n : Node V h) ≤
      if i = id then 0 else cntN (isGuard i) n := by
  split
  · next hi =>
    have h0 : ∀ rs, cntR (isGuard i) (dropGuard id rs) ≤ cntR (fun _ => 0) rs := by
      intro rs
      induction rs with
      | nil => exact Nat.le_refl _
      | cons r rs ih =>
        have hz : ∀ rs : List Read, cntR (fun _ => 0) rs = 0 := by
          intro rs; induction rs with
          | nil => rfl
          | cons r rs ih => rw [cntR_cons, ih]
        rw [hz] at ih ⊢
        by_cases hg : ∃ s e k, r = .guard id s e k
        · obtain ⟨s, e, k, rfl⟩ := hg
          have : dropGuard id (.guard id s e k :: rs) = dropGuard id rs := by simp [dropGuard]
          rw [this]; exact ih
        · have : isGuard i r = 0 := by
            cases r with
            | guard id' s e k =>
              simp only [isGuard]
              rw [if_neg]
              intro h
              exact hg ⟨s, e, k, by rw [h, hi]⟩
            | _ => rfl
          have h2 : dropGuard id (r :: rs) = dropGuard id rs ∨
              dropGuard id (r :: rs) = r :: dropGuard id rs := by
            simp only [dropGuard, List.filter_cons]
            split <;> split <;> simp
          rcases h2 with h2 | h2 <;> rw [h2]
          · exact ih
          · rw [cntR_cons, this]; omega
    have := cntN_map_le h0 n
    have hz : cntN (fun _ => 0) n = 0 := by
      have := cntN_add (fun _ => 0) (fun _ => 0) n
      simp only [Nat.add_zero] at this
      omega
    omega
  · refine cntN_map_le (fun rs => ?_) n
    induction rs with
    | nil => exact Nat.le_refl _
    | cons r rs ih =>
      have : dropGuard id (r :: rs) = dropGuard id rs ∨ dropGuard id (r :: rs) = r :: dropGuard id rs := by
        simp only [dropGuard, List.filter_cons]
        split <;> split <;> simp
      rcases this with h | h <;> rw [h] <;> simp only [cntR_cons] <;> omega

theorem wake_both (id : Nat) (s e : Bnd Nat) (k i : Nat) {h : Nat} (n : Node V h) :
    cntN (isScan i) (mapReads (wake id s e k) (h + 1) n : Node V h) +
        cntN (isGuard i) (mapReads (wake id s e k) (h + 1) n : Node V h) ≤
      cntN (isScan i) n + cntN (isGuard i) n ∧
    (i ≠ id → cntN (isScan i) (mapReads (wake id s e k) (h + 1) n : Node V h) ≤ cntN (isScan i) n ∧
      cntN (isGuard i) (mapReads (wake id s e k) (h + 1) n : Node V h) ≤ cntN (isGuard i) n) := by
  have gen : ∀ w : Read → Nat, w (.scan id s e none) ≤ w (.guard id s e k) →
      cntN w (mapReads (wake id s e k) (h + 1) n : Node V h) ≤ cntN w n := by
    intro w hw
    refine cntN_map_le (fun rs => ?_) n
    induction rs with
    | nil => exact Nat.le_refl _
    | cons r rs ih =>
      have : wake id s e k (r :: rs) =
        (if r = .guard id s e k then .scan id s e none else r) :: wake id s e k rs := rfl
      rw [this, cntR_cons, cntR_cons]
      split
      · next h => subst h; omega
      · omega
  constructor
  · rw [← cntN_add, ← cntN_add]
    exact gen _ (by simp [isScan, isGuard])
  · intro hi
    have hi' : id ≠ i := fun h => hi h.symm
    exact ⟨gen _ (by simp [isScan, isGuard, hi']), gen _ (by simp [isScan, isGuard, hi'])⟩

end Verif.Conc
