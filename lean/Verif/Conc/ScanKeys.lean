import Verif.Conc.ScanDone

/-!
# Counting the queries that still need their `next_guard`
-/

namespace Verif.Conc.Ky

open Verif
open Verif.Tree (Limits position firstKey Bnd startChild nextKey)

variable {V : Type}

def keys (h : Nat) (cs : Kids V h) : List Nat := cs.map Prod.fst

/-- The weight of a reader may depend on the height of its node and on the keys there. -/
def cntOf (w : Nat → List Nat → Read → Nat) : (h : Nat) → Nat × Sub V h → Nat
  | 0, _ => 0
  | h + 1, e => cntL (w h (keys h e.2.kids)) e.2.lock + (e.2.kids.map (cntOf w h)).sum

def cntK (w : Nat → List Nat → Read → Nat) (h : Nat) (cs : Kids V h) : Nat := (cs.map (cntOf w h)).sum

def cntN (w : Nat → List Nat → Read → Nat) {h : Nat} (n : Node V h) : Nat := cntL (w h (keys h n.kids)) n.lock + cntK w h n.kids

variable {w : Nat → List Nat → Read → Nat}

theorem keys_nd {h : Nat} (pre post : List (Nat × Node V h)) (k : Nat)
    (c : Node V h) : keys (h + 1) (pre ++ (k, c) :: post) =
      keys (h + 1) pre ++ k :: keys (h + 1) post := by
  simp [keys]

theorem cntK_nd {h : Nat} (pre post : List (Nat × Node V h)) (k : Nat)
    (c : Node V h) : cntK w (h + 1) (pre ++ (k, c) :: post) =
      cntK w (h + 1) pre + (cntN w c + cntK w (h + 1) post) := by
  simp [cntK, cntOf, cntN]

theorem cntK_cons {h : Nat} (post : List (Nat × Node V h)) (k : Nat)
    (c : Node V h) : cntK w (h + 1) ((k, c) :: post) = cntN w c + cntK w (h + 1) post :=
  (cntK_nd [] post k c).trans (by simp [cntK])

theorem cntK_append {h : Nat} (a b : Kids V h) : cntK w h (a ++ b) = cntK w h a + cntK w h b := by
  simp [cntK]

theorem cntK_zero (cs : Kids V 0) : cntK w 0 cs = 0 := by
  induction cs with
  | nil => rfl
  | cons e es ih =>
    show cntOf w 0 e + cntK w 0 es = 0
    rw [ih]; rfl

theorem cntK_nil {h : Nat} : cntK w h ([] : Kids V h) = 0 := rfl

theorem cnt_shared {h : Nat} (rs : List Read) (n : Kids V h) :
    cntN w (⟨.shared rs, n⟩ : Node V h) = cntR (w h (keys h n)) rs + cntK w h n := rfl

theorem cnt_excl {h : Nat} (x : Work V) (n : Kids V h) :
    cntN w (⟨.excl x, n⟩ : Node V h) = cntK w h n := Nat.zero_add _

theorem cnt_fresh {h : Nat} (n : Kids V h) : cntN w (fresh n) = cntK w h n := Nat.zero_add _

theorem quiet_cnt {h : Nat} {n : Node V h} (hq : Quiet n) : cntN w n = cntK w h n.kids := by
  unfold cntN
  rcases hq with hq | ⟨id, hq⟩ <;> rw [hq] <;> exact Nat.zero_add _

theorem fixPair_cnt {L : Limits} {h : Nat} {pre post : List (Nat × Node V h)}
    {key : Nat} {c : Node V h} {cs' : List (Nat × Node V h)} (hq : Quiet c)
    (hs : ∀ skey s, (pre ++ (key, c) :: post)[sibling (pre ++ (key, c) :: post) pre.length]? =
      some (skey, s) → Quiet s)
    (hf : fixPair L h (pre ++ (key, c) :: post) pre.length = some cs') :
    cntK w (h + 1) cs' = cntK w (h + 1) (pre ++ (key, c) :: post) := by
  cases post with
  | cons s post =>
    obtain ⟨kb, B⟩ := s
    have hsib : sibling (pre ++ (key, c) :: (kb, B) :: post) pre.length = pre.length + 1 := by
      unfold sibling; rw [if_pos]; simp only [List.length_append, List.length_cons]; omega
    have e2 : (pre ++ (key, c) :: (kb, B) :: post)[pre.length + 1]? = some (kb, B) := by
      have := Tree.getElem?_mid (pre ++ [(key, c)]) (kb, B) post
      simpa using this
    have qB : Quiet B := hs kb B (by rw [hsib]; exact e2)
    rcases fixPair_right hf with ⟨hm, rfl⟩ | ⟨hmax, t, x, r, hn1, hd, hl, hB, rfl⟩
    · rw [cntK_nd, cntK_nd, cntK_cons, cnt_fresh, quiet_cnt hq, quiet_cnt qB, cntK_append]
      omega
    · have hBp : cntK w h B.kids = cntK w h (B.kids.take t) + cntK w h (x :: r) := by
        rw [← cntK_append, ← hB]
      rw [cntK_nd, cntK_nd, cntK_cons, cntK_cons, cnt_fresh, cnt_fresh, quiet_cnt hq, quiet_cnt qB,
        cntK_append, hBp]
      omega
  | nil =>
    rcases List.eq_nil_or_concat pre with rfl | ⟨pre, s, rfl⟩
    · simp [fixPair] at hf
    · obtain ⟨ka, A⟩ := s
      rw [List.concat_eq_append] at *
      have hcat : pre ++ [(ka, A)] ++ [(key, c)] = pre ++ [(ka, A), (key, c)] := by simp
      have hlen1 : (pre ++ [(ka, A)]).length = pre.length + 1 := by simp
      rw [hcat, hlen1] at hs hf
      rw [hcat]
      have hsib : sibling (pre ++ [(ka, A), (key, c)]) (pre.length + 1) = pre.length := by
        unfold sibling; rw [if_neg (by simp)]; omega
      have qA : Quiet A := hs ka A (by rw [hsib]; exact Tree.getElem?_mid ..)
      rcases fixPair_left hf with ⟨hm, rfl⟩ | ⟨hmax, t, x, r, hn1, hle, hd, rfl⟩
      · rw [cntK_nd, cntK_nd, cntK_cons, cnt_fresh, quiet_cnt hq, quiet_cnt qA, cntK_append]
        omega
      · have hAp : cntK w h A.kids + cntK w h c.kids =
            cntK w h (A.kids.take (A.kids.length - t)) + cntK w h (x :: r) := by
          rw [← hd, ← cntK_append, ← cntK_append, ← List.append_assoc, List.take_append_drop]
        rw [cntK_nd, cntK_nd, cntK_cons, cntK_cons, cnt_fresh, cnt_fresh, quiet_cnt hq, quiet_cnt qA]
        omega

theorem cnt_split {L : Limits} {seq : Bool} {h : Nat} {n left right : Kids V h} {k : Nat}
    (hs : split L seq h n = some (left, k, right)) :
    cntK w h left + cntK w h right = cntK w h n := by
  unfold split at hs
  split at hs
  · cases hs
  · simp only [Option.map_eq_some_iff, Prod.mk.injEq] at hs
    obtain ⟨_, _, rfl, _, rfl⟩ := hs
    rw [← cntK_append, List.take_append_drop]

/-- The other tasks leave the queries where they are. -/
theorem step_cnt {L : Limits} (hw : ∀ (j : Nat) (ks : List Nat) (r : Read), r.plain = true → w j ks r = 0) {seq : Bool} {h : Nat}
    {n n' : Node V h} {l : Lbl V} (hs : StepOf Read.plain L seq h n l n') :
    ∀ {a lo : Nat} {hi : Option Nat}, NodeOk L a h lo hi n → cntN w n' = cntN w n := by
  induction hs with
  | @deeper h lock pre post key c c' l hs ih =>
    intro a lo hi hn
    obtain ⟨c1, c2, c3, c4, c5⟩ := chain_mid (L := L) (h := h + 1).mp hn.chain
    have := ih (subOk_iff.mp c4)
    simp only [cntN] at this ⊢
    rw [cntK_nd, cntK_nd, keys_nd, keys_nd]
    simp only [cntN]
    omega
  | removeLeaf =>
    intros
    rw [cnt_excl, cnt_shared, cntK_zero, cntK_zero]
    rfl
  | @readLeaf r pre post n hr =>
    intros
    rw [cnt_shared, cnt_shared, cntR_mid, hw _ _ r hr]
    omega
  | @insertSplit h id k v cs key n left right k' hk hss hsp =>
    intros
    obtain ⟨pre, post, rfl, hp⟩ := split_at hk
    rw [hp, Tree.set_mid, Tree.insertIdx_mid]
    have := cnt_split (w := w) hsp
    rw [cnt_excl, cnt_excl, cntK_nd, cntK_nd, cntK_cons, cnt_fresh, cnt_fresh, cnt_fresh]
    omega
  | @insertDown h id k v cs key n hk hss =>
    intros
    obtain ⟨pre, post, rfl, hp⟩ := split_at hk
    rw [hp, Tree.set_mid]
    rw [cnt_shared, cnt_excl, cntK_nd, cntK_nd, cnt_excl, cnt_fresh]
    exact Nat.zero_add _
  | @insertLeaf id k v cs key n hk hss =>
    intros
    obtain ⟨pre, post, rfl, hp⟩ := split_at hk
    rw [hp, Tree.set_mid]
    rw [cnt_shared, cnt_excl, cntK_nd, cntK_nd, cnt_fresh, cnt_fresh, cntK_zero, cntK_zero]
    exact Nat.zero_add _
  | @removeFix h id k cs key n hk hdg =>
    intros
    obtain ⟨pre, post, rfl, hp⟩ := split_at hk
    rw [hp, Tree.set_mid]
    rw [cnt_excl, cnt_excl, cntK_nd, cntK_nd, cnt_excl, cnt_fresh]
  | @fixPair h id k i cs cs' key n hk hf =>
    intro a lo hi hn
    obtain ⟨_, hi', ck, c, hc1, hc2, hc3⟩ := hn.lock
    simp only at hi'
    subst hi'
    obtain ⟨pre, post, rfl, hp, h1, h2⟩ := find hn.chain hc1
    rw [hp] at hk hf
    rw [cnt_excl, cnt_excl]
    refine fixPair_cnt (Or.inr ⟨id, hc2⟩) ?_ hf
    intro skey s hse
    rw [hk] at hse
    cases hse
    exact Or.inl rfl
  | @removeDown h id k cs key n hk hdg =>
    intros
    obtain ⟨pre, post, rfl, hp⟩ := split_at hk
    rw [hp, Tree.set_mid]
    rw [cnt_shared, cnt_excl, cntK_nd, cntK_nd, cnt_excl, cnt_fresh]
    exact Nat.zero_add _
  | @fixedDown h id k cs key n hk =>
    intros
    obtain ⟨pre, post, rfl, hp⟩ := split_at hk
    rw [hp, Tree.set_mid]
    rw [cnt_shared, cnt_excl, cntK_nd, cntK_nd, cnt_excl, cnt_fresh]
    exact Nat.zero_add _
  | @readDown h r rpre rpost rs cs key n hr hk =>
    intros
    obtain ⟨pre, post, rfl, hp⟩ := split_at hk
    rw [hp, Tree.set_mid]
    rw [cnt_shared, cnt_shared, cntK_nd, cntK_nd, cnt_shared, cnt_shared, cntR_mid, cntR_cons,
      hw _ _ r hr, hw _ _ r hr, keys_nd, keys_nd]
    omega
  | @visitDown h id i cs key n hk =>
    intros
    obtain ⟨pre, post, rfl, rfl⟩ := split_at hk
    rw [Tree.set_mid]
    rw [cnt_shared, cnt_excl, cntK_nd, cntK_nd, cnt_excl, cnt_fresh]
    exact Nat.zero_add _
  | visitDone => intros; rw [cnt_shared, cnt_excl]; exact Nat.zero_add _

theorem base_cnt {L : Limits} (hw : ∀ (j : Nat) (ks : List Nat) (r : Read), r.plain = true → w j ks r = 0) {seq : Bool}
    {s s' : Sys V} {es : List (Event V)} (hst : SysStepOf Read.plain L seq s es s') (hi : Inv L s) :
    cntN w s'.tree.node = cntN w s.tree.node := by
  cases hst with
  | call id op => rfl
  | enterExcl _ => rfl
  | enterShared hr => rfl
  | @inside calls top h n n' l hst => exact step_cnt hw hst hi.node
  | @insertSplit calls id k v h n left right k' hss hsp =>
    have := cnt_split (w := w) hsp
    show 0 + cntK w (h + 1) [(0, fresh left), (k', fresh right)] = 0 + cntK w h n
    rw [cntK_cons, cntK_cons, cnt_fresh, cnt_fresh, cntK_nil]
    omega
  | insertDown _ => rfl
  | insertLeaf _ => simp only [cnt_fresh, cntK_zero]
  | @removeMerge calls id k h key c =>
    simp only [cnt_fresh]
    rw [cntK_cons, cntK_nil]
    rfl
  | removeEmpty => simp only [cnt_fresh]; rfl
  | removeDown _ => simp only [cnt_fresh, cnt_excl]
  | fixedDown => simp only [cnt_fresh, cnt_excl]
  | readDown hr =>
    simp only [cnt_shared, cntR_cons, hw _ _ _ hr]
    omega
  | visitDown => rfl
  | visitDone => rfl

/-! ## Queries that may take the last child -/

/-- There is a child to the right of the one the range begins in. -/
def CanTurn (ks : List Nat) (s : Bnd Nat) : Prop :=
  startChild (ks.map fun k => (k, ())) s < ks.length - 1

theorem position_keys {α : Type} (cs : List (Nat × α)) (k : Nat) :
    position ((cs.map Prod.fst).map fun k => (k, ())) k = position cs k := by
  unfold position
  congr 1
  induction cs with
  | nil => rfl
  | cons e es ih =>
    simp only [List.map_cons, List.takeWhile_cons]
    split
    · rw [List.length_cons, List.length_cons, ih]
    · rfl

theorem canTurn_keys {h : Nat} (cs : Kids V h) (s : Bnd Nat) :
    CanTurn (keys h cs) s ↔ startChild cs s < cs.length - 1 := by
  unfold CanTurn keys
  rw [List.length_map]
  cases s with
  | incl k => simp only [startChild, position_keys]
  | excl k => simp only [startChild, position_keys]
  | unb => rfl

open Classical in
/-- A query that will not drop its `next_guard` before it goes down. -/
noncomputable def Y (i : Nat) (s e : Bnd Nat) (k : Nat) (j : Nat) (ks : List Nat) (r : Read) : Nat :=
  if r = .scan i s e (some k) ∧ (j = 0 ∨ ¬ CanTurn ks s) then 1 else 0

/-- The `next_guard` itself. -/
def gw (i : Nat) (s e : Bnd Nat) (k : Nat) (r : Read) : Nat := if r = .guard i s e k then 1 else 0

theorem Y_ne {i k j : Nat} {s e : Bnd Nat} {ks : List Nat} {r : Read} (hr : r ≠ .scan i s e (some k)) :
    Y i s e k j ks r = 0 := if_neg fun h => hr h.1

theorem Y_le (i : Nat) (s e : Bnd Nat) (k j : Nat) (ks : List Nat) (r : Read) :
    Y i s e k j ks r ≤ isScan i r := by
  unfold Y
  split
  · next h => rw [h.1]; simp [isScan]
  · exact Nat.zero_le _

theorem Y_turn {i k j id : Nat} {s e s' e' : Bnd Nat} {next : Option Nat} {ks : List Nat}
    (ht : CanTurn ks s') : Y i s e k (j + 1) ks (.scan id s' e' next) = 0 := by
  refine if_neg fun h => ?_
  obtain ⟨h1, h2⟩ := h
  cases h1
  rcases h2 with h2 | h2
  · omega
  · exact h2 ht

theorem Y_last {i k j j' id : Nat} {s e s' e' : Bnd Nat} {next : Option Nat} {ks ks' : List Nat}
    (ht : ¬ CanTurn ks s') : Y i s e k j' ks' (.scan id s' e' next) ≤ Y i s e k j ks (.scan id s' e' next) := by
  unfold Y
  split
  · next h =>
    rw [if_pos]
    · exact Nat.le_refl _
    · obtain ⟨h1, _⟩ := h
      cases h1
      exact ⟨rfl, Or.inr ht⟩
  · exact Nat.zero_le _

theorem gw_scan (i : Nat) (s e : Bnd Nat) (k : Nat) (id : Nat) (s' e' : Bnd Nat) (next : Option Nat) :
    gw i s e k (.scan id s' e' next) = 0 := if_neg (by simp)

theorem Y_new (i : Nat) (s e : Bnd Nat) (k : Nat) (j : Nat) (ks : List Nat) (id : Nat) (s' e' : Bnd Nat)
    (k' : Nat) : Y i s e k j ks (.scan id s' e' (some k')) ≤ gw i s e k (.guard id s' e' k') := by
  unfold Y gw
  split
  · next h =>
    rw [if_pos]
    · exact Nat.le_refl _
    · have := h.1
      cases this
      rfl
  · exact Nat.zero_le _

theorem cntR_le {w w' : Read → Nat} (hw : ∀ r, w r ≤ w' r) (rs : List Read) : cntR w rs ≤ cntR w' rs := by
  induction rs with
  | nil => exact Nat.le_refl _
  | cons r rs ih => have := hw r; rw [cntR_cons, cntR_cons]; omega

theorem y_le_of {w' : Read → Nat} (hw : ∀ j ks r, w j ks r ≤ w' r) : ∀ (h : Nat) (e : Nat × Sub V h),
    cntOf w h e ≤ Conc.cntOf w' h e
  | 0, _ => Nat.le_refl _
  | h + 1, e => by
    have h1 : cntL (w h (keys h e.2.kids)) e.2.lock ≤ cntL w' e.2.lock := by
      cases e.2.lock with
      | excl x => exact Nat.le_refl _
      | shared rs => exact cntR_le (hw _ _) rs
    have h2 : (e.2.kids.map (cntOf w h)).sum ≤ (e.2.kids.map (Conc.cntOf w' h)).sum :=
      sum_le (less_drop 0) _ fun x _ => y_le_of hw h x
    exact Nat.add_le_add h1 h2

theorem y_le (i : Nat) (s e : Bnd Nat) (k : Nat) {h : Nat} (n : Node V h) :
    cntN (Y i s e k) n ≤ Conc.cntN (isScan i) n := y_le_of (Y_le i s e k) (h + 1) (0, n)

/-! ## Steps of the queries -/

theorem move_y {h : Nat} {r r' : Read}
    {rpre rpost rs : List Read} {pre post : List (Nat × Node V h)} {key : Nat} {n : Kids V h} :
    cntN w (⟨.shared (rpre ++ rpost),
        pre ++ (key, ⟨.shared (r' :: rs), n⟩) :: post⟩ : Node V (h + 1)) +
          w (h + 1) (keys (h + 1) (pre ++ (key, (⟨.shared rs, n⟩ : Node V h)) :: post)) r =
      cntN w (⟨.shared (rpre ++ r :: rpost),
        pre ++ (key, ⟨.shared rs, n⟩) :: post⟩ : Node V (h + 1)) + w h (keys h n) r' := by
  rw [cnt_shared, cnt_shared, cntK_nd, cntK_nd, cnt_shared, cnt_shared, cntR_mid, cntR_cons, keys_nd,
    keys_nd]
  omega

theorem move_g {w : Read → Nat} {h : Nat} {r r' : Read}
    {rpre rpost rs : List Read} {pre post : List (Nat × Node V h)} {key : Nat} {n : Kids V h} :
    Conc.cntN w (⟨.shared (rpre ++ rpost),
        pre ++ (key, ⟨.shared (r' :: rs), n⟩) :: post⟩ : Node V (h + 1)) + w r =
      Conc.cntN w (⟨.shared (rpre ++ r :: rpost),
        pre ++ (key, ⟨.shared rs, n⟩) :: post⟩ : Node V (h + 1)) + w r' := by
  rw [Conc.cnt_shared, Conc.cnt_shared, Conc.cntK_nd, Conc.cntK_nd, Conc.cnt_shared, Conc.cnt_shared,
    cntR_mid, cntR_cons]
  omega

section
variable (i : Nat) (s0 e0 : Bnd Nat) (k0 : Nat)

theorem scan_y {h : Nat} {n n' : Node V h} {l : ScanLbl V} (hs : ScanStep h n l n') :
    cntN (Y i s0 e0 k0) n' + Conc.cntN (gw i s0 e0 k0) n ≤
      cntN (Y i s0 e0 k0) n + Conc.cntN (gw i s0 e0 k0) n' ∧
    Conc.cntN (gw i s0 e0 k0) n ≤ Conc.cntN (gw i s0 e0 k0) n' := by
  induction hs with
  | @deeper h lock pre post key c c' l hs ih =>
    simp only [cntN, Conc.cntN] at ih ⊢
    rw [cntK_nd, cntK_nd, keys_nd, keys_nd, Conc.cntK_nd, Conc.cntK_nd]
    simp only [cntN, Conc.cntN]
    omega
  | @leafRet id s e next pre post n v b _ =>
    simp only [cntN, Conc.cntN, cntL, cntR_mid, gw_scan]
    omega
  | @leafGoto id s e key pre post n _ =>
    simp only [cntN, Conc.cntN, cntL, cntR_mid, gw_scan]
    omega
  | turn _ => exact ⟨Nat.le_refl _, Nat.le_refl _⟩
  | @downLast h id s e next rpre rpost rs cs key n hlast hk =>
    have hct := mt (canTurn_keys cs s).mp hlast
    obtain ⟨pre, post, rfl, hp⟩ := split_at hk
    rw [hp, Tree.set_mid]
    have h1 := move_g (w := gw i s0 e0 k0) (r := .scan id s e next) (r' := .scan id s e next)
      (rpre := rpre) (rpost := rpost) (rs := rs) (pre := pre) (post := post) (key := key) (n := n)
    have h2 := move_y (w := Y i s0 e0 k0) (r := .scan id s e next) (r' := .scan id s e next)
      (rpre := rpre) (rpost := rpost) (rs := rs) (pre := pre) (post := post) (key := key) (n := n)
    have h3 := Y_last (i := i) (k := k0) (s := s0) (e := e0) (j := h + 1) (j' := h) (id := id) (e' := e)
      (next := next) (ks' := keys h n) hct
    simp only [gw_scan] at h1
    omega
  | @downAlone h id s e next rpre rpost rs cs key key' n c' hk' hbe hk =>
    obtain ⟨pre, post, rfl, hp⟩ := split_at hk
    rw [hp, Tree.set_mid]
    have h1 := move_g (w := gw i s0 e0 k0) (r := .scan id s e next) (r' := .scan id s e none)
      (rpre := rpre) (rpost := rpost) (rs := rs) (pre := pre) (post := post) (key := key) (n := n)
    have h2 := move_y (w := Y i s0 e0 k0) (r := .scan id s e next) (r' := .scan id s e none)
      (rpre := rpre) (rpost := rpost) (rs := rs) (pre := pre) (post := post) (key := key) (n := n)
    rw [Y_ne (r := .scan id s e none) (by simp)] at h2
    simp only [gw_scan] at h1
    omega
  | @downBeyond h id k s e next rpre rpost rs rs' cs key key' n n' hk' hbe hfk hbk hk =>
    obtain ⟨pre, post, rfl, hp⟩ := split_at hk
    rw [hp, Tree.set_mid]
    have h1 := move_g (w := gw i s0 e0 k0) (r := .scan id s e next) (r' := .scan id s e none)
      (rpre := rpre) (rpost := rpost) (rs := rs) (pre := pre) (post := post) (key := key) (n := n)
    have h2 := move_y (w := Y i s0 e0 k0) (r := .scan id s e next) (r' := .scan id s e none)
      (rpre := rpre) (rpost := rpost) (rs := rs) (pre := pre) (post := post) (key := key) (n := n)
    rw [Y_ne (r := .scan id s e none) (by simp)] at h2
    simp only [gw_scan] at h1
    omega
  | @downNext h id k s e next rpre rpost rs rs' cs key key' n n' hk' hbe hfk hbk hk =>
    obtain ⟨pre, post, rfl, hp⟩ := split_at hk
    rw [hp] at hk' ⊢
    rw [Tree.set_mid]
    have h1 := move_g (w := gw i s0 e0 k0) (r := .scan id s e next) (r' := .scan id s e (some k))
      (rpre := rpre) (rpost := rpost) (rs := rs) (pre := pre) (post := post) (key := key) (n := n)
    have h2 := move_y (w := Y i s0 e0 k0) (r := .scan id s e next) (r' := .scan id s e (some k))
      (rpre := rpre) (rpost := rpost) (rs := rs) (pre := pre) (post := post) (key := key) (n := n)
    have h3 := Y_new i s0 e0 k0 h (keys h n) id s e k
    have hk2 : (pre ++ (key, (⟨.shared (.scan id s e (some k) :: rs), n⟩ : Node V h)) :: post)[
        pre.length + 1]? = some (key', (⟨.shared rs', n'⟩ : Node V h)) := by
      rw [List.getElem?_append_right (by omega)] at hk' ⊢
      simpa using hk'
    have hg : Conc.cntN (gw i s0 e0 k0) (⟨.shared (rpre ++ rpost),
          (pre ++ (key, (⟨.shared (.scan id s e (some k) :: rs), n⟩ : Node V h)) :: post).set
            (pre.length + 1) (key', (⟨.shared (.guard id s e k :: rs'), n'⟩ : Node V h))⟩ :
              Node V (h + 1)) =
        Conc.cntN (gw i s0 e0 k0) (⟨.shared (rpre ++ rpost),
          pre ++ (key, (⟨.shared (.scan id s e (some k) :: rs), n⟩ : Node V h)) :: post⟩ :
              Node V (h + 1)) + gw i s0 e0 k0 (.guard id s e k) := by
      obtain ⟨pre2, post2, he, hp2⟩ := split_at hk2
      rw [hp2, he, Tree.set_mid, Conc.cnt_shared, Conc.cnt_shared, Conc.cntK_nd, Conc.cntK_nd,
        Conc.cnt_shared, Conc.cnt_shared, cntR_cons]
      omega
    have hy : cntN (Y i s0 e0 k0) (⟨.shared (rpre ++ rpost),
          (pre ++ (key, (⟨.shared (.scan id s e (some k) :: rs), n⟩ : Node V h)) :: post).set
            (pre.length + 1) (key', (⟨.shared (.guard id s e k :: rs'), n'⟩ : Node V h))⟩ :
              Node V (h + 1)) =
        cntN (Y i s0 e0 k0) (⟨.shared (rpre ++ rpost),
          pre ++ (key, (⟨.shared (.scan id s e (some k) :: rs), n⟩ : Node V h)) :: post⟩ :
              Node V (h + 1)) := by
      obtain ⟨pre2, post2, he, hp2⟩ := split_at hk2
      rw [hp2, he, Tree.set_mid, cnt_shared, cnt_shared, cntK_nd, cntK_nd, keys_nd, keys_nd,
        cnt_shared, cnt_shared, cntR_cons, Y_ne (r := .guard id s e k) (by simp), Nat.zero_add]
    rw [hg, hy]
    simp only [gw_scan] at h1
    omega

/-- A query that can turn does not need its `next_guard` any more. -/
theorem turn_y {h : Nat} {n n' : Node V h} {l : ScanLbl V} (hs : ScanStep h n l n') :
    l = .turn i → cntN (Y i s0 e0 k0) n + 1 ≤ Conc.cntN (isScan i) n ∧ n' = n := by
  induction hs with
  | @deeper h lock pre post key c c' l hs ih =>
    intro hl
    obtain ⟨h1, hc⟩ := ih hl
    subst hc
    refine ⟨?_, rfl⟩
    have hp := fun l : List (Nat × Node V h) =>
      (show cntK (Y i s0 e0 k0) (h + 1) l ≤ Conc.cntK (isScan i) (h + 1) l from
        sum_le (less_drop 0) _ fun x _ => y_le_of (Y_le i s0 e0 k0) (h + 1) x)
    have h2 := hp pre
    have h3 := hp post
    have h4 : ∀ ks, cntL (Y i s0 e0 k0 (h + 1) ks) lock ≤ cntL (isScan i) lock := by
      intro ks
      cases lock with
      | excl x => exact Nat.le_refl _
      | shared rs => exact cntR_le (Y_le i s0 e0 k0 (h + 1) ks) rs
    simp only [cntN, Conc.cntN] at h1 ⊢
    rw [cntK_nd, Conc.cntK_nd]
    simp only [cntN, Conc.cntN]
    have h5 := h4 (keys (h + 1) (pre ++ (key, c') :: post))
    omega
  | @turn h id s e next pre post cs ht =>
    intro hl
    cases hl
    refine ⟨?_, rfl⟩
    have h1 : cntK (Y i s0 e0 k0) (h + 1) cs ≤ Conc.cntK (isScan i) (h + 1) cs :=
      sum_le (less_drop 0) _ fun x _ => y_le_of (Y_le i s0 e0 k0) (h + 1) x
    have h2 := cntR_le (Y_le i s0 e0 k0 (h + 1) (keys (h + 1) cs)) (pre ++ post)
    rw [cnt_shared, Conc.cnt_shared, cntR_mid, cntR_mid, Y_turn ((canTurn_keys cs s).mpr ht)]
    simp only [isScan, if_true]
    omega
  | _ => intro hl; cases hl

/-- A query in a leaf needs it. -/
theorem goto_y {h : Nat} {n n' : Node V h} {l : ScanLbl V} (hs : ScanStep h n l n') :
    l = .goto i s0 e0 k0 → 1 ≤ cntN (Y i s0 e0 k0) n := by
  induction hs with
  | @deeper h lock pre post key c c' l hs ih =>
    intro hl
    have := ih hl
    simp only [cntN] at this ⊢
    rw [cntK_nd]
    simp only [cntN]
    omega
  | leafGoto _ =>
    intro hl
    cases hl
    rw [cnt_shared, cntR_mid, show Y i s0 e0 k0 0 _ (.scan i s0 e0 (some k0)) = 1 from
      if_pos ⟨rfl, Or.inl rfl⟩]
    omega
  | _ => intro hl; cases hl
end

/-! ## Changes of the readers -/

theorem keys_map (f : List Read → List Read) (h : Nat) (cs : Kids V h) :
    keys h (cs.map fun e => (e.1, mapReads f h e.2)) = keys h cs := by
  simp [keys]

theorem cnt_map {f : List Read → List Read} (hf : ∀ j ks rs, cntR (w j ks) (f rs) = cntR (w j ks) rs) :
    ∀ (h : Nat) (e : Nat × Sub V h), cntOf w h (e.1, mapReads f h e.2) = cntOf w h e
  | 0, _ => rfl
  | h + 1, e => by
    have h1 : ∀ ks, cntL (w h ks) (e.2.lock.mapReads f) = cntL (w h ks) e.2.lock := by
      intro ks
      cases e.2.lock with
      | excl x => rfl
      | shared rs => exact hf h ks rs
    have h2 : ((e.2.kids.map fun x => (x.1, mapReads f h x.2)).map (cntOf w h)).sum =
        (e.2.kids.map (cntOf w h)).sum := by
      rw [List.map_map]
      exact congrArg List.sum (List.map_congr_left fun x _ => cnt_map hf h x)
    show cntL (w h (keys h (e.2.kids.map fun x => (x.1, mapReads f h x.2)))) (e.2.lock.mapReads f) +
      ((e.2.kids.map fun x => (x.1, mapReads f h x.2)).map (cntOf w h)).sum = _ + _
    rw [keys_map, h1, h2]

theorem y_drop (i : Nat) (s e : Bnd Nat) (k id : Nat) {h : Nat} (n : Node V h) :
    cntN (Y i s e k) (mapReads (dropGuard id) (h + 1) n : Node V h) = cntN (Y i s e k) n :=
  cnt_map (w := Y i s e k) (fun _ _ rs => Lv.drop_w id (fun _ _ _ => Y_ne (by simp)) rs) (h + 1) (0, n)

theorem y_wake (i : Nat) (s e : Bnd Nat) (k id : Nat) (s' e' : Bnd Nat) (k' : Nat) {h : Nat}
    (n : Node V h) :
    cntN (Y i s e k) (mapReads (wake id s' e' k') (h + 1) n : Node V h) = cntN (Y i s e k) n :=
  cnt_map (w := Y i s e k) (fun _ _ rs => Lv.wake_w id s' e' k' (by rw [Y_ne (by simp), Y_ne (by simp)]) rs) (h + 1) (0, n)

/-- Weights that do not depend on the node. -/
theorem const_of (w : Read → Nat) : ∀ (h : Nat) (e : Nat × Sub V h),
    Lv.cntOf (fun _ => w) h e = Conc.cntOf w h e
  | 0, _ => rfl
  | h + 1, e => by
    show _ + _ = _ + _
    exact congrArg _ (congrArg List.sum (List.map_congr_left fun x _ => const_of w h x))

theorem const_n (w : Read → Nat) {h : Nat} (n : Node V h) :
    Lv.cntN (fun _ => w) n = Conc.cntN w n := const_of w (h + 1) (0, n)

theorem map_n {w w' : Read → Nat} {f : List Read → List Read}
    (hf : ∀ rs, cntR w' (f rs) = cntR w rs) {h : Nat} (n : Node V h) :
    Conc.cntN w' (mapReads f (h + 1) n : Node V h) = Conc.cntN w n := by
  rw [← const_n, ← const_n]
  exact Lv.cntN_map (fun _ rs => hf rs) n

theorem s_drop (i id : Nat) {h : Nat} (n : Node V h) :
    Conc.cntN (isScan i) (mapReads (dropGuard id) (h + 1) n : Node V h) = Conc.cntN (isScan i) n :=
  map_n (fun rs => Lv.drop_w id (fun _ _ _ => rfl) rs) n

theorem g_drop {i id : Nat} (hi : i ≠ id) (s e : Bnd Nat) (k : Nat) {h : Nat} (n : Node V h) :
    Conc.cntN (gw i s e k) (mapReads (dropGuard id) (h + 1) n : Node V h) = Conc.cntN (gw i s e k) n :=
  map_n (fun rs => Lv.drop_w id (fun _ _ _ => if_neg (by
    simp only [Read.guard.injEq]; exact fun h => hi h.1.symm)) rs) n

theorem g_wake {i id : Nat} {s e s' e' : Bnd Nat} {k k' : Nat}
    (hne : ¬ (i = id ∧ s = s' ∧ e = e' ∧ k = k')) {h : Nat} (n : Node V h) :
    Conc.cntN (gw i s e k) (mapReads (wake id s' e' k') (h + 1) n : Node V h) =
      Conc.cntN (gw i s e k) n :=
  map_n (fun rs => Lv.wake_w id s' e' k' (by
    rw [gw_scan]
    refine if_neg ?_
    simp only [Read.guard.injEq]
    exact fun h => hne ⟨h.1.symm, h.2.1.symm, h.2.2.1.symm, h.2.2.2.symm⟩) rs) n

/-- The `next_guard`s that are woken become queries. -/
theorem s_wake (id : Nat) (s e : Bnd Nat) (k : Nat) {h : Nat} (n : Node V h) :
    Conc.cntN (isScan id) (mapReads (wake id s e k) (h + 1) n : Node V h) =
      Conc.cntN (isScan id) n + Conc.cntN (gw id s e k) n := by
  rw [← cntN_add]
  refine map_n (fun rs => ?_) n
  induction rs with
  | nil => rfl
  | cons r rs ih =>
    rw [Lv.wake_cons, cntR_cons, cntR_cons, ih]
    split
    · next h => subst h; simp [isScan, gw]
    · next h => simp [gw, h]

theorem s_wake_ne {i id : Nat} (hi : i ≠ id) (s e : Bnd Nat) (k : Nat) {h : Nat} (n : Node V h) :
    Conc.cntN (isScan i) (mapReads (wake id s e k) (h + 1) n : Node V h) =
      Conc.cntN (isScan i) n :=
  map_n (fun rs => Lv.wake_w id s e k (by
    show 0 = if id = i then 1 else 0
    rw [if_neg fun h => hi h.symm]) rs) n

end Verif.Conc.Ky
