import Verif.Conc.ScanOnce

/-!
# Counting the range queries by the height of their nodes

A query that holds a `next_guard` is never above it.
-/

namespace Verif.Conc.Lv

open Verif
open Verif.Tree (Limits position firstKey Bnd startChild nextKey)

variable {V : Type}

/-- The weight of a reader may depend on the height of its node. -/
def cntOf (w : Nat → Read → Nat) : (h : Nat) → Nat × Sub V h → Nat
  | 0, _ => 0
  | h + 1, e => cntL (w h) e.2.lock + (e.2.kids.map (cntOf w h)).sum

def cntK (w : Nat → Read → Nat) (h : Nat) (cs : Kids V h) : Nat := (cs.map (cntOf w h)).sum

def cntN (w : Nat → Read → Nat) {h : Nat} (n : Node V h) : Nat := cntL (w h) n.lock + cntK w h n.kids

variable {w : Nat → Read → Nat}

theorem cntK_nd {h : Nat} (pre post : List (Nat × Node V h)) (k : Nat)
    (c : Node V h) : cntK w (h + 1) (pre ++ (k, c) :: post) =
      cntK w (h + 1) pre + (cntN w c + cntK w (h + 1) post) := by
  simp [cntK, cntOf, cntN]

theorem cntK_cons {h : Nat} (post : List (Nat × Node V h)) (k : Nat)
    (c : Node V h) : cntK w (h + 1) ((k, c) :: post) = cntN w c + cntK w (h + 1) post :=
  (cntK_nd [] post k c).trans (by simp [cntK])

theorem cntK_append {h : Nat} (a b : Kids V h) : cntK w h (a ++ b) = cntK w h a + cntK w h b := by
  simp [cntK]

theorem cntK_zero (cs : Kids V 0) : cntK w 0 cs = 0 := by
  induction cs with
  | nil => rfl
  | cons e es ih =>
    show cntOf w 0 e + cntK w 0 es = 0
    rw [ih]; rfl

theorem cntK_nil {h : Nat} : cntK w h ([] : Kids V h) = 0 := rfl

theorem cnt_shared {h : Nat} (rs : List Read) (n : Kids V h) :
    cntN w (⟨.shared rs, n⟩ : Node V h) = cntR (w h) rs + cntK w h n := rfl

theorem cnt_excl {h : Nat} (x : Work V) (n : Kids V h) :
    cntN w (⟨.excl x, n⟩ : Node V h) = cntK w h n := Nat.zero_add _

theorem cnt_fresh {h : Nat} (n : Kids V h) : cntN w (fresh n) = cntK w h n := Nat.zero_add _

theorem quiet_cnt {h : Nat} {n : Node V h} (hq : Quiet n) : cntN w n = cntK w h n.kids := by
  unfold cntN
  rcases hq with hq | ⟨id, hq⟩ <;> rw [hq] <;> exact Nat.zero_add _

theorem fixPair_cnt {L : Limits} {h : Nat} {pre post : List (Nat × Node V h)}
    {key : Nat} {c : Node V h} {cs' : List (Nat × Node V h)} (hq : Quiet c)
    (hs : ∀ skey s, (pre ++ (key, c) :: post)[sibling (pre ++ (key, c) :: post) pre.length]? =
      some (skey, s) → Quiet s)
    (hf : fixPair L h (pre ++ (key, c) :: post) pre.length = some cs') :
    cntK w (h + 1) cs' = cntK w (h + 1) (pre ++ (key, c) :: post) := by
  cases post with
  | cons s post =>
    obtain ⟨kb, B⟩ := s
    have hsib : sibling (pre ++ (key, c) :: (kb, B) :: post) pre.length = pre.length + 1 := by
      unfold sibling; rw [if_pos]; simp only [List.length_append, List.length_cons]; omega
    have e2 : (pre ++ (key, c) :: (kb, B) :: post)[pre.length + 1]? = some (kb, B) := by
      have := Tree.getElem?_mid (pre ++ [(key, c)]) (kb, B) post
      simpa using this
    have qB : Quiet B := hs kb B (by rw [hsib]; exact e2)
    rcases fixPair_right hf with ⟨hm, rfl⟩ | ⟨hmax, t, x, r, hn1, hd, hl, hB, rfl⟩
    · rw [cntK_nd, cntK_nd, cntK_cons, cnt_fresh, quiet_cnt hq, quiet_cnt qB, cntK_append]
      omega
    · have hBp : cntK w h B.kids = cntK w h (B.kids.take t) + cntK w h (x :: r) := by
        rw [← cntK_append, ← hB]
      rw [cntK_nd, cntK_nd, cntK_cons, cntK_cons, cnt_fresh, cnt_fresh, quiet_cnt hq, quiet_cnt qB,
        cntK_append, hBp]
      omega
  | nil =>
    rcases List.eq_nil_or_concat pre with rfl | ⟨pre, s, rfl⟩
    · simp [fixPair] at hf
    · obtain ⟨ka, A⟩ := s
      rw [List.concat_eq_append] at *
      have hcat : pre ++ [(ka, A)] ++ [(key, c)] = pre ++ [(ka, A), (key, c)] := by simp
      have hlen1 : (pre ++ [(ka, A)]).length = pre.length + 1 := by simp
      rw [hcat, hlen1] at hs hf
      rw [hcat]
      have hsib : sibling (pre ++ [(ka, A), (key, c)]) (pre.length + 1) = pre.length := by
        unfold sibling; rw [if_neg (by simp)]; omega
      have qA : Quiet A := hs ka A (by rw [hsib]; exact Tree.getElem?_mid ..)
      rcases fixPair_left hf with ⟨hm, rfl⟩ | ⟨hmax, t, x, r, hn1, hle, hd, rfl⟩
      · rw [cntK_nd, cntK_nd, cntK_cons, cnt_fresh, quiet_cnt hq, quiet_cnt qA, cntK_append]
        omega
      · have hAp : cntK w h A.kids + cntK w h c.kids =
            cntK w h (A.kids.take (A.kids.length - t)) + cntK w h (x :: r) := by
          rw [← hd, ← cntK_append, ← cntK_append, ← List.append_assoc, List.take_append_drop]
        rw [cntK_nd, cntK_nd, cntK_cons, cntK_cons, cnt_fresh, cnt_fresh, quiet_cnt hq, quiet_cnt qA]
        omega

theorem cnt_split {L : Limits} {seq : Bool} {h : Nat} {n left right : Kids V h} {k : Nat}
    (hs : split L seq h n = some (left, k, right)) :
    cntK w h left + cntK w h right = cntK w h n := by
  unfold split at hs
  split at hs
  · cases hs
  · simp only [Option.map_eq_some_iff, Prod.mk.injEq] at hs
    obtain ⟨_, _, rfl, _, rfl⟩ := hs
    rw [← cntK_append, List.take_append_drop]

/-- The other tasks leave the queries where they are. -/
theorem step_cnt {L : Limits} (hw : ∀ (j : Nat) (r : Read), r.plain = true → w j r = 0) {seq : Bool} {h : Nat}
    {n n' : Node V h} {l : Lbl V} (hs : StepOf Read.plain L seq h n l n') :
    ∀ {a lo : Nat} {hi : Option Nat}, NodeOk L a h lo hi n → cntN w n' = cntN w n := by
  induction hs with
  | @deeper h lock pre post key c c' l hs ih =>
    intro a lo hi hn
    obtain ⟨c1, c2, c3, c4, c5⟩ := chain_mid (L := L) (h := h + 1).mp hn.chain
    have := ih (subOk_iff.mp c4)
    simp only [cntN] at this ⊢
    rw [cntK_nd, cntK_nd]
    simp only [cntN]
    omega
  | removeLeaf =>
    intros
    rw [cnt_excl, cnt_shared, cntK_zero, cntK_zero]
    rfl
  | @readLeaf r pre post n hr =>
    intros
    rw [cnt_shared, cnt_shared, cntR_mid, hw _ r hr]
    omega
  | @insertSplit h id k v cs key n left right k' hk hss hsp =>
    intros
    obtain ⟨pre, post, rfl, hp⟩ := split_at hk
    rw [hp, Tree.set_mid, Tree.insertIdx_mid]
    have := cnt_split (w := w) hsp
    rw [cnt_excl, cnt_excl, cntK_nd, cntK_nd, cntK_cons, cnt_fresh, cnt_fresh, cnt_fresh]
    omega
  | @insertDown h id k v cs key n hk hss =>
    intros
    obtain ⟨pre, post, rfl, hp⟩ := split_at hk
    rw [hp, Tree.set_mid]
    rw [cnt_shared, cnt_excl, cntK_nd, cntK_nd, cnt_excl, cnt_fresh]
    exact Nat.zero_add _
  | @insertLeaf id k v cs key n hk hss =>
    intros
    obtain ⟨pre, post, rfl, hp⟩ := split_at hk
    rw [hp, Tree.set_mid]
    rw [cnt_shared, cnt_excl, cntK_nd, cntK_nd, cnt_fresh, cnt_fresh, cntK_zero, cntK_zero]
    exact Nat.zero_add _
  | @removeFix h id k cs key n hk hdg =>
    intros
    obtain ⟨pre, post, rfl, hp⟩ := split_at hk
    rw [hp, Tree.set_mid]
    rw [cnt_excl, cnt_excl, cntK_nd, cntK_nd, cnt_excl, cnt_fresh]
  | @fixPair h id k i cs cs' key n hk hf =>
    intro a lo hi hn
    obtain ⟨_, hi', ck, c, hc1, hc2, hc3⟩ := hn.lock
    simp only at hi'
    subst hi'
    obtain ⟨pre, post, rfl, hp, h1, h2⟩ := find hn.chain hc1
    rw [hp] at hk hf
    rw [cnt_excl, cnt_excl]
    refine fixPair_cnt (Or.inr ⟨id, hc2⟩) ?_ hf
    intro skey s hse
    rw [hk] at hse
    cases hse
    exact Or.inl rfl
  | @removeDown h id k cs key n hk hdg =>
    intros
    obtain ⟨pre, post, rfl, hp⟩ := split_at hk
    rw [hp, Tree.set_mid]
    rw [cnt_shared, cnt_excl, cntK_nd, cntK_nd, cnt_excl, cnt_fresh]
    exact Nat.zero_add _
  | @fixedDown h id k cs key n hk =>
    intros
    obtain ⟨pre, post, rfl, hp⟩ := split_at hk
    rw [hp, Tree.set_mid]
    rw [cnt_shared, cnt_excl, cntK_nd, cntK_nd, cnt_excl, cnt_fresh]
    exact Nat.zero_add _
  | @readDown h r rpre rpost rs cs key n hr hk =>
    intros
    obtain ⟨pre, post, rfl, hp⟩ := split_at hk
    rw [hp, Tree.set_mid]
    rw [cnt_shared, cnt_shared, cntK_nd, cntK_nd, cnt_shared, cnt_shared, cntR_mid, cntR_cons,
      hw _ r hr, hw _ r hr]
    omega
  | @visitDown h id i cs key n hk =>
    intros
    obtain ⟨pre, post, rfl, rfl⟩ := split_at hk
    rw [Tree.set_mid]
    rw [cnt_shared, cnt_excl, cntK_nd, cntK_nd, cnt_excl, cnt_fresh]
    exact Nat.zero_add _
  | visitDone => intros; rw [cnt_shared, cnt_excl]; exact Nat.zero_add _

theorem base_cnt {L : Limits} (hw : ∀ (j : Nat) (r : Read), r.plain = true → w j r = 0) {seq : Bool}
    {s s' : Sys V} {es : List (Event V)} (hst : SysStepOf Read.plain L seq s es s') (hi : Inv L s) :
    cntN w s'.tree.node = cntN w s.tree.node := by
  cases hst with
  | call id op => rfl
  | enterExcl _ => rfl
  | enterShared hr => rfl
  | @inside calls top h n n' l hst => exact step_cnt hw hst hi.node
  | @insertSplit calls id k v h n left right k' hss hsp =>
    have := cnt_split (w := w) hsp
    show 0 + cntK w (h + 1) [(0, fresh left), (k', fresh right)] = 0 + cntK w h n
    rw [cntK_cons, cntK_cons, cnt_fresh, cnt_fresh, cntK_nil]
    omega
  | insertDown _ => rfl
  | insertLeaf _ => simp only [cnt_fresh, cntK_zero]
  | @removeMerge calls id k h key c =>
    simp only [cnt_fresh]
    rw [cntK_cons, cntK_nil]
    rfl
  | removeEmpty => simp only [cnt_fresh]; rfl
  | removeDown _ => simp only [cnt_fresh, cnt_excl]
  | fixedDown => simp only [cnt_fresh, cnt_excl]
  | readDown hr =>
    simp only [cnt_shared, cntR_cons, hw _ _ hr]
    omega
  | visitDown => rfl
  | visitDone => rfl

/-! ## Steps of the queries -/

/-- A reader at a node of at most this height. -/
def W (t : Nat) (r0 : Read) (j : Nat) (r : Read) : Nat := if j ≤ t ∧ r = r0 then 1 else 0

theorem W_self {t j : Nat} (r : Read) (hj : j ≤ t) : W t r j r = 1 := if_pos ⟨hj, rfl⟩

theorem W_ne {t j : Nat} {r0 r : Read} (hr : r ≠ r0) : W t r0 j r = 0 := if_neg fun h => hr h.2

theorem W_mono (t : Nat) (r0 : Read) (j : Nat) (r : Read) : W t r0 (j + 1) r ≤ W t r0 j r := by
  unfold W
  by_cases h : j + 1 ≤ t ∧ r = r0
  · rw [if_pos h, if_pos ⟨by omega, h.2⟩]; exact Nat.le_refl _
  · rw [if_neg h]; exact Nat.zero_le _

/-- Is the pair of a query and its guard left as it is? -/
def Spared (i : Nat) (s0 e0 : Bnd Nat) (k0 : Nat) : ScanLbl V → Prop
  | .down _ => True
  | .turn _ => True
  | .swap id => i ≠ id
  | .goto id s e k => ¬ (i = id ∧ s0 = s ∧ e0 = e ∧ k0 = k)
  | .ret id _ _ => i ≠ id

def IsSwap : ScanLbl V → Prop
  | .swap _ => True
  | _ => False

section
variable (t i : Nat) (s0 e0 : Bnd Nat) (k0 : Nat)

theorem scan_w (j : Nat) (id : Nat) (s e : Bnd Nat) (next : Option Nat) :
    W t (.guard i s0 e0 k0) j (.scan id s e next) = 0 := W_ne (by simp)

theorem guard_w (j : Nat) (id : Nat) (s e : Bnd Nat) (k : Nat) :
    W t (.scan i s0 e0 (some k0)) j (.guard id s e k) = 0 := W_ne (by simp)

theorem other_w (j : Nat) {id : Nat} (hi : i ≠ id) (s e : Bnd Nat) (next : Option Nat) :
    W t (.scan i s0 e0 (some k0)) j (.scan id s e next) = 0 :=
  W_ne (by simp only [ne_eq, Read.scan.injEq]; exact fun h => hi h.1.symm)

theorem same_w (j : Nat) (id : Nat) (s e : Bnd Nat) (k : Nat) :
    W t (.scan i s0 e0 (some k0)) j (.scan id s e (some k)) =
      W t (.guard i s0 e0 k0) j (.guard id s e k) := by
  simp only [W, Read.scan.injEq, Read.guard.injEq, Option.some.injEq]

theorem move_cnt {w : Nat → Read → Nat} {h : Nat} {r r' : Read}
    {rpre rpost rs : List Read} {pre post : List (Nat × Node V h)} {key : Nat} {n : Kids V h} :
    cntN w (⟨.shared (rpre ++ rpost),
        pre ++ (key, ⟨.shared (r' :: rs), n⟩) :: post⟩ : Node V (h + 1)) + w (h + 1) r =
      cntN w (⟨.shared (rpre ++ r :: rpost),
        pre ++ (key, ⟨.shared rs, n⟩) :: post⟩ : Node V (h + 1)) + w h r' := by
  rw [cnt_shared, cnt_shared, cntK_nd, cntK_nd, cnt_shared, cnt_shared, cntR_mid, cntR_cons]
  omega

theorem scan_lv {h : Nat} {n n' : Node V h} {l : ScanLbl V} (hs : ScanStep h n l n') :
    (Spared i s0 e0 k0 l → cntN (W t (.guard i s0 e0 k0)) n' + cntN (W t (.scan i s0 e0 (some k0))) n ≤
      cntN (W t (.guard i s0 e0 k0)) n + cntN (W t (.scan i s0 e0 (some k0))) n') ∧
    (IsSwap l → cntN (W t (.guard i s0 e0 k0)) n = 0 →
      cntN (W t (.guard i s0 e0 k0)) n' ≤ cntN (W t (.scan i s0 e0 (some k0))) n') := by
  induction hs with
  | @deeper h lock pre post key c c' l hs ih =>
    obtain ⟨ih1, ih2⟩ := ih
    simp only [cntN] at ih1 ih2 ⊢
    rw [cntK_nd, cntK_nd, cntK_nd, cntK_nd]
    simp only [cntN]
    refine ⟨fun h => ?_, fun h h0 => ?_⟩
    · have := ih1 h; omega
    · have := ih2 h (by omega); omega
  | @leafRet id s e next pre post n v b _ =>
    refine ⟨fun h => ?_, fun h => h.elim⟩
    simp only [cntN, cntL, cntR_mid, scan_w, other_w t i s0 e0 k0 _ h]
    omega
  | @leafGoto id s e key pre post n _ =>
    refine ⟨fun h => ?_, fun h => h.elim⟩
    have : W t (.scan i s0 e0 (some k0)) 0 (.scan id s e (some key)) = 0 := by
      refine W_ne ?_
      simp only [ne_eq, Read.scan.injEq, Option.some.injEq]
      exact fun h' => h ⟨h'.1.symm, h'.2.1.symm, h'.2.2.1.symm, h'.2.2.2.symm⟩
    simp only [cntN, cntL, cntR_mid, scan_w, this]
    omega
  | @downLast h id s e next rpre rpost rs cs key n hlast hk =>
    obtain ⟨pre, post, rfl, hp⟩ := split_at hk
    rw [hp, Tree.set_mid]
    refine ⟨fun _ => ?_, fun h => h.elim⟩
    have h1 := move_cnt (w := W t (.guard i s0 e0 k0)) (r := .scan id s e next) (r' := .scan id s e next)
      (rpre := rpre) (rpost := rpost) (rs := rs) (pre := pre) (post := post) (key := key) (n := n)
    have h2 := move_cnt (w := W t (.scan i s0 e0 (some k0))) (r := .scan id s e next)
      (r' := .scan id s e next) (rpre := rpre) (rpost := rpost) (rs := rs) (pre := pre) (post := post)
      (key := key) (n := n)
    have h3 := W_mono t (.scan i s0 e0 (some k0)) h (.scan id s e next)
    simp only [scan_w] at h1
    omega
  | turn _ => exact ⟨fun _ => Nat.le_refl _, fun h => h.elim⟩
  | @downAlone h id s e next rpre rpost rs cs key key' n c' hk' hbe hk =>
    obtain ⟨pre, post, rfl, hp⟩ := split_at hk
    rw [hp, Tree.set_mid]
    have h1 := move_cnt (w := W t (.guard i s0 e0 k0)) (r := .scan id s e next) (r' := .scan id s e none)
      (rpre := rpre) (rpost := rpost) (rs := rs) (pre := pre) (post := post) (key := key) (n := n)
    have h2 := move_cnt (w := W t (.scan i s0 e0 (some k0))) (r := .scan id s e next)
      (r' := .scan id s e none) (rpre := rpre) (rpost := rpost) (rs := rs) (pre := pre) (post := post)
      (key := key) (n := n)
    simp only [scan_w] at h1
    refine ⟨fun hi => ?_, fun _ h0 => by omega⟩
    rw [other_w t i s0 e0 k0 _ hi, other_w t i s0 e0 k0 _ hi] at h2
    omega
  | @downBeyond h id k s e next rpre rpost rs rs' cs key key' n n' hk' hbe hfk hbk hk =>
    obtain ⟨pre, post, rfl, hp⟩ := split_at hk
    rw [hp, Tree.set_mid]
    have h1 := move_cnt (w := W t (.guard i s0 e0 k0)) (r := .scan id s e next) (r' := .scan id s e none)
      (rpre := rpre) (rpost := rpost) (rs := rs) (pre := pre) (post := post) (key := key) (n := n)
    have h2 := move_cnt (w := W t (.scan i s0 e0 (some k0))) (r := .scan id s e next)
      (r' := .scan id s e none) (rpre := rpre) (rpost := rpost) (rs := rs) (pre := pre) (post := post)
      (key := key) (n := n)
    simp only [scan_w] at h1
    refine ⟨fun hi => ?_, fun _ h0 => by omega⟩
    rw [other_w t i s0 e0 k0 _ hi, other_w t i s0 e0 k0 _ hi] at h2
    omega
  | @downNext h id k s e next rpre rpost rs rs' cs key key' n n' hk' hbe hfk hbk hk =>
    obtain ⟨pre, post, rfl, hp⟩ := split_at hk
    rw [hp] at hk' ⊢
    rw [Tree.set_mid]
    have h1 := move_cnt (w := W t (.guard i s0 e0 k0)) (r := .scan id s e next)
      (r' := .scan id s e (some k)) (rpre := rpre) (rpost := rpost) (rs := rs) (pre := pre)
      (post := post) (key := key) (n := n)
    have h2 := move_cnt (w := W t (.scan i s0 e0 (some k0))) (r := .scan id s e next)
      (r' := .scan id s e (some k)) (rpre := rpre) (rpost := rpost) (rs := rs) (pre := pre)
      (post := post) (key := key) (n := n)
    have hk2 : (pre ++ (key, (⟨.shared (.scan id s e (some k) :: rs), n⟩ : Node V h)) :: post)[
        pre.length + 1]? = some (key', (⟨.shared rs', n'⟩ : Node V h)) := by
      rw [List.getElem?_append_right (by omega)] at hk' ⊢
      simpa using hk'
    have hadd : ∀ w : Nat → Read → Nat,
        cntN w (⟨.shared (rpre ++ rpost),
          (pre ++ (key, (⟨.shared (.scan id s e (some k) :: rs), n⟩ : Node V h)) :: post).set
            (pre.length + 1) (key', (⟨.shared (.guard id s e k :: rs'), n'⟩ : Node V h))⟩ :
              Node V (h + 1)) =
        cntN w (⟨.shared (rpre ++ rpost),
          pre ++ (key, (⟨.shared (.scan id s e (some k) :: rs), n⟩ : Node V h)) :: post⟩ :
              Node V (h + 1)) + w h (.guard id s e k) := by
      intro w
      obtain ⟨pre2, post2, he, hp2⟩ := split_at hk2
      rw [hp2, he, Tree.set_mid, cnt_shared, cnt_shared, cntK_nd, cntK_nd, cnt_shared, cnt_shared,
        cntR_cons]
      omega
    rw [hadd, hadd]
    simp only [scan_w] at h1
    have h3 := same_w t i s0 e0 k0 h id s e k
    rw [guard_w]
    have h4 : W t (.scan i s0 e0 (some k0)) (h + 1) (.scan id s e next) ≤
        cntN (W t (.scan i s0 e0 (some k0))) (⟨.shared (rpre ++ .scan id s e next :: rpost),
          pre ++ (key, ⟨.shared rs, n⟩) :: post⟩ : Node V (h + 1)) := by
      rw [cnt_shared, cntR_mid]
      omega
    refine ⟨fun hi => ?_, fun _ h0 => by omega⟩
    rw [other_w t i s0 e0 k0 _ hi, other_w t i s0 e0 k0 _ hi] at h2
    have h5 := other_w t i s0 e0 k0 h hi s e (some k)
    omega
end

/-! ## Changes of the readers -/

theorem cnt_map {w' : Nat → Read → Nat} {f : List Read → List Read}
    (hf : ∀ j rs, cntR (w' j) (f rs) = cntR (w j) rs) :
    ∀ (h : Nat) (e : Nat × Sub V h), cntOf w' h (e.1, mapReads f h e.2) = cntOf w h e
  | 0, _ => rfl
  | h + 1, e => by
    have h1 : cntL (w' h) (e.2.lock.mapReads f) = cntL (w h) e.2.lock := by
      cases e.2.lock with
      | excl x => rfl
      | shared rs => exact hf h rs
    have h2 : ((e.2.kids.map fun x => (x.1, mapReads f h x.2)).map (cntOf w' h)).sum =
        (e.2.kids.map (cntOf w h)).sum := by
      rw [List.map_map]
      exact congrArg List.sum (List.map_congr_left fun x _ => cnt_map hf h x)
    show _ + _ = _ + _
    rw [← h1, ← h2]
    rfl

theorem cntN_map {w' : Nat → Read → Nat} {f : List Read → List Read}
    (hf : ∀ j rs, cntR (w' j) (f rs) = cntR (w j) rs) {h : Nat} (n : Node V h) :
    cntN w' (mapReads f (h + 1) n : Node V h) = cntN w n := cnt_map hf (h + 1) (0, n)

theorem cntR_zero (rs : List Read) : cntR (fun _ => 0) rs = 0 := by
  induction rs with
  | nil => rfl
  | cons r rs ih => rw [cntR_cons, ih]

theorem cnt_zero : ∀ (h : Nat) (e : Nat × Sub V h), cntOf (fun _ _ => 0) h e = 0
  | 0, _ => rfl
  | h + 1, e => by
    have h1 : cntL (fun _ => 0) e.2.lock = 0 := by
      cases e.2.lock with
      | excl x => rfl
      | shared rs => exact cntR_zero rs
    have h2 : ∀ l : List (Nat × Sub V h), (l.map (cntOf (fun _ _ => 0) h)).sum = 0 := by
      intro l
      induction l with
      | nil => rfl
      | cons x l ih => simp only [List.map_cons, List.sum_cons, ih, cnt_zero h x]
    show _ + _ = 0
    rw [h1, h2]

theorem cntN_zero {h : Nat} (n : Node V h) : cntN (fun _ _ => 0) n = 0 := cnt_zero (h + 1) (0, n)

theorem drop_case (id : Nat) (r : Read) (rs : List Read) :
    ((∃ s e k, r = .guard id s e k) ∧ dropGuard id (r :: rs) = dropGuard id rs) ∨
    ((∀ s e k, r ≠ .guard id s e k) ∧ dropGuard id (r :: rs) = r :: dropGuard id rs) := by
  cases r with
  | guard id' s e k =>
    by_cases h : id' = id
    · subst h; exact Or.inl ⟨⟨s, e, k, rfl⟩, by simp [dropGuard]⟩
    · refine Or.inr ⟨fun s' e' k' h' => h (by cases h'; rfl), by simp [dropGuard, h]⟩
  | _ => exact Or.inr ⟨by simp, by simp [dropGuard]⟩

theorem drop_w {w : Read → Nat} (id : Nat) (hw : ∀ s e k, w (.guard id s e k) = 0) (rs : List Read) :
    cntR w (dropGuard id rs) = cntR w rs := by
  induction rs with
  | nil => rfl
  | cons r rs ih =>
    rcases drop_case id r rs with ⟨⟨s, e, k, rfl⟩, h⟩ | ⟨_, h⟩ <;> rw [h]
    · rw [cntR_cons, hw, ih, Nat.zero_add]
    · rw [cntR_cons, cntR_cons, ih]

theorem drop_none (id t j : Nat) (s0 e0 : Bnd Nat) (k0 : Nat) (rs : List Read) :
    cntR (W t (.guard id s0 e0 k0) j) (dropGuard id rs) = cntR (fun _ => 0) rs := by
  rw [cntR_zero]
  induction rs with
  | nil => rfl
  | cons r rs ih =>
    rcases drop_case id r rs with ⟨_, h⟩ | ⟨h1, h⟩ <;> rw [h]
    · exact ih
    · rw [cntR_cons, ih, W_ne (h1 _ _ _)]

theorem wake_cons (id : Nat) (s e : Bnd Nat) (k : Nat) (r : Read) (rs : List Read) :
    wake id s e k (r :: rs) =
      (if r = .guard id s e k then .scan id s e none else r) :: wake id s e k rs := rfl

theorem wake_w {w : Read → Nat} (id : Nat) (s e : Bnd Nat) (k : Nat)
    (hw : w (.guard id s e k) = w (.scan id s e none)) (rs : List Read) :
    cntR w (wake id s e k rs) = cntR w rs := by
  induction rs with
  | nil => rfl
  | cons r rs ih =>
    rw [wake_cons, cntR_cons, cntR_cons, ih]
    split
    · next h => rw [h, hw]
    · rfl

theorem wake_none (id t j : Nat) (s e : Bnd Nat) (k : Nat) (rs : List Read) :
    cntR (W t (.guard id s e k) j) (wake id s e k rs) = cntR (fun _ => 0) rs := by
  rw [cntR_zero]
  induction rs with
  | nil => rfl
  | cons r rs ih =>
    rw [wake_cons, cntR_cons, ih]
    split
    · rw [scan_w]
    · next h => rw [W_ne h]

/-! ## The invariant -/

/-- Each `next_guard` belongs to a query which is not above it. -/
def Paired {h : Nat} (n : Node V h) : Prop :=
  ∀ t i s e k, cntN (W t (.guard i s e k)) n ≤ cntN (W t (.scan i s e (some k))) n

theorem paired_drop {h : Nat} {n : Node V h} (id : Nat)
    (hn : ∀ t i s e k, i ≠ id → cntN (W t (.guard i s e k)) n ≤ cntN (W t (.scan i s e (some k))) n) :
    Paired (mapReads (dropGuard id) (h + 1) n : Node V h) := by
  intro t i s e k
  by_cases hi : i = id
  · subst hi
    rw [cntN_map (w := fun _ _ => 0) (fun j rs => drop_none i t j s e k rs), cntN_zero]
    exact Nat.zero_le _
  · rw [cntN_map (w := W t (.guard i s e k)) (fun j rs => drop_w id (fun s' e' k' => W_ne (by
        simp only [ne_eq, Read.guard.injEq]; exact fun h => hi h.1.symm)) rs),
      cntN_map (w := W t (.scan i s e (some k))) (fun j rs => drop_w id (fun s' e' k' => guard_w ..) rs)]
    exact hn t i s e k hi

theorem paired_step {L : Limits} {seq : Bool} {s s' : XSys V} {es : List (XEvent V)}
    (hst : XStep L seq s es s') (hi : Inv L s.sys) (hp : Paired s.sys.tree.node) :
    Paired s'.sys.tree.node := by
  cases hst with
  | base hst =>
    intro t i s e k
    have h1 := base_cnt (w := W t (.guard i s e k)) (fun j r hr => W_ne (by rintro rfl; cases hr)) hst hi
    have h2 := base_cnt (w := W t (.scan i s e (some k))) (fun j r hr => W_ne (by rintro rfl; cases hr))
      hst hi
    simp only at h1 h2 ⊢
    rw [h1, h2]
    exact hp t i s e k
  | scan => exact hp
  | @root calls pre post rs used id s e h n =>
    intro t i s0 e0 k
    have := hp t i s0 e0 k
    simp only [cnt_shared, cntR_cons, scan_w] at this ⊢
    omega
  | down hst =>
    intro t i s e k
    have h1 := (scan_lv t i s e k hst).1 trivial
    have := hp t i s e k
    simp only at this ⊢
    omega
  | release hst _ =>
    refine paired_drop _ fun t i s e k _ => ?_
    have h1 := (scan_lv t i s e k hst).1 trivial
    have := hp t i s e k
    simp only at this
    omega
  | @swap calls top h id n n' used hst =>
    have hd : Paired (mapReads (dropGuard id) (h + 1) n : Node V h) :=
      paired_drop id fun t i s e k _ => hp t i s e k
    intro t i s e k
    have h1 := scan_lv t i s e k hst
    have := hd t i s e k
    by_cases hid : i = id
    · subst hid
      refine h1.2 trivial ?_
      rw [cntN_map (w := fun _ _ => 0) (fun j rs => drop_none i t j s e k rs), cntN_zero]
    · have := h1.1 hid
      simp only
      omega
  | @goto calls top h id key s e n n' used hst =>
    intro t i s0 e0 k0
    have h1 := scan_lv t i s0 e0 k0 hst
    have := hp t i s0 e0 k0
    by_cases hs : i = id ∧ s0 = s ∧ e0 = e ∧ k0 = key
    · obtain ⟨rfl, rfl, rfl, rfl⟩ := hs
      simp only
      rw [cntN_map (w := fun _ _ => 0) (fun j rs => wake_none i t j s0 e0 k0 rs), cntN_zero]
      exact Nat.zero_le _
    · have h2 := h1.1 hs
      simp only at this ⊢
      rw [cntN_map (w := W t (.guard i s0 e0 k0)) (fun j rs => wake_w id s e key (by
          rw [scan_w, W_ne]
          simp only [ne_eq, Read.guard.injEq]
          exact fun h' => hs ⟨h'.1.symm, h'.2.1.symm, h'.2.2.1.symm, h'.2.2.2.symm⟩) rs),
        cntN_map (w := W t (.scan i s0 e0 (some k0))) (fun j rs => wake_w id s e key (by
          rw [guard_w, W_ne]; simp) rs)]
      omega
  | ret hst =>
    refine paired_drop _ fun t i s e k hne => ?_
    have h1 := (scan_lv t i s e k hst).1 hne
    have := hp t i s e k
    simp only at this
    omega

end Verif.Conc.Lv
