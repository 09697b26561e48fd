import Verif.Conc.System

/-!
# Every call comes to its end

A measure that every step but a new call lowers.  It needs that no node grows beyond its maximum:
only then does a task split a child at most once.
-/

namespace Verif.Conc

open Verif
open Verif.Tree (Limits position firstKey Chain Below nextKey)

variable {V : Type}

def Lock.isFree : Lock V → Bool
  | .shared [] => true
  | _ => false

theorem isFree_iff {l : Lock V} : l.isFree = true ↔ l = .free := by
  cases l with
  | shared rs => cases rs <;> simp [Lock.isFree, Lock.free]
  | excl w => simp [Lock.isFree, Lock.free]

/-- The child is free and will not be split. -/
def noSplit (L : Limits) : (h : Nat) → Sub V h → Nat → Bool
  | 0, _, _ => false
  | h + 1, c, k => c.lock.isFree && !shouldSplit L h c.kids k

def roomy (L : Limits) (h : Nat) (cs : Kids V h) (k : Nat) : Bool :=
  match cs[position cs k]? with
  | some e => noSplit L h e.2 k
  | none => false

def RoomOk (L : Limits) (h : Nat) (cs : Kids V h) : Lock V → Prop
  | .excl (.insert _ k _) => cs.length < L.max h ∨ roomy L h cs k = true
  | _ => True

def CapSub (L : Limits) : (h : Nat) → Sub V h → Prop
  | 0, _ => True
  | h + 1, c => c.kids.length ≤ L.max h ∧ RoomOk L h c.kids c.lock ∧ ∀ e ∈ c.kids, CapSub L h e.2

abbrev CapN (L : Limits) (h : Nat) (n : Node V h) : Prop := CapSub L (h + 1) n

/-- A range query may go down, and then down again from the node that it kept to the right. -/
def readPot (h : Nat) : Read → Nat
  | .get _ _ => h + 1
  | .lastKey _ => h + 1
  | .scan _ _ _ _ => 3 ^ (h + 1)
  | .guard _ _ _ _ => 3 ^ (h + 1) + 1

def readsPot (h : Nat) (rs : List Read) : Nat := (rs.map (readPot h)).sum

theorem readsPot_nil (h : Nat) : readsPot h [] = 0 := rfl

theorem readsPot_cons (h : Nat) (r : Read) (rs : List Read) :
    readsPot h (r :: rs) = readPot h r + readsPot h rs := by simp [readsPot]

theorem readsPot_mid (h : Nat) (r : Read) (pre post : List Read) :
    readsPot h (pre ++ r :: post) = readPot h r + readsPot h (pre ++ post) := by
  simp [readsPot]; omega

theorem readPot_pos (h : Nat) (r : Read) : 0 < readPot h r := by
  have : 0 < 3 ^ (h + 1) := Nat.pos_of_ne_zero (by simp)
  cases r <;> simp only [readPot] <;> omega

theorem readPot_down (h : Nat) (r : Read) : readPot h r < readPot (h + 1) r := by
  have h1 : 0 < 3 ^ (h + 1) := Nat.pos_of_ne_zero (by simp)
  have h2 : 3 ^ (h + 1 + 1) = 3 ^ (h + 1) * 3 := Nat.pow_succ ..
  cases r <;> simp only [readPot] <;> omega

def lockPot (L : Limits) (h : Nat) (cs : Kids V h) : Lock V → Nat
  | .excl (.insert _ k _) => 2 * h + (if roomy L h cs k then 1 else 2)
  | .excl (.remove _ _) => 4 * h + 3
  | .excl (.fix _ _ _) => 4 * h + 2
  | .excl (.fixed _ _) => 4 * h + 1
  | .excl (.visit _) => h + 1
  | .excl (.held _) => 0
  | .shared rs => readsPot h rs

def potOf (L : Limits) : (h : Nat) → Nat × Sub V h → Nat
  | 0, _ => 0
  | h + 1, e => lockPot L h e.2.kids e.2.lock + (e.2.kids.map (potOf L h)).sum

def potK (L : Limits) (h : Nat) (cs : Kids V h) : Nat := (cs.map (potOf L h)).sum

def potN (L : Limits) {h : Nat} (n : Node V h) : Nat := lockPot L h n.kids n.lock + potK L h n.kids

theorem potK_nd {L : Limits} {h : Nat} (pre post : List (Nat × Node V h)) (k : Nat)
    (c : Node V h) : potK L (h + 1) (pre ++ (k, c) :: post) =
      potK L (h + 1) pre + (potN L c + potK L (h + 1) post) := by
  simp [potK, potOf, potN]

theorem potK_cons {L : Limits} {h : Nat} (post : List (Nat × Node V h)) (k : Nat)
    (c : Node V h) : potK L (h + 1) ((k, c) :: post) = potN L c + potK L (h + 1) post :=
  (potK_nd [] post k c).trans (by simp [potK])

theorem potK_append {L : Limits} {h : Nat} (a b : Kids V h) :
    potK L h (a ++ b) = potK L h a + potK L h b := by
  simp [potK]

theorem Quiet.pot {L : Limits} {h : Nat} {n : Node V h} (hq : Quiet n) :
    potN L n = potK L h n.kids := by
  unfold potN
  rcases hq with hq | ⟨id, hq⟩ <;> rw [hq] <;> simp [lockPot, Lock.free, readsPot_nil]

theorem fresh_pot {L : Limits} {h : Nat} (n : Kids V h) : potN L (fresh n) = potK L h n :=
  (quiet_fresh n).pot

theorem roomy_at {L : Limits} {h : Nat} {cs : Kids V (h + 1)} {k key : Nat} {n : Kids V h}
    (hk : cs[position cs k]? = some (key, fresh n)) :
    roomy L (h + 1) cs k = !shouldSplit L h n k := by
  unfold roomy
  rw [hk]
  simp [noSplit, fresh, Lock.isFree, Lock.free]

/-- A free leaf does not change. -/
theorem step_leaf {L : Limits} {seq : Bool} {n n' : Node V 0} {l : Lbl V}
    (hs : Step L seq 0 n l n') : n.lock ≠ .free := by
  cases hs <;> simp [Lock.free]

theorem shouldSplit_len {L : Limits} {h : Nat} {n m : Kids V (h + 1)} {k : Nat}
    (hl : n.length = m.length) : shouldSplit L (h + 1) n k = shouldSplit L (h + 1) m k := by
  simp [shouldSplit, hl]

theorem roomy_step {L : Limits} {seq : Bool} {h : Nat} {pre post : List (Nat × Node V h)}
    {key : Nat} {c c' : Node V h} {l : Lbl V} (hs : Step L seq h c l c') {k : Nat}
    (hr : roomy L (h + 1) (pre ++ (key, c) :: post) k = true) :
    roomy L (h + 1) (pre ++ (key, c') :: post) k = true := by
  unfold roomy at hr ⊢
  rw [position_same (c := c)]
  generalize position (pre ++ (key, c) :: post) k = i at hr ⊢
  cases hg : (pre ++ (key, c') :: post)[i]? with
  | none =>
    have h1 := List.getElem?_eq_none_iff.mp hg
    have h2 : (pre ++ (key, c) :: post)[i]? = none := by
      refine List.getElem?_eq_none_iff.mpr ?_
      simpa using h1
    rw [h2] at hr
    simp at hr
  | some e =>
    rcases getElem?_replace (e := (key, c)) hg with ⟨rfl, rfl⟩ | ⟨_, hx⟩
    · rw [Tree.getElem?_mid] at hr
      simp only [noSplit, Bool.and_eq_true, Bool.not_eq_true'] at hr ⊢
      have hf := isFree_iff.mp hr.1
      have hq := step_quiet hs (Or.inl hf)
      refine ⟨isFree_iff.mpr (hq.1.trans hf), ?_⟩
      cases h with
      | zero => exact absurd hf (step_leaf hs)
      | succ h => rw [shouldSplit_len hq.2]; exact hr.2
    · rw [hx] at hr
      exact hr

theorem lockPot_step {L : Limits} {seq : Bool} {h : Nat} {pre post : List (Nat × Node V h)}
    {key : Nat} {c c' : Node V h} {l : Lbl V} (hs : Step L seq h c l c') (lock : Lock V) :
    lockPot L (h + 1) (pre ++ (key, c') :: post) lock ≤
      lockPot L (h + 1) (pre ++ (key, c) :: post) lock := by
  cases lock with
  | shared rs => exact Nat.le_refl _
  | excl w =>
    cases w with
    | insert id k v =>
      simp only [lockPot]
      by_cases hr : roomy L (h + 1) (pre ++ (key, c) :: post) k = true
      · rw [roomy_step hs hr, hr]
        exact Nat.le_refl _
      · rw [if_neg hr]; split <;> omega
    | _ => exact Nat.le_refl _

theorem cap_replace {L : Limits} {h : Nat} {pre post : List (Nat × Node V h)} {key key' : Nat}
    {c c' : Node V h} (hc : ∀ e ∈ (pre ++ (key, c) :: post : Kids V (h + 1)), CapSub L (h + 1) e.2)
    (hc' : CapN L h c') :
    ∀ e ∈ (pre ++ (key', c') :: post : Kids V (h + 1)), CapSub L (h + 1) e.2 := by
  intro e he
  rcases List.mem_append.mp he with he | he
  · exact hc e (List.mem_append.mpr (Or.inl he))
  · rcases List.mem_cons.mp he with rfl | he
    · exact hc'
    · exact hc e (List.mem_append.mpr (Or.inr (List.mem_cons_of_mem _ he)))

theorem cap_get {L : Limits} {h : Nat} {pre post : List (Nat × Node V h)} {key : Nat}
    {c : Node V h} (hc : ∀ e ∈ (pre ++ (key, c) :: post : Kids V (h + 1)), CapSub L (h + 1) e.2) :
    CapN L h c :=
  hc (key, c) (List.mem_append.mpr (Or.inr (List.mem_cons_self ..)))

theorem shouldSplit_cap {L : Limits} : ∀ {h : Nat} {n : Kids V h} {k : Nat},
    n.length < L.max h → shouldSplit L h n k = false
  | 0, n, k, hs => by
    have hs : n.length < L.maxLeaf := hs
    simp only [shouldSplit, Bool.and_eq_false_iff, decide_eq_false_iff_not]
    right; omega
  | h + 1, n, k, hs => by
    have hs : n.length < L.maxInt := hs
    simp only [shouldSplit, decide_eq_false_iff_not]
    omega

theorem split_small {L : Limits} (hL : L.Ok) {seq : Bool} {h : Nat} {n l r : Kids V h}
    {x : Nat × Sub V h} {k : Nat} (hs : split L seq h n = some (l, k, x :: r))
    (hn : L.max h ≤ n.length) (hle : n.length ≤ L.max h) :
    l.length < L.max h ∧ r.length + 1 < L.max h := by
  obtain ⟨l', x', r', h1, h2, h3, h4⟩ := split_spec hL seq hn
  rw [h1] at hs
  simp only [Option.some.injEq, Prod.mk.injEq, List.cons.injEq] at hs
  obtain ⟨rfl, rfl, rfl, rfl⟩ := hs
  have := congrArg List.length h2
  simp only [List.length_append, List.length_cons] at this
  have := hL.min_pos h
  omega

/-- Moving the border between two nodes. -/
theorem fixPair_cap {L : Limits} (hL : L.Ok) {h : Nat} {pre post : List (Nat × Node V h)}
    {key : Nat} {c : Node V h} {cs' : List (Nat × Node V h)} (hq : Quiet c)
    (hlen : c.kids.length ≤ L.min h)
    (hs : ∀ skey s, (pre ++ (key, c) :: post)[sibling (pre ++ (key, c) :: post) pre.length]? =
      some (skey, s) → Quiet s)
    (hcap : ∀ e ∈ (pre ++ (key, c) :: post : Kids V (h + 1)), CapSub L (h + 1) e.2)
    (hf : fixPair L h (pre ++ (key, c) :: post) pre.length = some cs') :
    (∀ e ∈ (cs' : Kids V (h + 1)), CapSub L (h + 1) e.2) ∧
      potK L (h + 1) cs' = potK L (h + 1) (pre ++ (key, c) :: post) ∧
      cs'.length ≤ (pre ++ (key, c) :: post).length := by
  have htwo := hL.two h
  have hmin := hL.min_pos h
  cases post with
  | cons s post =>
    obtain ⟨kb, B⟩ := s
    have hsib : sibling (pre ++ (key, c) :: (kb, B) :: post) pre.length = pre.length + 1 := by
      unfold sibling; rw [if_pos]; simp only [List.length_append, List.length_cons]; omega
    have e2 : (pre ++ (key, c) :: (kb, B) :: post)[pre.length + 1]? = some (kb, B) := by
      have := Tree.getElem?_mid (pre ++ [(key, c)]) (kb, B) post
      simpa using this
    have qB : Quiet B := hs kb B (by rw [hsib]; exact e2)
    have hcA : CapN L h c := cap_get hcap
    have hcB : CapN L h B := hcap (kb, B) (by simp)
    have hpre : ∀ e ∈ pre, CapSub L (h + 1) e.2 := fun e he => hcap e (by simp [he])
    have hpost : ∀ e ∈ post, CapSub L (h + 1) e.2 := fun e he => hcap e (by simp [he])
    have hcA1 : c.kids.length ≤ L.max h := hcA.1
    have hcB1 : B.kids.length ≤ L.max h := hcB.1
    rcases fixPair_right hf with ⟨hm, rfl⟩ | ⟨hmax, t, x, r, hn1, hd, hl, hB, rfl⟩
    · refine ⟨?_, ?_, by simp only [List.length_append, List.length_cons]; omega⟩
      · intro e he
        simp only [List.mem_append, List.mem_cons] at he
        rcases he with he | rfl | he
        · exact hpre e he
        · refine ⟨by simpa [fresh] using hm, trivial, fun y hy => ?_⟩
          rcases List.mem_append.mp hy with hy | hy
          · exact hcA.2.2 y hy
          · exact hcB.2.2 y hy
        · exact hpost e he
      · rw [potK_nd, potK_nd, potK_cons, fresh_pot, hq.pot, qB.pot, potK_append]
        omega
    · have hb := Tree.keysToShare_bound hn1
      have htl : (B.kids.take t).length = t := by simp; omega
      refine ⟨?_, ?_, by simp⟩
      · intro e he
        simp only [List.mem_append, List.mem_cons] at he
        rcases he with he | rfl | rfl | he
        · exact hpre e he
        · refine ⟨?_, trivial, fun y hy => ?_⟩
          · show (c.kids ++ B.kids.take t).length ≤ _
            rw [List.length_append, htl]; omega
          · rcases List.mem_append.mp hy with hy | hy
            · exact hcA.2.2 y hy
            · exact hcB.2.2 y (List.mem_of_mem_take hy)
        · refine ⟨?_, trivial, fun y hy => hcB.2.2 y ?_⟩
          · show (x :: r).length ≤ _
            rw [List.length_cons]; omega
          · exact List.mem_of_mem_drop (by rw [hd]; exact hy)
        · exact hpost e he
      · have hBp : potK L h B.kids = potK L h (B.kids.take t) + potK L h (x :: r) := by
          rw [← potK_append, ← hB]
        rw [potK_nd, potK_nd, potK_cons, potK_cons, fresh_pot, fresh_pot, hq.pot, qB.pot,
          potK_append, hBp]
        omega
  | nil =>
    rcases List.eq_nil_or_concat pre with rfl | ⟨pre, s, rfl⟩
    · simp [fixPair] at hf
    · obtain ⟨ka, A⟩ := s
      rw [List.concat_eq_append] at *
      have hcat : pre ++ [(ka, A)] ++ [(key, c)] = pre ++ [(ka, A), (key, c)] := by simp
      have hlen1 : (pre ++ [(ka, A)]).length = pre.length + 1 := by simp
      rw [hcat, hlen1] at hs hf
      rw [hcat] at hcap ⊢
      have hsib : sibling (pre ++ [(ka, A), (key, c)]) (pre.length + 1) = pre.length := by
        unfold sibling; rw [if_neg (by simp)]; omega
      have qA : Quiet A := hs ka A (by rw [hsib]; exact Tree.getElem?_mid ..)
      have hcA : CapN L h A := hcap (ka, A) (by simp)
      have hcB : CapN L h c := hcap (key, c) (by simp)
      have hpre : ∀ e ∈ pre, CapSub L (h + 1) e.2 := fun e he => hcap e (by simp [he])
      have hcA1 : A.kids.length ≤ L.max h := hcA.1
      rcases fixPair_left hf with ⟨hm, rfl⟩ | ⟨hmax, t, x, r, hn1, hle, hd, rfl⟩
      · refine ⟨?_, ?_, by simp⟩
        · intro e he
          simp only [List.mem_append, List.mem_singleton] at he
          rcases he with he | rfl
          · exact hpre e he
          · refine ⟨by simpa [fresh] using hm, trivial, fun y hy => ?_⟩
            rcases List.mem_append.mp hy with hy | hy
            · exact hcA.2.2 y hy
            · exact hcB.2.2 y hy
        · rw [potK_nd, potK_nd, potK_cons, fresh_pot, hq.pot, qA.pot, potK_append]
          omega
      · have hb := Tree.keysToShare_bound hn1
        have hrl := congrArg List.length hd
        simp only [List.length_append, List.length_drop, List.length_cons] at hrl
        refine ⟨?_, ?_, by simp⟩
        · intro e he
          simp only [List.mem_append, List.mem_cons, List.not_mem_nil, or_false] at he
          rcases he with he | rfl | rfl
          · exact hpre e he
          · refine ⟨?_, trivial, fun y hy => hcA.2.2 y (List.mem_of_mem_take hy)⟩
            show (A.kids.take (A.kids.length - t)).length ≤ _
            simp only [List.length_take]; omega
          · refine ⟨?_, trivial, fun y hy => ?_⟩
            · show (x :: r).length ≤ _
              rw [List.length_cons]; omega
            · have hy : y ∈ x :: r := hy
              rw [← hd] at hy
              rcases List.mem_append.mp hy with hy | hy
              · exact hcA.2.2 y (List.mem_of_mem_drop hy)
              · exact hcB.2.2 y hy
        · have hAp : potK L h A.kids + potK L h c.kids =
              potK L h (A.kids.take (A.kids.length - t)) + potK L h (x :: r) := by
            rw [← hd, ← potK_append, ← potK_append, ← List.append_assoc, List.take_append_drop]
          rw [potK_nd, potK_nd, potK_cons, potK_cons, fresh_pot, fresh_pot, hq.pot, qA.pot]
          omega

theorem length_insert_succ (m : OMap V) (k : Nat) (v : V) :
    (OMap.insert m k v).length ≤ m.length + 1 := by
  induction m with
  | nil => simp [OMap.insert]
  | cons e es ih =>
    unfold OMap.insert
    split
    · simp
    · split
      · simp
      · simpa using ih

theorem length_insert_some {m : OMap V} (hm : OMap.Sorted m) {k : Nat} {v : V}
    (hg : (OMap.get m k).isSome = true) : (OMap.insert m k v).length ≤ m.length := by
  induction m with
  | nil => simp at hg
  | cons e es ih =>
    obtain ⟨y, w⟩ := e
    unfold OMap.insert
    split
    · next hky =>
      have hn : OMap.get ((y, w) :: es) k = none := by
        cases hx : OMap.get ((y, w) :: es) k with
        | none => rfl
        | some u =>
          have hm' := OMap.mem_of_get hx
          rcases List.mem_cons.mp hm' with he | he
          · cases he; simp at hky
          · have := (List.pairwise_cons.mp hm).1 _ he
            simp only at this hky
            omega
      rw [hn] at hg
      simp at hg
    · split
      · simp
      · next h1 h2 =>
        have : (OMap.get es k).isSome = true := by
          unfold OMap.get at hg
          rwa [if_neg (fun h => h2 h.symm)] at hg
        simpa using ih hm.tail this

theorem leaf_cap {L : Limits} {n : OMap V} {k : Nat} {v : V} (hn : n.length ≤ L.max 0)
    (hss : shouldSplit L 0 n k = false) (hm : OMap.Sorted n) :
    (OMap.insert n k v).length ≤ L.max 0 := by
  have h7 : L.max 0 = L.maxLeaf := rfl
  simp only [shouldSplit, Bool.and_eq_false_iff, decide_eq_false_iff_not] at hss
  rcases hss with hss | hss
  · have := length_insert_some (v := v) hm (k := k) (by cases hg : OMap.get n k <;> simp_all)
    omega
  · have := length_insert_succ n k v
    omega

theorem pot_leaf {L : Limits} (m : Kids V 0) : potK L 0 m = 0 := by
  unfold potK
  induction m with
  | nil => rfl
  | cons e es ih => simp only [List.map_cons, List.sum_cons, ih]; rfl

theorem cap_step {L : Limits} (hL : L.Ok) {seq : Bool} {h : Nat} {n n' : Node V h} {l : Lbl V}
    (hs : Step L seq h n l n') : ∀ {a lo : Nat} {hi : Option Nat},
      NodeOk L a h lo hi n → CapN L h n → CapN L h n' ∧ potN L n' < potN L n := by
  induction hs with
  | @deeper h lock pre post key c c' l hs ih =>
    intro a lo hi hn hc
    obtain ⟨h1, h2, h3, h4, h5⟩ := chain_mid (L := L) (h := h + 1).mp hn.chain
    obtain ⟨i1, i2⟩ := ih (subOk_iff.mp h4) (cap_get hc.2.2)
    refine ⟨⟨by simpa using hc.1, ?_, cap_replace hc.2.2 i1⟩, ?_⟩
    · have hr := hc.2.1
      cases lock with
      | shared rs => trivial
      | excl w =>
        cases w with
        | insert id k v =>
          rcases hr with hr | hr
          · exact Or.inl (by simpa using hr)
          · exact Or.inr (roomy_step hs hr)
        | _ => trivial
    · have := lockPot_step (pre := pre) (post := post) (key := key) hs lock
      simp only [potN] at i2 ⊢
      rw [potK_nd, potK_nd]
      simp only [potN]
      omega
  | @removeLeaf id k n =>
    intro a lo hi hn hc
    refine ⟨⟨?_, trivial, fun _ _ => trivial⟩, ?_⟩
    · exact Nat.le_trans (List.length_filter_le ..) hc.1
    · simp only [potN, pot_leaf]
      simp [lockPot, readsPot_nil]
  | @readLeaf r pre post n _ =>
    intro a lo hi hn hc
    refine ⟨⟨hc.1, trivial, hc.2.2⟩, ?_⟩
    have := readPot_pos 0 r
    simp only [potN, lockPot, readsPot_mid]
    omega
  | @insertSplit h id k v cs key n left right k' hk hss hsp =>
    intro a lo hi hn hc
    have hroom0 := roomy_at (L := L) hk
    rw [hss] at hroom0
    obtain ⟨pre, post, rfl, hp, h1, h2⟩ := find hn.chain hk
    have hfull := shouldSplit_full hss
    obtain ⟨l, x, r, hsp', hnl, hl, hr⟩ := split_spec hL seq hfull
    have hcn : CapN L h (fresh n) := cap_get hc.2.2
    have hsm := split_small hL hsp' hfull hcn.1
    rw [hsp'] at hsp
    simp only [Option.some.injEq, Prod.mk.injEq] at hsp
    obtain ⟨rfl, rfl, rfl⟩ := hsp
    rw [hp, Tree.set_mid, Tree.insertIdx_mid]
    subst hnl
    have h1 : pre = [] ∨ key ≤ k := h1
    obtain ⟨c1, c2, c3, c4, c5⟩ := chain_mid (L := L) (h := h + 1).mp hn.chain
    have c4 : NodeOk L (L.min h) h key (nextKey post hi) (fresh (l ++ x :: r)) := subOk_iff.mp c4
    generalize hkey' : (if k < key then k else key) = key'
    have hk' : (pre = [] ∨ key' = key) ∧ key' ≤ k := by
      subst hkey'
      split
      · rcases h1 with rfl | h1
        · exact ⟨Or.inl rfl, Nat.le_refl _⟩
        · omega
      · exact ⟨Or.inr rfl, by omega⟩
    have hprek : ∀ y ∈ pre, y.1 ≤ k := by
      intro y hy
      rcases h1 with rfl | h1
      · simp at hy
      · have : y.1 < key := (Tree.chain_mem c1 y hy).2
        omega
    have hroom1 : roomy L (h + 1)
        (pre ++ (key', fresh l) :: (x.1, fresh (x :: r)) :: post) k = true := by
      by_cases hxk : x.1 ≤ k
      · have hps := Tree.position_mid (k := k) (e := (x.1, fresh (x :: r))) (post := post)
          (pre := pre ++ [(key', fresh l)]) (by
            intro y hy
            rcases List.mem_append.mp hy with hy | hy
            · exact hprek y hy
            · rw [List.mem_singleton.mp hy]; exact hk'.2) (Or.inr hxk) h2
        have hg := Tree.getElem?_mid (pre ++ [(key', fresh l)]) (x.1, fresh (x :: r)) post
        simp only [List.append_assoc, List.cons_append, List.nil_append] at hps hg
        rw [roomy_at (key := x.1) (n := x :: r) (by rw [hps]; exact hg),
          shouldSplit_cap (by simpa using hsm.2)]
        rfl
      · have hps := Tree.position_mid (k := k) (e := (key', fresh l))
          (post := (x.1, fresh (x :: r)) :: post) (pre := pre) hprek (Or.inr hk'.2) (by
            intro y hy
            rcases List.mem_cons.mp hy with rfl | hy
            · show k < x.1
              omega
            · exact h2 y hy)
        rw [roomy_at (key := key') (n := l) (by rw [hps]; exact Tree.getElem?_mid ..),
          shouldSplit_cap hsm.1]
        rfl
    refine ⟨⟨?_, Or.inr hroom1, ?_⟩, ?_⟩
    · rcases hc.2.1 with hlt | hro
      · simp only [List.length_append, List.length_cons] at hlt ⊢
        omega
      · rw [hroom0] at hro; simp at hro
    · intro e he
      have hcs := hc.2.2
      simp only [List.mem_append, List.mem_cons] at he hcs
      rcases he with he | rfl | rfl | he
      · exact hcs e (Or.inl he)
      · refine ⟨Nat.le_of_lt hsm.1, trivial, fun y hy => hcn.2.2 y ?_⟩
        exact List.mem_append.mpr (Or.inl hy)
      · refine ⟨by simpa [fresh] using Nat.le_of_lt hsm.2, trivial, fun y hy => hcn.2.2 y ?_⟩
        exact List.mem_append.mpr (Or.inr hy)
      · exact hcs e (Or.inr (Or.inr he))
    · simp only [potN, lockPot, hroom0, hroom1]
      rw [potK_nd, potK_nd, potK_cons, fresh_pot, fresh_pot, fresh_pot, potK_append]
      simp only [Bool.not_true, if_true]
      rw [if_neg (by simp)]
      omega
  | @insertDown h id k v cs key n hk hss =>
    intro a lo hi hn hc
    obtain ⟨pre, post, rfl, hp, h1, h2⟩ := find hn.chain hk
    rw [hp, Tree.set_mid]
    have hcn : CapN L (h + 1) (fresh n) := cap_get hc.2.2
    have hlt : n.length < L.max (h + 1) := by
      simp only [shouldSplit, decide_eq_false_iff_not] at hss
      show n.length < L.maxInt
      omega
    refine ⟨⟨by simpa using hc.1, trivial, cap_replace hc.2.2 ⟨hcn.1, Or.inl hlt, hcn.2.2⟩⟩, ?_⟩
    simp only [potN]
    rw [potK_nd, potK_nd, fresh_pot]
    simp only [potN, lockPot, readsPot_nil]
    split <;> split <;> omega
  | @insertLeaf id k v cs key n hk hss =>
    intro a lo hi hn hc
    obtain ⟨pre, post, rfl, hp, h1, h2⟩ := find hn.chain hk
    rw [hp, Tree.set_mid]
    have hcn : CapN L 0 (fresh n) := cap_get hc.2.2
    obtain ⟨c1, c2, c3, c4, c5⟩ := chain_mid (L := L) (h := 1).mp hn.chain
    have c4 : NodeOk L (L.min 0) 0 key (nextKey post hi) (fresh n) := subOk_iff.mp c4
    have hsort := (within_absK 0 c4.chain).2
    rw [absK_zero] at hsort
    have hlen := leaf_cap (v := v) hcn.1 hss hsort
    refine ⟨⟨by simpa using hc.1, trivial, cap_replace hc.2.2 ⟨hlen, trivial, fun _ _ => trivial⟩⟩, ?_⟩
    simp only [potN]
    rw [potK_nd, potK_nd, fresh_pot, fresh_pot, pot_leaf, pot_leaf]
    simp only [lockPot, readsPot_nil]
    split <;> omega
  | @removeFix h id k cs key n hk hdg =>
    intro a lo hi hn hc
    obtain ⟨pre, post, rfl, hp, h1, h2⟩ := find hn.chain hk
    rw [hp, Tree.set_mid]
    have hcn : CapN L h (fresh n) := cap_get hc.2.2
    refine ⟨⟨by simpa using hc.1, trivial, cap_replace hc.2.2 ⟨hcn.1, trivial, hcn.2.2⟩⟩, ?_⟩
    simp only [potN]
    rw [potK_nd, potK_nd, fresh_pot]
    simp only [potN, lockPot]
    omega
  | @fixPair h id k i cs cs' key n hk hf =>
    intro a lo hi hn hc
    obtain ⟨hlen, hi', ck, c, hc1, hc2, hc3⟩ := hn.lock
    simp only at hi'
    subst hi'
    obtain ⟨pre, post, rfl, hp, h1, h2⟩ := find hn.chain hc1
    rw [hp] at hk hf
    have hr := fixPair_cap hL (Or.inr ⟨id, hc2⟩) hc3 (by
      intro skey s hs
      rw [hk] at hs
      cases hs
      exact quiet_fresh n) hc.2.2 hf
    refine ⟨⟨Nat.le_trans hr.2.2 hc.1, trivial, hr.1⟩, ?_⟩
    simp only [potN]
    rw [hr.2.1]
    simp only [lockPot]
    omega
  | @removeDown h id k cs key n hk hdg =>
    intro a lo hi hn hc
    obtain ⟨pre, post, rfl, hp, h1, h2⟩ := find hn.chain hk
    rw [hp, Tree.set_mid]
    have hcn : CapN L h (fresh n) := cap_get hc.2.2
    refine ⟨⟨by simpa using hc.1, trivial, cap_replace hc.2.2 ⟨hcn.1, trivial, hcn.2.2⟩⟩, ?_⟩
    simp only [potN]
    rw [potK_nd, potK_nd, fresh_pot]
    simp only [potN, lockPot, readsPot_nil]
    omega
  | @fixedDown h id k cs key n hk =>
    intro a lo hi hn hc
    obtain ⟨pre, post, rfl, hp, h1, h2⟩ := find hn.chain hk
    rw [hp, Tree.set_mid]
    have hcn : CapN L h (fresh n) := cap_get hc.2.2
    refine ⟨⟨by simpa using hc.1, trivial, cap_replace hc.2.2 ⟨hcn.1, trivial, hcn.2.2⟩⟩, ?_⟩
    simp only [potN]
    rw [potK_nd, potK_nd, fresh_pot]
    simp only [potN, lockPot, readsPot_nil]
    omega
  | @readDown h r rpre rpost rs cs key n _ hk =>
    intro a lo hi hn hc
    obtain ⟨pre, post, rfl, hp⟩ := split_at hk
    rw [hp, Tree.set_mid]
    have hcn : CapN L h ⟨.shared rs, n⟩ := cap_get hc.2.2
    refine ⟨⟨by simpa using hc.1, trivial, cap_replace hc.2.2 ⟨hcn.1, trivial, hcn.2.2⟩⟩, ?_⟩
    simp only [potN]
    rw [potK_nd, potK_nd]
    have := readPot_down h r
    simp only [potN, lockPot, readsPot_mid, readsPot_cons]
    omega
  | @visitDown h id i cs key n hk =>
    intro a lo hi hn hc
    obtain ⟨pre, post, rfl, rfl⟩ := split_at hk
    rw [Tree.set_mid]
    have hcn : CapN L (h + 1) (fresh n) := cap_get hc.2.2
    refine ⟨⟨by simpa using hc.1, trivial, cap_replace hc.2.2 ⟨hcn.1, trivial, hcn.2.2⟩⟩, ?_⟩
    simp only [potN]
    rw [potK_nd, potK_nd, fresh_pot]
    simp only [potN, lockPot, readsPot_nil]
    omega
  | @visitDone h id cs =>
    intro a lo hi hn hc
    refine ⟨⟨hc.1, trivial, hc.2.2⟩, ?_⟩
    simp only [potN, lockPot, readsPot_nil]
    omega

/-! ## The whole system -/

def topPot (h : Nat) : Lock V → Nat
  | .excl (.insert _ _ _) => 2 * h + 5
  | .excl (.remove _ _) => 4 * h + 5
  | .excl (.fixed _ _) => 4 * h + 4
  | .excl (.visit _) => h + 2
  | .excl _ => 0
  | .shared rs => readsPot (h + 1) rs

/-- 1 if the root may be split by the holder of the root pointer. -/
def grows : Lock V → Nat
  | .excl (.insert _ _ _) => 1
  | _ => 0

/-- How high the tree can get. -/
def Sys.maxHeight (s : Sys V) : Nat := s.tree.h + s.calls.length + grows s.top

def Sys.pot (L : Limits) (s : Sys V) : Nat :=
  s.calls.length * (4 * s.maxHeight + 8) + topPot s.tree.h s.top + potN L s.tree.node

theorem sys_cap {L : Limits} (hL : L.Ok) {seq : Bool} {s s' : Sys V} {es : List (Event V)}
    (hst : SysStep L seq s es s') (hi : Inv L s) (hc : CapN L s.tree.h s.tree.node) :
    CapN L s'.tree.h s'.tree.node ∧
      ((∀ id op, Event.call id op ∉ es) → s'.pot L < s.pot L) := by
  cases hst with
  | call id op =>
    refine ⟨hc, fun h => absurd (List.mem_cons_self ..) (h id op)⟩
  | @enterExcl pre post id op w t hw =>
    refine ⟨hc, fun _ => ?_⟩
    have hw' : topPot t.h (.excl w) ≤ 4 * t.h + 5 ∧ grows (.excl w) ≤ 1 := by
      cases op <;> cases hw <;> simp only [topPot, grows] <;> omega
    simp only [Sys.pot, Sys.maxHeight, List.length_append, List.length_cons, topPot]
    have e1 : (pre.length + (post.length + 1)) *
          (4 * (t.h + (pre.length + (post.length + 1)) + grows (V := V) .free) + 8) =
        (pre.length + post.length) *
          (4 * (t.h + (pre.length + (post.length + 1)) + grows (V := V) .free) + 8) +
          (4 * (t.h + (pre.length + (post.length + 1)) + grows (V := V) .free) + 8) := by
      rw [← Nat.add_assoc pre.length, Nat.add_mul, Nat.one_mul]
    have e2 : (pre.length + post.length) *
          (4 * (t.h + (pre.length + post.length) + grows (.excl w)) + 8) ≤
        (pre.length + post.length) *
          (4 * (t.h + (pre.length + (post.length + 1)) + grows (V := V) .free) + 8) := by
      refine Nat.mul_le_mul_left _ ?_
      simp only [grows] at hw' ⊢
      omega
    rw [e1]
    simp only [topPot] at hw'
    omega
  | @enterShared pre post id op r rs t hr =>
    refine ⟨hc, fun _ => ?_⟩
    simp only [Sys.pot, Sys.maxHeight, List.length_append, List.length_cons, topPot, grows]
    have e1 : (pre.length + (post.length + 1)) *
          (4 * (t.h + (pre.length + (post.length + 1)) + 0) + 8) =
        (pre.length + post.length) * (4 * (t.h + (pre.length + (post.length + 1)) + 0) + 8) +
          (4 * (t.h + (pre.length + (post.length + 1)) + 0) + 8) := by
      rw [← Nat.add_assoc pre.length, Nat.add_mul, Nat.one_mul]
    have e2 : (pre.length + post.length) * (4 * (t.h + (pre.length + post.length) + 0) + 8) ≤
        (pre.length + post.length) *
          (4 * (t.h + (pre.length + (post.length + 1)) + 0) + 8) :=
      Nat.mul_le_mul_left _ (by omega)
    have e3 : readPot (t.h + 1) r = t.h + 2 := by cases op <;> cases hr <;> rfl
    rw [e1, readsPot_cons, e3]
    omega
  | @inside calls top h n n' l hst =>
    obtain ⟨h1, h2⟩ := cap_step hL hst hi.node hc
    refine ⟨h1, fun _ => ?_⟩
    simp only [Sys.pot, Sys.maxHeight]
    omega
  | @insertSplit calls id k v h n left right k' hss hsp =>
    have hfull := shouldSplit_full hss
    obtain ⟨l, x, r, hsp', hnl, hl, hr⟩ := split_spec hL seq hfull
    have hsm := split_small hL hsp' hfull hc.1
    rw [hsp'] at hsp
    simp only [Option.some.injEq, Prod.mk.injEq] at hsp
    obtain ⟨rfl, rfl, rfl⟩ := hsp
    subst hnl
    have h4 : 2 < L.max (h + 1) := by
      have h5 := hL.int
      have h6 := hL.int_two
      have h7 : L.max (h + 1) = L.maxInt := rfl
      omega
    refine ⟨⟨Nat.le_of_lt h4, Or.inl h4, ?_⟩, fun _ => ?_⟩
    · intro e he
      simp only [List.mem_cons, List.not_mem_nil, or_false] at he
      rcases he with rfl | rfl
      · refine ⟨Nat.le_of_lt hsm.1, trivial, fun y hy => hc.2.2 y ?_⟩
        exact List.mem_append.mpr (Or.inl hy)
      · refine ⟨by simpa [fresh] using Nat.le_of_lt hsm.2, trivial, fun y hy => hc.2.2 y ?_⟩
        exact List.mem_append.mpr (Or.inr hy)
    · have hp : potK L (h + 1) [(0, fresh l), (x.1, fresh (x :: r))] = potN L (fresh (l ++ x :: r)) := by
        rw [potK_cons, potK_cons, fresh_pot, fresh_pot, fresh_pot, potK_append]
        simp [potK]
      have hm : h + 1 + calls.length + 0 = h + calls.length + 1 := by omega
      have hlp : lockPot L (h + 1) [(0, fresh l), (x.1, fresh (x :: r))]
          (.excl (.insert id k v)) ≤ 2 * h + 4 := by
        simp only [lockPot]; split <;> omega
      simp only [Sys.pot, Sys.maxHeight, grows, topPot, Lock.free, readsPot_nil]
      rw [hm]
      have hn : potN L (⟨.excl (.insert id k v), [(0, fresh l), (x.1, fresh (x :: r))]⟩ :
          Node V (h + 1)) = lockPot L (h + 1) [(0, fresh l), (x.1, fresh (x :: r))]
            (.excl (.insert id k v)) + potK L (h + 1) [(0, fresh l), (x.1, fresh (x :: r))] := rfl
      rw [hn, hp]
      omega
  | @insertDown calls id k v h n hss =>
    have hlt : n.length < L.max (h + 1) := by
      simp only [shouldSplit, decide_eq_false_iff_not] at hss
      show n.length < L.maxInt
      omega
    refine ⟨⟨hc.1, Or.inl hlt, hc.2.2⟩, fun _ => ?_⟩
    have hlp : lockPot L (h + 1) n (.excl (.insert id k v)) ≤ 2 * h + 4 := by
      simp only [lockPot]; split <;> omega
    simp only [Sys.pot, Sys.maxHeight, grows, topPot, Lock.free, readsPot_nil]
    have hn : potN L (⟨.excl (.insert id k v), n⟩ : Node V (h + 1)) =
      lockPot L (h + 1) n (.excl (.insert id k v)) + potK L (h + 1) n := rfl
    rw [hn, fresh_pot]
    have := Nat.mul_le_mul_left calls.length
      (show 4 * (h + 1 + calls.length + 0) + 8 ≤ 4 * (h + 1 + calls.length + 1) + 8 by omega)
    omega
  | @insertLeaf calls id k v n hss =>
    have hsort := (within_absK 0 hi.node.chain).2
    rw [absK_zero] at hsort
    refine ⟨⟨leaf_cap hc.1 hss hsort, trivial, fun _ _ => trivial⟩, fun _ => ?_⟩
    simp only [Sys.pot, Sys.maxHeight, grows, topPot, Lock.free, readsPot_nil]
    rw [fresh_pot, fresh_pot, pot_leaf, pot_leaf]
    have := Nat.mul_le_mul_left calls.length
      (show 4 * (0 + calls.length + 0) + 8 ≤ 4 * (0 + calls.length + 1) + 8 by omega)
    omega
  | @removeMerge calls id k h key c =>
    refine ⟨hc.2.2 (key, c) (List.mem_cons_self ..), fun _ => ?_⟩
    simp only [Sys.pot, Sys.maxHeight, grows, topPot]
    rw [fresh_pot, potK_cons]
    have := Nat.mul_le_mul_left calls.length
      (show 4 * (h + calls.length + 0) + 8 ≤ 4 * (h + 1 + calls.length + 0) + 8 by omega)
    omega
  | @removeEmpty calls id k h =>
    refine ⟨⟨Nat.zero_le _, trivial, fun _ he => absurd he List.not_mem_nil⟩, fun _ => ?_⟩
    simp only [Sys.pot, Sys.maxHeight, grows, topPot]
    rw [fresh_pot, fresh_pot]
    have := Nat.mul_le_mul_left calls.length
      (show 4 * (0 + calls.length + 0) + 8 ≤ 4 * (h + 1 + calls.length + 0) + 8 by omega)
    have : potK L 0 ([] : Kids V 0) = 0 := rfl
    omega
  | @removeDown calls id k h n hlen =>
    refine ⟨⟨hc.1, trivial, hc.2.2⟩, fun _ => ?_⟩
    simp only [Sys.pot, Sys.maxHeight, grows, topPot, Lock.free, readsPot_nil]
    have hn : potN L (⟨.excl (.remove id k), n⟩ : Node V h) = 4 * h + 3 + potK L h n := rfl
    rw [hn, fresh_pot]
    omega
  | @fixedDown calls id k h n =>
    refine ⟨⟨hc.1, trivial, hc.2.2⟩, fun _ => ?_⟩
    simp only [Sys.pot, Sys.maxHeight, grows, topPot, Lock.free, readsPot_nil]
    have hn : potN L (⟨.excl (.remove id k), n⟩ : Node V h) = 4 * h + 3 + potK L h n := rfl
    rw [hn, fresh_pot]
    omega
  | @readDown calls r pre post rs h n _ =>
    refine ⟨⟨hc.1, trivial, hc.2.2⟩, fun _ => ?_⟩
    simp only [Sys.pot, Sys.maxHeight, grows, topPot]
    have hn : ∀ rs, potN L (⟨.shared rs, n⟩ : Node V h) = readsPot h rs + potK L h n :=
      fun _ => rfl
    have := readPot_down h r
    rw [hn, hn, readsPot_mid, readsPot_cons]
    omega
  | @visitDown calls id h n =>
    refine ⟨⟨hc.1, trivial, hc.2.2⟩, fun _ => ?_⟩
    simp only [Sys.pot, Sys.maxHeight, grows, topPot, Lock.free, readsPot_nil]
    have hn : potN L (⟨.excl (.visit id), n⟩ : Node V (h + 1)) = h + 1 + 1 + potK L (h + 1) n := rfl
    rw [hn, fresh_pot]
    omega
  | @visitDone calls id t =>
    refine ⟨hc, fun _ => ?_⟩
    simp only [Sys.pot, Sys.maxHeight, grows, topPot, Lock.free, readsPot_nil]
    omega

end Verif.Conc
