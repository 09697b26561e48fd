import Verif.Conc.ScanSystem
import Verif.Conc.Term

/-!
# Range queries come to their end

The measure of `Verif.Conc.Term`, for the steps of range queries.
-/

namespace Verif.Conc

open Verif
open Verif.Tree (Limits position firstKey Bnd startChild)

variable {V : Type}

/-- A change of readers that does not give them more to do. -/
structure Less (f : List Read → List Read) : Prop where
  nil : f [] = []
  le : ∀ h rs, readsPot h (f rs) ≤ readsPot h rs

theorem filter_le (p : Read → Bool) (h : Nat) (rs : List Read) :
    readsPot h (rs.filter p) ≤ readsPot h rs := by
  induction rs with
  | nil => exact Nat.le_refl _
  | cons r rs ih =>
    rw [List.filter_cons, readsPot_cons]
    by_cases hp : p r = true
    · rw [if_pos hp, readsPot_cons]; omega
    · rw [if_neg hp]; omega

theorem filter_lt (p : Read → Bool) (h : Nat) (rs : List Read) (hne : rs.filter p ≠ rs) :
    readsPot h (rs.filter p) < readsPot h rs := by
  induction rs with
  | nil => exact absurd rfl hne
  | cons r rs ih =>
    have hle := filter_le p h rs
    have hpos := readPot_pos h r
    rw [List.filter_cons] at hne ⊢
    rw [readsPot_cons]
    by_cases hp : p r = true
    · rw [if_pos hp] at hne ⊢
      have := ih fun h => hne (by rw [h])
      rw [readsPot_cons]; omega
    · rw [if_neg hp]; omega

theorem less_drop (id : Nat) : Less (dropGuard id) := ⟨rfl, fun h rs => filter_le _ h rs⟩

theorem drop_lt {id h : Nat} {rs : List Read} (hne : (dropGuard id rs != rs) = true) :
    readsPot h (dropGuard id rs) < readsPot h rs := by
  simp only [bne_iff_ne, ne_eq] at hne
  exact filter_lt _ h rs hne

theorem less_wake (id : Nat) (s e : Bnd Nat) (k : Nat) : Less (wake id s e k) := by
  refine ⟨rfl, fun h rs => ?_⟩
  induction rs with
  | nil => exact Nat.le_refl _
  | cons r rs ih =>
    unfold wake at ih ⊢
    rw [List.map_cons, readsPot_cons, readsPot_cons]
    split
    · next hr => subst hr; simp only [readPot]; omega
    · omega

section mapped
variable {f : List Read → List Read} (hf : Less f)
include hf

theorem noSplit_map {L : Limits} : ∀ (h : Nat) (c : Sub V h) (k : Nat),
    noSplit L h c k = true → noSplit L h (mapReads f h c) k = true
  | 0, _, _, h => h
  | 1, c, k, hn => by
    simp only [noSplit, Bool.and_eq_true] at hn ⊢
    refine ⟨?_, ?_⟩
    · show (c.lock.mapReads f).isFree = true
      rw [isFree_iff.mp hn.1]
      simp [Lock.free, Lock.mapReads, hf.nil, Lock.isFree]
    · have : (mapReads f 1 c).kids = c.kids := by
        show c.kids.map (fun e => (e.1, e.2)) = c.kids
        simp
      rw [this]; exact hn.2
  | h + 2, c, k, hn => by
    simp only [noSplit, Bool.and_eq_true] at hn ⊢
    refine ⟨?_, ?_⟩
    · show (c.lock.mapReads f).isFree = true
      rw [isFree_iff.mp hn.1]
      simp [Lock.free, Lock.mapReads, hf.nil, Lock.isFree]
    · rw [shouldSplit_len (m := c.kids) (by show (c.kids.map _).length = _; simp)]
      exact hn.2

theorem roomy_map {L : Limits} {h k : Nat} {cs : Kids V h} (hr : roomy L h cs k = true) :
    roomy L h (cs.map fun e => (e.1, mapReads f h e.2)) k = true := by
  unfold roomy at hr ⊢
  rw [position_map, List.getElem?_map]
  cases hg : cs[position cs k]? with
  | none => rw [hg] at hr; simp at hr
  | some e => rw [hg] at hr; exact noSplit_map hf h e.2 k hr

theorem cap_map {L : Limits} : ∀ (h : Nat) (c : Sub V h), CapSub L h c →
    CapSub L h (mapReads f h c)
  | 0, _, _ => trivial
  | h + 1, c, hc => by
    refine ⟨?_, ?_, ?_⟩
    · show (c.kids.map _).length ≤ _
      rw [List.length_map]; exact hc.1
    · show RoomOk L h (c.kids.map _) (c.lock.mapReads f)
      have h2 := hc.2.1
      cases hl : c.lock with
      | shared rs => trivial
      | excl w =>
        rw [hl] at h2
        cases w with
        | insert id k v =>
          rcases h2 with h2 | h2
          · exact Or.inl (by rw [List.length_map]; exact h2)
          · exact Or.inr (roomy_map hf h2)
        | _ => trivial
    · intro e he
      have he : e ∈ c.kids.map fun e => (e.1, mapReads f h e.2) := he
      obtain ⟨x, hx, rfl⟩ := List.mem_map.mp he
      exact cap_map h x.2 (hc.2.2 x hx)

theorem lockPot_map {L : Limits} {h : Nat} (cs : Kids V h) (l : Lock V) :
    lockPot L h (cs.map fun e => (e.1, mapReads f h e.2)) (l.mapReads f) ≤ lockPot L h cs l := by
  cases l with
  | shared rs => exact hf.le h rs
  | excl w =>
    cases w with
    | insert id k v =>
      simp only [Lock.mapReads, lockPot]
      by_cases hr : roomy L h cs k = true
      · rw [roomy_map hf hr, hr]; exact Nat.le_refl _
      · rw [if_neg hr]; split <;> omega
    | _ => exact Nat.le_refl _

theorem sum_le {α : Type} {g g' : α → Nat} : ∀ (l : List α), (∀ x ∈ l, g x ≤ g' x) →
    (l.map g).sum ≤ (l.map g').sum
  | [], _ => Nat.le_refl _
  | x :: l, h => by
    have h1 := h x (List.mem_cons_self ..)
    have h2 := sum_le l fun y hy => h y (List.mem_cons_of_mem _ hy)
    simp only [List.map_cons, List.sum_cons]
    omega

theorem pot_map {L : Limits} : ∀ (h : Nat) (e : Nat × Sub V h),
    potOf L h (e.1, mapReads f h e.2) ≤ potOf L h e
  | 0, _ => Nat.le_refl _
  | h + 1, e => by
    have h1 := lockPot_map hf (L := L) e.2.kids e.2.lock
    have h2 : ((e.2.kids.map fun x => (x.1, mapReads f h x.2)).map (potOf L h)).sum ≤
        (e.2.kids.map (potOf L h)).sum := by
      rw [List.map_map]
      exact sum_le hf _ fun x _ => pot_map h x
    show lockPot L h _ _ + ((e.2.kids.map fun x => (x.1, mapReads f h x.2)).map (potOf L h)).sum ≤
      lockPot L h e.2.kids e.2.lock + (e.2.kids.map (potOf L h)).sum
    exact Nat.add_le_add h1 h2

theorem potN_map {L : Limits} {h : Nat} (n : Node V h) :
    potN L (mapReads f (h + 1) n : Node V h) ≤ potN L n := pot_map hf (h + 1) (0, n)

end mapped

theorem sum_lt {α : Type} {g g' : α → Nat} : ∀ (l : List α), (∀ x ∈ l, g x ≤ g' x) →
    (∃ x ∈ l, g x < g' x) → (l.map g).sum < (l.map g').sum
  | [], _, h => by obtain ⟨_, h, _⟩ := h; exact absurd h List.not_mem_nil
  | x :: l, h, hex => by
    have h1 := h x (List.mem_cons_self ..)
    have h2 := sum_le (less_drop 0) (g := g) (g' := g') l fun y hy => h y (List.mem_cons_of_mem _ hy)
    simp only [List.map_cons, List.sum_cons]
    obtain ⟨y, hy, hlt⟩ := hex
    rcases List.mem_cons.mp hy with rfl | hy
    · omega
    · have := sum_lt l (fun y hy => h y (List.mem_cons_of_mem _ hy)) ⟨y, hy, hlt⟩
      omega

theorem pot_drop {L : Limits} (id : Nat) : ∀ (h : Nat) (e : Nat × Sub V h),
    hasGuard id h e.2 = true → potOf L h (e.1, mapReads (dropGuard id) h e.2) < potOf L h e
  | 0, _, hg => by simp [hasGuard] at hg
  | h + 1, e, hg => by
    have h1 := lockPot_map (less_drop id) (L := L) e.2.kids e.2.lock
    have h2 : ((e.2.kids.map fun x => (x.1, mapReads (dropGuard id) h x.2)).map (potOf L h)).sum ≤
        (e.2.kids.map (potOf L h)).sum := by
      rw [List.map_map]
      exact sum_le (less_drop id) _ fun x _ => pot_map (less_drop id) h x
    show lockPot L h _ _ +
        ((e.2.kids.map fun x => (x.1, mapReads (dropGuard id) h x.2)).map (potOf L h)).sum <
      lockPot L h e.2.kids e.2.lock + (e.2.kids.map (potOf L h)).sum
    simp only [hasGuard, Bool.or_eq_true, List.any_eq_true] at hg
    rcases hg with hg | ⟨x, hx, hg⟩
    · refine Nat.add_lt_add_of_lt_of_le ?_ h2
      show lockPot L h _ (e.2.lock.mapReads (dropGuard id)) < _
      cases hl : e.2.lock with
      | excl w => rw [hl] at hg; simp at hg
      | shared rs => rw [hl] at hg; exact drop_lt hg
    · refine Nat.add_lt_add_of_le_of_lt h1 ?_
      rw [List.map_map]
      exact sum_lt _ (fun x _ => pot_map (less_drop id) h x) ⟨x, hx, pot_drop id h x hg⟩

/-! ## Steps of queries -/

theorem scan_leaf {n n' : Node V 0} {l : ScanLbl V} (hs : ScanStep 0 n l n') : n.lock ≠ .free := by
  cases hs <;> simp [Lock.free]

theorem roomy_scan {L : Limits} {h : Nat} {pre post : List (Nat × Node V h)}
    {key : Nat} {c c' : Node V h} {l : ScanLbl V} (hs : ScanStep h c l c') {k : Nat}
    (hr : roomy L (h + 1) (pre ++ (key, c) :: post) k = true) :
    roomy L (h + 1) (pre ++ (key, c') :: post) k = true := by
  unfold roomy at hr ⊢
  rw [position_same (c := c)]
  generalize position (pre ++ (key, c) :: post) k = i at hr ⊢
  cases hg : (pre ++ (key, c') :: post)[i]? with
  | none =>
    have h1 := List.getElem?_eq_none_iff.mp hg
    have h2 : (pre ++ (key, c) :: post)[i]? = none := by
      refine List.getElem?_eq_none_iff.mpr ?_
      simpa using h1
    rw [h2] at hr
    simp at hr
  | some e =>
    rcases getElem?_replace (e := (key, c)) hg with ⟨rfl, rfl⟩ | ⟨_, hx⟩
    · rw [Tree.getElem?_mid] at hr
      simp only [noSplit, Bool.and_eq_true, Bool.not_eq_true'] at hr ⊢
      have hf := isFree_iff.mp hr.1
      have hq := scan_quiet hs (Or.inl hf)
      refine ⟨isFree_iff.mpr (hq.1.trans hf), ?_⟩
      cases h with
      | zero => exact absurd hf (scan_leaf hs)
      | succ h => rw [shouldSplit_len hq.2]; exact hr.2
    · rw [hx] at hr
      exact hr

theorem lockPot_scan {L : Limits} {h : Nat} {pre post : List (Nat × Node V h)}
    {key : Nat} {c c' : Node V h} {l : ScanLbl V} (hs : ScanStep h c l c') (lock : Lock V) :
    lockPot L (h + 1) (pre ++ (key, c') :: post) lock ≤
      lockPot L (h + 1) (pre ++ (key, c) :: post) lock := by
  cases lock with
  | shared rs => exact Nat.le_refl _
  | excl w =>
    cases w with
    | insert id k v =>
      simp only [lockPot]
      by_cases hr : roomy L (h + 1) (pre ++ (key, c) :: post) k = true
      · rw [roomy_scan hs hr, hr]
        exact Nat.le_refl _
      · rw [if_neg hr]; split <;> omega
    | _ => exact Nat.le_refl _

/-- Does a step get the query anywhere? -/
def ScanLbl.moves : ScanLbl V → Nat
  | .turn _ => 0
  | _ => 1

/-- A query goes down, perhaps keeping the node to the right. -/
theorem scan_pot {L : Limits} {h id : Nat} {s e : Bnd Nat} {next next' : Option Nat}
    {rpre rpost rs : List Read} {pre post : List (Nat × Node V h)} {key : Nat} {n : Kids V h}
    (hc : CapN L (h + 1) (⟨.shared (rpre ++ .scan id s e next :: rpost),
      pre ++ (key, ⟨.shared rs, n⟩) :: post⟩ : Node V (h + 1))) :
    CapN L (h + 1) (⟨.shared (rpre ++ rpost),
      pre ++ (key, ⟨.shared (.scan id s e next' :: rs), n⟩) :: post⟩ : Node V (h + 1)) ∧
    potN L (⟨.shared (rpre ++ rpost),
        pre ++ (key, ⟨.shared (.scan id s e next' :: rs), n⟩) :: post⟩ : Node V (h + 1)) +
        (3 ^ (h + 1) + 1) + 1 ≤
      potN L (⟨.shared (rpre ++ .scan id s e next :: rpost),
        pre ++ (key, ⟨.shared rs, n⟩) :: post⟩ : Node V (h + 1)) := by
  have hcn : CapN L h ⟨.shared rs, n⟩ := cap_get hc.2.2
  refine ⟨⟨by simpa using hc.1, trivial, cap_replace hc.2.2 ⟨hcn.1, trivial, hcn.2.2⟩⟩, ?_⟩
  simp only [potN]
  rw [potK_nd, potK_nd]
  simp only [potN, lockPot, readsPot_mid, readsPot_cons, readPot]
  have h1 : 1 ≤ 3 ^ h := Nat.one_le_iff_ne_zero.mpr (by simp)
  have h2 : 3 ^ (h + 1) = 3 ^ h * 3 := Nat.pow_succ ..
  have h3 : 3 ^ (h + 1 + 1) = 3 ^ (h + 1) * 3 := Nat.pow_succ ..
  omega

theorem cap_scan {L : Limits} {h : Nat} {n n' : Node V h} {l : ScanLbl V}
    (hs : ScanStep h n l n') : CapN L h n →
      CapN L h n' ∧ potN L n' + l.moves ≤ potN L n := by
  induction hs with
  | @deeper h lock pre post key c c' l hs ih =>
    intro hc
    obtain ⟨i1, i2⟩ := ih (cap_get hc.2.2)
    refine ⟨⟨by simpa using hc.1, ?_, cap_replace hc.2.2 i1⟩, ?_⟩
    · have h2 := hc.2.1
      show RoomOk L (h + 1) (pre ++ (key, c') :: post) lock
      have h2 : RoomOk L (h + 1) (pre ++ (key, c) :: post) lock := h2
      cases lock with
      | shared rs => trivial
      | excl w =>
        cases w with
        | insert id k v =>
          rcases h2 with h2 | h2
          · exact Or.inl (by simpa using h2)
          · exact Or.inr (roomy_scan hs h2)
        | _ => trivial
    · have := lockPot_scan (L := L) (pre := pre) (post := post) (key := key) hs lock
      simp only [potN] at i2 ⊢
      rw [potK_nd, potK_nd]
      simp only [potN]
      omega
  | @leafRet id s e next pre post n v b _ =>
    intro hc
    refine ⟨⟨hc.1, trivial, hc.2.2⟩, ?_⟩
    have := readPot_pos 0 (.scan id s e next)
    simp only [potN, lockPot, readsPot_mid, ScanLbl.moves]
    omega
  | @leafGoto id s e key pre post n _ =>
    intro hc
    refine ⟨⟨hc.1, trivial, hc.2.2⟩, ?_⟩
    have := readPot_pos 0 (.scan id s e (some key))
    simp only [potN, lockPot, readsPot_mid, ScanLbl.moves]
    omega
  | @downLast h id s e next rpre rpost rs cs key n hlast hk =>
    intro hc
    obtain ⟨pre, post, rfl, hp⟩ := split_at hk
    rw [hp, Tree.set_mid]
    obtain ⟨h1, h2⟩ := scan_pot (next' := next) hc
    have h0 : 1 ≤ 3 ^ h := Nat.one_le_iff_ne_zero.mpr (by simp)
    exact ⟨h1, by simp only [ScanLbl.moves]; omega⟩
  | turn _ => exact fun hc => ⟨hc, Nat.le_refl _⟩
  | @downAlone h id s e next rpre rpost rs cs key key' n c' hk' hbe hk =>
    intro hc
    obtain ⟨pre, post, rfl, hp⟩ := split_at hk
    rw [hp, Tree.set_mid]
    obtain ⟨h1, h2⟩ := scan_pot (next' := none) hc
    have h0 : 1 ≤ 3 ^ h := Nat.one_le_iff_ne_zero.mpr (by simp)
    exact ⟨h1, by simp only [ScanLbl.moves]; omega⟩
  | @downBeyond h id k s e next rpre rpost rs rs' cs key key' n n' hk' hbe hfk hbk hk =>
    intro hc
    obtain ⟨pre, post, rfl, hp⟩ := split_at hk
    rw [hp, Tree.set_mid]
    obtain ⟨h1, h2⟩ := scan_pot (next' := none) hc
    have h0 : 1 ≤ 3 ^ h := Nat.one_le_iff_ne_zero.mpr (by simp)
    exact ⟨h1, by simp only [ScanLbl.moves]; omega⟩
  | @downNext h id k s e next rpre rpost rs rs' cs key key' n n' hk' hbe hfk hbk hk =>
    intro hc
    obtain ⟨pre, post, rfl, hp⟩ := split_at hk
    rw [hp] at hk' ⊢
    rw [Tree.set_mid]
    obtain ⟨h1, h2⟩ := scan_pot (next' := some k) hc
    have hk2 : (pre ++ (key, (⟨.shared (.scan id s e (some k) :: rs), n⟩ : Node V h)) :: post)[
        pre.length + 1]? = some (key', (⟨.shared rs', n'⟩ : Node V h)) := by
      rw [List.getElem?_append_right (by omega)] at hk' ⊢
      simpa using hk'
    obtain ⟨pre2, post2, he, hp2⟩ := split_at hk2
    rw [hp2]
    rw [he] at h1 h2 ⊢
    rw [Tree.set_mid]
    have hcn : CapN L h ⟨.shared rs', n'⟩ := cap_get h1.2.2
    refine ⟨⟨by simpa using h1.1, trivial, cap_replace h1.2.2 ⟨hcn.1, trivial, hcn.2.2⟩⟩, ?_⟩
    refine Nat.le_trans ?_ h2
    simp only [potN, ScanLbl.moves]
    rw [potK_nd, potK_nd]
    simp only [potN, lockPot, readsPot_cons, readPot]
    omega

/-! ## The whole system -/

/-- No call is made in these events. -/
def XNoCall (es : List (XEvent V)) : Prop :=
  (∀ id op, XEvent.base (.call id op) ∉ es) ∧ ∀ id s e, XEvent.scan id s e ∉ es

theorem xsys_cap {L : Limits} (hL : L.Ok) {seq : Bool} {s s' : XSys V} {es : List (XEvent V)}
    (hst : XStep L seq s es s') (hi : Inv L s.sys) (hc : CapN L s.sys.tree.h s.sys.tree.node) :
    CapN L s'.sys.tree.h s'.sys.tree.node ∧ (XNoCall es → s'.sys.pot L < s.sys.pot L) := by
  cases hst with
  | @base s s' used es hst =>
    have h1 := sys_cap hL hst.any hi hc
    refine ⟨h1.1, fun h => h1.2 fun id op hm => h.1 id op (List.mem_map.mpr ⟨_, hm, rfl⟩)⟩
  | @scan calls rs t used id s e hid hp =>
    exact ⟨hc, fun h => absurd (List.mem_cons_self ..) (h.2 id s e)⟩
  | @root calls pre post rs used id s e h n =>
    refine ⟨⟨hc.1, trivial, hc.2.2⟩, fun _ => ?_⟩
    simp only [Sys.pot, Sys.maxHeight, grows, topPot]
    have hn : ∀ rs, potN L (⟨.shared rs, n⟩ : Node V h) = readsPot h rs + potK L h n :=
      fun _ => rfl
    have := readPot_down h (.scan id s e none)
    rw [hn, hn, readsPot_mid, readsPot_cons]
    omega
  | @down calls top h id n n' used hst =>
    obtain ⟨h1, h2⟩ := cap_scan hst hc
    refine ⟨h1, fun _ => ?_⟩
    simp only [Sys.pot, Sys.maxHeight, ScanLbl.moves] at h2 ⊢
    omega
  | @release calls top h id n n' used hst hg =>
    obtain ⟨h1, h2⟩ := cap_scan hst hc
    refine ⟨cap_map (less_drop id) (h + 1) n' h1, fun _ => ?_⟩
    have h3 : potN L (mapReads (dropGuard id) (h + 1) n' : Node V h) < potN L n' :=
      pot_drop id (h + 1) (0, n') hg
    simp only [Sys.pot, Sys.maxHeight, ScanLbl.moves] at h2 ⊢
    omega
  | @swap calls top h id n n' used hst =>
    obtain ⟨h1, h2⟩ := cap_scan hst (cap_map (less_drop id) (h + 1) n hc)
    refine ⟨h1, fun _ => ?_⟩
    have h3 := potN_map (less_drop id) (L := L) n
    simp only [Sys.pot, Sys.maxHeight, ScanLbl.moves] at h2 ⊢
    omega
  | @goto calls top h id key s e n n' used hst =>
    obtain ⟨h1, h2⟩ := cap_scan hst hc
    refine ⟨cap_map (less_wake id s e key) (h + 1) n' h1, fun _ => ?_⟩
    have h3 := potN_map (less_wake id s e key) (L := L) n'
    simp only [Sys.pot, Sys.maxHeight, ScanLbl.moves] at h2 ⊢
    omega
  | @ret calls top h id v b n n' used hst =>
    obtain ⟨h1, h2⟩ := cap_scan hst hc
    refine ⟨cap_map (less_drop id) (h + 1) n' h1, fun _ => ?_⟩
    have h3 := potN_map (less_drop id) (L := L) n'
    simp only [Sys.pot, Sys.maxHeight, ScanLbl.moves] at h2 ⊢
    omega

end Verif.Conc
