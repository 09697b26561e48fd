import Verif.Conc.ScanInv

/-!
# The steps of a range query
-/

namespace Verif.Conc

open Verif
open Verif.Tree (Limits position firstKey Chain Below nextKey Bnd inRange startOk stopOk belowEnd
  startChild btreeRangePanics inRange_eq leafRange moreAfter)

variable {V : Type}

/-! ## Readers that come and go without anyone else noticing -/

structure GoodMap (f : List Read → List Read) : Prop where
  nil : f [] = []
  res : ∀ (V : Type) (m : OMap V) (rs : List Read),
    (f rs).filterMap (fun r => r.result m) = rs.filterMap (fun r => r.result m)

theorem goodMap_drop (id : Nat) : GoodMap (dropGuard id) := by
  refine ⟨rfl, fun V m rs => ?_⟩
  unfold dropGuard
  induction rs with
  | nil => rfl
  | cons r rs ih =>
    rw [List.filter_cons]
    cases r with
    | guard id' s e k =>
      by_cases hid : id' = id
      · simp only [hid, ne_eq, not_true, decide_false, Bool.false_eq_true, if_false, ih]; rfl
      · simp only [hid, ne_eq, not_false_iff, decide_true, if_true, List.filterMap_cons, ih]
    | get => simp only [if_true, List.filterMap_cons, ih]
    | lastKey => simp only [if_true, List.filterMap_cons, ih]
    | scan => simp only [if_true, List.filterMap_cons, ih]

theorem goodMap_wake (id : Nat) (s e : Bnd Nat) (k : Nat) : GoodMap (wake id s e k) := by
  refine ⟨rfl, fun V m rs => ?_⟩
  unfold wake
  rw [List.filterMap_map]
  congr 1
  funext r
  simp only [Function.comp]
  split
  · next h => subst h; rfl
  · rfl

section mapped
variable {f : List Read → List Read} (hf : GoodMap f)
include hf

omit hf in
theorem absK_map_of {h : Nat} (ih : ∀ e : Nat × Sub V h, absOf h (e.1, mapReads f h e.2) = absOf h e)
    (cs : Kids V h) : absK h (cs.map fun e => (e.1, mapReads f h e.2)) = absK h cs := by
  unfold absK
  rw [List.flatMap_map]
  exact congrArg List.flatten (List.map_congr_left fun e _ => ih e)

omit hf in
theorem absOf_map : ∀ (h : Nat) (e : Nat × Sub V h), absOf h (e.1, mapReads f h e.2) = absOf h e
  | 0, _ => rfl
  | h + 1, e => by
    show Lock.apply (absK h (e.2.kids.map _)) (e.2.lock.mapReads f) =
      Lock.apply (absK h e.2.kids) e.2.lock
    rw [absK_map_of (absOf_map h)]
    cases e.2.lock <;> rfl

omit hf in
theorem absN_map {h : Nat} (n : Node V h) : absN (mapReads f (h + 1) n : Node V h) = absN n :=
  absOf_map (h + 1) (0, n)

theorem decOf_map : ∀ (h : Nat) (e : Nat × Sub V h), decOf h (e.1, mapReads f h e.2) = decOf h e
  | 0, _ => rfl
  | h + 1, e => by
    show Lock.results (absK h (e.2.kids.map _)) (e.2.lock.mapReads f) ++
        (e.2.kids.map _).flatMap (decOf h) =
      Lock.results (absK h e.2.kids) e.2.lock ++ e.2.kids.flatMap (decOf h)
    rw [absK_map_of absOf_map', List.flatMap_map]
    congr 1
    · cases e.2.lock with
      | excl w => rfl
      | shared rs => exact hf.res V _ rs
    · exact congrArg List.flatten (List.map_congr_left fun x _ => decOf_map h x)
where absOf_map' {h : Nat} (e : Nat × Sub V h) : absOf h (e.1, mapReads f h e.2) = absOf h e :=
  absOf_map h e

theorem decN_map {h : Nat} (n : Node V h) : decN (mapReads f (h + 1) n : Node V h) = decN n :=
  decOf_map hf (h + 1) (0, n)

theorem lockOf_map : ∀ (h : Nat) (c : Sub V h),
    lockOf h (mapReads f h c) = (lockOf h c).mapReads f
  | 0, _ => by simp only [lockOf, Lock.mapReads, hf.nil]
  | _ + 1, _ => rfl

omit hf in
theorem lenOf_map : ∀ (h : Nat) (c : Sub V h), lenOf h (mapReads f h c) = lenOf h c
  | 0, _ => rfl
  | _ + 1, c => by
    show (c.kids.map _).length = _
    rw [List.length_map]; rfl

omit hf in
theorem position_map {h : Nat} (cs : Kids V h) (k : Nat) :
    position (cs.map fun e => (e.1, mapReads f h e.2)) k = position cs k := by
  unfold position
  congr 1
  induction cs with
  | nil => rfl
  | cons e es ih =>
    simp only [List.map_cons, List.takeWhile_cons]
    split <;> simp [ih]

omit hf in
theorem chain_map {h : Nat} {P : Nat → Option Nat → Sub V h → Prop}
    (ih : ∀ lo hi c, P lo hi c → P lo hi (mapReads f h c)) {lo : Nat} {hi : Option Nat}
    {cs : Kids V h} (hc : Chain P lo hi cs) :
    Chain P lo hi (cs.map fun e => (e.1, mapReads f h e.2)) := by
  induction cs generalizing lo with
  | nil => trivial
  | cons e es ihc =>
    obtain ⟨h1, h2, h3, h4⟩ := hc
    refine ⟨h1, h2, ?_, ihc h4⟩
    have : nextKey (es.map fun e => (e.1, mapReads f h e.2)) hi = nextKey es hi := by
      cases es <;> rfl
    show P e.1 (nextKey (es.map fun e => (e.1, mapReads f h e.2)) hi) (mapReads f h e.2)
    rw [this]
    exact ih _ _ _ h3

theorem nodeOk_map_of {L : Limits} {h : Nat}
    (ih : ∀ lo hi (c : Sub V h), SubOk L h lo hi c → SubOk L h lo hi (mapReads f h c))
    {a lo : Nat} {hi : Option Nat} {n : Node V h} (hn : NodeOk L a h lo hi n) :
    NodeOk L a h lo hi (mapReads f (h + 1) n : Node V h) := by
  obtain ⟨lk, cs⟩ := n
  obtain ⟨hsz, hlk, hheld, hch⟩ := hn
  refine ⟨?_, ?_, ?_, chain_map ih hch⟩
  · show a ≤ (cs.map _).length
    rw [List.length_map]; exact hsz
  · show LockOk L a h lo hi (cs.map _) (lk.mapReads f)
    cases lk with
    | shared rs => trivial
    | excl w =>
      cases w with
      | insert id k v => exact hlk
      | remove id k => simpa [LockOk, Lock.mapReads] using hlk
      | visit id => trivial
      | held id => trivial
      | fix id k i =>
        obtain ⟨h1, h2, key, c, h3, h4, h5⟩ := hlk
        refine ⟨by simpa using h1, h2.trans (position_map cs k).symm, key, mapReads f h c, ?_, ?_, ?_⟩
        · rw [List.getElem?_map, h3]; rfl
        · rw [lockOf_map hf, h4]; rfl
        · rw [lenOf_map]; exact h5
      | fixed id k =>
        obtain ⟨key, c, h3, h4, h5⟩ := hlk
        refine ⟨key, mapReads f h c, ?_, ?_, ?_⟩
        · rw [position_map, List.getElem?_map]
          rw [h3]; rfl
        · rw [lockOf_map hf, h4]; simp only [Lock.mapReads, hf.nil]
        · rw [lenOf_map]; exact h5
  · intro j key c id hj hl
    have hj : (cs.map fun e => (e.1, mapReads f h e.2))[j]? = some (key, c) := hj
    rw [List.getElem?_map] at hj
    cases hcj : cs[j]? with
    | none => rw [hcj] at hj; simp at hj
    | some e =>
      rw [hcj] at hj
      simp only [Option.map_some, Option.some.injEq, Prod.mk.injEq] at hj
      obtain ⟨rfl, rfl⟩ := hj
      rw [lockOf_map hf] at hl
      have hl' : lockOf h e.2 = .excl (.held id) := by
        cases hle : lockOf h e.2 with
        | shared rs => rw [hle] at hl; simp [Lock.mapReads] at hl
        | excl w => rw [hle] at hl; exact hl
      obtain ⟨k, hk⟩ := hheld j e.1 e.2 id hcj hl'
      simp only at hk
      subst hk
      exact ⟨k, rfl⟩

theorem subOk_map {L : Limits} : ∀ (h lo : Nat) (hi : Option Nat) (c : Sub V h),
    SubOk L h lo hi c → SubOk L h lo hi (mapReads f h c)
  | 0, _, _, _, _ => trivial
  | h + 1, lo, hi, c, hc =>
    subOk_iff.mpr (nodeOk_map_of hf (subOk_map h) (subOk_iff.mp hc))

theorem nodeOk_map {L : Limits} {h a lo : Nat} {hi : Option Nat} {n : Node V h}
    (hn : NodeOk L a h lo hi n) : NodeOk L a h lo hi (mapReads f (h + 1) n : Node V h) :=
  nodeOk_map_of hf (subOk_map hf h) hn

omit hf in
theorem all_map {C : Copies V} (hr : ∀ (m : OMap V) (rs : List Read), (∀ r ∈ rs, ReadOk C m r) →
    ∀ r ∈ f rs, ReadOk C m r) : ∀ (h : Nat) {c : Sub V h}, AllOk C h c → AllOk C h (mapReads f h c)
  | 0, _, _ => trivial
  | h + 1, c, hc => by
    refine ⟨?_, ?_⟩
    · show LockReads C (absK h (c.kids.map _)) (c.lock.mapReads f)
      rw [absK_map_of (absOf_map h)]
      intro rs he
      cases hl : c.lock with
      | excl w => rw [hl] at he; cases he
      | shared rs' =>
        rw [hl] at he
        cases he
        exact hr _ _ (hc.1 rs' hl)
    · intro e he
      obtain ⟨x, hx, rfl⟩ := List.mem_map.mp he
      exact all_map hr h (hc.2 x hx)

end mapped

theorem all_drop {C : Copies V} (id h : Nat) {c : Sub V h} (hc : AllOk C h c) :
    AllOk C h (mapReads (dropGuard id) h c) :=
  all_map (fun _ _ hr r h => hr r (List.mem_filter.mp h).1) h hc

/-- The query moves on to the node it kept to the right. -/
theorem all_wake {C : Copies V} {id k : Nat} {s e : Bnd Nat} {M : OMap V}
    (hC : C id = some (s, e, M)) (hM : ∀ x ∈ M, x.1 < k → inRange s e x.1 = false) (h : Nat)
    {c : Sub V h} (hc : AllOk C h c) : AllOk C h (mapReads (wake id s e k) h c) := by
  refine all_map (fun m rs hr r h => ?_) h hc
  obtain ⟨r', hr', rfl⟩ := List.mem_map.mp h
  split
  · next he =>
    subst he
    obtain ⟨M', A, R, h1, h2, h3, h4, h5, h6, h7, h8⟩ := hr _ hr'
    rw [hC] at h1
    cases h1
    refine ⟨M, A, R, hC, h2, h3, h4, ?_, Or.inr ⟨h5, fun x hx => Tree.startOk_mono h7 (h6 x hx)⟩⟩
    intro x hx
    rcases h8 x hx with h8 | h8
    · exact h8
    · exact hM x (by rw [h4]; exact List.mem_append.mpr (Or.inl hx)) h8
  · exact hr _ hr'

/-! ## The leaf -/

theorem after_iff {s : Bnd Nat} {k : Nat} : After s k ↔ startOk s k = true := by
  cases s <;> simp [After, startOk]

/-- What is to be known of an answer. -/
def AnswerOk (M : OMap V) (s e : Bnd Nat) (next : Option Nat) : Answer V → Prop
  | .ret v b => Part M s e v b
  | .goto => ∀ k, next = some k → ∀ x ∈ M, x.1 < k → inRange s e x.1 = false

theorem answer_ok {M A R n : OMap V} {s e : Bnd Nat} {next : Option Nat} {ans : Answer V}
    (hS : OMap.Sorted M) (hp : btreeRangePanics s e = false) (hM : M = A ++ (n ++ R))
    (hA : ∀ x ∈ A, inRange s e x.1 = false) (hAh : Ahead s e n R next)
    (h : answer n next s e = some ans) : AnswerOk M s e next ans := by
  have hA0 : A.filter (fun x => inRange s e x.1) = [] := Tree.filter_none hA
  have hfil : M.filter (fun x => inRange s e x.1) = n.filter (fun x => inRange s e x.1) ++
      R.filter (fun x => inRange s e x.1) := by
    rw [hM, List.filter_append, hA0, List.filter_append, List.nil_append]
  have hsn : OMap.Sorted (n ++ R) := by
    rw [hM] at hS
    exact (List.pairwise_append.mp hS).2.1
  unfold answer at h
  cases hl : OMap.lastKey n with
  | none =>
    have h0 := Tree.lastKey_none hl
    subst h0
    cases next with
    | some k => exact absurd rfl hAh.1
    | none =>
      rcases hAh with hAh | hAh
      · cases h
        show [] = _
        rw [hfil, Tree.filter_stopOk hAh]
        rfl
      · exact absurd rfl hAh.1
  | some l =>
    rw [Tree.leafRange_some hp hl] at h
    have hsp := List.pairwise_append.mp hsn
    obtain ⟨⟨vl, hvl⟩, hmax⟩ := Tree.lastKey_some hsp.1 hl
    have hR : ∀ x ∈ R, l < x.1 := fun x hx => hsp.2.2 _ hvl x hx
    have hv : ∀ x ∈ n.filter (fun x => inRange s e x.1), x ∈ n := fun x hx =>
      (List.mem_filter.mp hx).1
    have hrest : ∀ s' : Bnd Nat, (∀ k, After s' k → After s k) → (∀ x ∈ n, ¬ After s' x.1) →
        (∀ x ∈ R, startOk s' x.1 = startOk s x.1) →
        M.filter (fun x => inRange s' e x.1) = R.filter (fun x => inRange s e x.1) := by
      intro s' h1 h2 h3
      have hA' : A.filter (fun x => inRange s' e x.1) = [] := by
        refine Tree.filter_none fun x hx => ?_
        have := hA x hx
        rw [inRange_eq] at this ⊢
        cases hs' : startOk s' x.1 with
        | false => rfl
        | true =>
          rw [after_iff.mp (h1 _ (after_iff.mpr hs'))] at this
          simpa using this
      have hn' : n.filter (fun x => inRange s' e x.1) = [] := by
        refine Tree.filter_startOk fun x hx => ?_
        have := h2 x hx
        rw [after_iff] at this
        simpa using this
      rw [hM, List.filter_append, hA', List.filter_append, hn', List.nil_append, List.nil_append]
      refine List.filter_congr fun x hx => ?_
      rw [inRange_eq, inRange_eq, h3 x hx]
    simp only [Option.bind_some] at h
    generalize hve : n.filter (fun x => inRange s e x.1) = v at *
    have hdone : moreAfter e l = false → Part M s e v none := by
      intro hm
      show v = _
      rw [hfil, Tree.filter_stopOk (m := R) fun x hx => Tree.moreAfter_false hm (hR x hx)]
      simp
    have hex : v ≠ [] → ∃ x ∈ n, startOk s x.1 = true := by
      intro h0
      cases v with
      | nil => exact absurd rfl h0
      | cons x xs =>
        have hx : x ∈ n.filter (fun x => inRange s e x.1) := by rw [hve]; simp
        have := (List.mem_filter.mp hx).2
        rw [inRange_eq] at this
        simp only [Bool.and_eq_true] at this
        exact ⟨x, hv x (by simp), this.1⟩
    cases next with
    | some k =>
      obtain ⟨g1, g2, g3, g4, g5⟩ := hAh
      simp only at h
      by_cases hv0 : v = []
      · subst hv0
        cases hm : moreAfter e l with
        | false => rw [hm] at h; simp at h; subst h; exact hdone hm
        | true =>
          rw [hm] at h
          simp at h
          subst h
          intro k' hk' x hx hlt
          cases hk'
          rw [hM] at hx
          rcases List.mem_append.mp hx with hx | hx
          · exact hA x hx
          · rcases List.mem_append.mp hx with hx | hx
            · rw [List.filter_eq_nil_iff] at hve
              simpa using hve x hx
            · have := g3 x hx
              omega
      · have hv0' : v.isEmpty = false := by cases v <;> simp_all
        rw [hv0'] at h
        cases hm : moreAfter e l with
        | false => rw [hm] at h; simp at h; subst h; exact hdone hm
        | true =>
          rw [hm] at h
          simp at h
          subst h
          have h1 : ∀ j, After (.incl k) j → After s j := fun j hj =>
            after_iff.mpr (Tree.startOk_mono g4 hj)
          have h2 : ∀ x ∈ n, ¬ After (.incl k) x.1 := fun x hx hk => by
            have := g2 x hx
            have hk : k ≤ x.1 := hk
            omega
          refine ⟨hv0, fun x hx => h2 x (hv x hx), h1, ?_⟩
          rw [hrest (.incl k) h1 h2, hfil]
          intro x hx
          have := g3 x hx
          rw [Tree.startOk_mono g4 this]
          simpa [startOk] using this
    | none =>
      simp only at h
      by_cases hv0 : v = []
      · subst hv0
        simp at h
        subst h
        rcases hAh with hAh | ⟨_, hAh⟩
        · show [] = _
          rw [hfil, Tree.filter_stopOk hAh]
          rfl
        · refine hdone ?_
          cases hm : moreAfter e l with
          | false => rfl
          | true =>
            rw [List.filter_eq_nil_iff] at hve
            have := hve _ hvl
            rw [inRange_eq, hAh _ hvl, (Tree.moreAfter_true hm).1] at this
            simp at this
      · have hv0' : v.isEmpty = false := by cases v <;> simp_all
        rw [hv0'] at h
        cases hm : moreAfter e l with
        | false => rw [hm] at h; simp at h; subst h; exact hdone hm
        | true =>
          rw [hm, hl] at h
          simp at h
          subst h
          obtain ⟨x0, hx0, hst⟩ := hex hv0
          have hx0l := hmax x0 hx0
          have h1 : ∀ j, After (.excl l) j → After s j := fun j hj => by
            have hj : l < j := hj
            exact after_iff.mpr (Tree.startOk_mono hst (by omega))
          have h2 : ∀ x ∈ n, ¬ After (.excl l) x.1 := fun x hx hk => by
            have := hmax x hx
            have hk : l < x.1 := hk
            omega
          refine ⟨hv0, fun x hx => h2 x (hv x hx), h1, ?_⟩
          rw [hrest (.excl l) h1 h2, hfil]
          intro x hx
          have := hR x hx
          rw [Tree.startOk_mono hst (by omega)]
          simpa [startOk] using this

end Verif.Conc
