import Verif.Conc.ScanSteps

/-!
# A range query goes down
-/

namespace Verif.Conc

open Verif
open Verif.Tree (Limits position firstKey Chain Below nextKey Bnd inRange startOk stopOk belowEnd
  startChild btreeRangePanics inRange_eq leafRange moreAfter)

variable {V : Type}

theorem scan_quiet {h : Nat} {n n' : Node V h} {l : ScanLbl V} (hs : ScanStep h n l n')
    (hq : Quiet n) : n'.lock = n.lock ∧ n'.kids.length = n.kids.length := by
  cases hs <;> first
    | (rcases hq with hq | ⟨_, hq⟩ <;> simp [Lock.free] at hq; done)
    | exact ⟨rfl, by simp⟩

theorem scan_notHeld {h : Nat} {n n' : Node V h} {l : ScanLbl V} (hs : ScanStep h n l n')
    (hq : NotHeld n.lock) : NotHeld n'.lock := by
  cases hs <;> first | exact hq | trivial

/-- The child that the start of the range leads to. -/
theorem start_find {L : Limits} {h lo : Nat} {hi : Option Nat} {cs : Kids V h} {s : Bnd Nat}
    {e : Nat × Sub V h} (hc : Chain (SubOk L h) lo hi cs) (he : cs[startChild cs s]? = some e) :
    ∃ pre post, cs = pre ++ e :: post ∧ startChild cs s = pre.length ∧
      (∀ x ∈ absK h pre, startOk s x.1 = false) ∧ (∀ x ∈ post, startOk s x.1 = true) := by
  cases s with
  | unb =>
    cases cs with
    | nil => simp at he
    | cons c post =>
      have : c = e := by simpa [startChild] using he
      subst this
      exact ⟨[], post, rfl, rfl, by simp [absK], fun _ _ => rfl⟩
  | incl k =>
    obtain ⟨pre, post, rfl, hp, h1, h2⟩ := find hc he
    have ha := around hc h1 h2
    refine ⟨pre, post, rfl, hp, fun x hx => ?_, fun x hx => ?_⟩
    · have := ha.1 x hx; simp only [startOk, decide_eq_false_iff_not]; omega
    · have := h2 x hx; simp only [startOk, decide_eq_true_eq]; omega
  | excl k =>
    obtain ⟨pre, post, rfl, hp, h1, h2⟩ := find hc he
    have ha := around hc h1 h2
    refine ⟨pre, post, rfl, hp, fun x hx => ?_, fun x hx => ?_⟩
    · have := ha.1 x hx; simp only [startOk, decide_eq_false_iff_not]; omega
    · have := h2 x hx; simp only [startOk, decide_eq_true_eq]; omega

theorem sorted_after {P Q S : OMap V} {k : Nat} (hs : OMap.Sorted (P ++ (Q ++ S))) (hq : Q ≠ [])
    (hk : ∀ x ∈ Q, k ≤ x.1) : ∀ x ∈ Q ++ S, k ≤ x.1 := by
  intro x hx
  rcases List.mem_append.mp hx with hx' | hx'
  · exact hk x hx'
  · obtain ⟨y, ys, rfl⟩ := List.exists_cons_of_ne_nil hq
    have h1 := (List.pairwise_append.mp (List.pairwise_append.mp hs).2.1).2.2 y (by simp) x hx'
    have h2 := hk y (by simp)
    omega

/-- The keys of a node are its first one and greater ones. -/
theorem first_least {L : Limits} {h lo k : Nat} {hi : Option Nat} {cs : Kids V h}
    (hc : Chain (SubOk L h) lo hi cs) (hk : firstKey cs = some k) :
    lo ≤ k ∧ ∀ x ∈ absK h cs, k ≤ x.1 := by
  cases cs with
  | nil => simp [firstKey] at hk
  | cons e es =>
    have hk : e.1 = k := by simpa [firstKey] using hk
    subst hk
    exact ⟨hc.1, fun x hx => ((within_absK h (Tree.chain_raise hc)).1 x hx).1⟩

theorem kids_ne {L : Limits} (hL : L.Ok) {h lo : Nat} {hi : Option Nat} {c : Node V h}
    (hc : NodeOk L (L.min h) h lo hi c) : absK h c.kids ≠ [] := by
  intro h0
  have h1 := length_absK hL h hc.chain
  have h2 := hL.min_pos h
  have h3 := hc.size
  rw [h0] at h1
  simp at h1
  rw [h1] at h3
  simp at h3
  omega

/-- What a step of a query tells. -/
def LblOk (C : Copies V) : ScanLbl V → Prop
  | .ret id v b => ∃ s e M, C id = some (s, e, M) ∧ Part M s e v b
  | .goto id s e k => ∃ M, C id = some (s, e, M) ∧ ∀ x ∈ M, x.1 < k → inRange s e x.1 = false
  | _ => True

structure ScanOk (L : Limits) (C : Copies V) (a h lo : Nat) (hi : Option Nat) (n : Node V h)
    (l : ScanLbl V) (n' : Node V h) : Prop where
  ok : NodeOk L a h lo hi n'
  abs : absN n' = absN n
  dec : decN n' = decN n
  all : AllOk C (h + 1) n'
  lbl : LblOk C l

theorem dec_scan {h : Nat} {rs : List Read} {r : Read} {n : Kids V h}
    (hr : r.result (absK h n) = none) :
    decN (⟨.shared (r :: rs), n⟩ : Node V h) = decN (⟨.shared rs, n⟩ : Node V h) := by
  simp only [decN, Lock.results, List.filterMap_cons, hr]

theorem dec_leave {h : Nat} {pre post : List Read} {r : Read} {n n' : Kids V h}
    (hr : ∀ m : OMap V, r.result m = none) (ha : absK h n' = absK h n) (hd : decK h n' = decK h n) :
    decN (⟨.shared (pre ++ post), n'⟩ : Node V h) =
      decN (⟨.shared (pre ++ r :: post), n⟩ : Node V h) := by
  simp only [decN, Lock.results, List.filterMap_append, List.filterMap_cons, hr, ha, hd]

/-- A query moves to a child, with what it then knows of it. -/
theorem scan_move {L : Limits} {C : Copies V} {a h lo : Nat} {hi : Option Nat} {id : Nat}
    {s e : Bnd Nat} {next next' : Option Nat} {rpre rpost rs : List Read}
    {pre post : List (Nat × Node V h)} {key : Nat} {n : Kids V h} {l : ScanLbl V}
    (hn : NodeOk L a (h + 1) lo hi
      ⟨.shared (rpre ++ .scan id s e next :: rpost), pre ++ (key, ⟨.shared rs, n⟩) :: post⟩)
    (hall : AllOk C (h + 2) (⟨.shared (rpre ++ .scan id s e next :: rpost),
      pre ++ (key, ⟨.shared rs, n⟩) :: post⟩ : Node V (h + 1)))
    (hr : ReadOk C (absK h n) (.scan id s e next')) (hl : LblOk C l) :
    ScanOk L C a (h + 1) lo hi
      ⟨.shared (rpre ++ .scan id s e next :: rpost), pre ++ (key, ⟨.shared rs, n⟩) :: post⟩ l
      ⟨.shared (rpre ++ rpost), pre ++ (key, ⟨.shared (.scan id s e next' :: rs), n⟩) :: post⟩ := by
  obtain ⟨h1, h2, h3, h4, h5⟩ := chain_mid (L := L) (h := h + 1).mp hn.chain
  have habs : absK (h + 1) (pre ++ (key, (⟨.shared (.scan id s e next' :: rs), n⟩ : Node V h)) :: post)
      = absK (h + 1) (pre ++ (key, (⟨.shared rs, n⟩ : Node V h)) :: post) := by
    rw [absK_nd, absK_nd]; rfl
  have hdec : decK (h + 1) (pre ++ (key, (⟨.shared (.scan id s e next' :: rs), n⟩ : Node V h)) :: post)
      = decK (h + 1) (pre ++ (key, (⟨.shared rs, n⟩ : Node V h)) :: post) := by
    rw [decK_nd, decK_nd, dec_scan rfl]
  refine ⟨descend hn (by simp) trivial (by simp) trivial trivial h2 (Nat.le_refl _) (Or.inr rfl),
    ?_, ?_, ⟨?_, ?_⟩, hl⟩
  · exact habs
  · exact dec_leave (fun _ => rfl) habs hdec
  · show LockReads C (absK (h + 1) _) _
    rw [habs]
    exact lockReads_sub hall.1 (by simp; grind)
  · have hk : ∀ e ∈ pre ++ (key, (⟨.shared rs, n⟩ : Node V h)) :: post, AllOk C (h + 1) e.2 := hall.2
    intro x hx
    have hx : x ∈ pre ++ (key, (⟨.shared (.scan id s e next' :: rs), n⟩ : Node V h)) :: post := hx
    rcases List.mem_append.mp hx with hx | hx
    · exact hk x (List.mem_append.mpr (Or.inl hx))
    · rcases List.mem_cons.mp hx with rfl | hx
      · have := hk (key, (⟨.shared rs, n⟩ : Node V h)) (by simp)
        exact ⟨lockReads_cons this.1 hr, this.2⟩
      · exact hk x (List.mem_append.mpr (Or.inr (List.mem_cons_of_mem _ hx)))

/-- A query takes a lock that it only keeps. -/
theorem scan_keep {L : Limits} {C : Copies V} {a h lo : Nat} {hi : Option Nat} {rs rs' : List Read}
    {r : Read} (hres : ∀ m : OMap V, r.result m = none)
    {pre post : List (Nat × Node V h)} {key : Nat} {n : Kids V h} {n0 : Node V (h + 1)}
    {l : ScanLbl V}
    (hn : ScanOk L C a (h + 1) lo hi n0 l ⟨.shared rs, pre ++ (key, ⟨.shared rs', n⟩) :: post⟩)
    (hr : ReadOk C (absK h n) r) :
    ScanOk L C a (h + 1) lo hi n0 l
      ⟨.shared rs, pre ++ (key, ⟨.shared (r :: rs'), n⟩) :: post⟩ := by
  obtain ⟨h1, h2, h3, h4, h5⟩ := chain_mid (L := L) (h := h + 1).mp hn.ok.chain
  have habs : absK (h + 1) (pre ++ (key, (⟨.shared (r :: rs'), n⟩ : Node V h)) :: post)
      = absK (h + 1) (pre ++ (key, (⟨.shared rs', n⟩ : Node V h)) :: post) := by
    rw [absK_nd, absK_nd]; rfl
  have hdec : decK (h + 1) (pre ++ (key, (⟨.shared (r :: rs'), n⟩ : Node V h)) :: post)
      = decK (h + 1) (pre ++ (key, (⟨.shared rs', n⟩ : Node V h)) :: post) := by
    rw [decK_nd, decK_nd, dec_scan (hres _)]
  refine ⟨descend hn.ok (by simp) trivial (by simp) trivial trivial h2 (Nat.le_refl _) (Or.inr rfl),
    ?_, ?_, ⟨?_, ?_⟩, hn.lbl⟩
  · rw [← hn.abs]; exact habs
  · rw [← hn.dec]
    simp only [decN, habs, hdec]
  · show LockReads C (absK (h + 1) _) _
    rw [habs]
    exact hn.all.1
  · have hk : ∀ e ∈ pre ++ (key, (⟨.shared rs', n⟩ : Node V h)) :: post, AllOk C (h + 1) e.2 :=
      hn.all.2
    intro x hx
    have hx : x ∈ pre ++ (key, (⟨.shared (r :: rs'), n⟩ : Node V h)) :: post := hx
    rcases List.mem_append.mp hx with hx | hx
    · exact hk x (List.mem_append.mpr (Or.inl hx))
    · rcases List.mem_cons.mp hx with rfl | hx
      · have := hk (key, (⟨.shared rs', n⟩ : Node V h)) (by simp)
        exact ⟨lockReads_cons this.1 hr, this.2⟩
      · exact hk x (List.mem_append.mpr (Or.inr (List.mem_cons_of_mem _ hx)))

/-- What the query knows of its copy when it looks at a child. -/
theorem scan_see {L : Limits} (hL : L.Ok) {C : Copies V} {a h lo : Nat} {hi : Option Nat} {id : Nat}
    {s e : Bnd Nat} {next : Option Nat} {rpre rpost rs : List Read} {cs : Kids V (h + 1)}
    {key : Nat} {n : Kids V h}
    (hn : NodeOk L a (h + 1) lo hi ⟨.shared (rpre ++ .scan id s e next :: rpost), cs⟩)
    (hall : AllOk C (h + 2)
      (⟨.shared (rpre ++ .scan id s e next :: rpost), cs⟩ : Node V (h + 1)))
    (hk : cs[startChild cs s]? = some (key, (⟨.shared rs, n⟩ : Node V h))) :
    ∃ (pre post : List (Nat × Node V h)) (M A R : OMap V),
      cs = pre ++ (key, ⟨.shared rs, n⟩) :: post ∧ startChild cs s = pre.length ∧
      C id = some (s, e, M) ∧ OMap.Sorted M ∧ btreeRangePanics s e = false ∧
      M = A ++ (absK h n ++ (absK (h + 1) post ++ R)) ∧ (∀ x ∈ A, inRange s e x.1 = false) ∧
      absK h n ≠ [] ∧ Ahead s e (absK (h + 1) cs) R next ∧ (∀ x ∈ post, startOk s x.1 = true) ∧
      (∀ x ∈ absK h n, Below x.1 (nextKey post hi)) ∧
      Chain (SubOk L (h + 1)) (key + 1) hi post := by
  obtain ⟨pre, post, rfl, hp, h1, h2⟩ := start_find (L := L) (h := h + 1) hn.chain hk
  obtain ⟨M, A, R, m1, m2, m3, m4, m5, m6⟩ := hall.1 _ rfl (.scan id s e next) (by simp)
  obtain ⟨c1, c2, c3, c4, c5⟩ := chain_mid (L := L) (h := h + 1).mp hn.chain
  have c4 : NodeOk L (L.min h) h key (nextKey post hi) ⟨.shared rs, n⟩ := subOk_iff.mp c4
  refine ⟨pre, post, M, A ++ absK (h + 1) pre, R, rfl, hp, m1, m2, m3, ?_, ?_, kids_ne hL c4, m6,
    h2, fun x hx => ((within_absK h c4.chain).1 x hx).2, c5⟩
  · refine m4.trans ?_
    show A ++ (absK (h + 1) (pre ++ (key, (⟨.shared rs, n⟩ : Node V h)) :: post) ++ R) = _
    rw [absK_nd]
    simp [absN, Lock.apply]
  · intro x hx
    rcases List.mem_append.mp hx with hx | hx
    · exact m5 x hx
    · rw [inRange_eq, h1 x hx]; rfl

theorem stop_beyond {e : Bnd Nat} {k : Nat} {S : OMap V} (hk : belowEnd e k = false)
    (hS : ∀ x ∈ S, k ≤ x.1) : ∀ x ∈ S, stopOk e x.1 = false := by
  intro x hx
  cases hs : stopOk e x.1 with
  | false => rfl
  | true =>
    rw [Tree.belowEnd_eq, Tree.stopOk_mono hs (hS x hx)] at hk
    exact hk

theorem scan_step {L : Limits} (hL : L.Ok) {C : Copies V} {h : Nat} {n n' : Node V h}
    {l : ScanLbl V} (hs : ScanStep h n l n') : ∀ {a lo : Nat} {hi : Option Nat},
      NodeOk L a h lo hi n → AllOk C (h + 1) n → ScanOk L C a h lo hi n l n' := by
  induction hs with
  | @deeper h lock pre post key c c' l hs ih =>
    intro a lo hi hn hall
    obtain ⟨h1, h2, h3, h4, h5⟩ := chain_mid (L := L) (h := h + 1).mp hn.chain
    have h4 : NodeOk L (L.min h) h key (nextKey post hi) c := subOk_iff.mp h4
    have hk : ∀ e ∈ pre ++ (key, c) :: post, AllOk C (h + 1) e.2 := hall.2
    have hc := ih h4 (hk (key, c) (by simp))
    have habs : absK (h + 1) (pre ++ (key, c') :: post) = absK (h + 1) (pre ++ (key, c) :: post) := by
      rw [absK_nd, absK_nd, hc.abs]
    have hdec : decK (h + 1) (pre ++ (key, c') :: post) = decK (h + 1) (pre ++ (key, c) :: post) := by
      rw [decK_nd, decK_nd, hc.dec]
    refine ⟨deeper_ok hn (scan_quiet hs) (scan_notHeld hs) hc.ok, ?_, ?_, ⟨?_, ?_⟩, hc.lbl⟩
    · simp only [absN, habs]
    · simp only [decN, habs, hdec]
    · show LockReads C (absK (h + 1) (pre ++ (key, c') :: post)) lock
      rw [habs]
      exact hall.1
    · intro e he
      have he : e ∈ pre ++ (key, c') :: post := he
      rcases List.mem_append.mp he with he | he
      · exact hk e (List.mem_append.mpr (Or.inl he))
      · rcases List.mem_cons.mp he with rfl | he
        · exact hc.all
        · exact hk e (List.mem_append.mpr (Or.inr (List.mem_cons_of_mem _ he)))
  | @leafRet id s e next pre post n v b hans =>
    intro a lo hi hn hall
    obtain ⟨M, A, R, m1, m2, m3, m4, m5, m6⟩ := hall.1 _ rfl (.scan id s e next) (by simp)
    simp only [absK_zero] at m4 m6
    refine ⟨⟨hn.size, trivial, heldOk_of (notHeld_of hn.held (by simp)), hn.chain⟩, rfl,
      dec_leave (fun _ => rfl) rfl rfl, ⟨lockReads_sub hall.1 (by simp; grind), hall.2⟩, ?_⟩
    exact ⟨s, e, M, m1, answer_ok m2 m3 m4 m5 m6 hans⟩
  | @leafGoto id s e key pre post n hans =>
    intro a lo hi hn hall
    obtain ⟨M, A, R, m1, m2, m3, m4, m5, m6⟩ := hall.1 _ rfl (.scan id s e (some key)) (by simp)
    simp only [absK_zero] at m4 m6
    refine ⟨⟨hn.size, trivial, heldOk_of (notHeld_of hn.held (by simp)), hn.chain⟩, rfl,
      dec_leave (fun _ => rfl) rfl rfl, ⟨lockReads_sub hall.1 (by simp; grind), hall.2⟩, ?_⟩
    exact ⟨M, m1, answer_ok m2 m3 m4 m5 m6 hans key rfl⟩
  | @downLast h id s e next rpre rpost rs cs key n hlast hk =>
    intro a lo hi hn hall
    obtain ⟨pre, post, M, A, R, rfl, hp, m1, m2, m3, m4, m5, m6, m7, m8, m9, m10⟩ :=
      scan_see hL hn hall hk
    have hpost : post = [] := by
      rw [hp] at hlast
      cases post with
      | nil => rfl
      | cons f fs => simp at hlast
    subst hpost
    rw [hp, Tree.set_mid]
    have hsub : ∀ x ∈ absK h n, x ∈ absK (h + 1) (pre ++ [(key, (⟨.shared rs, n⟩ : Node V h))]) := by
      intro x hx
      rw [absK_nd]
      simp [absN, Lock.apply, hx]
    refine scan_move hn hall ⟨M, A, R, m1, m2, m3, by simpa [absK] using m4, m5, ?_⟩ trivial
    cases next with
    | some k => exact ⟨m6, fun x hx => m7.2.1 x (hsub x hx), m7.2.2⟩
    | none =>
      rcases m7 with m7 | m7
      · exact Or.inl m7
      · exact Or.inr ⟨m6, fun x hx => m7.2 x (hsub x hx)⟩
  | turn _ =>
    intro a lo hi hn hall
    exact ⟨hn, rfl, rfl, hall, trivial⟩
  | @downAlone h id s e next rpre rpost rs cs key key' n c' hk' hbe hk =>
    intro a lo hi hn hall
    obtain ⟨pre, post, M, A, R, rfl, hp, m1, m2, m3, m4, m5, m6, m7, m8, m9, m10⟩ :=
      scan_see hL hn hall hk
    rw [hp] at hk'
    have hpost : ∃ fs, post = (key', c') :: fs := by
      cases post with
      | nil => simp at hk'
      | cons f fs =>
        refine ⟨fs, ?_⟩
        rw [List.getElem?_append_right (by omega)] at hk'
        simpa using hk'
    obtain ⟨fs, rfl⟩ := hpost
    rw [hp, Tree.set_mid]
    refine scan_move hn hall ⟨M, A, absK (h + 1) ((key', c') :: fs) ++ R, m1, m2, m3, m4, m5,
      Or.inl ?_⟩ trivial
    refine stop_beyond hbe ?_
    rw [m4, ← List.append_assoc] at m2
    refine sorted_after m2 ?_ ?_
    · intro h0
      have := length_absK hL (h + 1) m10
      rw [h0] at this
      simp at this
    · exact fun x hx => ((within_absK (h + 1) (Tree.chain_raise m10)).1 x hx).1
  | @downBeyond h id k s e next rpre rpost rs rs' cs key key' n n' hk' hbe hfk hbk hk =>
    intro a lo hi hn hall
    obtain ⟨pre, post, M, A, R, rfl, hp, m1, m2, m3, m4, m5, m6, m7, m8, m9, m10⟩ :=
      scan_see hL hn hall hk
    rw [hp] at hk'
    have hpost : ∃ fs, post = (key', (⟨.shared rs', n'⟩ : Node V h)) :: fs := by
      cases post with
      | nil => simp at hk'
      | cons f fs =>
        refine ⟨fs, ?_⟩
        rw [List.getElem?_append_right (by omega)] at hk'
        simpa using hk'
    obtain ⟨fs, rfl⟩ := hpost
    rw [hp, Tree.set_mid]
    have hc : NodeOk L (L.min h) h key' (nextKey fs hi) ⟨.shared rs', n'⟩ := subOk_iff.mp m10.2.2.1
    refine scan_move hn hall ⟨M, A, absK (h + 1) ((key', (⟨.shared rs', n'⟩ : Node V h)) :: fs) ++ R,
      m1, m2, m3, m4, m5, Or.inl ?_⟩ trivial
    refine stop_beyond hbk ?_
    have m2' : OMap.Sorted ((A ++ absK h n) ++
        (absN (⟨.shared rs', n'⟩ : Node V h) ++ (absK (h + 1) fs ++ R))) := by
      rw [m4, absK_cons] at m2
      simpa only [List.append_assoc] using m2
    rw [absK_cons, List.append_assoc]
    exact sorted_after m2' (kids_ne hL hc) (first_least hc.chain hfk).2
  | @downNext h id k s e next rpre rpost rs rs' cs key key' n n' hk' hbe hfk hbk hk =>
    intro a lo hi hn hall
    obtain ⟨pre, post, M, A, R, rfl, hp, m1, m2, m3, m4, m5, m6, m7, m8, m9, m10⟩ :=
      scan_see hL hn hall hk
    rw [hp] at hk'
    have hpost : ∃ fs, post = (key', (⟨.shared rs', n'⟩ : Node V h)) :: fs := by
      cases post with
      | nil => simp at hk'
      | cons f fs =>
        refine ⟨fs, ?_⟩
        rw [List.getElem?_append_right (by omega)] at hk'
        simpa using hk'
    obtain ⟨fs, rfl⟩ := hpost
    have hc : NodeOk L (L.min h) h key' (nextKey fs hi) ⟨.shared rs', n'⟩ := subOk_iff.mp m10.2.2.1
    have hfl := first_least hc.chain hfk
    have hst : startOk s k = true :=
      Tree.startOk_mono (m8 (key', (⟨.shared rs', n'⟩ : Node V h)) (by simp)) hfl.1
    have m4' : M = (A ++ absK h n) ++ (absK h n' ++ (absK (h + 1) fs ++ R)) := by
      rw [m4, absK_cons]
      simp [absN, Lock.apply]
    have hR : ∀ x ∈ absK h n' ++ (absK (h + 1) fs ++ R), k ≤ x.1 := by
      have m2' := m2
      rw [m4'] at m2'
      exact sorted_after m2' (kids_ne hL hc) hfl.2
    have hlt : ∀ x ∈ absK h n, x.1 < k := by
      intro x hx
      have : x.1 < key' := m9 x hx
      have := hfl.1
      omega
    have hmove := scan_move (l := .swap id) (next' := some k) hn hall ⟨M, A,
      absK (h + 1) ((key', (⟨.shared rs', n'⟩ : Node V h)) :: fs) ++ R, m1, m2, m3, m4, m5,
      m6, hlt, by rw [absK_cons, List.append_assoc]; exact hR, hst, by
        rw [← Tree.belowEnd_eq]; exact hbk⟩ trivial
    have hset : ((pre ++ (key, (⟨.shared rs, n⟩ : Node V h)) ::
          (key', (⟨.shared rs', n'⟩ : Node V h)) :: fs).set pre.length
            (key, (⟨.shared (.scan id s e (some k) :: rs), n⟩ : Node V h))).set (pre.length + 1)
              (key', (⟨.shared (.guard id s e k :: rs'), n'⟩ : Node V h)) =
        (pre ++ [(key, (⟨.shared (.scan id s e (some k) :: rs), n⟩ : Node V h))]) ++
          (key', (⟨.shared (.guard id s e k :: rs'), n'⟩ : Node V h)) :: fs := by
      rw [Tree.set_mid]
      have : pre ++ (key, (⟨.shared (.scan id s e (some k) :: rs), n⟩ : Node V h)) ::
          (key', (⟨.shared rs', n'⟩ : Node V h)) :: fs =
        (pre ++ [(key, (⟨.shared (.scan id s e (some k) :: rs), n⟩ : Node V h))]) ++
          (key', (⟨.shared rs', n'⟩ : Node V h)) :: fs := by simp
      rw [this]
      have := Tree.set_mid (pre ++ [(key, (⟨.shared (.scan id s e (some k) :: rs), n⟩ : Node V h))])
        (key', (⟨.shared rs', n'⟩ : Node V h))
        (key', (⟨.shared (.guard id s e k :: rs'), n'⟩ : Node V h)) fs
      rw [List.length_append] at this
      exact this
    rw [hp]
    rw [show ((pre ++ (key, (⟨.shared rs, n⟩ : Node V h)) ::
          (key', (⟨.shared rs', n'⟩ : Node V h)) :: fs : Kids V (h + 1)).set pre.length
            (key, (⟨.shared (.scan id s e (some k) :: rs), n⟩ : Node V h))).set (pre.length + 1)
              (key', (⟨.shared (.guard id s e k :: rs'), n'⟩ : Node V h)) = _ from hset]
    refine scan_keep (rs' := rs') (fun _ => rfl) ?_ ⟨M, A ++ absK h n, absK (h + 1) fs ++ R, m1, m2, m3, m4',
      kids_ne hL hc, hfl.2, hst, ?_⟩
    · have : (pre ++ [(key, (⟨.shared (.scan id s e (some k) :: rs), n⟩ : Node V h))]) ++
          (key', (⟨.shared rs', n'⟩ : Node V h)) :: fs =
        pre ++ (key, (⟨.shared (.scan id s e (some k) :: rs), n⟩ : Node V h)) ::
          (key', (⟨.shared rs', n'⟩ : Node V h)) :: fs := by simp
      rw [this]
      exact hmove
    · intro x hx
      rcases List.mem_append.mp hx with hx | hx
      · exact Or.inl (m5 x hx)
      · exact Or.inr (hlt x hx)

end Verif.Conc
