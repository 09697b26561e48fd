import Verif.Tree.CleanSteps
import Verif.Tree.Eval

/-!
# C64: cleaning a zone moves every node of a tree out of it and changes nothing else
-/

namespace Verif.Tree

variable {V : Type}

/-- C64.  Take any tree that there can be, and a zone whose recorded transactions are right.
Whatever else is done to the tree while the zone is being cleaned, and whenever it happens: once
`clean_zone` is done no node of the tree lies in the zone; and what the tree contains, and what
the other operations return, is as if nothing had been cleaned. -/
theorem C64_clean_zone {L : Limits} (hL : L.Ok) {seq : Bool} {T : Nat} {t : Tree V}
    (ht : Reached L seq T t) {z : Zone} (hz : z.Recorded t) {es : List (Ev V)}
    (ho : Orderly L seq z T (t, Job.start z t) es) {t' : Tree V} {j : Job} {rs : List (Res V)}
    (hr : evRun L seq (t, Job.start z t) es = some ((t', j), rs)) :
    (t'.toMap, rs) = specRun t.toMap (others es) ∧
      (j.done = true → ∀ a ∈ t'.addrs, z.holds a = false) := by
  obtain ⟨h1, h2⟩ := evRun_cleaning hL es (start_cleaning (reached_good hL ht) hz) ho hr
  exact ⟨h2, cleaning_done h1⟩

/-- C64.  No step of the cleaner panics as long as the tree is not lower than the level being
cleaned. -/
theorem C64_no_panic_partial {L : Limits} (hL : L.Ok) {seq : Bool} {T : Nat} {t : Tree V}
    (ht : Reached L seq T t) {z : Zone} (hz : z.Recorded t) {es : List (Ev V)}
    (ho : Orderly L seq z T (t, Job.start z t) es) {t' : Tree V} {j : Job} {rs : List (Res V)}
    (hr : evRun L seq (t, Job.start z t) es = some ((t', j), rs)) (hj : j.level ≤ t'.h)
    {e : Ev V} (he : others [e] = []) : evStep L seq (t', j) e ≠ none := by
  obtain ⟨h1, -⟩ := evRun_cleaning hL es (start_cleaning (reached_good hL ht) hz) ho hr
  cases e with
  | op => cases he
  | look =>
    unfold evStep
    simp only
    split
    · simp
    · split
      · next c found hp =>
        obtain ⟨r, h2⟩ := dirty_total (z := z) (key := c) h1.good h1.recorded hj
        rw [h1.zone, h2]; simp
      · simp
  | rewrite i txg pba =>
    unfold evStep
    simp only
    split
    · simp
    · split
      · simp
      · next k hk =>
        obtain ⟨t1, h2⟩ := rewrite_spec (txg := txg) (pba := pba) (key := k) h1.good.ordered hj
        rw [h2]; simp
  | advance =>
    unfold evStep
    simp only
    split <;> simp

/-- C64.  Left alone at any point, with the tree at least as high as it was at the start, the
cleaner gets done after finitely many steps, in whatever order it rewrites the nodes and wherever
outside the zone it puts them. -/
theorem C64_finishes_partial {L : Limits} (hL : L.Ok) {seq : Bool} {T : Nat} {t : Tree V}
    (ht : Reached L seq T t) {z : Zone} (hz : z.Recorded t) {es : List (Ev V)}
    (ho : Orderly L seq z T (t, Job.start z t) es) {t' : Tree V} {j : Job} {rs : List (Res V)}
    (hr : evRun L seq (t, Job.start z t) es = some ((t', j), rs)) (hj : t.h ≤ t'.h)
    {S : Strategy V} {txg : Nat} (htxg : ∀ e ∈ es, e.time T ≤ txg) (hT : T ≤ txg)
    (hS : ∀ s, z.holds { pba := S.alloc s, txg } = false) :
    ∃ n t'' j', S.run L seq txg n (t', j) = some (t'', j') ∧ j'.done = true ∧
      t''.toMap = t'.toMap ∧ ∀ a ∈ t''.addrs, z.holds a = false := by
  obtain ⟨h1, -⟩ := evRun_cleaning hL es (start_cleaning (reached_good hL ht) hz) ho hr
  have hlv : ∀ (es : List (Ev V)) {s s' : Tree V × Job} {rs : List (Res V)},
      evRun L seq s es = some (s', rs) → s'.2.levels = s.2.levels := by
    intro es
    induction es with
    | nil =>
      intro s s' rs h
      simp only [evRun, Option.some.injEq, Prod.mk.injEq] at h
      rw [h.1]
    | cons e es ih =>
      intro s s' rs h
      simp only [evRun] at h
      obtain ⟨⟨s1, r⟩, h2, h⟩ := Option.bind_eq_some_iff.mp h
      obtain ⟨⟨s2, rs'⟩, h3, h⟩ := Option.map_eq_some_iff.mp h
      simp only [Prod.mk.injEq] at h
      rw [← h.1, ih h3]
      cases e with
      | op =>
        obtain ⟨⟨t1, r1⟩, -, h4⟩ := Option.map_eq_some_iff.mp h2
        simp only [Prod.mk.injEq] at h4
        rw [← h4.1]
      | look =>
        unfold evStep at h2
        simp only at h2
        split at h2
        · simp only [Option.some.injEq, Prod.mk.injEq] at h2; rw [h2.1]
        · split at h2
          · obtain ⟨⟨ks, nk⟩, -, h4⟩ := Option.map_eq_some_iff.mp h2
            cases nk <;> (simp only [Prod.mk.injEq] at h4; rw [← h4.1])
          · simp only [Option.some.injEq, Prod.mk.injEq] at h2; rw [h2.1]
      | rewrite i txg pba =>
        unfold evStep at h2
        simp only at h2
        split at h2
        · simp only [Option.some.injEq, Prod.mk.injEq] at h2; rw [h2.1]
        · split at h2
          · simp only [Option.some.injEq, Prod.mk.injEq] at h2; rw [h2.1]
          · obtain ⟨t1, -, h4⟩ := Option.map_eq_some_iff.mp h2
            simp only [Prod.mk.injEq] at h4; rw [← h4.1]
      | advance =>
        unfold evStep at h2
        simp only at h2
        split at h2 <;> (simp only [Option.some.injEq, Prod.mk.injEq] at h2; rw [← h2.1])
  have hl : j.levels = t.h + 1 := hlv es hr
  have htime : ∀ (es : List (Ev V)) {T' : Nat}, T' ≤ txg → (∀ e ∈ es, e.time T ≤ txg) →
      timeAfter T' es ≤ txg := by
    intro es
    induction es with
    | nil => intro T' h _; exact h
    | cons e es ih =>
      intro T' h hall
      refine ih ?_ fun x hx => hall x (List.mem_cons_of_mem _ hx)
      have := hall e (List.mem_cons_self ..)
      cases e with
      | op o => cases o <;> first | exact this | exact h
      | look => exact h
      | rewrite => exact this
      | advance => exact h
  have hc : Cleaning z txg t' j := { h1 with good := ⟨h1.good.ordered,
    spans_mono (Nat.le_refl _) (Nat.succ_le_succ (htime es hT htxg)) h1.good.spans⟩ }
  obtain ⟨n, t'', j', r1, r2, r3, r4⟩ := finish (S := S) (seq := seq) hL hS _ hc rfl (by omega) rfl
  exact ⟨n, t'', j', r1, r2, r4, cleaning_done r3 r2⟩

/-- The recorded ranges from an element down: every node on disk was written in a transaction
recorded for it and for all nodes above it. -/
def Dated : (h : Nat) → Node V h → Prop
  | 0, _ => True
  | h + 1, n => ∀ x ∈ n,
    (∀ a ∈ x.2.info.addr.toList ++ addrsBelow h x.2.kids,
      x.2.info.start ≤ a.txg ∧ a.txg < x.2.info.stop) ∧ Dated h x.2.kids

theorem spans_dated {P : Nat → Nat → Addr → Prop} : ∀ (h : Nat) {lo hi : Nat} {n : Node V h},
    Spans P h lo hi n → Dated h n
  | 0, _, _, _, _ => trivial
  | h + 1, lo, hi, n, hs => by
    intro x hx
    obtain ⟨w1, w2, w3, w4, w5⟩ := hs x hx
    refine ⟨?_, spans_dated h w5⟩
    intro a ha
    rcases List.mem_append.mp ha with ha | ha
    · exact (w4 a (Option.mem_toList.mp ha)).1
    · obtain ⟨e, k, h1⟩ := (mem_addrsBelow h).mp ha
      exact (spans_has h w5 h1).2

/-- C64.  In every tree that there can be, each node on disk was written in a transaction within
the range recorded for it, and within those recorded for all nodes above it. -/
theorem C64_txgs {L : Limits} (hL : L.Ok) {seq : Bool} {T : Nat} {t : Tree V}
    (ht : Reached L seq T t) : Dated t.h t.root := spans_dated t.h (reached_good hL ht).spans

/-! ## A concrete case -/

def cleanL : Limits := { minInt := 2, maxInt := 4, minLeaf := 1, maxLeaf := 2 }

theorem cleanL_ok : cleanL.Ok := ⟨by decide, by decide, by decide, by decide⟩

/-- Twelve keys are inserted in transaction 1, and one of them is changed in transaction 2: a
tree of four levels. -/
def cleanOps : List (Op Nat) :=
  (List.range 12).map (fun k => .insert 1 k k) ++ [.flush 1 100, .insert 2 3 33, .flush 2 200]

def cleanTree : Tree Nat := (runS cleanL false Tree.empty cleanOps).getD Tree.empty

theorem reached_run {L : Limits} {seq : Bool} : ∀ (ops : List (Op V)) {T : Nat} {t t' : Tree V}
    {rs : List (Res V)}, Reached L seq T t →
    (ops.foldl (fun (p : Nat × Bool) o => (o.time p.1, p.2 && decide (p.1 ≤ o.time p.1)))
      (T, true)).2 = true →
    run L seq t ops = some (t', rs) →
    Reached L seq (ops.foldl (fun T o => o.time T) T) t'
  | [], _, _, _, _, h, _, hr => by
    simp only [run, Option.some.injEq, Prod.mk.injEq] at hr
    rw [← hr.1]; exact h
  | o :: ops, T, t, t', rs, h, hT, hr => by
    simp only [run] at hr
    obtain ⟨⟨t1, r⟩, h1, hr⟩ := Option.bind_eq_some_iff.mp hr
    obtain ⟨⟨t2, rs'⟩, h2, hr⟩ := Option.map_eq_some_iff.mp hr
    simp only [Prod.mk.injEq] at hr
    rw [← hr.1]
    have hfalse : ∀ (ops : List (Op V)) (T : Nat),
        (ops.foldl (fun (p : Nat × Bool) o => (o.time p.1, p.2 && decide (p.1 ≤ o.time p.1)))
          (T, false)).2 = false := by
      intro ops
      induction ops with
      | nil => intro T; rfl
      | cons o ops ih => intro T; simp only [List.foldl_cons, Bool.false_and]; exact ih _
    simp only [List.foldl_cons, Bool.true_and] at hT ⊢
    by_cases hle : T ≤ o.time T
    · rw [decide_eq_true hle] at hT
      exact reached_run ops (.op h hle h1) hT h2
    · rw [decide_eq_false hle, hfalse] at hT
      cases hT

theorem runS_run {L : Limits} {seq : Bool} {ops : List (Op V)} {t : Tree V}
    (h : (runS L seq t ops).isSome = true) :
    ∃ rs, run L seq t ops = some ((runS L seq t ops).getD t, rs) := by
  obtain ⟨t', h⟩ := Option.isSome_iff_exists.mp h
  have h1 := runS_eq L seq ops t
  rw [h] at h1 ⊢
  obtain ⟨⟨t2, rs⟩, h2, h3⟩ := Option.map_eq_some_iff.mp h1
  exact ⟨rs, by rw [h2, ← h3]; rfl⟩

theorem cleanTree_reached : Reached cleanL false 2 cleanTree := by
  obtain ⟨rs, h⟩ := runS_run (L := cleanL) (seq := false) (ops := cleanOps) (t := Tree.empty)
    (by decide +kernel)
  exact reached_run cleanOps .empty (by decide +kernel) h

/-- The zone of the blocks 100 to 106, written in transaction 1. -/
def cleanZone : Zone := { pbaLo := 100, pbaHi := 106, txgLo := 1, txgHi := 2 }

example : cleanTree.h = 3 ∧ (cleanTree.addrs.filter cleanZone.holds).map (·.pba) = [102, 100, 101, 103] :=
  by decide +kernel

instance (z : Zone) (t : Tree V) : Decidable (z.Recorded t) := by
  unfold Zone.Recorded; infer_instance

theorem cleanZone_recorded : cleanZone.Recorded cleanTree := by decide +kernel

/-- Events that are in order and stay clear of the zone whatever the state: all blocks are above
the zone. -/
def clear (z : Zone) : Nat → List (Ev V) → Bool
  | _, [] => true
  | T, e :: es => decide (T ≤ e.time T) && (match e with
    | .op (.flush _ next) => decide (z.pbaHi ≤ next)
    | .rewrite _ _ pba => decide (z.pbaHi ≤ pba)
    | _ => true) && clear z (e.time T) es

theorem orderly_of_clear {L : Limits} {seq : Bool} {z : Zone} : ∀ (es : List (Ev V)) {T : Nat}
    {s : Tree V × Job}, clear z T es = true → Orderly L seq z T s es
  | [], _, _, _ => trivial
  | e :: es, T, s, h => by
    simp only [clear, Bool.and_eq_true, decide_eq_true_eq] at h
    refine ⟨h.1.1, ?_, fun s' r _ => orderly_of_clear es h.2⟩
    have hz : ∀ pba txg, z.pbaHi ≤ pba → z.holds { pba, txg } = false := by
      intro pba txg hp
      simp only [Zone.holds, Bool.and_eq_false_iff, decide_eq_false_iff_not]
      omega
    have h1 := h.1.2
    cases e with
    | op o =>
      cases o with
      | flush txg next =>
        intro pba hp _
        simp only [decide_eq_true_eq] at h1
        exact hz pba txg (by omega)
      | _ => trivial
    | rewrite i txg pba =>
      simp only [decide_eq_true_eq] at h1
      exact hz pba txg h1
    | _ => trivial

/-- `evRun`, with insertions and flushes by recursion on the height. -/
def evRunS (L : Limits) (seq : Bool) (s : Tree V × Job) :
    List (Ev V) → Option (Tree V × Job)
  | [] => some s
  | .op op :: es => (runS L seq s.1 [op]).bind fun t => evRunS L seq (t, s.2) es
  | e :: es => (evStep L seq s e).bind fun p => evRunS L seq p.1 es

theorem evRunS_eq (L : Limits) (seq : Bool) : ∀ (es : List (Ev V)) (s : Tree V × Job),
    (evRun L seq s es).map (·.1) = evRunS L seq s es := by
  intro es
  induction es with
  | nil => intro s; rfl
  | cons e es ih =>
    intro s
    have h : (evRun L seq s (e :: es)).map (·.1) =
        (evStep L seq s e).bind fun p => evRunS L seq p.1 es := by
      simp only [evRun]
      cases evStep L seq s e with
      | none => rfl
      | some p => simp [← ih, Option.map_map, Function.comp_def]
    rw [h]
    cases e with
    | op o =>
      simp only [evStep, evRunS, ← runS_eq, run]
      cases step L seq s.1 o <;> simp
    | _ => rfl

theorem evRunS_run {L : Limits} {seq : Bool} {es : List (Ev V)} {s : Tree V × Job}
    (h : (evRunS L seq s es).isSome = true) :
    ∃ rs, evRun L seq s es = some ((evRunS L seq s es).getD s, rs) := by
  obtain ⟨s', h⟩ := Option.isSome_iff_exists.mp h
  have h1 := evRunS_eq L seq es s
  rw [h] at h1 ⊢
  obtain ⟨⟨s2, rs⟩, h2, h3⟩ := Option.map_eq_some_iff.mp h1
  exact ⟨rs, by rw [h2, ← h3]; rfl⟩

/-- A cleaning during which others insert, remove and look up keys and flush the tree. -/
def cleanEvs : List (Ev Nat) :=
  [.look, .op (.insert 2 20 20), .look, .op (.get 5), .look, .look, .look, .op (.remove 2 7),
    .rewrite 0 2 300, .op (.insert 2 1 11), .rewrite 0 2 301, .rewrite 0 2 302, .advance, .look, .look,
    .look, .look, .op (.flush 3 400), .rewrite 0 3 303, .advance, .look, .look, .rewrite 0 3 304,
    .advance, .look, .op (.get 7), .rewrite 0 3 305, .advance]

/-- The history of `C64_clean_zone` exists: it does not panic and comes to an end, by which time
the nodes of the zone are at 300 and above and the other operations have had their effect. -/
theorem cleanEvs_run : ∃ t' j rs,
    evRun cleanL false (cleanTree, Job.start cleanZone cleanTree) cleanEvs = some ((t', j), rs) ∧
      j.done = true ∧ t'.addrs.map (·.pba) =
        [410, 403, 401, 300, 400, 402, 302, 200, 409, 109, 107, 108, 405, 110, 404, 408, 114, 406,
          407] := by
  obtain ⟨rs, h⟩ := evRunS_run (L := cleanL) (seq := false) (es := cleanEvs)
    (s := (cleanTree, Job.start cleanZone cleanTree)) (by decide +kernel)
  exact ⟨_, _, rs, h, by decide +kernel, by decide +kernel⟩

theorem cleanEvs_orderly {s : Tree Nat × Job} : Orderly cleanL false cleanZone 2 s cleanEvs :=
  orderly_of_clear _ (by decide +kernel)

example : ∃ (t' : Tree Nat) (rs : List (Res Nat)), (t'.toMap, rs) = specRun cleanTree.toMap (others cleanEvs) ∧
    ∀ a ∈ t'.addrs, cleanZone.holds a = false := by
  obtain ⟨t', j, rs, h, hj, -⟩ := cleanEvs_run
  have := C64_clean_zone cleanL_ok cleanTree_reached cleanZone_recorded cleanEvs_orderly h
  exact ⟨t', rs, this.1, this.2 hj⟩

deriving instance DecidableEq for Res

example : (specRun cleanTree.toMap (others cleanEvs)).2 =
    [.value none, .value (some 5), .value (some 7), .value (some 1), .unit, .value none] := by
  decide +kernel

/-- The first nine events, after which the cleaner is rewriting the leaves. -/
theorem cleanEvs_some : ∃ t' j rs,
    evRun cleanL false (cleanTree, Job.start cleanZone cleanTree) (cleanEvs.take 9) =
      some ((t', j), rs) ∧ j.level = 0 ∧ t'.h = 3 ∧ (t'.addrs.filter cleanZone.holds) ≠ [] := by
  obtain ⟨rs, h⟩ := evRunS_run (L := cleanL) (seq := false) (es := cleanEvs.take 9)
    (s := (cleanTree, Job.start cleanZone cleanTree)) (by decide +kernel)
  exact ⟨_, _, rs, h, by decide +kernel, by decide +kernel, by decide +kernel⟩

example : ∃ s : Tree Nat × Job, evStep cleanL false s (.rewrite 0 2 301) ≠ none := by
  obtain ⟨t', j, rs, h, hj, hh, -⟩ := cleanEvs_some
  exact ⟨_, C64_no_panic_partial cleanL_ok cleanTree_reached cleanZone_recorded
    (orderly_of_clear _ (by decide +kernel)) h (by omega) rfl⟩

/-- A cleaner which rewrites the last listed node first, to addresses from 500. -/
def cleanStrategy : Strategy Nat where
  pick s := match s.2.phase with | .rewrite ks => ks.length - 1 | _ => 0
  alloc s := 500 + s.1.addrs.length

example : ∃ n t'' j', ∃ s : Tree Nat × Job,
    s.1.addrs.filter cleanZone.holds ≠ [] ∧
      cleanStrategy.run cleanL false 2 n s = some (t'', j') ∧ j'.done = true ∧
      ∀ a ∈ t''.addrs, cleanZone.holds a = false := by
  obtain ⟨t', j, rs, h, hj, hh, hne⟩ := cleanEvs_some
  obtain ⟨n, t'', j', h1, h2, -, h3⟩ := C64_finishes_partial (S := cleanStrategy) (txg := 2) cleanL_ok
    cleanTree_reached cleanZone_recorded (orderly_of_clear _ (by decide +kernel)) h
    (by rw [hh]; decide +kernel) (by decide +kernel) (Nat.le_refl _) (by
      intro s
      have : 106 ≤ cleanStrategy.alloc s := Nat.le_trans (by decide) (Nat.le_add_right 500 _)
      have h1 : ¬cleanStrategy.alloc s < 106 := by omega
      simp [Zone.holds, cleanZone, h1])
  exact ⟨n, t'', j', (t', j), hne, h1, h2, h3⟩

example : Dated cleanTree.h cleanTree.root := C64_txgs cleanL_ok cleanTree_reached

/-! ## Where the property fails -/

/-- A tree of two levels with three keys. -/
def lowOps : List (Op Nat) := [.insert 1 0 0, .insert 1 1 1, .insert 1 2 2, .flush 1 100]

def lowTree : Tree Nat := (runS cleanL false Tree.empty lowOps).getD Tree.empty

theorem lowTree_reached : Reached cleanL false 1 lowTree := by
  obtain ⟨rs, h⟩ := runS_run (L := cleanL) (seq := false) (ops := lowOps) (t := Tree.empty)
    (by decide +kernel)
  exact reached_run lowOps .empty (by decide +kernel) h

/-- Removals by others make the tree lower after the leaves have been cleaned. -/
def lowEvs : List (Ev Nat) :=
  [.look, .advance, .op (.remove 2 0), .op (.remove 2 1), .op (.remove 2 2)]

def lowZone : Zone := { pbaLo := 50, pbaHi := 60, txgLo := 0, txgHi := 1 }

/-- C64 fails: the comment at `mod.rs:2358-2362` says that it is harmless if the tree gets lower
while a zone is being cleaned.  It is not: the cleaner goes on to a level that is no more, takes
the root for an interior node although it is a leaf, and panics.  Here the zone does not even hold
any node. -/
theorem C64_lower_tree_panics : ∃ (t : Tree Nat) (z : Zone) (es : List (Ev Nat)) (t' : Tree Nat)
    (j : Job) (rs : List (Res Nat)), Reached cleanL false 1 t ∧ z.Recorded t ∧
      Orderly cleanL false z 1 (t, Job.start z t) es ∧
      evRun cleanL false (t, Job.start z t) es = some ((t', j), rs) ∧
      j.done = false ∧ evStep cleanL false (t', j) .look = none := by
  obtain ⟨rs, h⟩ := evRunS_run (L := cleanL) (seq := false) (es := lowEvs)
    (s := (lowTree, Job.start lowZone lowTree)) (by decide +kernel)
  exact ⟨lowTree, lowZone, lowEvs, _, _, rs, lowTree_reached, by decide +kernel,
    orderly_of_clear _ (by decide +kernel), h, by decide +kernel, by decide +kernel⟩

/-- A cleaning of the zone of `cleanZone` with other transactions recorded for it. -/
def wrongZone : Zone := { cleanZone with txgLo := 7, txgHi := 8 }

/-- The transactions recorded for the zone matter: with wrong ones the cleaner may get done and
leave nodes in the zone. -/
theorem C64_recorded_needed : ∃ (es : List (Ev Nat)) (t' : Tree Nat) (j : Job)
    (rs : List (Res Nat)), others es = [] ∧
      evRun cleanL false (cleanTree, Job.start wrongZone cleanTree) es = some ((t', j), rs) ∧
      j.done = true ∧ ∃ a ∈ t'.addrs, wrongZone.holds a = true := by
  obtain ⟨rs, h⟩ := evRunS_run (L := cleanL) (seq := false) (s := (cleanTree, Job.start wrongZone cleanTree))
    (es := [.look, .advance, .look, .advance, .look, .advance, .look, .advance]) (by decide +kernel)
  exact ⟨_, _, _, rs, rfl, h, by decide +kernel, { pba := 102, txg := 1 }, by decide +kernel,
    by decide +kernel⟩

end Verif.Tree
