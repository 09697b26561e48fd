import Verif.Isol.Foot

/-!
# C74: calls that are about different files do not disturb each other

A call is a program of tree operations, some of which run at the same time.  Any number of calls run
at the same time too; every tree operation is one step (that it may be taken for one is C71).
-/

namespace Verif.Isol

variable {ι : Type} [DecidableEq ι]

theorem apart_noConflict {H : Hash} (hH : H.Ok) {m : Store} {c d : Call} (hc : c.isLink = false)
    (hd : d.isLink = false) (sc : c.Sane H m) (sd : d.Sane H m) (zc : 0 ∉ c.objs H m)
    (zd : 0 ∉ d.objs H m) (pc : (exec (c.prog H) m).out ≠ .panic) (pd : (exec (d.prog H) m).out ≠ .panic)
    (ha : Apart H m c d) : NoConflict (exec (c.prog H) m).log (exec (d.prog H) m).log := by
  rcases ha with ⟨h1, h2⟩ | ha
  · exact fun k => ⟨fun h => absurd h (looks_writes _ m (call_looks h1) k),
      fun h => absurd h (looks_writes _ m (call_looks h2) k)⟩
  · have gc := (call_good hH hc sc zc pc).2
    have gd := (call_good hH hd sd zd pd).2
    exact fun k => ⟨fun h h' => foot_apart hH zc zd ha k (gc k h.touches) (gd k h'),
      fun h h' => foot_apart hH zc zd ha k (gc k h') (gd k h.touches)⟩

/-- **C74** (all calls but `link`).  Any number of calls run at the same time, in whatever order their
tree operations come.  If no file or directory is in two of them (unless both only look), and none
would panic alone, then in the end each has returned what it would have returned alone, each file has
become what the call about it would have made of it alone, and all else is as it was.

Missing for the full property: `link`, see `C74_link_loses_count`. -/
theorem C74_isolated_partial (H : Hash) (hH : H.Ok) (calls : ι → Call) (m : Store)
    (hlink : ∀ i, (calls i).isLink = false) (hsane : ∀ i, (calls i).Sane H m)
    (hzero : ∀ i, 0 ∉ (calls i).objs H m)
    (hapart : ∀ i j, i ≠ j → Apart H m (calls i) (calls j))
    (hpanic : ∀ i, (exec ((calls i).prog H) m).out ≠ .panic)
    {qs : ι → Prog} {m' : Store} (hrun : Run (fun i => (calls i).prog H) m qs m') (hfin : Finished qs) :
    (∀ i, qs i = .ret (exec ((calls i).prog H) m).out) ∧
    (∀ i, ∀ o ∈ (calls i).objs H m, ∀ k, Own H o k → m' k = (exec ((calls i).prog H) m).store k) ∧
    (∀ k, (∀ i, ∀ o ∈ (calls i).objs H m, ¬ Own H o k) → m' k = m k) := by
  have hg := fun i => call_good hH (hlink i) (hsane i) (hzero i) (hpanic i)
  have hc : ∀ i j, i ≠ j → NoConflict (exec ((calls i).prog H) m).log (exec ((calls j).prog H) m).log :=
    fun i j hij => apart_noConflict hH (hlink i) (hlink j) (hsane i) (hsane j) (hzero i) (hzero j)
      (hpanic i) (hpanic j) (hapart i j hij)
  obtain ⟨h1, h2, h3⟩ := run_finished hrun hfin (fun i => (hg i).1) hc
  have foot : ∀ i k, Foot H ((calls i).objs H m) k ↔ ∃ o ∈ (calls i).objs H m, Own H o k := by
    intro i k
    constructor
    · rintro (h | ⟨o, ho, h⟩)
      · exact ⟨_, h, .inl rfl⟩
      · exact ⟨o, ho, .inr h⟩
    · rintro ⟨o, ho, h | h⟩
      · exact .inl (by rw [h]; exact ho)
      · exact .inr ⟨o, ho, h⟩
  refine ⟨h1, ?_, ?_⟩
  · intro i o ho k hk
    by_cases hw : (exec ((calls i).prog H) m).log.writes k
    · exact h2 i k hw
    · rw [exec_unwritten _ _ _ hw]
      refine h3 k fun j hj => ?_
      by_cases hij : i = j
      · subst hij; exact hw hj
      · rcases hapart i j hij with ⟨_, hr⟩ | ha
        · exact looks_writes _ m (call_looks hr) k hj
        · exact foot_apart hH (hzero i) (hzero j) ha k ((foot i k).2 ⟨o, ho, hk⟩)
            ((hg j).2 k hj.touches)
  · intro k hk
    refine h3 k fun i hi => ?_
    obtain ⟨o, ho, h⟩ := (foot i k).1 ((hg i).2 k hi.touches)
    exact hk i o ho h

/-- **C74, one after the other.**  Such calls, run at the same time, have the effect of running them one
after the other, in any order. -/
theorem C74_serial_partial (H : Hash) (hH : H.Ok) (calls : ι → Call) (m : Store)
    (hlink : ∀ i, (calls i).isLink = false) (hsane : ∀ i, (calls i).Sane H m)
    (hzero : ∀ i, 0 ∉ (calls i).objs H m)
    (hapart : ∀ i j, i ≠ j → Apart H m (calls i) (calls j))
    (hpanic : ∀ i, (exec ((calls i).prog H) m).out ≠ .panic)
    {qs : ι → Prog} {m' : Store} (hrun : Run (fun i => (calls i).prog H) m qs m') (hfin : Finished qs)
    (order : List ι) (hnodup : order.Nodup) (hall : ∀ i, i ∈ order) :
    (serial (fun i => (calls i).prog H) order m).1 = m' ∧
    ∀ i o, (i, o) ∈ (serial (fun i => (calls i).prog H) order m).2 → qs i = .ret o := by
  have ht := fun i => (call_good hH (hlink i) (hsane i) (hzero i) (hpanic i)).1
  have hc : ∀ i j, i ≠ j → NoConflict (exec ((calls i).prog H) m).log (exec ((calls j).prog H) m).log :=
    fun i j hij => apart_noConflict hH (hlink i) (hlink j) (hsane i) (hsane j) (hzero i) (hzero j)
      (hpanic i) (hpanic j) (hapart i j hij)
  obtain ⟨h1, h2, h3⟩ := run_finished hrun hfin ht hc
  obtain ⟨s1, s2, s3⟩ := run_finished (serial_run order (fun i => (calls i).prog H) m hnodup)
    (finish_finished _ order m hall) ht hc
  constructor
  · funext k
    by_cases hw : ∃ i, (exec ((calls i).prog H) m).log.writes k
    · obtain ⟨i, hi⟩ := hw
      rw [s2 i k hi, h2 i k hi]
    · have hw' : ∀ i, ¬ (exec ((calls i).prog H) m).log.writes k := fun i hi => hw ⟨i, hi⟩
      rw [s3 k hw', h3 k hw']
  · intro i o ho
    have hi := s1 i
    unfold finish at hi
    have hnd : ((serial (fun i => (calls i).prog H) order m).2.map (·.1)).Nodup := by
      rw [serial_index]; exact hnodup
    have hfind : ∀ l : List (ι × Outcome), (l.map (·.1)).Nodup → (i, o) ∈ l →
        l.find? (fun x => x.1 = i) = some (i, o) := by
      intro l
      induction l with
      | nil => intro _ h; cases h
      | cons x l ih =>
        intro hn hm
        simp only [List.map_cons, List.nodup_cons] at hn
        rw [List.find?_cons]
        rcases List.mem_cons.1 hm with h | h
        · rw [← h]; simp
        · have : x.1 ≠ i := by
            intro he; apply hn.1; rw [he]; exact List.mem_map.2 ⟨(i, o), h, rfl⟩
          simp only [this, decide_false]
          exact ih hn.2 h
    rw [hfind _ hnd ho] at hi
    rw [h1 i, ← hi]

/-- **C74, one call.**  It does not matter in which order the tree operations come that a call makes at
the same time. -/
theorem C74_own_parts_partial (H : Hash) (hH : H.Ok) (c : Call) (m : Store)
    (hlink : c.isLink = false) (hsane : c.Sane H m) (hzero : 0 ∉ c.objs H m)
    (hpanic : (exec (c.prog H) m).out ≠ .panic)
    {qs : Unit → Prog} {m' : Store} (hrun : Run (fun _ => c.prog H) m qs m') (hfin : Finished qs) :
    qs () = .ret (exec (c.prog H) m).out ∧ m' = (exec (c.prog H) m).store := by
  have hg := call_good hH hlink hsane hzero hpanic
  obtain ⟨h1, h2, h3⟩ := run_finished hrun hfin (fun _ => hg.1) (fun _ _ h => absurd rfl h)
  refine ⟨h1 (), ?_⟩
  funext k
  by_cases hw : (exec (c.prog H) m).log.writes k
  · exact h2 () k hw
  · rw [exec_unwritten _ _ _ hw]; exact h3 k fun _ => hw

/-- **C74, progress.**  Whatever calls are under way, and however far they have come, they can all
finish. -/
theorem C74_can_finish (qs : ι → Prog) (m : Store) (all : List ι) (hnodup : all.Nodup)
    (hall : ∀ i, i ∈ all) : ∃ rs m', Run qs m rs m' ∧ Finished rs :=
  ⟨_, _, serial_run all qs m hnodup, finish_finished qs all m hall⟩

/-! ## A scheduler for examples -/

/-- One step, at the place in the joins that `path` leads to. -/
def stepAt : List Bool → Prog → Store → Option (Prog × Store)
  | [], .get k f, m => some (f (m k), m)
  | [], .insert k v f, m => some (f (m k), m.set k (some v))
  | [], .remove k f, m => some (f (m k), m.set k none)
  | [], .scan lo hi f, m => some (f (m.items lo hi), m)
  | [], .clear lo hi p, m => some (p, m.clear lo hi)
  | [], .join (.ret (.ok a)) (.ret (.ok b)) f, m => some (f a b, m)
  | false :: path, .join p q f, m => (stepAt path p m).map fun x => (.join x.1 q f, x.2)
  | true :: path, .join p q f, m => (stepAt path q m).map fun x => (.join p x.1 f, x.2)
  | _, _, _ => none

theorem stepAt_step (path : List Bool) : ∀ p m q m', stepAt path p m = some (q, m') → Step p m q m' := by
  induction path with
  | nil =>
    intro p m q m' h
    unfold stepAt at h
    split at h <;> simp_all
    · obtain ⟨rfl, rfl⟩ := h; exact .get
    · obtain ⟨rfl, rfl⟩ := h; exact .insert
    · obtain ⟨rfl, rfl⟩ := h; exact .remove
    · obtain ⟨rfl, rfl⟩ := h; exact .scan
    · obtain ⟨rfl, rfl⟩ := h; exact .clear
    · obtain ⟨rfl, rfl⟩ := h; exact .both
  | cons b path ih =>
    intro p m q m' h
    cases b <;> cases p <;> simp only [stepAt, Option.map_eq_some_iff, reduceCtorEq] at h
    · obtain ⟨⟨x, m1⟩, hx, he⟩ := h
      cases he
      exact .left (ih _ _ _ _ hx)
    · obtain ⟨⟨x, m1⟩, hx, he⟩ := h
      cases he
      exact .right (ih _ _ _ _ hx)

/-- Steps of two calls, `false` and `true`. -/
def drive : List (Bool × List Bool) → (Bool → Prog) → Store → Option ((Bool → Prog) × Store)
  | [], ps, m => some (ps, m)
  | (i, path) :: l, ps, m =>
    match stepAt path (ps i) m with
    | some (q, m') => drive l (fun j => if j = i then q else ps j) m'
    | none => none

theorem drive_run (l : List (Bool × List Bool)) : ∀ ps m qs m', drive l ps m = some (qs, m') →
    Run ps m qs m' := by
  induction l with
  | nil => intro ps m qs m' h; simp only [drive, Option.some.injEq, Prod.mk.injEq] at h
           obtain ⟨rfl, rfl⟩ := h; exact .refl
  | cons x l ih =>
    intro ps m qs m' h
    obtain ⟨i, path⟩ := x
    simp only [drive] at h
    split at h
    · rename_i q m1 hs
      exact Run.trans (Run.refl.step (stepAt_step _ _ _ _ _ hs)) (ih _ _ _ _ h)
    · cases h

def outOf : Prog → Option Outcome
  | .ret o => some o
  | _ => none

theorem drive_reaches {l : List (Bool × List Bool)} {ps : Bool → Prog} {m : Store} {k : Nat} {a b : Outcome}
    {v : Option Val}
    (h : (drive l ps m).map (fun x => (outOf (x.1 false), outOf (x.1 true), x.2 k)) =
      some (some a, some b, v)) :
    ∃ qs m', Run ps m qs m' ∧ qs false = .ret a ∧ qs true = .ret b ∧ m' k = v := by
  rw [Option.map_eq_some_iff] at h
  obtain ⟨⟨qs, m'⟩, h1, h2⟩ := h
  simp only [Prod.mk.injEq] at h2
  refine ⟨qs, m', drive_run _ _ _ _ _ h1, ?_, ?_, h2.2.2⟩
  · have := h2.1
    cases hq : qs false <;> simp_all [outOf]
  · have := h2.2.1
    cases hq : qs true <;> simp_all [outOf]

/-! ## A small file system -/

def mix (a : Nat) (l : List Nat) : Nat := l.foldl (fun a b => a * 31 + b + 1) a % 2 ^ 56

def H0 : Hash where
  name := mix 7
  xattr := fun ns n => mix ns n
  dying := fun i => i % 2 ^ 56

theorem H0_ok : H0.Ok where
  name := fun _ => Nat.mod_lt _ (by omega)
  xattr := fun _ _ => Nat.mod_lt _ (by omega)
  dying := fun _ => Nat.mod_lt _ (by omega)
  dots := by decide

def ofList (l : List (Nat × Val)) : Store := fun k => (l.find? fun x => x.1 = k).map (·.2)

/-- Directory 1 with a file 5 named `a` of one record; directory 7 with a file 8 named `b`. -/
def world : Store := ofList [
  (direntKey H0 1 dot, .dirent ⟨1, true, dot⟩), (direntKey H0 1 dotdot, .dirent ⟨1, true, dotdot⟩),
  (direntKey H0 1 [97], .dirent ⟨5, false, [97]⟩),
  (inodeKey 1, .inode ⟨3, 0, 0, 0, .dir⟩),
  (inodeKey 5, .inode ⟨1, 4, 4, 0, .reg 4⟩), (extentKey 5 0, .extent [1, 2, 3, 4]),
  (direntKey H0 7 dot, .dirent ⟨7, true, dot⟩), (direntKey H0 7 dotdot, .dirent ⟨1, true, dotdot⟩),
  (direntKey H0 7 [98], .dirent ⟨8, false, [98]⟩),
  (inodeKey 7, .inode ⟨2, 0, 0, 0, .dir⟩),
  (inodeKey 8, .inode ⟨2, 0, 0, 0, .reg 4⟩)]

theorem world_size (o : Nat) (h : o ∈ [1, 5, 7, 8]) : SizeOk world o := by
  simp only [List.mem_cons, List.not_mem_nil, or_false] at h
  intro i hi
  rcases h with rfl | rfl | rfl | rfl
  · have : world (inodeKey 1) = some (.inode ⟨3, 0, 0, 0, .dir⟩) := by decide +kernel
    rw [this] at hi; cases hi; simp
  · have : world (inodeKey 5) = some (.inode ⟨1, 4, 4, 0, .reg 4⟩) := by decide +kernel
    rw [this] at hi; cases hi; simp
  · have : world (inodeKey 7) = some (.inode ⟨2, 0, 0, 0, .dir⟩) := by decide +kernel
    rw [this] at hi; cases hi; simp
  · have : world (inodeKey 8) = some (.inode ⟨2, 0, 0, 0, .reg 4⟩) := by decide +kernel
    rw [this] at hi; cases hi; simp

/-- A directory is made, a file written, another unlinked, all at the same time. -/
def three : Fin 3 → Call
  | 0 => .mkdir 1 10 [120] 0
  | 1 => .write 5 2 [9, 9, 9, 9, 9]
  | 2 => .unlink 7 (some 8) [98]

/-- The hypotheses of `C74_isolated_partial` and `C74_serial_partial` are met. -/
example : (∀ i, (three i).isLink = false) ∧ (∀ i, (three i).Sane H0 world) ∧
    (∀ i, 0 ∉ (three i).objs H0 world) ∧ (∀ i j, i ≠ j → Apart H0 world (three i) (three j)) ∧
    (∀ i, (exec ((three i).prog H0) world).out ≠ .panic) ∧
    (∃ qs m', Run (fun i => (three i).prog H0) world qs m' ∧ Finished qs) ∧
    ([2, 0, 1] : List (Fin 3)).Nodup ∧ (∀ i : Fin 3, i ∈ ([2, 0, 1] : List (Fin 3))) := by
  have h0 : (three 0).objs H0 world = [1, 10] := by decide +kernel
  have h1 : (three 1).objs H0 world = [5] := by decide +kernel
  have h2 : (three 2).objs H0 world = [7, 8] := by decide +kernel
  have hall : ∀ P : Fin 3 → Prop, P 0 → P 1 → P 2 → ∀ i, P i := by
    intro P a b c i
    match i with
    | 0 => exact a
    | 1 => exact b
    | 2 => exact c
  refine ⟨by decide, ?_, ?_, ?_, ?_, C74_can_finish _ _ [0, 1, 2] (by decide) (by decide), by decide,
    by decide⟩
  · refine hall _ ?_ ?_ ?_
    · show 1 ≠ 10; decide
    · exact ⟨world_size 5 (by simp), by decide⟩
    · show 7 ∉ named H0 world 7 [98]; decide +kernel
  · refine hall _ ?_ ?_ ?_
    · rw [h0]; decide
    · rw [h1]; decide
    · rw [h2]; decide
  · refine hall _ ?_ ?_ ?_ <;> refine hall _ ?_ ?_ ?_ <;> intro hij <;> first
      | exact absurd rfl hij
      | (right; simp only [h0, h1, h2]; decide)
  · refine hall _ ?_ ?_ ?_ <;> decide +kernel

/-- Two calls that look at the same directory, and one that changes another. -/
def looks : Fin 3 → Call
  | 0 => .lookup 1 [97]
  | 1 => .getattr 1
  | 2 => .setattr 5 none (some 7)

/-- The hypotheses are also met by calls that share what they only look at. -/
example : (∀ i, (looks i).isLink = false) ∧ (∀ i, (looks i).Sane H0 world) ∧
    (∀ i, 0 ∉ (looks i).objs H0 world) ∧ (∀ i j, i ≠ j → Apart H0 world (looks i) (looks j)) ∧
    (∀ i, (exec ((looks i).prog H0) world).out ≠ .panic) := by
  have hall : ∀ P : Fin 3 → Prop, P 0 → P 1 → P 2 → ∀ i, P i := by
    intro P a b c i
    match i with
    | 0 => exact a
    | 1 => exact b
    | 2 => exact c
  refine ⟨by decide, ?_, ?_, ?_, ?_⟩
  · exact hall _ trivial trivial (world_size 5 (by simp))
  · refine hall _ ?_ ?_ ?_ <;> decide
  · refine hall _ ?_ ?_ ?_ <;> refine hall _ ?_ ?_ ?_ <;> intro hij <;> first
      | exact absurd rfl hij
      | (left; decide)
      | (right; decide)
  · refine hall _ ?_ ?_ ?_ <;> decide +kernel

/-- The hypotheses of `C74_own_parts_partial` are met by a rename from one directory to another. -/
example : (Call.rename 7 8 [98] 1 (some 5) [97]).Sane H0 world ∧
    0 ∉ (Call.rename 7 8 [98] 1 (some 5) [97]).objs H0 world ∧
    (exec ((Call.rename 7 8 [98] 1 (some 5) [97]).prog H0) world).out = .ok (.num 8) ∧
    (exec ((Call.rename 7 8 [98] 1 (some 5) [97]).prog H0) world).store (inodeKey 5) = none := by
  refine ⟨⟨by decide, by decide, ?_, ?_, ?_⟩, ?_, ?_, ?_⟩ <;> decide +kernel

/-! ## What does not hold -/

/-- The order in which the parts of `link` may come: its time stamp update reads the inode before the
new link count has been stored, and stores it after. -/
def linkOrder : List (Bool × List Bool) := [
  (true, []), (false, []), (false, [true, true, true]), (false, [false]),
  (false, [true, true, true]), (false, [true, false]), (false, [true, true, false]),
  (false, [true, true, false]), (false, [true, true]), (false, [true]), (false, [])]

/-- **C74 is false of `link`**: even beside a call that only looks at another directory, the link count
can stay at 2 though the file has a third name. -/
theorem C74_link_loses_count : ∃ qs m',
    Run (fun b : Bool => if b then (Call.getattr 1).prog H0 else (Call.link 7 8 [99]).prog H0) world qs m' ∧
    Finished qs ∧ Apart H0 world (.getattr 1) (.link 7 8 [99]) ∧
    m' (inodeKey 8) = some (.inode ⟨2, 0, 0, 0, .reg 4⟩) ∧
    (exec ((Call.link 7 8 [99]).prog H0) world).store (inodeKey 8) =
      some (.inode ⟨3, 0, 0, 0, .reg 4⟩) := by
  obtain ⟨qs, m', h1, h2, h3, h4⟩ := drive_reaches (l := linkOrder)
    (ps := fun b : Bool => if b then (Call.getattr 1).prog H0 else (Call.link 7 8 [99]).prog H0)
    (m := world) (k := inodeKey 8) (a := .ok .unit) (b := .ok (.inode ⟨3, 0, 0, 0, .dir⟩))
    (v := some (.inode ⟨2, 0, 0, 0, .reg 4⟩)) (by decide +kernel)
  refine ⟨qs, m', h1, ?_, ?_, h4, by decide +kernel⟩
  · intro b; cases b
    · exact ⟨_, h2⟩
    · exact ⟨_, h3⟩
  · right; decide

def mkdirOrder : List (Bool × List Bool) := [
  (false, [true, true, true, true]), (true, [true, true, true, true]),
  (false, [true, true, true, true]), (true, [true, true, true, true])] ++
  ([false, true].flatMap fun b => [[false], [true, false], [true, true, false],
    [true, true, true, false], [true, true, true], [true, true], [true], []].map (b, ·))

/-- **Calls on the same directory do disturb each other**: of two directories made in it at the same
time, its link count may notice one. -/
theorem C74_mkdir_loses_count : ∃ qs m',
    Run (fun b : Bool => if b then (Call.mkdir 7 11 [121] 0).prog H0 else (Call.mkdir 7 10 [120] 0).prog H0)
      world qs m' ∧
    qs false = .ret (.ok (.num 10)) ∧ qs true = .ret (.ok (.num 11)) ∧
    m' (inodeKey 7) = some (.inode ⟨3, 0, 0, 0, .dir⟩) ∧
    (serial (fun b : Bool => if b then (Call.mkdir 7 11 [121] 0).prog H0 else (Call.mkdir 7 10 [120] 0).prog H0)
      [false, true] world).1 (inodeKey 7) = some (.inode ⟨4, 0, 0, 0, .dir⟩) := by
  obtain ⟨qs, m', h1, h2, h3, h4⟩ := drive_reaches (l := mkdirOrder)
    (ps := fun b : Bool => if b then (Call.mkdir 7 11 [121] 0).prog H0 else (Call.mkdir 7 10 [120] 0).prog H0)
    (m := world) (k := inodeKey 7) (a := .ok (.num 10)) (b := .ok (.num 11))
    (v := some (.inode ⟨3, 0, 0, 0, .dir⟩)) (by decide +kernel)
  exact ⟨qs, m', h1, h2, h3, h4, by decide +kernel⟩

def writeOrder : List (Bool × List Bool) := [
  (false, []), (true, []), (true, [false]), (true, [false]), (true, []), (true, []),
  (false, [false]), (false, [false]), (false, []), (false, [])]

/-- **Writes to the same file do disturb each other**: a write beyond the end, of which the caller has
been told that it succeeded, may be cut off by another that began at the same time. -/
theorem C74_write_loses_size : ∃ qs m',
    Run (fun b : Bool => if b then (Call.write 5 8 [2]).prog H0 else (Call.write 5 4 [1]).prog H0) world qs m' ∧
    qs false = .ret (.ok (.num 1)) ∧ qs true = .ret (.ok (.num 1)) ∧
    m' (inodeKey 5) = some (.inode ⟨1, 5, 5, 0, .reg 4⟩) ∧
    (serial (fun b : Bool => if b then (Call.write 5 8 [2]).prog H0 else (Call.write 5 4 [1]).prog H0)
      [true, false] world).1 (inodeKey 5) = some (.inode ⟨1, 9, 6, 0, .reg 4⟩) := by
  obtain ⟨qs, m', h1, h2, h3, h4⟩ := drive_reaches (l := writeOrder)
    (ps := fun b : Bool => if b then (Call.write 5 8 [2]).prog H0 else (Call.write 5 4 [1]).prog H0)
    (m := world) (k := inodeKey 5) (a := .ok (.num 1)) (b := .ok (.num 1))
    (v := some (.inode ⟨1, 5, 5, 0, .reg 4⟩)) (by decide +kernel)
  exact ⟨qs, m', h1, h2, h3, h4, by decide +kernel⟩

end Verif.Isol
