import Verif.Attrs.Forget

/-!
# C70: file attributes and timestamps

`h` is the 56-bit hash that keys the records of dying inodes.
-/

namespace Verif.Attrs

open Verif
open Verif.Namespace (Name Ent Errno Ret)

/-- The attributes of the files, after any history. -/
theorem steps_given {h : Nat → Nat} {c c' : Client} {es : List Event} (hs : Steps h c es c')
    {i : Nat} {y : Inode} (hy : c'.fs.inodes.get i = some y) (d : Inode) :
    let x := (c.fs.inodes.get i).getD d
    y.size = lastGiven (·.size) i x.size es ∧ y.flags = lastGiven (·.flags) i x.flags es ∧
    y.atime = lastGiven (·.atime) i x.atime es ∧ y.mtime = lastGiven (·.mtime) i x.mtime es ∧
    y.ctime = lastGiven (·.ctime) i x.ctime es ∧
    y.birthtime = lastGiven (·.birthtime) i x.birthtime es ∧
    y.uid = lastGiven (·.uid) i x.uid es ∧ y.gid = lastGiven (·.gid) i x.gid es ∧
    y.perm = lastGiven (·.perm) i x.perm es ∧ y.ftype = lastGiven (·.ftype) i x.ftype es := by
  induction hs generalizing d with
  | nil c => simp [hy, lastGiven]
  | @cons c c1 c2 op now r es h1 h2 ih =>
    have hg := step_gives h1
    cases hx1 : c1.fs.inodes.get i with
    | some x1 =>
      have hi := ih hy d
      rw [hx1] at hi
      simp only [Option.getD_some] at hi
      have hu : Upd (given ⟨op, now, r, c.fs⟩ i) ((c.fs.inodes.get i).getD d) x1 := by
        rcases hg i x1 hx1 with ⟨_, hu⟩ | ⟨_, x, hx, hu⟩
        · exact hu _
        · rw [show c.fs.inodes.get i = some x from hx]; exact hu
      simp only [lastGiven]
      obtain ⟨g1, g2, g3, g4, g5, g6, g7, g8, g9, g10⟩ := hi
      rw [hu.size] at g1; rw [hu.flags] at g2; rw [hu.atime] at g3; rw [hu.mtime] at g4
      rw [hu.ctime] at g5; rw [hu.birthtime] at g6; rw [hu.uid] at g7; rw [hu.gid] at g8
      rw [hu.perm] at g9; rw [hu.ftype] at g10
      exact ⟨g1, g2, g3, g4, g5, g6, g7, g8, g9, g10⟩
    | none =>
      -- the file does not exist here, so any default will do
      simp only [lastGiven]
      let x := (c.fs.inodes.get i).getD d
      let g := given ⟨op, now, r, c.fs⟩ i
      have hi := ih hy { x with
        size := g.size.getD x.size, flags := g.flags.getD x.flags
        atime := g.atime.getD x.atime, mtime := g.mtime.getD x.mtime
        ctime := g.ctime.getD x.ctime, birthtime := g.birthtime.getD x.birthtime
        uid := g.uid.getD x.uid, gid := g.gid.getD x.gid, perm := g.perm.getD x.perm
        ftype := g.ftype.getD x.ftype }
      rw [hx1] at hi
      exact hi

/-- C70: after every history of requests, remounts included, each attribute that getattr reports
of a file is the one that the history gave it last: the last value a client asked for, or the time
of the last request that had to mark the timestamp. -/
theorem C70_attributes_are_last_given_partial (h : Nat → Nat) (t0 : Time) {es : List Event}
    {c : Client} (hs : Steps h (Client.new t0) es c) {i : Nat} {a : GetAttr}
    (ha : getattr c.fs i = some a) : a.ino = i ∧ Agrees (rootInode t0) es a := by
  unfold getattr at ha
  split at ha
  · cases ha
  · rename_i y hy
    injection ha with ha
    obtain ⟨g1, g2, g3, g4, g5, g6, g7, g8, g9, g10⟩ := steps_given hs hy (rootInode t0)
    have hd : ((Client.new t0).fs.inodes.get i).getD (rootInode t0) = rootInode t0 := by
      simp only [Client.new, createFs, OMap.get]
      split <;> rfl
    rw [hd] at g1 g2 g3 g4 g5 g6 g7 g8 g9 g10
    subst ha
    refine ⟨rfl, g1, g2, g3, g4, g5, g6, g7, g8, ?_, ?_, ?_⟩
    · simp only [← g9, ← g10]
    · simp only [← g10, FType.rdev]
      cases y.ftype <;> rfl
    · simp only [← g10, FType.blksize, Inode.recordSize]
      cases y.ftype <;> rfl

/-- C70: every file but the root directory was created by a request of the history, so nothing in
its attributes comes from elsewhere. -/
theorem C70_files_are_created (h : Nat → Nat) (t0 : Time) {es : List Event} {c : Client}
    (hs : Steps h (Client.new t0) es c) {i : Nat} {a : GetAttr} (ha : getattr c.fs i = some a)
    (hi : i ≠ 1) : ∃ e ∈ es, e.creates i := by
  have key : ∀ {c0 c : Client} {es : List Event}, Steps h c0 es c →
      (∃ y, c.fs.inodes.get i = some y) → (∃ x, c0.fs.inodes.get i = some x) ∨
        ∃ e ∈ es, e.creates i := by
    intro c0 c es hs
    induction hs with
    | nil c => exact Or.inl
    | @cons c c1 c2 op now r es h1 h2 ih =>
      intro hy
      rcases ih hy with ⟨x1, hx1⟩ | ⟨e, he, hc⟩
      · rcases step_gives h1 i x1 hx1 with ⟨hc, _⟩ | ⟨_, x, hx, _⟩
        · exact Or.inr ⟨_, List.mem_cons_self .., hc⟩
        · exact Or.inl ⟨x, hx⟩
      · exact Or.inr ⟨e, List.mem_cons_of_mem _ he, hc⟩
  have hy : ∃ y, c.fs.inodes.get i = some y := by
    unfold getattr at ha
    split at ha
    · cases ha
    · rename_i y hy; exact ⟨y, hy⟩
  rcases key hs hy with ⟨x, hx⟩ | hc
  · simp only [Client.new, createFs, OMap.get] at hx
    split at hx
    · rename_i k; exact absurd k.symm hi
    · cases hx
  · exact hc

/-- C70: no valid history panics, and the names and link counts are consistent at its end. -/
theorem C70_valid_histories (h : Nat → Nat) (t0 : Time) (ops : List (Op × (Nat → Time)))
    (hv : ValidRun h (Client.new t0) ops) :
    ∃ es c, es.map (fun e => (e.op, e.now)) = ops ∧ Steps h (Client.new t0) es c ∧
      Namespace.Consistent c.fs.forget := by
  have key : ∀ (ops : List (Op × (Nat → Time))) (c : Client), Namespace.Inv h c.forget.fs →
      ValidRun h c ops → ∃ es c', es.map (fun e => (e.op, e.now)) = ops ∧ Steps h c es c' ∧
        Namespace.Inv h c'.forget.fs := by
    intro ops
    induction ops with
    | nil => exact fun c I _ => ⟨[], c, rfl, .nil c, I⟩
    | cons o ops ih =>
      obtain ⟨op, now⟩ := o
      rintro c I ⟨v1, v2⟩
      obtain ⟨r, c1, h1, I1⟩ := step_total (now := now) I v1
      obtain ⟨es, c2, h2, h3, I2⟩ := ih c1 I1 (v2 r c1 h1)
      exact ⟨⟨op, now, r, c.fs⟩ :: es, c2, by simp [h2], .cons h1 h3, I2⟩
  obtain ⟨es, c, h1, h2, I⟩ := key ops (Client.new t0) Namespace.new_inv hv
  exact ⟨es, c, h1, h2, Namespace.consistent_of_inv I⟩

theorem getattr_some {s : FS} {i : Nat} {g : GetAttr} (hg : getattr s i = some g) :
    ∃ x, s.inodes.get i = some x ∧ g.mode = x.ftype.mode ||| x.perm ∧ g.size = x.size ∧
      g.uid = x.uid ∧ g.gid = x.gid ∧ g.flags = x.flags ∧ g.birthtime = x.birthtime ∧
      g.atime = x.atime ∧ g.ctime = x.ctime ∧ g.mtime = x.mtime ∧ g.nlink = x.nlink ∧
      g.rdev = x.ftype.rdev ∧ g.blksize = x.ftype.blksize % 2 ^ 32 ∧ g.ino = i ∧
      g.bytes = x.bytes := by
  unfold getattr at hg
  split at hg
  · cases hg
  · rename_i x hx
    injection hg with hg
    subst hg
    refine ⟨x, hx, rfl, rfl, rfl, rfl, rfl, rfl, rfl, rfl, rfl, rfl, ?_, ?_, rfl, rfl⟩
    · simp only [FType.rdev]; cases x.ftype <;> rfl
    · simp only [FType.blksize, Inode.recordSize]; cases x.ftype <;> rfl

theorem getattr_of {s : FS} {i : Nat} {x : Inode} (hx : s.inodes.get i = some x) :
    ∃ g, getattr s i = some g := by
  unfold getattr; rw [hx]; exact ⟨_, rfl⟩

/-- C70: a client that sets attributes reads the same ones back, the change time is the time of
the request unless the client asked for another, a truncation also counts as a modification, the
type stays, and nothing else changes on any file. -/
theorem C70_set_then_get (h : Nat → Nat) (now : Nat → Time) {c c' : Client} {i freed : Nat}
    {a : SetAttr} {r : Ret} (hs : c.step h now (.setattr i a freed) = some (r, c')) :
    (∃ g g', getattr c.fs i = some g ∧ getattr c'.fs i = some g' ∧
      g'.size = a.size.getD g.size ∧ g'.uid = a.uid.getD g.uid ∧ g'.gid = a.gid.getD g.gid ∧
      g'.flags = a.flags.getD g.flags ∧ g'.birthtime = a.birthtime.getD g.birthtime ∧
      g'.atime = a.atime.getD g.atime ∧ g'.ctime = a.ctime.getD (now i) ∧
      g'.mtime = a.mtime.getD (if a.size.isSome then g'.ctime else g.mtime) ∧
      (∃ (type : FType) (perm : Nat), g.mode = type.mode ||| perm ∧
        g'.mode = type.mode ||| a.perm.getD perm) ∧
      g'.nlink = g.nlink ∧ g'.rdev = g.rdev ∧ g'.blksize = g.blksize) ∧
    ∀ j, j ≠ i → getattr c'.fs j = getattr c.fs j := by
  obtain ⟨hs, _⟩ := withFs_some hs
  unfold setattr at hs
  simp only [Option.map_eq_some_iff] at hs
  obtain ⟨t', ht', hrt⟩ := hs
  injection hrt with _ ht
  obtain ⟨x, z, hx, hz, he⟩ := modInode_some ht'
  have hget : ∀ j, c'.fs.inodes.get j = if j = i then some z else c.fs.inodes.get j := by
    intro j; rw [← ht, he]; exact OMap.get_insert _ _ _ _
  have hzi : c'.fs.inodes.get i = some z := by rw [hget, if_pos rfl]
  constructor
  · obtain ⟨g, hg⟩ := getattr_of hx
    obtain ⟨g', hg'⟩ := getattr_of hzi
    refine ⟨g, g', hg, hg', ?_⟩
    obtain ⟨x', hx', f1, f2, f3, f4, f5, f6, f7, f8, f9, f10, f11, f12, _, _⟩ := getattr_some hg
    obtain ⟨z', hz', e1, e2, e3, e4, e5, e6, e7, e8, e9, e10, e11, e12, _, _⟩ := getattr_some hg'
    rw [hx] at hx'; cases hx'
    rw [hzi] at hz'; cases hz'
    have hfields : z.size = a.size.getD x.size ∧ z.flags = a.flags.getD x.flags ∧
        z.atime = a.atime.getD x.atime ∧ z.ctime = a.ctime.getD (now i) ∧
        z.mtime = a.mtime.getD (if a.size.isSome then a.ctime.getD (now i) else x.mtime) ∧
        z.birthtime = a.birthtime.getD x.birthtime ∧ z.uid = a.uid.getD x.uid ∧
        z.gid = a.gid.getD x.gid ∧ z.perm = a.perm.getD x.perm ∧ z.ftype = x.ftype ∧
        z.nlink = x.nlink := by
      unfold applyAttr at hz
      cases hct : a.ctime with
      | none =>
        simp only [hct, Option.isNone_none, if_true, Option.getD_some] at hz
        split at hz
        · split at hz
          · cases hz
          · injection hz with hz; subst hz
            simp
        · injection hz with hz; subst hz
          simp
      | some tm =>
        simp only [hct, Option.isNone_some, Bool.false_eq_true, if_false, Option.getD_some] at hz
        split at hz
        · split at hz
          · cases hz
          · injection hz with hz; subst hz
            simp
        · injection hz with hz; subst hz
          simp
    obtain ⟨k1, k2, k3, k4, k5, k6, k7, k8, k9, k10, k11⟩ := hfields
    refine ⟨by rw [e2, f2, k1], by rw [e3, f3, k7], by rw [e4, f4, k8], by rw [e5, f5, k2],
      by rw [e6, f6, k6], by rw [e7, f7, k3], by rw [e8, k4], by rw [e9, e8, f9, k5, k4],
      ⟨x.ftype, x.perm, f1, by rw [e1, k9, k10]⟩, by rw [e10, f10, k11], by rw [e11, f11, k10],
      by rw [e12, f12, k10]⟩
  · intro j hj
    unfold getattr
    rw [hget, if_neg hj]

theorem and_ifmt {perm : Nat} (hp : perm < 2 ^ 12) : perm &&& 0o170000 = 0 := by
  apply Nat.eq_of_testBit_eq
  intro j
  rw [Nat.testBit_and, Nat.zero_testBit]
  by_cases hj : j < 12
  · rw [show (0o170000 : Nat) = 15 <<< 12 by decide, Nat.testBit_shiftLeft]
    simp; intro _; omega
  · rw [Nat.testBit_lt_two_pow (Nat.lt_of_lt_of_le hp (Nat.pow_le_pow_right (by omega) (by omega)))]
    rfl

/-- The daemon finds the type and the permissions in the mode. -/
theorem mode_parts (ft : FType) {perm : Nat} (hp : perm < 2 ^ 12) :
    kindOf (ft.mode ||| perm) = some ft.kind ∧ (ft.mode ||| perm) % 2 ^ 12 = perm := by
  have h1 : (ft.mode ||| perm) &&& 0o170000 = ft.mode := by
    have h2 : ft.mode &&& 0o170000 = ft.mode := by cases ft <;> simp only [FType.mode] <;> decide
    rw [Nat.and_or_distrib_right, and_ifmt hp, h2, Nat.or_zero]
  constructor
  · unfold kindOf
    rw [h1]
    cases ft <;> rfl
  · have h3 : ft.mode % 2 ^ 12 = 0 := by cases ft <;> simp only [FType.mode] <;> decide
    rw [Nat.or_mod_two_pow, Nat.mod_eq_of_lt hp, h3, Nat.zero_or]

theorem lastGiven_perm {es : List Event} (hm : ∀ e ∈ es, e.Masked) (i : Nat) {d : Nat}
    (hd : d < 2 ^ 12) : lastGiven (·.perm) i d es < 2 ^ 12 := by
  induction es generalizing d with
  | nil => exact hd
  | cons e es ih =>
    simp only [lastGiven]
    apply ih (fun e he => hm e (List.mem_cons_of_mem _ he))
    have he := hm e (List.mem_cons_self ..)
    obtain ⟨op, now, ret, before⟩ := e
    cases op with
    | create p n args =>
      by_cases hc : Event.creates ⟨.create p n args, now, ret, before⟩ i
      · simp only [given, hc, if_true, Event.args, Option.map_some, Option.getD_some]; exact he
      · simp only [given, hc, if_false, Event.asked, Option.getD_none]; exact hd
    | mkdir p n perm uid gid =>
      by_cases hc : Event.creates ⟨.mkdir p n perm uid gid, now, ret, before⟩ i
      · simp only [given, hc, if_true, Event.args, Option.map_some, Option.getD_some]; exact he
      · simp only [given, hc, if_false, Event.asked, Option.getD_none]; exact hd
    | setattr j a f =>
      have hc : ¬ Event.creates ⟨.setattr j a f, now, ret, before⟩ i := id
      simp only [given, hc, if_false, Event.asked]
      split
      · cases hp : a.perm with
        | none => exact hd
        | some q => exact he q hp
      · exact hd
    | _ =>
      rw [given, if_neg (by simp [Event.creates])]
      exact hd

/-- C70: what the daemon's clients are told of a file's type, permissions, owner, size and
timestamps is what the history gave it last; its link count and device number are exact as long as
they fit 32 bits. -/
theorem C70_stat_partial (h : Nat → Nat) (t0 : Time) {es : List Event} {c : Client}
    (hs : Steps h (Client.new t0) es c) (hm : ∀ e ∈ es, e.Masked) {i : Nat} {a : GetAttr}
    (ha : getattr c.fs i = some a) :
    ∃ f, fileAttr a = some f ∧ f.ino = i ∧
      f.kind = (lastGiven (·.ftype) i .dir es).kind ∧
      f.perm = lastGiven (·.perm) i 0o755 es ∧
      f.size = lastGiven (·.size) i 0 es ∧
      f.atime = lastGiven (·.atime) i t0 es ∧ f.mtime = lastGiven (·.mtime) i t0 es ∧
      f.ctime = lastGiven (·.ctime) i t0 es ∧
      f.uid = lastGiven (·.uid) i 0 es ∧ f.gid = lastGiven (·.gid) i 0 es ∧
      (a.nlink < 2 ^ 32 → f.nlink = a.nlink) ∧
      (a.rdev < 2 ^ 32 → f.rdev = (lastGiven (·.ftype) i .dir es).rdev) := by
  obtain ⟨hi, A⟩ := C70_attributes_are_last_given_partial h t0 hs ha
  subst hi
  obtain ⟨k1, k2⟩ := mode_parts (lastGiven (·.ftype) a.ino .dir es)
    (lastGiven_perm hm a.ino (d := 0o755) (by decide))
  have hmode := A.mode
  simp only [rootInode] at hmode
  unfold fileAttr
  rw [hmode, k1]
  refine ⟨_, rfl, rfl, rfl, k2, A.size, A.atime, A.mtime, A.ctime, A.uid, A.gid,
    fun hn => Nat.mod_eq_of_lt hn, fun hr => ?_⟩
  simp only [Nat.mod_eq_of_lt hr]
  exact A.rdev

theorem Steps.snoc {h : Nat → Nat} {c c1 c2 : Client} {es : List Event} (hs : Steps h c es c1)
    {op : Op} {now : Nat → Time} {r : Ret} (hstep : c1.step h now op = some (r, c2)) :
    Steps h c (es ++ [⟨op, now, r, c1.fs⟩]) c2 := by
  induction hs with
  | nil c => exact .cons hstep (.nil _)
  | cons h1 _ ih => exact .cons h1 (ih hstep)

theorem lastGiven_append {α : Type} (f : Given → Option α) (i : Nat) (es : List Event)
    (e : Event) (d : α) :
    lastGiven f i d (es ++ [e]) = (f (given e i)).getD (lastGiven f i d es) := by
  induction es generalizing d with
  | nil => rfl
  | cons e' es ih => exact ih _

/-- C70: after a client of the daemon sets attributes, stat reports those it asked for: the low
twelve bits of the mode, the owner, the size and the times.  The kind stays, and what it did not
ask for stays, but for the change time and, after a truncation, the modification time. -/
theorem C70_chmod_then_stat (h : Nat → Nat) (t0 : Time) {es : List Event} {c c' : Client}
    (hs : Steps h (Client.new t0) es c) (hm : ∀ e ∈ es, e.Masked) {now : Nat → Time}
    {i freed : Nat} {a : FuseSetAttr} {r : Ret}
    (hstep : c.step h now (.setattr i (fuseAttr a) freed) = some (r, c')) :
    ∃ g f g' f', getattr c.fs i = some g ∧ fileAttr g = some f ∧
      getattr c'.fs i = some g' ∧ fileAttr g' = some f' ∧
      f'.kind = f.kind ∧ f'.perm = (a.mode.map (· % 2 ^ 12)).getD f.perm ∧
      f'.size = a.size.getD f.size ∧ f'.uid = a.uid.getD f.uid ∧ f'.gid = a.gid.getD f.gid ∧
      f'.atime = a.atime.getD f.atime ∧ f'.ctime = a.ctime.getD (now i) ∧
      f'.mtime = a.mtime.getD (if a.size.isSome then f'.ctime else f.mtime) ∧
      f'.nlink = f.nlink ∧ f'.rdev = f.rdev := by
  obtain ⟨⟨g, g', hg, hg', _, _, _, _, _, _, _, _, _, e10, e11, _⟩, _⟩ :=
    C70_set_then_get h now hstep
  have hm' : ∀ e ∈ es ++ [(⟨.setattr i (fuseAttr a) freed, now, r, c.fs⟩ : Event)], e.Masked := by
    intro e he
    rcases List.mem_append.1 he with he | he
    · exact hm e he
    · rw [List.mem_singleton] at he
      subst he
      intro p hp
      simp only [fuseAttr, Option.map_eq_some_iff] at hp
      obtain ⟨m, _, rfl⟩ := hp
      exact Nat.mod_lt _ (by decide)
  obtain ⟨f, hf, _, k1, k2, k3, k4, k5, k6, k7, k8, _, _⟩ := C70_stat_partial h t0 hs hm hg
  obtain ⟨f', hf', _, l1, l2, l3, l4, l5, l6, l7, l8, _, _⟩ :=
    C70_stat_partial h t0 (hs.snoc hstep) hm' hg'
  have hr : r ≠ .error .ENOENT ∧ ∃ n, r = .ok n := by
    obtain ⟨hs, _⟩ := withFs_some hstep
    unfold setattr at hs
    simp only [Option.map_eq_some_iff] at hs
    obtain ⟨t', _, hrt⟩ := hs
    injection hrt with hr _
    exact ⟨by rw [← hr]; simp, 0, hr.symm⟩
  obtain ⟨_, n, rfl⟩ := hr
  rw [lastGiven_append] at l1 l2 l3 l4 l5 l6 l7 l8
  have hc : ¬ Event.creates ⟨.setattr i (fuseAttr a) freed, now, .ok n, c.fs⟩ i := id
  have hacc : ¬ Event.accesses ⟨.setattr i (fuseAttr a) freed, now, .ok n, c.fs⟩ i :=
    fun k => by cases k.1
  have hch : Event.changes ⟨.setattr i (fuseAttr a) freed, now, .ok n, c.fs⟩ i := Or.inr rfl
  have hmo : Event.modifies ⟨.setattr i (fuseAttr a) freed, now, .ok n, c.fs⟩ i ↔
      a.size.isSome := by simp [Event.modifies, fuseAttr]
  simp only [given, hc, if_false, Event.asked, if_true, hacc, hch, Option.getD_some,
    Option.getD_none] at l1 l2 l3 l4 l5 l6 l7 l8
  refine ⟨g, f, g', f', hg, hf, hg', hf', ?_, ?_, ?_, ?_, ?_, ?_, ?_, ?_, ?_, ?_⟩
  · rw [l1, k1]
  · rw [l2, k2]; rfl
  · rw [l3, k3]; rfl
  · rw [l7, k7]; rfl
  · rw [l8, k8]; rfl
  · rw [l4, k4]; simp only [fuseAttr]; cases a.atime <;> rfl
  · rw [l6]; rfl
  · rw [l5, l6, k5]
    have hmt : (fuseAttr a).mtime = a.mtime := rfl
    rw [hmt]
    cases a.mtime with
    | some m => rfl
    | none =>
      by_cases hz : a.size.isSome
      · rw [if_pos (hmo.2 hz), if_pos hz]; rfl
      · rw [if_neg (fun k => hz (hmo.1 k)), if_neg hz]; rfl
  · unfold fileAttr at hf hf'
    split at hf; cases hf
    split at hf'; cases hf'
    cases hf; cases hf'
    simp only [e10]
  · unfold fileAttr at hf hf'
    split at hf; cases hf
    split at hf'; cases hf'
    cases hf; cases hf'
    simp only [e11]

/-! ## Findings -/

/-- Finding: the number of 512-byte blocks that the daemon reports is 512 times the number of
bytes, not the number of bytes divided by 512, so it is wrong for every file that has any. -/
theorem C70_blocks_are_wrong {a : GetAttr} {f : FileAttr} (hf : fileAttr a = some f)
    (h0 : 0 < a.bytes) (h1 : a.bytes < 2 ^ 55) :
    f.blocks = 512 * a.bytes ∧ f.blocks ≠ (a.bytes + 511) / 512 := by
  unfold fileAttr at hf
  split at hf
  · cases hf
  · injection hf with hf
    subst hf
    have hlt : a.bytes * 2 ^ 9 < 2 ^ 64 := by omega
    simp only [Nat.mod_eq_of_lt hlt]
    constructor <;> omega

/-- Finding: a symbolic link's size is reported as zero, not as the length of its target. -/
theorem C70_symlink_size (h : Nat → Nat) (now : Nat → Time) {c c' : Client} {p perm uid gid : Nat}
    {n dest : Name} {r : Ret}
    (hs : c.step h now (.create p n ⟨perm, uid, gid, .link dest⟩) = some (r, c')) :
    ∃ i a, r = .ok i ∧ getattr c'.fs i = some a ∧ a.size = 0 := by
  obtain ⟨hs, _⟩ := withFs_some hs
  have hr := (doCreate_gives hs fun s s' i hs => ts_stamped hs).1
  have hget : ∃ y, c'.fs.inodes.get c.fs.next = some y := by
    unfold create doCreate at hs
    simp only at hs
    split at hs
    · cases hs
    · split at hs
      · cases hs
      · split at hs
        · cases hs
        · injection hs with hs
          injection hs with _ hs
          rw [← hs]
          exact ⟨_, by rw [OMap.get_insert, if_pos rfl]⟩
  obtain ⟨y, hy⟩ := hget
  obtain ⟨a, ha⟩ := getattr_of hy
  refine ⟨_, a, hr, ha, ?_⟩
  obtain ⟨y', hy', _, hsz, _⟩ := getattr_some ha
  rw [hy] at hy'; cases hy'
  rw [hsz]
  rcases create_gives hs c.fs.next y hy with ⟨hc, hu⟩ | ⟨hc, _⟩
  · have := (hu y).size
    simp only [given, hc, if_true] at this
    exact this
  · exact absurd hr hc

/-- Finding: listing a directory and reading a symbolic link do not mark its access time, whether
or not access times are recorded. -/
theorem C70_listing_leaves_atime (h : Nat → Nat) (now : Nat → Time) (c : Client) (i : Nat) :
    c.step h now (.readdir i) = some (.ok 0, c) ∧ c.step h now (.readlink i) = some (.ok 0, c) :=
  ⟨rfl, rfl⟩

/-- Finding: writing no bytes marks the file as modified, and extends it if it is shorter than
the offset. -/
theorem C70_empty_write (h : Nat → Nat) (now : Nat → Time) {c c' : Client} {i off : Nat} {r : Ret}
    (hs : c.step h now (.write i off 0 0) = some (r, c')) :
    ∃ a a', getattr c.fs i = some a ∧ getattr c'.fs i = some a' ∧ a'.mtime = now i ∧
      a'.size = max a.size off := by
  obtain ⟨hs, _⟩ := withFs_some hs
  have hs0 := hs
  unfold write at hs
  split at hs
  · cases hs
  · rename_i x hx
    split at hs
    · cases hs
    · simp only at hs
      injection hs with hs
      injection hs with _ hs
      have hy : c'.fs.inodes.get i = some { x with
          size := max x.size (off + 0), bytes := ((x.bytes : Int) + 0).toNat, mtime := now i
          ctime := now i } := by
        rw [← hs, OMap.get_insert, if_pos rfl]
      obtain ⟨a, ha⟩ := getattr_of hx
      obtain ⟨a', ha'⟩ := getattr_of hy
      refine ⟨a, a', ha, ha', ?_⟩
      obtain ⟨x', hx', _, f2, _⟩ := getattr_some ha
      obtain ⟨y', hy', _, e2, _, _, _, _, _, _, e9, _⟩ := getattr_some ha'
      rw [hx] at hx'; cases hx'
      rw [hy] at hy'; cases hy'
      exact ⟨e9, by rw [e2, f2]; rfl⟩

/-! ## Examples -/

/-- The events of a history, and where it ends. -/
def trace (h : Nat → Nat) (c : Client) : List (Op × (Nat → Time)) → Option (List Event × Client)
  | [] => some ([], c)
  | (op, now) :: ops =>
    match c.step h now op with
    | none => none
    | some (r, c1) => (trace h c1 ops).map fun x => (⟨op, now, r, c.fs⟩ :: x.1, x.2)

theorem steps_of_trace {h : Nat → Nat} {ops : List (Op × (Nat → Time))} {c c' : Client}
    {es : List Event} (ht : trace h c ops = some (es, c')) : Steps h c es c' := by
  induction ops generalizing c es with
  | nil => cases ht; exact .nil _
  | cons o ops ih =>
    obtain ⟨op, now⟩ := o
    simp only [trace] at ht
    split at ht
    · cases ht
    · rename_i r c1 h1
      simp only [Option.map_eq_some_iff] at ht
      obtain ⟨⟨es', c2⟩, h2, h3⟩ := ht
      cases h3
      exact .cons h1 (ih h2)

def exHash : Nat → Nat := fun i => i % 1000

/-- A clock that advances between the files that a request stamps. -/
def clk (t : Int) : Nat → Time := fun i => t + i

/-- A history with every kind of mark: files 2 = /a, 3 = /a/x and /y, 4 = /z, later /a/z. -/
def exOps : List (Op × (Nat → Time)) :=
  [(.mkdir 1 [97] 0o700 10 20, clk 100),
   (.create 2 [120] ⟨0o644, 10, 20, .reg 17⟩, clk 200),
   (.write 3 0 5000 5000, clk 300),
   (.read 3, clk 400),
   (.link 1 3 [121], clk 500),
   (.setattr 3 { perm := some 0o600, mtime := some 7 } 0, clk 600),
   (.create 1 [122] ⟨0o777, 10, 20, .link [97]⟩, clk 700),
   (.readlink 4, clk 800),
   (.setAtime false, clk 850),
   (.read 3, clk 900),
   (.unlink 2 none [120], clk 1000),
   (.setattr 3 { size := some 100 } 4900, clk 1100),
   (.deallocate 3 10 20 0, clk 1200),
   (.deallocate 3 100 20 0, clk 1300),
   (.rename 1 4 [122] 2 none [122], clk 1400),
   (.remount true, clk 1500)]

/-- What stat shows of file `i` after `exOps`. -/
def exStat (i : Nat) : Option FileAttr :=
  (trace exHash (Client.new 0) exOps).bind fun x => (getattr x.2.fs i).bind fileAttr

/-- The hypotheses of `C70_attributes_are_last_given_partial`, `C70_files_are_created`,
`C70_stat_partial` and `C70_blocks_are_wrong` are met by files 1 to 4 of this history. -/
example : ((trace exHash (Client.new 0) exOps).map fun x =>
    (x.1.length, x.1.all fun e => decide e.Masked)) = some (16, true) := by decide +kernel

example : exStat 3 = some {
    ino := 3, size := 100, blocks := 51200, atime := 403, mtime := 1203,
    ctime := 1203, kind := .regularFile, perm := 0o600, nlink := 1, uid := 10, gid := 20,
    rdev := 0, blksize := 131072 } := by decide +kernel

example : exStat 2 = some {
    ino := 2, size := 0, blocks := 0, atime := 102, mtime := 1402,
    ctime := 1402, kind := .directory, perm := 0o700, nlink := 2, uid := 10, gid := 20,
    rdev := 0, blksize := 4096 } := by decide +kernel

example : exStat 4 = some {
    ino := 4, size := 0, blocks := 0, atime := 704, mtime := 704,
    ctime := 704, kind := .symlink, perm := 0o777, nlink := 1, uid := 10, gid := 20,
    rdev := 0, blksize := 4096 } := by decide +kernel

example : (exStat 1).map (fun f => (f.atime, f.mtime, f.ctime, f.nlink)) =
    some (0, 1401, 1401, 2) := by decide +kernel

/-- The marks of one file, as the specification gives them. -/
example : ((trace exHash (Client.new 0) exOps).map fun x =>
    (lastGiven (·.mtime) 3 0 (x.1.take 6), lastGiven (·.ctime) 3 0 (x.1.take 6),
     lastGiven (·.atime) 3 0 x.1, lastGiven (·.mtime) 3 0 x.1, lastGiven (·.size) 3 0 x.1)) =
    some (7, 603, 403, 1203, 100) := by decide +kernel

/-- A step for `C70_set_then_get` and `C70_chmod_then_stat`, one for `C70_symlink_size` and one for
`C70_empty_write`. -/
example : ∃ es c, Steps exHash (Client.new 0) es c ∧ (∀ e ∈ es, e.Masked) ∧
    (c.step exHash (clk 9) (.setattr 3 (fuseAttr { mode := some 0o100640, size := some 9 })
      91)).isSome ∧
    (c.step exHash (clk 9) (.create 2 [130] ⟨0o777, 0, 0, .link [47]⟩)).isSome ∧
    (c.step exHash (clk 9) (.write 3 500 0 0)).isSome := by
  have h1 : ((trace exHash (Client.new 0) exOps).any fun x =>
      decide (∀ e ∈ x.1, e.Masked) &&
      (x.2.step exHash (clk 9) (.setattr 3 (fuseAttr { mode := some 0o100640, size := some 9 })
        91)).isSome &&
      (x.2.step exHash (clk 9) (.create 2 [130] ⟨0o777, 0, 0, .link [47]⟩)).isSome &&
      (x.2.step exHash (clk 9) (.write 3 500 0 0)).isSome) = true := by decide +kernel
  cases ht : trace exHash (Client.new 0) exOps with
  | none => rw [ht] at h1; cases h1
  | some x =>
    rw [ht] at h1
    simp only [Option.any_some, Bool.and_eq_true, decide_eq_true_eq] at h1
    obtain ⟨⟨⟨k1, k2⟩, k3⟩, k4⟩ := h1
    exact ⟨x.1, x.2, steps_of_trace ht, k1, k2, k3, k4⟩

/-- `ValidRun` is met by a history that creates a file, writes it, and sets its attributes. -/
example : ValidRun exHash (Client.new 0) [(.create 1 [97] ⟨0o644, 10, 20, .reg 17⟩, clk 1),
    (.write 2 0 5 5, clk 2), (.setattr 2 { size := some 3 } 2, clk 3), (.readdir 1, clk 4)] := by
  refine ⟨⟨?_, rfl⟩, ?_⟩
  · rintro o ho
    cases ho
    refine ⟨⟨1, by decide⟩, ?_⟩
    rintro ⟨i, b, h1⟩
    simp [Namespace.FS.Named, Client.forget, FS.forget, Client.new, createFs, Namespace.dot,
      Namespace.dotdot] at h1
  intro r c hc
  cases hc
  refine ⟨⟨(by rintro o ho; cases ho), ⟨_, 17, rfl, rfl⟩⟩, ?_⟩
  intro r c hc
  cases hc
  refine ⟨⟨(by rintro o ho; cases ho), ⟨_, rfl⟩, fun _ => ⟨_, 17, rfl, rfl⟩⟩, ?_⟩
  intro r c hc
  cases hc
  exact ⟨⟨(by rintro o ho; cases ho), trivial⟩, fun _ _ _ => trivial⟩

end Verif.Attrs
