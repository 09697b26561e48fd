import Verif.Attrs.Lemmas

/-! # Every request gives the attributes that it should -/

namespace Verif.Attrs

open Verif
open Verif.Namespace (Name Ent Errno Ret dot dotdot lookup erase put dec)

variable {now : Nat → Time} {h : Nat → Nat} {s t u : FS}

/-- `y` is `x` with what was given. -/
structure Upd (g : Given) (x y : Inode) : Prop where
  size : y.size = g.size.getD x.size
  flags : y.flags = g.flags.getD x.flags
  atime : y.atime = g.atime.getD x.atime
  mtime : y.mtime = g.mtime.getD x.mtime
  ctime : y.ctime = g.ctime.getD x.ctime
  birthtime : y.birthtime = g.birthtime.getD x.birthtime
  uid : y.uid = g.uid.getD x.uid
  gid : y.gid = g.gid.getD x.gid
  perm : y.perm = g.perm.getD x.perm
  ftype : y.ftype = g.ftype.getD x.ftype

/-- What `step_upd` says of one file. -/
def Gives (e : Event) (t : FS) : Prop :=
  ∀ i y, t.inodes.get i = some y →
    (e.creates i ∧ ∀ x, Upd (given e i) x y) ∨
    (¬ e.creates i ∧ ∃ x, e.before.inodes.get i = some x ∧ Upd (given e i) x y)

theorem getD_ite {α : Type} {P : Prop} [Decidable P] {v d y : α}
    (h : (P → y = v) ∧ (¬ P → y = d)) : y = (if P then some v else none).getD d := by
  by_cases hp : P
  · simp [hp, h.1 hp]
  · simp [hp, h.2 hp]

/-- A request that only stamps. -/
theorem upd_of_stamp {e : Event} {i : Nat} {x y : Inode} (hc : ¬ e.creates i)
    (ha : e.asked i = {}) (hr : ¬ e.accesses i) (hw : ∀ j o l d, e.op ≠ .write j o l d)
    (hs : Stamp (e.now i) (e.modifies i) (e.changes i) x y) : Upd (given e i) x y := by
  constructor <;> simp only [given, hc, if_false]
  · rw [ha]; exact hs.size
  · rw [ha]; exact hs.flags
  · rw [ha]; simp only [hr, if_false]; exact hs.atime
  · rw [ha]; exact getD_ite hs.mtime
  · rw [ha]; exact getD_ite hs.ctime
  · rw [ha]; exact hs.birthtime
  · rw [ha]; exact hs.uid
  · rw [ha]; exact hs.gid
  · rw [ha]; exact hs.perm
  · exact hs.ftype

/-- A request that only stamps, for all files. -/
theorem gives_of_stamped {e : Event} {M C : Nat → Prop} (hc : ∀ i, ¬ e.creates i)
    (ha : ∀ i, e.asked i = {}) (hr : ∀ i, ¬ e.accesses i)
    (hw : ∀ j o l d, e.op ≠ .write j o l d)
    (hs : Stamped e.now M C e.before t) (hM : ∀ i, M i ↔ e.modifies i)
    (hC : ∀ i, C i ↔ e.changes i) : Gives e t := by
  intro i y hy
  obtain ⟨x, hx, hxy⟩ := hs i y hy
  exact Or.inr ⟨hc i, x, hx, upd_of_stamp (hc i) (ha i) (hr i) hw (hxy.congr (hM i) (hC i))⟩

/-- A request that leaves the files it does not delete alone. -/
theorem gives_of_same {e : Event} (hc : ∀ i, ¬ e.creates i)
    (ha : ∀ i, e.asked i = {}) (hr : ∀ i, ¬ e.accesses i)
    (hw : ∀ j o l d, e.op ≠ .write j o l d)
    (hs : ∀ i y, t.inodes.get i = some y → e.before.inodes.get i = some y)
    (hC : ∀ i, ¬ e.changes i) : Gives e t :=
  gives_of_stamped hc ha hr hw (Stamped.refl_of hs)
    (fun i => ⟨False.elim, fun k => hC i (Or.inl k)⟩) (fun i => ⟨False.elim, fun k => hC i k⟩)

theorem doCreate_gives {p nlink : Nat} {n : Name} {args : Args} {r : Ret}
    {cb : FS → Nat → Nat → Option FS} (hcr : doCreate now s p n args nlink cb = some (r, t))
    (hcb : ∀ s s' i, cb s p i = some s' → Stamped now (fun j => j = p) (fun j => j = p) s s') :
    r = .ok s.next ∧ ∀ i y, t.inodes.get i = some y →
      (i = s.next ∧ y = ⟨0, 0, nlink, 0, now i, now i, now i, now i, args.uid, args.gid,
        args.perm, args.ftype⟩) ∨
      (i ≠ s.next ∧ ∃ x, s.inodes.get i = some x ∧ Stamp (now i) (i = p) (i = p) x y) := by
  unfold doCreate at hcr
  simp only at hcr
  split at hcr
  · cases hcr
  · rename_i s1 h1
    split at hcr
    · cases hcr
    · split at hcr
      · cases hcr
      · injection hcr with hcr
        injection hcr with hr ht
        subst ht
        refine ⟨hr.symm, fun i y hy => ?_⟩
        simp only [OMap.get_insert] at hy
        split at hy
        · rename_i hi
          injection hy with hy
          subst hy; subst hi
          exact Or.inl ⟨rfl, rfl⟩
        · rename_i hi
          exact Or.inr ⟨hi, hcb _ _ _ h1 i y hy⟩

theorem mkdirCb_stamped {p i : Nat} (hm : mkdirCb now s p i = some t) :
    Stamped now (fun j => j = p) (fun j => j = p) s t := by
  unfold mkdirCb at hm
  have := modInode_stamped (now := now) (M := True) (C := True) (fun x y hy => ?_) hm
  · exact this.congr (by simp) (by simp)
  · injection hy with hy
    subst hy
    exact ⟨rfl, rfl, rfl, ⟨fun _ => rfl, fun k => absurd trivial k⟩,
      ⟨fun _ => rfl, fun k => absurd trivial k⟩, rfl, rfl, rfl, rfl, rfl⟩

theorem create_gives {p : Nat} {n : Name} {args : Args} {r : Ret}
    (hcr : create now s p n args = some (r, t)) : Gives ⟨.create p n args, now, r, s⟩ t := by
  obtain ⟨rfl, hg⟩ := doCreate_gives hcr fun s s' i hs => ts_stamped hs
  intro i y hy
  rcases hg i y hy with ⟨rfl, rfl⟩ | ⟨hi, x, hx, hxy⟩
  · have hc : Event.creates ⟨.create p n args, now, .ok s.next, s⟩ s.next := rfl
    refine Or.inl ⟨hc, fun x => ?_⟩
    simp only [given, hc, if_true, Event.args]
    exact ⟨rfl, rfl, rfl, rfl, rfl, rfl, rfl, rfl, rfl, rfl⟩
  · have hc : ¬ Event.creates ⟨.create p n args, now, .ok s.next, s⟩ i := by
      simp only [Event.creates]
      intro k; injection k with k; exact hi k.symm
    exact Or.inr ⟨hc, x, hx, upd_of_stamp hc rfl (by simp [Event.accesses]) (by simp)
      (hxy.congr (by simp [Event.modifies]) (by simp [Event.changes, Event.modifies]))⟩

theorem mkdir_gives {p perm uid gid : Nat} {n : Name} {r : Ret}
    (hcr : mkdir now s p n perm uid gid = some (r, t)) :
    Gives ⟨.mkdir p n perm uid gid, now, r, s⟩ t := by
  obtain ⟨rfl, hg⟩ := doCreate_gives hcr fun s s' i hs => mkdirCb_stamped hs
  intro i y hy
  rcases hg i y hy with ⟨rfl, rfl⟩ | ⟨hi, x, hx, hxy⟩
  · have hc : Event.creates ⟨.mkdir p n perm uid gid, now, .ok s.next, s⟩ s.next := rfl
    refine Or.inl ⟨hc, fun x => ?_⟩
    simp only [given, hc, if_true, Event.args]
    exact ⟨rfl, rfl, rfl, rfl, rfl, rfl, rfl, rfl, rfl, rfl⟩
  · have hc : ¬ Event.creates ⟨.mkdir p n perm uid gid, now, .ok s.next, s⟩ i := by
      simp only [Event.creates]
      intro k; injection k with k; exact hi k.symm
    exact Or.inr ⟨hc, x, hx, upd_of_stamp hc rfl (by simp [Event.accesses]) (by simp)
      (hxy.congr (by simp [Event.modifies]) (by simp [Event.changes, Event.modifies]))⟩

theorem link_gives {p i : Nat} {n : Name} {r : Ret} (hl : link now s p i n = some (r, t)) :
    Gives ⟨.link p i n, now, r, s⟩ t := by
  unfold link at hl
  split at hl
  · cases hl
  · rename_i x hx
    simp only at hl
    split at hl
    · cases hl
    · rename_i s1 h1
      split at hl
      · cases hl
      · rename_i s2 h2
        injection hl with hl
        injection hl with hr ht
        subst hr; subst ht
        have a1 := stamped_insert (now := now) (M := False) (C := False) (t := { s with
            inodes := s.inodes.insert i { x with nlink := x.nlink + 1 }
            ents := (put s.ents ⟨p, n, i, x.ftype.isDir⟩).2 }) hx
          (y := { x with nlink := x.nlink + 1 })
          ⟨rfl, rfl, rfl, ⟨False.elim, fun _ => rfl⟩, ⟨False.elim, fun _ => rfl⟩, rfl, rfl, rfl,
            rfl, rfl⟩ rfl
        have a2 := ts_stamped h1
        have a3 := modInode_stamped (now := now) (fun x y hy => stamp_ct _ x y 0 hy) h2
        exact gives_of_stamped (by simp [Event.creates]) (by simp [Event.asked])
          (by simp [Event.accesses]) (by simp) ((a1.trans a2).trans a3)
          (by simp [Event.modifies]) (by simp [Event.changes, Event.modifies])

theorem gives_refl {e : Event} {er : Errno} (hc : ∀ i, ¬ e.creates i)
    (ha : ∀ i, e.asked i = {}) (hr : ∀ i, ¬ e.accesses i)
    (hw : ∀ j o l d, e.op ≠ .write j o l d) (he : e.ret = .error er) : Gives e e.before :=
  gives_of_same hc ha hr hw (fun _ _ k => k)
    (by simp [Event.changes, Event.modifies, he])

theorem unlink_gives {p : Nat} {fd : Option Nat} {n : Name} {r : Ret}
    (hu : unlink now h s p fd n = some (r, t)) : Gives ⟨.unlink p fd n, now, r, s⟩ t := by
  unfold unlink at hu
  split at hu
  · injection hu with hu
    injection hu with hr ht
    subst hr; subst ht
    exact gives_refl (by simp [Event.creates]) (by simp [Event.asked]) (by simp [Event.accesses])
      (by simp) rfl
  · rename_i e he
    simp only at hu
    split at hu
    · cases hu
    · split at hu
      · cases hu
      · rename_i s1 h1
        split at hu
        · cases hu
        · rename_i s2 h2
          injection hu with hu
          injection hu with hr ht
          subst hr; subst ht
          have a1 := doUnlink_stamped h1
          have a2 := ts_stamped h2
          have a3 : Stamped now _ _ s s2 := fun i y hy => (a1.trans a2) i y hy
          refine gives_of_stamped (by simp [Event.creates]) (by simp [Event.asked])
            (by simp [Event.accesses]) (by simp) a3 (by simp [Event.modifies]) ?_
          intro i
          simp only [Event.changes, Event.modifies, FS.Names, he, and_true]
          constructor
          · rintro (k | k)
            · exact Or.inr ⟨e, rfl, k.symm⟩
            · exact Or.inl k
          · rintro (k | ⟨e', k1, k2⟩)
            · exact Or.inr k
            · injection k1 with k1; subst k1; exact Or.inl k2.symm

theorem rmdir_gives {p : Nat} {n : Name} {r : Ret}
    (hu : rmdir now s p n = some (r, t)) : Gives ⟨.rmdir p n, now, r, s⟩ t := by
  unfold rmdir at hu
  split at hu
  · injection hu with hu
    injection hu with hr ht
    subst hr; subst ht
    exact gives_refl (by simp [Event.creates]) (by simp [Event.asked]) (by simp [Event.accesses])
      (by simp) rfl
  · rename_i e he
    split at hu
    · cases hu
    · injection hu with hu
      injection hu with hr ht
      subst hr; subst ht
      exact gives_refl (by simp [Event.creates]) (by simp [Event.asked])
        (by simp [Event.accesses]) (by simp) rfl
    · simp only at hu
      split at hu
      · cases hu
      · rename_i s1 h1
        injection hu with hu
        injection hu with hr ht
        subst hr; subst ht
        simp only [doRmdir, if_true] at h1
        have a1 := deleteObj_stamped (now := now)
          { s with ents := erase s.ents p n } e.ino
        have a2 := modInode_stamped (now := now) (fun x y hy => stampDec_stamp hy) h1
        have a3 : Stamped now _ _ s s1 := fun i y hy => (a1.trans a2) i y hy
        exact gives_of_stamped (by simp [Event.creates]) (by simp [Event.asked])
          (by simp [Event.accesses]) (by simp) a3 (by simp [Event.modifies])
          (by simp [Event.changes, Event.modifies])

theorem lookup_erase {l : List Ent} {d d' : Nat} {n n' : Name} :
    lookup (erase l d n) d' n' = if (d, n) = (d', n') then none else lookup l d' n' := by
  induction l with
  | nil => simp [lookup, erase]
  | cons e l ih =>
    simp only [lookup, erase] at ih ⊢
    by_cases he : e.at d n
    · simp only [List.filter_cons, he, Bool.not_true, Bool.false_eq_true, if_false, ih,
        List.find?_cons]
      split
      · rfl
      · rename_i hne
        have : e.at d' n' = false := by
          simp only [Ent.at, decide_eq_true_eq, decide_eq_false_iff_not] at he ⊢
          rintro ⟨h1, h2⟩
          exact hne (by rw [← he.1, ← he.2, h1, h2])
        rw [this]
    · simp only [List.filter_cons, he, Bool.not_false, if_true, List.find?_cons, ih]
      by_cases he' : e.at d' n'
      · have hne : ¬ (d, n) = (d', n') := by
          intro k; injection k with k1 k2; subst k1; subst k2; exact he he'
        simp [he', hne]
      · simp [he']

theorem rename_gives {p i np : Nat} {n nn : Name} {ni : Option Nat} {r : Ret}
    (hu : rename now h s p i n np ni nn = some (r, t)) :
    Gives ⟨.rename p i n np ni nn, now, r, s⟩ t := by
  unfold rename at hu
  split at hu
  · injection hu with hu
    injection hu with hr ht
    subst hr; subst ht
    exact gives_refl (by simp [Event.creates]) (by simp [Event.asked]) (by simp [Event.accesses])
      (by simp) rfl
  · split at hu
    · cases hu
    · injection hu with hu
      injection hu with hr ht
      subst hr; subst ht
      exact gives_refl (by simp [Event.creates]) (by simp [Event.asked])
        (by simp [Event.accesses]) (by simp) rfl
    · split at hu
      · injection hu with hu
        injection hu with hr ht
        subst hr; subst ht
        exact gives_refl (by simp [Event.creates]) (by simp [Event.asked])
          (by simp [Event.accesses]) (by simp) rfl
      · rename_i e he
        simp only at hu
        split at hu
        · cases hu
        · split at hu
          · cases hu
          · rename_i s1 h1
            injection hu with hu
            injection hu with hr ht
            subst hr; subst ht
            have a1 := renameLinks_stamped h1
            have a2 : Stamped now _ _ s s1 := fun i y hy => a1 i y hy
            refine gives_of_stamped (by simp [Event.creates]) (by simp [Event.asked])
              (by simp [Event.accesses]) (by simp) a2 (by simp [Event.modifies]) ?_
            intro j
            simp only [Event.changes, Event.modifies, FS.Names, put, lookup_erase]
            by_cases hp : (p, n) = (np, nn)
            · simp [hp]
            · simp only [hp, if_false, ne_eq, not_false_eq_true, true_and]
              cases lookup s.ents np nn with
              | none => simp
              | some e' => simp

theorem read_gives {i : Nat} {r : Ret} (hu : read now s i = some (r, t)) :
    Gives ⟨.read i, now, r, s⟩ t := by
  have hc : ∀ j, ¬ Event.creates ⟨.read i, now, r, s⟩ j := by simp [Event.creates]
  have hch : ∀ j, ¬ Event.changes ⟨.read i, now, r, s⟩ j := by
    intro j; simp only [Event.changes, Event.modifies]
    cases r <;> simp
  have hmo : ∀ j, ¬ Event.modifies ⟨.read i, now, r, s⟩ j := fun j k => hch j (Or.inl k)
  unfold read at hu
  split at hu
  · cases hu
  · rename_i x hx
    split at hu
    · cases hu
    · split at hu
      · rename_i hat
        injection hu with hu
        injection hu with hr ht
        subst ht
        intro j y hy
        refine Or.inr ⟨hc j, ?_⟩
        simp only [OMap.get_insert] at hy
        split at hy
        · rename_i hj
          injection hy with hy
          subst hy; subst hj
          refine ⟨x, hx, ?_⟩
          have hac : Event.accesses ⟨.read j, now, r, s⟩ j := ⟨rfl, hat⟩
          constructor <;> simp [given, hc, hch, hmo, hac, Event.asked]
        · rename_i hj
          refine ⟨y, hy, ?_⟩
          have hac : ¬ Event.accesses ⟨.read i, now, r, s⟩ j := by
            simp [Event.accesses]; intro k; exact absurd k.symm hj
          constructor <;> simp [given, hc, hch, hmo, hac, Event.asked]
      · rename_i hat
        injection hu with hu
        injection hu with hr ht
        subst ht
        have hac : ∀ j, ¬ Event.accesses ⟨.read i, now, r, s⟩ j := by
          simp [Event.accesses, hat]
        intro j y hy
        refine Or.inr ⟨hc j, y, hy, ?_⟩
        constructor <;> simp [given, hc, hch, hmo, hac, Event.asked]

theorem write_gives {i o l : Nat} {d : Int} {r : Ret} (hu : write now s i o l d = some (r, t)) :
    Gives ⟨.write i o l d, now, r, s⟩ t := by
  have hc : ∀ j, ¬ Event.creates ⟨.write i o l d, now, r, s⟩ j := by simp [Event.creates]
  unfold write at hu
  split at hu
  · cases hu
  · rename_i x hx
    split at hu
    · cases hu
    · simp only at hu
      injection hu with hu
      injection hu with hr ht
      subst hr; subst ht
      have hmo : ∀ j, Event.modifies ⟨.write i o l d, now, .ok l, s⟩ j ↔ j = i := by
        simp [Event.modifies]
      have hch : ∀ j, Event.changes ⟨.write i o l d, now, .ok l, s⟩ j ↔ j = i := by
        simp [Event.modifies, Event.changes]
      have hac : ∀ j, ¬ Event.accesses ⟨.write i o l d, now, .ok l, s⟩ j := by
        simp [Event.accesses]
      intro j y hy
      refine Or.inr ⟨hc j, ?_⟩
      simp only [OMap.get_insert] at hy
      split at hy
      · rename_i hj
        injection hy with hy
        subst hy; subst hj
        refine ⟨x, hx, ?_⟩
        constructor <;> simp [given, hc, hch, hmo, hac, Event.asked, FS.size, hx]
      · rename_i hj
        refine ⟨y, hy, ?_⟩
        constructor <;> simp [given, hc, hch, hmo, hac, Event.asked, hj]

theorem deallocate_gives {i o l f : Nat} {r : Ret}
    (hu : deallocate now s i o l f = some (r, t)) : Gives ⟨.deallocate i o l f, now, r, s⟩ t := by
  unfold deallocate at hu
  split at hu
  · cases hu
  · rename_i x hx
    split at hu
    · cases hu
    · simp only at hu
      split at hu
      · rename_i hl
        injection hu with hu
        injection hu with hr ht
        subst hr; subst ht
        have hcond : o < s.size i ∧ 0 < l := by
          simp only [FS.size, hx, Option.map_some, Option.getD_some]; omega
        have a := stamped_insert (now := now) (M := True) (C := True) (t := { s with
            inodes := s.inodes.insert i
              { x with bytes := x.bytes - f, mtime := now i, ctime := now i } }) hx
          (y := { x with bytes := x.bytes - f, mtime := now i, ctime := now i })
          ⟨rfl, rfl, rfl, ⟨fun _ => rfl, fun k => absurd trivial k⟩,
            ⟨fun _ => rfl, fun k => absurd trivial k⟩, rfl, rfl, rfl, rfl, rfl⟩ rfl
        exact gives_of_stamped (by simp [Event.creates]) (by simp [Event.asked])
          (by simp [Event.accesses]) (by simp) a (by simp [Event.modifies, hcond])
          (by simp [Event.changes, Event.modifies, hcond])
      · rename_i hl
        injection hu with hu
        injection hu with hr ht
        subst hr; subst ht
        have hcond : ¬ (o < s.size i ∧ 0 < l) := by
          simp only [FS.size, hx, Option.map_some, Option.getD_some]; omega
        refine gives_of_same (by simp [Event.creates]) (by simp [Event.asked])
          (by simp [Event.accesses]) (by simp) (fun _ _ k => k) ?_
        simp only [Event.changes, Event.modifies, or_false]
        rintro j ⟨_, k⟩
        exact hcond k

theorem setattr_gives {i f : Nat} {a : SetAttr} {r : Ret}
    (hu : setattr now s i a f = some (r, t)) : Gives ⟨.setattr i a f, now, r, s⟩ t := by
  have hc : ∀ j, ¬ Event.creates ⟨.setattr i a f, now, r, s⟩ j := by simp [Event.creates]
  unfold setattr at hu
  simp only [Option.map_eq_some_iff] at hu
  obtain ⟨t', ht', hrt⟩ := hu
  injection hrt with hr ht
  subst hr; subst ht
  obtain ⟨x, z, hx, hz, rfl⟩ := modInode_some ht'
  have hmo : ∀ j, Event.modifies ⟨.setattr i a f, now, .ok 0, s⟩ j ↔ j = i ∧ a.size.isSome := by
    simp [Event.modifies]
  have hch : ∀ j, Event.changes ⟨.setattr i a f, now, .ok 0, s⟩ j ↔ j = i := by
    intro j
    simp only [Event.changes, hmo]
    constructor
    · rintro (k | k)
      · exact k.1
      · exact k
    · exact Or.inr
  have hac : ∀ j, ¬ Event.accesses ⟨.setattr i a f, now, .ok 0, s⟩ j := by
    simp [Event.accesses]
  intro j y hy
  refine Or.inr ⟨hc j, ?_⟩
  simp only [OMap.get_insert] at hy
  split at hy
  · rename_i hj
    injection hy with hy
    subst hy; subst hj
    refine ⟨x, hx, ?_⟩
    have hfields : z.size = a.size.getD x.size ∧ z.flags = a.flags.getD x.flags ∧
        z.atime = a.atime.getD x.atime ∧ z.ctime = a.ctime.getD (now j) ∧
        z.mtime = a.mtime.getD (if a.size.isSome then a.ctime.getD (now j) else x.mtime) ∧
        z.birthtime = a.birthtime.getD x.birthtime ∧ z.uid = a.uid.getD x.uid ∧
        z.gid = a.gid.getD x.gid ∧ z.perm = a.perm.getD x.perm ∧ z.ftype = x.ftype := by
      unfold applyAttr at hz
      cases hct : a.ctime with
      | none =>
        simp only [hct, Option.isNone_none, if_true, Option.getD_some] at hz
        split at hz
        · split at hz
          · cases hz
          · injection hz with hz; subst hz
            simp
        · injection hz with hz; subst hz
          simp
      | some tm =>
        simp only [hct, Option.isNone_some, Bool.false_eq_true, if_false, Option.getD_some] at hz
        split at hz
        · split at hz
          · cases hz
          · injection hz with hz; subst hz
            simp
        · injection hz with hz; subst hz
          simp
    obtain ⟨f1, f2, f3, f4, f5, f6, f7, f8, f9, f10⟩ := hfields
    constructor <;> simp only [given, hc, if_false, hch, hmo, hac, Event.asked, if_true,
      true_and, Option.getD_some, Option.getD_none]
    · exact f1
    · exact f2
    · rw [f3]; cases a.atime <;> rfl
    · rw [f5]; cases a.mtime
      · cases a.size <;> rfl
      · rfl
    · exact f4
    · exact f6
    · exact f7
    · exact f8
    · exact f9
    · exact f10
  · rename_i hj
    refine ⟨y, hy, ?_⟩
    constructor <;> simp [given, hc, hch, hmo, hac, Event.asked, hj]

theorem foldl_delete (l : List (Nat × Nat)) (s : FS) (i : Nat) (y : Inode)
    (hy : (l.foldl (fun s e => deleteObj s e.2) s).inodes.get i = some y) :
    s.inodes.get i = some y := by
  induction l generalizing s with
  | nil => exact hy
  | cons e l ih =>
    have := ih (deleteObj s e.2) hy
    simp only [deleteObj, OMap.get_remove] at this
    split at this
    · cases this
    · exact this

theorem withFs_some {c c1 : Client} {x : Option (Ret × FS)} {r : Ret}
    (hw : c.withFs x = some (r, c1)) : x = some (r, c1.fs) ∧ c1.inUse = c.inUse := by
  unfold Client.withFs at hw
  simp only [Option.map_eq_some_iff] at hw
  obtain ⟨⟨r', s'⟩, hx, he⟩ := hw
  injection he with h1 h2
  subst h1; subst h2
  exact ⟨hx, rfl⟩

/-- Every request, on every file. -/
theorem step_gives {c c1 : Client} {op : Op} {r : Ret} (hs : c.step h now op = some (r, c1)) :
    Gives ⟨op, now, r, c.fs⟩ c1.fs := by
  have same : ∀ o : Op, (∀ i, ¬ Event.creates ⟨o, now, r, c.fs⟩ i) →
      (∀ i, Event.asked ⟨o, now, r, c.fs⟩ i = {}) → (∀ i, ¬ Event.accesses ⟨o, now, r, c.fs⟩ i) →
      (∀ j of l d, o ≠ .write j of l d) →
      (∀ i y, c1.fs.inodes.get i = some y → c.fs.inodes.get i = some y) →
      (∀ i, ¬ Event.changes ⟨o, now, r, c.fs⟩ i) → Gives ⟨o, now, r, c.fs⟩ c1.fs :=
    fun o a1 a2 a3 a4 a5 a6 => gives_of_same a1 a2 a3 a4 a5 a6
  cases op with
  | create p n args => exact create_gives (withFs_some hs).1
  | mkdir p n perm uid gid => exact mkdir_gives (withFs_some hs).1
  | link p i n => exact link_gives (withFs_some hs).1
  | unlink p fd n => exact unlink_gives (withFs_some hs).1
  | rmdir p n => exact rmdir_gives (withFs_some hs).1
  | rename p i n np ni nn => exact rename_gives (withFs_some hs).1
  | read i => exact read_gives (withFs_some hs).1
  | write i o l d => exact write_gives (withFs_some hs).1
  | deallocate i o l f => exact deallocate_gives (withFs_some hs).1
  | setattr i a f => exact setattr_gives (withFs_some hs).1
  | inactive i =>
    refine same _ (by simp [Event.creates]) (by simp [Event.asked]) (by simp [Event.accesses])
      (by simp) ?_ (by cases r <;> simp [Event.changes, Event.modifies])
    simp only [Client.step, Option.map_eq_some_iff] at hs
    obtain ⟨⟨r', s'⟩, hx, he⟩ := hs
    injection he with h1 h2
    subst h2
    unfold inactive at hx
    intro j y hy
    split at hx
    · injection hx with hx; injection hx with _ hx; subst hx; exact hy
    · simp only at hx
      split at hx
      · cases hx
      · injection hx with hx; injection hx with _ hx; subst hx
        simp only [deleteObj, OMap.get_remove] at hy
        split at hy
        · cases hy
        · exact hy
  | remount early =>
    refine same _ (by simp [Event.creates]) (by simp [Event.asked]) (by simp [Event.accesses])
      (by simp) ?_ (by cases r <;> simp [Event.changes, Event.modifies])
    simp only [Client.step, Option.some.injEq, Prod.mk.injEq] at hs
    obtain ⟨_, hs⟩ := hs
    subst hs
    intro j y hy
    exact foldl_delete _ _ _ _ hy
  | readdir i | readlink i | setAtime on | failedCreate | use i =>
    refine same _ (by simp [Event.creates]) (by simp [Event.asked]) (by simp [Event.accesses])
      (by simp) ?_ (by cases r <;> simp [Event.changes, Event.modifies])
    simp only [Client.step, Option.some.injEq, Prod.mk.injEq] at hs
    obtain ⟨_, hs⟩ := hs
    subst hs
    exact fun _ _ k => k

end Verif.Attrs
